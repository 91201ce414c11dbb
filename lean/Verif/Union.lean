import Verif.Encoding
/-
Model of /repo/polytracker/include/taintdag/union.h.
`label_t` arithmetic (`l.last + 1`, `left_ + 1`) is on uint32; all labels are at most `max_label`
= 2^31-1 (C05), so it never wraps and natural numbers are exact.
-/
namespace Verif

/-- `union_::ReturnValue`, union.h 15. -/
inductive UnionResult where
  | label (l : Nat)
  | taint (t : Taint)
  deriving DecidableEq, Repr

/-- `encloses(UnionTaint, label_t)`, union.h 17-19. -/
def enclosesUL (lo hi l : Nat) : Bool := hi == l || lo == l
/-- `encloses(RangeTaint, label_t)`, union.h 21-23. -/
def enclosesRL (f t l : Nat) : Bool := decide (f ≤ l) && decide (t ≥ l)
/-- `encloses(RangeTaint, UnionTaint)`, union.h 25-27. -/
def enclosesRU (f t lo hi : Nat) : Bool := decide (f ≤ lo) && decide (t ≥ hi)
/-- `encloses(RangeTaint super, RangeTaint sub)`, union.h 30-32. -/
def enclosesRR (f t sf st : Nat) : Bool := decide (f ≤ sf) && decide (t ≥ st)

/-- `Visitor::union_labels`, union.h 201-209. -/
def unionLabels (left right : Nat) : Taint :=
  if left + 1 = right then .range false left right
  else if right + 1 = left then .range false right left
  else mkUnion false left right

/-- `Visitor::range_source`, union.h 137-149. -/
def rangeSource (left right : Nat) (f t rlabel sourcelabel : Nat) : UnionResult :=
  if enclosesRL f t sourcelabel then .label rlabel
  else if sourcelabel + 1 = f then .taint (.range false sourcelabel t)
  else if t + 1 = sourcelabel then .taint (.range false f sourcelabel)
  else .taint (unionLabels left right)

/-- `Visitor::union_source`, union.h 151-163. -/
def unionSource (left right : Nat) (lo hi ulabel sourcelabel : Nat) : UnionResult :=
  if enclosesUL lo hi sourcelabel then .label ulabel
  else .taint (unionLabels left right)

/-- Last part of `Visitor::union_range`, union.h 184-196. -/
def unionRangeTail (left right : Nat) (ulabel f t : Nat) : UnionResult :=
  if ulabel + 1 = f then .taint (.range false ulabel t)
  else if t + 1 = ulabel then .taint (.range false f ulabel)
  else .taint (unionLabels left right)

/-- `Visitor::union_range`, union.h 165-197. -/
def unionRange (left right : Nat) (lo hi ulabel f t rlabel : Nat) : UnionResult :=
  if enclosesRL f t ulabel then .label rlabel
  else if enclosesRU f t lo hi then .label rlabel
  else if enclosesUL lo hi rlabel then .label ulabel
  else if lo + 1 = f then
    if enclosesRL f t hi then .taint (.range false lo t)
    else if hi = t + 1 then .taint (.range false lo hi)
    else unionRangeTail left right ulabel f t
  else if hi = t + 1 then
    if enclosesRL f t lo then .taint (.range false f hi)
    else unionRangeTail left right ulabel f t
  else unionRangeTail left right ulabel f t

/-- `union_::compute` = `std::visit(Visitor{left,right}, l, r)`, union.h 43-126 and 220-223. -/
def compute (left : Nat) (l : Taint) (right : Nat) (r : Taint) : UnionResult :=
  match l, r with
  | .source _ li lo, .source _ ri ro =>                     -- union.h 47-52
    if li = ri ∧ lo = ro then .label left else .taint (unionLabels left right)
  | .union _ llo lhi, .union _ rlo rhi =>                   -- union.h 54-82
    if enclosesUL llo lhi right then .label left
    else if enclosesUL rlo rhi left then .label right
    else if lhi = rhi ∧ llo = rlo then .label left
    else .taint (unionLabels left right)
  | .range _ lf lt, .range _ rf rt =>                       -- union.h 84-102
    if enclosesRL lf lt right then .label left
    else if enclosesRL rf rt left then .label right
    else if enclosesRR lf lt rf rt then .label left
    else if enclosesRR rf rt lf lt then .label right
    else if lt + 1 = rf then .taint (.range false lf rt)
    else if rt + 1 = lf then .taint (.range false rf lt)
    else .taint (unionLabels left right)
  | .source _ _ _, .union _ lo hi => unionSource left right lo hi right left   -- 104-106
  | .source _ _ _, .range _ f t => rangeSource left right f t right left       -- 108-110
  | .union _ lo hi, .source _ _ _ => unionSource left right lo hi left right   -- 112-114
  | .union _ lo hi, .range _ f t => unionRange left right lo hi left f t right -- 116-118
  | .range _ f t, .source _ _ _ => rangeSource left right f t left right       -- 120-122
  | .range _ f t, .union _ lo hi => unionRange left right lo hi right f t left -- 124-126

end Verif
