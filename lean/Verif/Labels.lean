import Verif.Union
import Verif.LabelDeq
/-
Model of /repo/polytracker/include/taintdag/labels.h: the label section.

The section memory is a list of 64-bit words; the bump allocator of section.h gives entry `i` of the
list index `i` (proved at byte level in C15). The capacity is a field: in the shipped configuration
it is `max_label + 1` = 2^31 (labels.h 22-23).
-/
namespace Verif

/-- `struct Labels : FixedSizeAlloc<storage_t>`, labels.h 20-190. -/
structure Labels where
  /-- number of entries the section can hold -/
  cap : Nat
  /-- entries constructed so far, index = label -/
  words : List Nat
  deriving DecidableEq, Repr

namespace Labels

/-- `redundant_label_range`, labels.h 27. -/
def redundantLabelRange : Nat := 100

/-- `FixedSizeAlloc::construct` for a label word, section.h 138-147: the new entry's index, or none
if the section is full. -/
def construct (L : Labels) (w : Nat) : Option (Labels × Nat) :=
  if L.words.length + 1 ≤ L.cap then
    some ({ L with words := L.words ++ [w] }, L.words.length)
  else none

/-- Constructor, labels.h 29-32: entry 0 is the 'untainted' word 0. -/
def init (cap : Nat) : Labels :=
  match construct ⟨cap, []⟩ 0 with
  | some (L, _) => L
  | none => ⟨cap, []⟩

/-- `create_source_labels`, labels.h 38-48. If `construct_range` fails, the code dereferences an
empty optional; with `length = 0` it dereferences the begin iterator of an empty span. Both are
undefined behaviour. `offset++` runs on the captured offset. -/
def createSourceLabels (L : Labels) (src offset length : Nat) : Res (Labels × (Nat × Nat)) :=
  if length = 0 then .ub
  else if L.words.length + length ≤ L.cap then
    let first := L.words.length
    .ok ({ L with words := L.words ++
            (List.range length).map (fun k => encode (.source false src (offset + k))) },
         (first, first + length - 1))
  else .ub

/-- `read_label`, labels.h 50-52. -/
def readLabel (L : Labels) (lbl : Nat) : Res Taint := do
  decode (← getRes L.words lbl)

/-- Backward scan of `duplicate_check` (std::find_if on reverse iterators), labels.h 104-108.
`i` is one past the next index, `n` the number of entries left to visit. -/
def dupScan (words : List Nat) (encoded : Nat) : (i n : Nat) → Option Nat
  | _, 0 => none
  | 0, _ => none
  | i + 1, n + 1 =>
    if equalIgnoreCf (words.getD i 0) encoded then some i
    else dupScan words encoded i n

/-- `duplicate_check`, labels.h 92-110. -/
def duplicateCheck (L : Labels) (hilbl encoded : Nat) : Option Nat :=
  let dist := L.words.length - hilbl
  let n := if dist ≥ redundantLabelRange then redundantLabelRange else dist
  dupScan L.words encoded L.words.length n

/-- `union_taint`, labels.h 55-81. -/
def unionTaint (L : Labels) (l r : Nat) : Res (Labels × Nat) :=
  if l = r then .ok (L, l)
  else do
    let lval ← L.readLabel l
    let rval ← L.readLabel r
    match compute l lval r rval with
    | .label lbl => .ok (L, lbl)
    | .taint t =>
      let encoded := encode t
      let hilbl := max l r
      match L.duplicateCheck hilbl encoded with
      | some d => .ok (L, d)
      | none =>
        match L.construct encoded with
        | some (L', idx) => .ok (L', idx)
        | none => .fatal

/-- `set_affects_control_flow`, labels.h 185-188. -/
def setCf (L : Labels) (label : Nat) : Res Labels :=
  match L.words[label]? with
  | some w => .ok { L with words := L.words.set label (addCf w) }
  | none => .ub

/-- The lambda `add_to_q` of `affects_control_flow`, labels.h 125-136: whether the label has to be
queued; may flag a source label. -/
def addToQ (L : Labels) (label : Nat) : Res (Labels × Bool) := do
  let encoded ← getRes L.words label
  if checkCf encoded then pure (L, false)
  else if isSourceTaint encoded then do
    let L ← L.setCf label
    pure (L, false)
  else pure (L, true)

/-- Queue size parameter `LabelDeq<32>`, labels.h 119. -/
def queueSlots : Nat := 32

/-- `if (add_to_q(curr)) q.push_back(curr);`, labels.h 150-151, 156-159. -/
def visitChild (s : Labels × LabelDeq) (label : Nat) : Res (Labels × LabelDeq) := do
  let (L, b) ← s.1.addToQ label
  if b then do
    let q ← s.2.pushBack queueSlots label
    pure (L, q)
  else pure (L, s.2)

/-- Visit a list of children in order. -/
def visitAll : List Nat → Labels × LabelDeq → Res (Labels × LabelDeq)
  | [], s => .ok s
  | c :: cs, s => do visitAll cs (← visitChild s c)

/-- The labels visited by `Visitor`, labels.h 145-161, in order. `for curr = first; curr <= last`
for ranges; lower then higher for unions; nothing for sources. -/
def childList : Taint → List Nat
  | .source _ _ _ => []
  | .range _ f t => (List.range (t + 1 - f)).map (f + ·)
  | .union _ lo hi => [lo, hi]

/-- One iteration of the `while (!q.empty())` loop, labels.h 170-176. -/
def cfStep (s : Labels × LabelDeq) : Res (Labels × LabelDeq) := do
  let (l, q) ← s.2.popFront queueSlots
  let encoded ← getRes s.1.words l
  let L ← s.1.setCf l
  visitAll (childList (← decode encoded)) (L, q)

/-- The loop, with a bound on the number of iterations. -/
def cfLoop : Nat → Labels × LabelDeq → Res Labels
  | fuel, s =>
    if s.2.isEmpty then .ok s.1
    else match fuel with
      | 0 => .hang
      | fuel + 1 => do cfLoop fuel (← cfStep s)

/-- `affects_control_flow`, labels.h 118-177, given up as `hang` after `fuel` loop iterations. -/
def affectsControlFlowIn (fuel : Nat) (L : Labels) (label : Nat) : Res Labels := do
  let (L, b) ← L.addToQ label
  if b then do
    let q ← (LabelDeq.new queueSlots).pushBack queueSlots label
    cfLoop fuel (L, q)
  else pure L

/-- `affects_control_flow`, labels.h 118-177. The iteration bound `2^(label+1)` is proved never to
be reached (C08); it cannot be replaced by a polynomial one (C10). -/
def affectsControlFlow (L : Labels) (label : Nat) : Res Labels :=
  affectsControlFlowIn (2 ^ (label + 1)) L label

end Labels
end Verif
