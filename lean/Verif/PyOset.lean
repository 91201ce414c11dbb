import Mathlib.Data.List.Basic
/-
Model of `OrderedSet` and `Memoized`, /repo/polytracker/cache.py 10-50. The set is the list of the keys of `_items`.
`OrderedSet` inherits the operators of `collections.abc.Set` and `MutableSet`; those that make a new set call
`cls(it)` with a generator `it`, which `__init__` takes for an item. Generators are objects like others, equal to
nothing else; the one made by a call is an argument.
-/
namespace Verif.PyOset
variable {α : Type} [DecidableEq α]

/-- `add`, cache.py 34-35: a key that is there keeps its place. -/
def add (s : List α) (x : α) : List α := if x ∈ s then s else s ++ [x]

/-- `discard`, cache.py 37-39. -/
def discard (s : List α) (x : α) : List α := if x ∈ s then s.filter (fun y => decide (y ≠ x)) else s

/-- `__init__`, cache.py 29-32. -/
def new (items : List α) : List α := items.foldl add []

/-- `collections.abc.Set._from_iterable(it)`: `cls(it)`, cache.py 29, with one argument. -/
def fromIterable (gen : α) : List α := new [gen]

/-- `Set.__and__`: `_from_iterable(value for value in other if value in self)`. -/
def andSet (gen : α) (_s _t : List α) : List α := fromIterable gen

/-- `Set.__or__`: `_from_iterable(e for s in (self, other) for e in s)`. -/
def orSet (gen : α) (_s _t : List α) : List α := fromIterable gen

/-- `Set.__sub__`: `_from_iterable(value for value in self if value not in other)`. -/
def subSet (gen : α) (_s _t : List α) : List α := fromIterable gen

/-- `Set.__xor__`: `(self - other) | (other - self)`. -/
def xorSet (gen1 gen2 gen3 : α) (s t : List α) : List α := orSet gen3 (subSet gen1 s t) (subSet gen2 t s)

/-- `MutableSet.__ior__`: `for value in it: self.add(value)`. -/
def ior (s t : List α) : List α := t.foldl add s

/-- `MutableSet.__iand__`: `for value in (self - it): self.discard(value)`. -/
def iand (gen : α) (s t : List α) : List α := (subSet gen s t).foldl discard s

/-- `MutableSet.__isub__`: `clear` if `it is self`, else `discard` for each. -/
def isub (same : Bool) (s t : List α) : List α := if same then [] else t.foldl discard s

/-- `MutableSet.__ixor__`: `clear` if `it is self`, else `discard` or `add` for each. -/
def ixor (same : Bool) (s t : List α) : List α :=
  if same then [] else t.foldl (fun s x => if x ∈ s then discard s x else add s x) s

/-- `MutableSet.pop`: the first item; `none` is KeyError. -/
def pop (s : List α) : Option (α × List α) :=
  match s with
  | [] => none
  | x :: _ => some (x, discard s x)

/-- A `Memoized`, cache.py 10-14: `_set` and `cached` (`none` is None). -/
structure Memo (R : Type) where
  set : Bool
  cached : Option R

/-- `__init__`, cache.py 11-14. -/
def Memo.new {R : Type} : Memo R := ⟨false, none⟩

/-- `__call__`, cache.py 16-20, with arguments `a` for a function that gives `none` when it raises an exception. The
result: `none` is an exception, `some none` is None. -/
def Memo.call {A R : Type} (f : A → Option R) (m : Memo R) (a : A) : Memo R × Option (Option R) :=
  if m.set then (m, some m.cached)
  else
    match f a with
    | none => (⟨true, m.cached⟩, none)
    | some r => (⟨true, some r⟩, some (some r))

/-- Calls one after the other: the object afterwards and the results. -/
def Memo.run {A R : Type} (f : A → Option R) (m : Memo R) : List A → Memo R × List (Option (Option R))
  | [] => (m, [])
  | a :: as => (((m.call f a).1.run f as).1, (m.call f a).2 :: ((m.call f a).1.run f as).2)

end Verif.PyOset
