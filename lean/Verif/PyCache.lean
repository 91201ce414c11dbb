import Verif.PyDict
/-
Model of LRUCache, /repo/polytracker/cache.py 56-103. `OrderedDict` is an association list, first key
first. The limit is `None` or a non-negative number.
-/
namespace Verif.Py

namespace Lru
variable {κ α : Type} [DecidableEq κ]

/-- `_items.move_to_end(k, last=True)` for a present key with value `v`. -/
def moveToEnd (d : Dict κ α) (k : κ) (v : α) : Dict κ α := d.del k ++ [(k, v)]

/-- `__getitem__`, cache.py 70-73; `none` is KeyError. `Mapping.__contains__` and `get` (61-68) call
it. -/
def getItem (d : Dict κ α) (k : κ) : Option (α × Dict κ α) :=
  match d.get k with
  | none => none
  | some v => some (v, moveToEnd d k v)

/-- The loop of `__setitem__`, cache.py 77-78: drops the first items while there are too many. Results:
the dropped keys, in the order they are dropped, and the remaining items. -/
def evict (maxSize : Option Nat) : Dict κ α → List κ × Dict κ α
  | [] => ([], [])
  | (k, v) :: d =>
    match maxSize with
    | none => ([], (k, v) :: d)
    | some n =>
      if ((k, v) :: d).length > n then
        let (ks, d') := evict maxSize d
        (k :: ks, d')
      else ([], (k, v) :: d)

/-- `__setitem__`, cache.py 75-78. -/
def setItem (maxSize : Option Nat) (d : Dict κ α) (k : κ) (v : α) : List κ × Dict κ α :=
  evict maxSize (d.set k v)

/-- `__delitem__`, cache.py 80-81; `none` is KeyError. -/
def delItem (d : Dict κ α) (k : κ) : Option (Dict κ α) :=
  match d.get k with
  | none => none
  | some _ => some (d.del k)

/-- `__iter__`, cache.py 86-96, run to its end; `id` of a stored key identifies the key. `fuel` bounds
the number of rounds; results: the yielded keys and the items afterwards. -/
def iterate : Nat → List κ → Dict κ α → List κ × Dict κ α
  | 0, _, d => ([], d)
  | fuel + 1, yielded, d =>
    match d.find? (fun p => decide (p.1 ∉ yielded)) with
    | none => ([], d)
    | some (k, v) =>
      let (ks, d') := iterate fuel (k :: yielded) (moveToEnd d k v)
      (k :: ks, d')

end Lru
end Verif.Py
