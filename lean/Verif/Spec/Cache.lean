/-
What a bounded cache has done, and what that means for its contents. Histories are lists of events,
newest first; nothing here refers to how the cache is implemented.
-/
namespace Verif.Spec.Cache

/-- Observable operations. `put` records which keys were evicted by the call. -/
inductive Ev (κ α : Type) where
  | got (k : κ) (v : α)
  | missed (k : κ)
  | put (k : κ) (v : α) (evicted : List κ)
  | deleted (k : κ)
  deriving DecidableEq

variable {κ α : Type} [DecidableEq κ]

/-- The key is in the cache: it was stored and since then neither evicted nor deleted. -/
def held : List (Ev κ α) → κ → Bool
  | [], _ => false
  | .got _ _ :: h, k => held h k
  | .missed _ :: h, k => held h k
  | .put k' _ ev :: h, k => if k ∈ ev then false else if k = k' then true else held h k
  | .deleted k' :: h, k => if k = k' then false else held h k

/-- The value most recently stored for a key. -/
def lastStored : List (Ev κ α) → κ → Option α
  | [], _ => none
  | .put k' v _ :: h, k => if k = k' then some v else lastStored h k
  | .got _ _ :: h, k => lastStored h k
  | .missed _ :: h, k => lastStored h k
  | .deleted _ :: h, k => lastStored h k

/-- Time (number of events) of the most recent use of a key, where a use is a successful lookup or the
insertion of a key that was not in the cache. -/
def lastUse : List (Ev κ α) → κ → Nat
  | [], _ => 0
  | .got k' _ :: h, k => if k = k' then h.length + 1 else lastUse h k
  | .put k' _ _ :: h, k => if k = k' ∧ held h k = false then h.length + 1 else lastUse h k
  | .missed _ :: h, k => lastUse h k
  | .deleted _ :: h, k => lastUse h k

/-- Time of the most recent use of a key, counting every store as a use. -/
def lastAccess : List (Ev κ α) → κ → Nat
  | [], _ => 0
  | .got k' _ :: h, k => if k = k' then h.length + 1 else lastAccess h k
  | .put k' _ _ :: h, k => if k = k' then h.length + 1 else lastAccess h k
  | .missed _ :: h, k => lastAccess h k
  | .deleted _ :: h, k => lastAccess h k

end Verif.Spec.Cache
