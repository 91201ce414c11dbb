/-
Specification vocabulary for C12, C13, C14: a collection of indices built by insertions. Uses no
definition of the model.
-/
namespace Verif.Spec

/-- An insertion request: one index, or `n` consecutive ones. -/
inductive Ins where
  | one (i : Nat)
  | range (b n : Nat)
  deriving DecidableEq, Repr

/-- `i` is among the indices inserted by the request. -/
def Ins.covers : Ins → Nat → Prop
  | .one j, i => i = j
  | .range b n, i => b ≤ i ∧ i < b + n

/-- The request stays below the capacity. -/
def Ins.within (cap : Nat) (r : Ins) : Prop := ∀ i, r.covers i → i < cap

def Covered (rs : List Ins) (i : Nat) : Prop := ∃ r ∈ rs, r.covers i

end Verif.Spec
