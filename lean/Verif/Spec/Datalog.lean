/-
Specification: Datalog programs with relations between positions, and what follows from them (the least model).
-/
namespace Verif.Spec.Datalog

/-- The relations: one for each production, one for each byte. -/
inductive Rel where
  | prod (name : Nat)
  | byte (b : Nat)
  deriving DecidableEq, Repr

/-- An atom of a body; variables are numbers. `tru` is the relation that is true of positions. -/
inductive Atom where
  | rel (r : Rel) (s e : Nat)
  | tru (v : Nat)
  deriving DecidableEq, Repr

/-- A clause `head(s, e) :- body.` -/
structure Clause where
  head : Nat
  s : Nat
  e : Nat
  body : List Atom
  deriving DecidableEq, Repr

/-- What follows from the program, the facts about the bytes of `w` (byte `b` from `i` to `i + 1`) and the true positions. -/
inductive Holds (P : List Clause) (w : List Nat) (tru : Nat → Prop) : Rel → Nat → Nat → Prop
  | fact {i b : Nat} : w[i]? = some b → Holds P w tru (.byte b) i (i + 1)
  | rule {c : Clause} (σ : Nat → Nat) : c ∈ P → (∀ r s e, .rel r s e ∈ c.body → Holds P w tru r (σ s) (σ e)) →
      (∀ v, .tru v ∈ c.body → tru (σ v)) → Holds P w tru (.prod c.head) (σ c.s) (σ c.e)

end Verif.Spec.Datalog
