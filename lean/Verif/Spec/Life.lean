/-
When a runtime object may be used: what an observer sees of it in the life of a process.
-/
namespace Verif.Spec

/-- What happens to the object, and values that go through its hooks. -/
inductive LifeEv where
  | construct
  | use
  | destroy
  | value (given returned : Nat)
  deriving DecidableEq, Repr

/-- Every use comes after the construction and before the destruction; it is constructed at most once, and
destroyed at most once, afterwards. -/
structure ProperLife (l : List LifeEv) : Prop where
  use : ∀ a b, l = a ++ .use :: b → .construct ∈ a ∧ .destroy ∉ a
  construct : ∀ a b, l = a ++ .construct :: b → .construct ∉ a ∧ .destroy ∉ a
  destroy : ∀ a b, l = a ++ .destroy :: b → .construct ∈ a ∧ .destroy ∉ a

/-- Every value is returned as given. -/
def KeepsValues (l : List LifeEv) : Prop := ∀ v r, .value v r ∈ l → r = v

end Verif.Spec
