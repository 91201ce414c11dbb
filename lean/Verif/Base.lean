/-
Common vocabulary of the model.

C++ functions that can call `error_exit` (polytracker/src/taintdag/error.cpp, which ends in
`exit(1)`) or that would touch memory outside an object return a `Res`.
-/
namespace Verif

/-- Outcome of a modelled C++ call. `fatal` is a call of `error_exit`
(/repo/polytracker/include/taintdag/error.h 17-40, src/taintdag/error.cpp); `ub` marks executions
with undefined behaviour (out-of-bounds access, dereferencing an empty optional/span); `hang` is
returned by loops that exceed the iteration bound of the model (every use is accompanied by a proof
that it is unreachable, or by a theorem about the bound). -/
inductive Res (α : Type) where
  | ok (a : α)
  | fatal
  | ub
  | hang
  deriving DecidableEq, Repr

namespace Res

/-- Sequencing: an error stops the rest of the call. -/
@[inline] def bind {α β : Type} (x : Res α) (f : α → Res β) : Res β :=
  match x with
  | ok a => f a
  | fatal => fatal
  | ub => ub
  | hang => hang

instance : Monad Res where
  pure := ok
  bind := bind

@[simp] theorem bind_ok {α β : Type} (a : α) (f : α → Res β) : (ok a >>= f) = f a := rfl
@[simp] theorem bind_fatal {α β : Type} (f : α → Res β) : ((fatal : Res α) >>= f) = fatal := rfl
@[simp] theorem bind_ub {α β : Type} (f : α → Res β) : ((ub : Res α) >>= f) = ub := rfl
@[simp] theorem bind_hang {α β : Type} (f : α → Res β) : ((hang : Res α) >>= f) = hang := rfl
@[simp] theorem pure_eq {α : Type} (a : α) : (pure a : Res α) = ok a := rfl

theorem bind_eq_ok {α β : Type} {x : Res α} {f : α → Res β} {b : β} :
    (x >>= f) = ok b ↔ ∃ a, x = ok a ∧ f a = ok b := by
  cases x <;> simp

end Res

/-- Reading a list position that the C++ code accesses through a raw pointer or iterator. -/
def getRes {α : Type} (l : List α) (i : Nat) : Res α :=
  match l[i]? with
  | some a => .ok a
  | none => .ub

theorem getRes_eq_ok {α : Type} {l : List α} {i : Nat} {a : α} :
    getRes l i = .ok a ↔ l[i]? = some a := by
  unfold getRes
  split <;> simp_all

theorem getRes_lt {α : Type} {l : List α} {i : Nat} (h : i < l.length) :
    getRes l i = .ok l[i] := by
  simp [getRes, h]

end Verif
