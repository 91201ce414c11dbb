import Verif.Spec.Decisions
import Verif.Spec.CallLog
/-
Specification: how a list of items read back from a log tells the reports of a program.
-/
namespace Verif
namespace Spec
open Ir Py

/-- `Told D rs st items st'`: the program reports `rs`, starting with the functions `st` being executed
(innermost first) and ending with `st'`; a reader gets `items`, in the same order. Entering and leaving a
function and every decision on tainted data appear with the functions being executed at that moment,
outermost first. A decision appears with a label that stands (`D`) for exactly the bytes the decision
depends on. Decisions on untainted data and reports of other kinds do
not appear. -/
inductive Told (D : Nat → Nat × Nat → Prop) :
    List (Hook × Nat × (Nat × Nat → Prop)) → List Nat → List CfItem → List Nat → Prop where
  | nil (st) : Told D [] st [] st
  | enter {f v t rs st items st'} : Told D rs (f :: st) items st' →
      Told D ((.enter f, v, t) :: rs) st (.enter (f :: st).reverse :: items) st'
  | leave {f v t rs st items st'} : Told D rs st items st' →
      Told D ((.leave f, v, t) :: rs) (f :: st) (.leave (f :: st).reverse :: items) st'
  | tainted {f v t rs st items st' l} : (∃ b, t b) → (∀ b, D l b ↔ t b) →
      Told D rs (f :: st) items st' →
      Told D ((.taken f, v, t) :: rs) (f :: st) (.tainted (f :: st).reverse l :: items) st'
  | untainted {f v t rs st items st'} : (∀ b, ¬ t b) → Told D rs (f :: st) items st' →
      Told D ((.taken f, v, t) :: rs) (f :: st) items st'
  | noted {v t rs st items st'} : Told D rs st items st' → Told D ((.noted, v, t) :: rs) st items st'

end Spec
end Verif
