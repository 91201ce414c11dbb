import Verif.Labels
import Verif.Spec.History
/-
Runs of the label store: all finite sequences of the operations that the rest of the tracker
performs on it (/repo/polytracker/src/taintdag/polytracker.cpp 25-27 union_labels, 48-67
create_source_taint, 174-176 affects_control_flow).
-/
namespace Verif
open Spec

/-- A call at the label-store interface. -/
inductive Op where
  | source (src offset length : Nat)
  | union (l r : Nat)
  | mark (l : Nat)
  deriving DecidableEq, Repr

namespace Labels

/-- Perform a call; the event records the answer. -/
def exec (L : Labels) : Op → Res (Labels × Event)
  | .source src off n => do
    let (L, range) ← L.createSourceLabels src off n
    pure (L, .source src off n range.1)
  | .union l r => do
    let (L, u) ← L.unionTaint l r
    pure (L, .union l r u)
  | .mark l => do
    let L ← L.affectsControlFlow l
    pure (L, .mark l)

/-- Client contract. Operands are labels handed out before (label 0 is filtered by the callers, see
C07 and polytracker.cpp 76-88); reads are non-empty, come from a source with an index below 256
(C19), stay below offset 2^54 (util.h Offset) and there is room for their labels. -/
def Allowed (L : Labels) : Op → Prop
  | .source src off n => src < 256 ∧ 0 < n ∧ off + n ≤ 2 ^ 54 ∧ L.words.length + n ≤ L.cap
  | .union l r => 0 < l ∧ l < L.words.length ∧ 0 < r ∧ r < L.words.length
  | .mark l => 0 < l ∧ l < L.words.length

/-- `Runs L es L'`: starting in `L`, the calls recorded in `es` were made and ended in `L'`. -/
inductive Runs : Labels → List Event → Labels → Prop where
  | nil (L) : Runs L [] L
  | snoc {L es L1 op L2 e} : Runs L es L1 → Allowed L1 op → L1.exec op = .ok (L2, e) →
      Runs L (es ++ [e]) L2

/-- `Reach cap es L`: `L` is the store after the calls `es`, starting from a fresh section that can
hold `cap` labels. -/
def Reach (cap : Nat) (es : List Event) (L : Labels) : Prop := Runs (init cap) es L

end Labels
end Verif
