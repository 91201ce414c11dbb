import Verif.CfLog
import Verif.Spec.Ir
/-
Model of what the reporting functions write to the control-flow log:
/repo/polytracker/src/polytracker/polytracker.cpp 75-105 and
/repo/polytracker/src/taintdag/polytracker.cpp 178-188. The tracker is started (`Branch` and C31 treat the
other case); the labels that `__polytracker_log_conditional_branch` marks are treated in `PassIr`.
-/
namespace Verif
namespace CfRun
open Ir

/-- One call: the function that was called, its value argument and its label. A decision is logged only if
it has a label (polytracker.cpp 81-84), entering and leaving always (90-105). -/
def report (S : Section) : Hook × Nat × Nat → Res Section
  | (.enter f, _, _) => CfLog.log S (.enter f)
  | (.leave f, _, _) => CfLog.log S (.leave f)
  | (.taken f, _, l) => if l > 0 then CfLog.log S (.tainted f l) else .ok S
  | (.noted, _, _) => .ok S

/-- All calls of a run, in order. -/
def reportAll (S : Section) : List (Hook × Nat × Nat) → Res Section
  | [] => .ok S
  | x :: xs => do reportAll (← report S x) xs

end CfRun
end Verif
