import Verif.Section
/-
Model of ControlFlowLog, /repo/polytracker/include/taintdag/control_flow_log.h.
-/
namespace Verif

/-- Calls of the section: `enter_function`, `leave_function`, `tainted_control_flow`. -/
inductive CfEvent where
  | enter (fn : Nat)
  | leave (fn : Nat)
  | tainted (fn label : Nat)
  deriving DecidableEq, Repr

namespace CfLog

/-- `varint_encode`, control_flow_log.h 23-31. The argument is a uint32_t; the loop is modelled on
natural numbers (the shift makes the value smaller). -/
def varint (val : Nat) : List Nat :=
  if h : val ≥ 0x80 then (0x80 ||| (val &&& 0x7f)) :: varint (val >>> 7)
  else [val &&& 0x7f]
termination_by val
decreasing_by rw [Nat.shiftRight_eq_div_pow]; omega

/-- Bytes put into the buffer by `function_event` (control_flow_log.h 49-54) and
`tainted_control_flow` (70-77). -/
def encode : CfEvent → List Nat
  | .enter f => 0 :: varint f
  | .leave f => 1 :: varint f
  | .tainted f l => 2 :: (varint f ++ varint l)

/-- `function_event`, `tainted_control_flow`, control_flow_log.h 49-85: a full section ends the
program. -/
def log (S : Section) (e : CfEvent) : Res Section :=
  match S.append (encode e) with
  | some (S', _) => .ok S'
  | none => .fatal

/-- A sequence of calls. -/
def logAll (S : Section) : List CfEvent → Res Section
  | [] => .ok S
  | e :: es => do logAll (← log S e) es

end CfLog
end Verif
