import Verif.Tracker
/-
Model of the instrumentation of branch conditions, switch values, select conditions and address
indices: /repo/polytracker/src/passes/tainted_control_flow.cpp 85-147 (the inserted code) and
/repo/polytracker/src/polytracker/polytracker.cpp 47-88 (the functions it calls). Vectors are not
modelled (vector selects are skipped by the pass, tainted_control_flow.cpp 134-136).
-/
namespace Verif
namespace Branch

/-- `IRBuilder::CreateSExtOrTrunc`: sign extension to a wider type, truncation to a narrower one. -/
def sextOrTrunc {w : Nat} (v : Nat) (x : BitVec w) : BitVec v :=
  if w < v then x.signExtend v else x.setWidth v

/-- `__dfsw___polytracker_log_tainted_control_flow`, polytracker.cpp 75-88. `started` is the
initialisation flag, `retLabel` the contents of *ret_label before the call. Results: the returned
value and *ret_label after the call. -/
def logTainted (started : Bool) (T : Tracker) (conditional : BitVec 64) (fid label retLabel : Nat) :
    Res (Tracker × BitVec 64 × Nat) :=
  if started = false then .ok (T, 0, retLabel)
  else if label > 0 then do
    let T ← T.logCf (.tainted fid label)
    return (T, conditional, label)
  else .ok (T, conditional, label)

/-- The code inserted around a condition `x` of `w` bits, tainted_control_flow.cpp 110-114, 122-126,
138-144 and, for each index, 92-96. Results: the value used instead of `x`, and its label. -/
def instrument (started : Bool) (T : Tracker) {w : Nat} (x : BitVec w) (fid label retLabel : Nat) :
    Res (Tracker × BitVec w × Nat) := do
  let (T, r, l) ← logTainted started T (sextOrTrunc 64 x) fid label retLabel
  return (T, sextOrTrunc w r, l)

/-- `__dfsw___polytracker_log_conditional_branch`, polytracker.cpp 47-65, called by the code that
taint_tracking.cpp 72-105 inserts; the program's own value is not replaced. -/
def logConditional (started : Bool) (T : Tracker) (label : Nat) : Res Tracker :=
  if started = false then .ok T
  else if label > 0 then T.affectsControlFlow label
  else .ok T

end Branch
end Verif
