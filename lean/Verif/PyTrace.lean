import Verif.PyForest
import Verif.PyRegions
/-
Model of the queries of TDProgramTrace, /repo/polytracker/taint_dag.py 590-691. `none` means that a Python
exception is raised. The abstract methods that only raise NotImplementedError are left out.
-/
namespace Verif.Py

/-- The part of an `Input` its equality looks at, /repo/polytracker/inputs.py 74-79. -/
def Input.ref (i : Input) : InputRef := ⟨i.uid, i.path⟩

/-- The loop of `TDProgramTrace.inputs`, taint_dag.py 655-662: the labels still to visit and `seen`. -/
def inputsLoop (F : TDFile) : List Nat → List Nat → Option (List Input)
  | [], _ => some []
  | l :: ls, seen => do
    match ← F.decodeNode l with
    | .source idx _ _ =>
      if idx ∈ seen then inputsLoop F ls seen
      else do
        let inp ← F.inputOf idx
        let rest ← inputsLoop F ls (idx :: seen)
        return inp :: rest
    | _ => none

/-- `TDProgramTrace.inputs`, taint_dag.py 649-662, consumed to the end. -/
def inputs (F : TDFile) : Option (List Input) := do
  inputsLoop F (← F.inputLabels) []

/-- `TDProgramTrace.output_taints`, taint_dag.py 664-674: output, offset in it and label of every sink. -/
def outputTaints (F : TDFile) : Option (List (Input × Int × Nat)) := do
  (← F.sinks).mapM fun s => do
    let inp ← F.inputOf s.fdidx
    return (inp, s.offset, s.label)

/-- `TaintOutput.__eq__`, /repo/polytracker/tracing.py 744-745. -/
def outputEq (a b : Input × Int × Nat) : Bool := a.2.1 == b.2.1

/-- `affects_control_flow` of a decoded node, taint_dag.py 358-403; a node of an untainted word has
it too, and it is false there (line 359). -/
def Node.affects : Node → Bool
  | .source _ _ cf => cf
  | .union _ _ cf => cf
  | .range _ _ cf => cf
  | .untainted => false

/-- The loop of `inputs_affecting_control_flow`, taint_dag.py 683-687: the set so far, as a list without
repetition, and the state of the forest. -/
def affectingLoop (F : TDFile) : List Nat → List ByteOffset → Forest → Option (List ByteOffset × Forest)
  | [], acc, st => some (acc, st)
  | l :: ls, acc, st => do
    let nd ← F.decodeNode l
    if nd.affects then do
      let (tn, st) ← st.get F (l : Int)
      let (inp, off) ← Forest.fileOffset F tn
      affectingLoop F ls (addNew acc ⟨inp.ref, off⟩) st
    else affectingLoop F ls acc st

/-- `result` of `inputs_affecting_control_flow`, taint_dag.py 680-689, when the forest is in state `st`.
The function returns `Taints(result)`; a set is iterated in an order Python does not specify. -/
def affecting (F : TDFile) (st : Forest) : Option (List ByteOffset × Forest) := do
  affectingLoop F (← F.inputLabels) [] st

/-- The loop of `ProgramTrace.taints`, /repo/polytracker/tracing.py 1141-1163: the stack (its top first), `seen`
and `result`; at most `fuel` iterations. Nodes are compared by label and source (taint_forest.py 37-42); a
forest has one node for each label. -/
def taintsLoop (F : TDFile) : Nat → List FNode → List FNode → List (Input × Nat) → Forest →
    Option (List (Input × Nat) × Forest)
  | 0, _, _, _, _ => none
  | _ + 1, [], _, result, st => some (result, st)
  | k + 1, node :: stack, seen, result, st =>
    if node ∈ seen then taintsLoop F k stack seen result st
    else match node.parents with
      | none => do
        let b ← Forest.fileOffset F node
        taintsLoop F k stack seen (addNew result b) st
      | some (p, q) => do
        let (p1, st) ← st.get F p
        let (p2, st) ← st.get F q
        let (seen, stack) := if p1 ∈ seen then (seen, stack) else (addNew seen p1, p1 :: stack)
        let (seen, stack) := if p2 ∈ seen then (seen, stack) else (addNew seen p2, p2 :: stack)
        taintsLoop F k stack seen result st

/-- `ProgramTrace.taints`, /repo/polytracker/tracing.py 1137-1165. The stack is the list of the set of the given
nodes; the order is the one in which they were given (Python does not specify it). -/
def nodeTaints (F : TDFile) (fuel : Nat) (st : Forest) (nodes : List FNode) : Option (List (Input × Nat) × Forest) :=
  let seen := nodes.foldl addNew []
  taintsLoop F fuel seen seen [] st

end Verif.Py
