import Verif.PyFile
import Verif.PyDict
/-
Model of the binary taint forest: TDTaintForest and TDTaintForestNode,
/repo/polytracker/taint_dag.py 693-814. `none` means that a Python exception is raised. Python
integers are `Int` (synthetic nodes have negative labels).
-/
namespace Verif.Py

/-- `Input(fd, str(path), size)`, /repo/polytracker/inputs.py 26-56: the fields that are set. -/
structure Input where
  uid : Int
  path : List Nat
  size : Nat
  deriving DecidableEq, Repr

/-- `Input(fdhdr.fd, str(path), fdhdr.size)` for header number `i`, taint_dag.py 760-761. -/
def TDFile.inputOf (F : TDFile) (i : Nat) : Option Input := do
  let h ← F.fdHeaders[i]?
  return ⟨h.2.fd, h.1, h.2.size⟩

/-- TDTaintForestNode, taint_dag.py 693-731 and taint_forest.py 11-17. -/
structure FNode where
  label : Int
  source : Option Input
  cf : Bool
  parents : Option (Int × Int)
  deriving DecidableEq, Repr

/-- The mutable state of TDTaintForest: `node_cache` and `synth_label_cnt`. -/
structure Forest where
  cache : Dict Int (Option FNode)
  cnt : Int
  deriving DecidableEq, Repr

namespace Forest

/-- Constructor, taint_dag.py 735-743. -/
def new (F : TDFile) : Option Forest := do
  let n ← F.labelCount
  return ⟨(0, some ⟨0, none, false, none⟩) ::
    ((List.range' 1 (n - 1)).map fun (i : Nat) => ((i : Int), none)), -1⟩

/-- `get_synth_node_label`, taint_dag.py 751-754. -/
def synth (st : Forest) : Int × Forest := (st.cnt, { st with cnt := st.cnt - 1 })

/-- The loop of `create_node` for range nodes, taint_dag.py 779-788: `k` iterations, the next one with
label `n`. -/
def unfoldRange (cf : Bool) : Nat → Int → Nat → Forest → Int × Forest
  | 0, curr, _, st => (curr, st)
  | k + 1, curr, n, st =>
    let (s, st) := st.synth
    unfoldRange cf k s (n + 1) { st with cache := st.cache.set s (some ⟨s, none, cf, some (curr, n)⟩) }

/-- `create_node`, taint_dag.py 756-796. -/
def create (F : TDFile) (st : Forest) (label : Nat) : Option (FNode × Forest) := do
  match ← F.decodeNode label with
  | .source idx _ cf =>
    let inp ← F.inputOf idx
    return (⟨label, some inp, cf, none⟩, st)
  | .union l r cf => return (⟨label, none, cf, some ((l : Int), (r : Int))⟩, st)
  | .range f l cf =>
    let (curr, st) := unfoldRange cf (l - (f + 1)) f (f + 1) st
    return (⟨label, none, cf, some (curr, (l : Int))⟩, st)
  | .untainted => none

/-- `get_node`, taint_dag.py 798-808. Only non-negative keys can be without a node (`read_node` of a
negative label would raise). -/
def get (F : TDFile) (st : Forest) (label : Int) : Option (FNode × Forest) :=
  match st.cache.get label with
  | none => none
  | some (some nd) => some (nd, st)
  | some none => do
    guard (0 ≤ label)
    let (nd, st) ← create F st label.toNat
    return (nd, { st with cache := st.cache.set label (some nd) })

/-- `max(self.node_cache.keys())`. -/
def maxKey : List Int → Option Int
  | [] => none
  | k :: ks => some (ks.foldl max k)

/-- The loop of `nodes`, taint_dag.py 810-814; at most `fuel` iterations. -/
def nodesFrom (F : TDFile) : Nat → Forest → Int → Option (List FNode × Forest)
  | 0, _, _ => none
  | k + 1, st, label =>
    match st.cache.get label with
    | none => some ([], st)
    | some _ => do
      let (nd, st) ← st.get F label
      let (r, st) ← nodesFrom F k st (label - 1)
      return (nd :: r, st)

/-- `nodes`, taint_dag.py 810-814, when nothing else is asked in between. -/
def nodes (F : TDFile) (fuel : Nat) (st : Forest) : Option (List FNode × Forest) := do
  let m ← maxKey st.cache.keys
  nodesFrom F fuel st m

/-- `TDProgramTrace.file_offset`, taint_dag.py 615-619: input and offset of a source node. -/
def fileOffset (F : TDFile) (nd : FNode) : Option (Input × Nat) := do
  let inp ← nd.source
  guard (0 ≤ nd.label)
  match ← F.decodeNode nd.label.toNat with
  | .source _ off _ => return (inp, off)
  | _ => none

end Forest
end Verif.Py
