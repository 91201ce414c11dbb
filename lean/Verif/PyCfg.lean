import Verif.PyDigraph
import Verif.PyOset
/-
Questions about control flow: `cfg`, `function_cfg`, `cfg_roots`, `is_cfg_connected` (/repo/polytracker/tracing.py
1240-1280), `is_loop_entry`, `is_conditional` (471-487), `ControlFlowDiff` (/repo/polytracker/diffing.py 73-118). Blocks
and functions are numbers (their index, which is what `__eq__` compares); the attributes of the abstract classes are
arguments.
-/
namespace Verif.PyCfg
open PyGraph

/-- Basic blocks (tracing.py 425-460): those of the trace, and for each its children, predecessors and function. -/
structure Blocks where
  all : List Nat
  children : Nat → List Nat
  preds : Nat → List Nat
  fn : Nat → Nat

/-- The loop of `cfg` (tracing.py 1244-1248) and of `function_cfg` (1254-1258). -/
def build (all : List Nat) (children : Nat → List Nat) : G :=
  all.foldl (fun g b => (children b).foldl (fun g c => g.addEdge b c) (g.addNode b)) .empty

/-- `cfg`, tracing.py 1240-1249. -/
def Blocks.cfg (B : Blocks) : G := build B.all B.children

/-- `dominator_forest` of a graph that is not changed (graphs.py 127-136). -/
def forest (X : Nx) (g : G) : G := domLoop X g g.findRoots

/-- `is_loop_entry`, tracing.py 471-480; `none` is the exception of networkx for a block that is not in the forest. -/
def Blocks.isLoopEntry (X : Nx) (B : Blocks) (n : Nat) : Option Bool :=
  let ps := (B.preds n).filter (fun p => decide (B.fn n = B.fn p))
  if ps.length < 2 then some false
  else
    let f := forest X B.cfg
    if n ∉ f.nodes then none
    else
      let ds := f.preds n
      if !ds.any (fun p => decide (p ∈ ps)) then some false
      else some (ps.any (fun p => decide (p ∉ ds)))

/-- `is_conditional`, tracing.py 482-487. -/
def Blocks.isConditional (X : Nx) (B : Blocks) (n : Nat) : Option Bool :=
  if 2 ≤ ((B.children n).filter (fun c => decide (B.fn c = B.fn n))).length then
    (B.isLoopEntry X n).map (fun b => !b)
  else some false

/-- `cfg_roots`, tracing.py 1261-1264. -/
def Blocks.cfgRoots (B : Blocks) : List Nat := B.all.filter (fun b => decide (B.preds b = []))

/-- `is_cfg_connected`, tracing.py 1266-1280. -/
def Blocks.isConnected (B : Blocks) : Bool :=
  match B.cfgRoots with
  | [] => false
  | [_] => true
  | _ :: _ :: _ => false

/-- A trace as `ControlFlowDiff` uses it: its functions, which functions they call, names, `taints()`, and
`get_function` with `has_function` (tracing.py 371-418, 1044-1057). -/
structure Trace (τ : Type) where
  all : List Nat
  calls : Nat → List Nat
  name : Nat → Nat
  taints : Nat → τ
  find : Nat → Option Nat

/-- `function_cfg`, tracing.py 1251-1259. -/
def Trace.cfg {τ : Type} (T : Trace τ) : G := build T.all T.calls

/-- `ancestors` of a function (graphs.py 61-73): `none` if the node is missing, or if two have the same distance, since
functions cannot be sorted. -/
def ancestorsOf (X : Nx) (f : G) (n : Nat) : Option (List Nat) :=
  if n ∈ f.nodes ∧ (((X.toTarget f n).filter (fun p => decide (p.1 ≠ n))).map Prod.snd).Nodup then
    some (f.ancestors X n)
  else none

/-- What an OrderedSet can hold here: functions, and the generator that `&=` makes. -/
inductive Obj where
  | func (n : Nat)
  | gen
  deriving DecidableEq, Repr

/-- The loop over the pairs, diffing.py 109-114. -/
def diffLoop {τ : Type} [DecidableEq τ] (T1 T2 : Trace τ) : List (Obj × Obj) → Option Nat
  | (.func a, .func b) :: ps =>
    if T1.name a ≠ T2.name b then diffLoop T1 T2 ps
    else if T1.taints a ≠ T2.taints b then some (T1.name a)
    else diffLoop T1 T2 ps
  | _ => none

/-- `_diff`, diffing.py 88-114: the name found, or `none` in place of a name; outside, `none` is an exception. -/
def diff {τ : Type} [DecidableEq τ] (X : Nx) (T1 T2 : Trace τ) (name : Nat) : Option (Option Nat) :=
  match T1.find name, T2.find name with
  | some f1, some f2 => do
    let as1 ← ancestorsOf X (forest X T1.cfg) f1
    let as2 ← ancestorsOf X (forest X T2.cfg) f2
    let a1 := PyOset.iand .gen (PyOset.new (as1.map .func)) (PyOset.new (as2.map .func))
    let a2 := PyOset.iand .gen (PyOset.new (as2.map .func)) a1
    if a1 = [] ∨ a2 = [] then pure none
    else pure (diffLoop T1 T2 (a1.zip a2))
  | _, _ => some none

/-- A `ControlFlowDiff`, diffing.py 73-79: `_diffed` and the name. -/
structure Diff where
  done : Bool
  first : Option Nat

/-- `first_function_with_different_control_flow`, diffing.py 81-93: the object and the answer. -/
def Diff.ask {τ : Type} [DecidableEq τ] (X : Nx) (T1 T2 : Trace τ) (name : Nat) (D : Diff) : Diff × Option (Option Nat) :=
  if D.done then (D, some D.first)
  else
    match diff X T1 T2 name with
    | none => (⟨true, D.first⟩, none)
    | some r => (⟨true, r⟩, some r)

end Verif.PyCfg
