import Verif.Tracker
import Verif.Spec.Trace
import Verif.History
/- Runs of the tracker. -/
namespace Verif
open Spec
namespace Tracker

/-- Perform a call. -/
def exec (T : Tracker) : Call → Res (Tracker × Ret)
  | .union l r => do
    let (T, u) ← T.unionLabels l r
    return (T, .label u)
  | .mark l => do
    let T ← T.affectsControlFlow l
    return (T, .unit)
  | .openFile fd name size => do
    let (T, i) ← T.openFile fd name size
    return (T, .index i)
  | .closeFile fd => .ok (T.closeFile fd, .unit)
  | .read fd addr off len => do
    let (T, r) ← T.sourceTaint fd addr off len
    return (T, .range r)
  | .input name addr len => do
    let (T, r) ← T.createTaintSource name addr len
    return (T, .range r)
  | .write fd off addr len => do
    let T ← T.taintSink fd off addr len
    return (T, .unit)
  | .writeLabel fd off l len => do
    let T ← T.taintSinkLabel fd off l len
    return (T, .unit)
  | .cf e => do
    let T ← T.logCf e
    return (T, .unit)
  | .fnEntry name => do
    let (T, i) ← T.functionEntry name
    return (T, .index (some i))
  | .fnExit i => do
    let T ← T.functionExit i
    return (T, .unit)
  | .store addr l => .ok ({ T with shadow := Dfsan.upd T.shadow addr l }, .unit)

/-- Client contract: labels passed in were handed out before; values fit their C types; file offsets
stay below 2^54 (input) and 2^63 (output). -/
def Allowed (T : Tracker) : Call → Prop
  | .union l r => T.labels.Allowed (.union l r)
  | .mark l => T.labels.Allowed (.mark l)
  | .openFile fd name size => -2 ^ 31 ≤ fd ∧ fd < 2 ^ 31 ∧ (∀ b ∈ name, b < 256) ∧
      ∀ s, size = some s → s < 2 ^ 64
  | .closeFile _ => True
  | .read fd _ off len => ∀ i, T.mappingIdx fd = some i → off.getD (T.rd i) + len ≤ 2 ^ 54
  | .input name _ _ => ∀ b ∈ name, b < 256
  | .write fd off _ len => ∀ i, T.mappingIdx fd = some i → off.getD (T.wr i) + len ≤ 2 ^ 63
  | .writeLabel fd off l len => l < T.labels.words.length ∧
      ∀ i, T.mappingIdx fd = some i → off.getD (T.wr i) + len ≤ 2 ^ 63
  | .cf (.enter f) => f < 2 ^ 32
  | .cf (.leave f) => f < 2 ^ 32
  | .cf (.tainted f l) => f < 2 ^ 32 ∧ l < 2 ^ 32
  | .fnEntry name => ∀ b ∈ name, b < 256
  | .fnExit i => i < 2 ^ 16
  | .store _ l => l < T.labels.words.length

/-- `Runs T₀ h T`: starting in `T₀`, the calls of `h` (newest first) were made with the recorded
results and ended in `T`. -/
inductive Runs (T₀ : Tracker) : Trace → Tracker → Prop where
  | nil : Runs T₀ [] T₀
  | cons {h T c r T'} : Runs T₀ h T → T.Allowed c → T.exec c = .ok (T', r) → Runs T₀ ((c, r) :: h) T'

/-- Restrictions on section sizes: indices fit their types (taint_source.h 66-68, fnmapping.h 34,
fntrace.h 27, labels.h 22-23), the label index covers all labels, the file fits the address space. -/
structure _root_.Verif.Config.Ok (c : Config) (base : Nat) : Prop where
  src : c.srcCap ≤ 255
  lab0 : 0 < c.labelCap
  lab : c.labelCap ≤ 2 ^ 31
  idx : c.labelCap ≤ c.indexCap
  idxMax : c.indexCap ≤ 2 ^ 31
  fn : c.fnCap ≤ 65535
  ev : c.evCap ≤ 2 ^ 32
  addr : base + Layout.required c.specs < 2 ^ 64

/-- `Reach c base h T`: `T` is the tracker after the calls `h`, started on a fresh file mapped at
`base`. -/
def Reach (c : Config) (base : Nat) (h : Trace) (T : Tracker) : Prop :=
  ∃ T₀, init c base = .ok T₀ ∧ Runs T₀ h T

end Tracker
end Verif
