import Verif.Wrappers
import Verif.TrackerHistory
import Verif.Spec.Posix
/-
A program working with files through the wrappers of
/repo/polytracker/src/taint_sources/taint_sources.cpp and write_taints.cpp: open, close, read, pread,
write. openat, dup and lseek are `uninstrumented` without `custom` in the ABI lists
(/repo/polytracker/custom_abi/dfsan_abilist.txt 2876 for openat), so the program calls the C library
directly; the wrapper of openat (taint_sources.cpp 168-184) is never called.

The kernel is `Spec.FileSys`.
-/
namespace Verif
open Spec
namespace Files

/-- `impl_open`, taint_sources.cpp 50-65, called by `__dfsw_open` and `__dfsw_open64` (158-170). The third
argument of the call of open is the `va_list`: an array, so its address, of which open takes the low 32 bits
as mode (x86-64; `mode_t` is unsigned int). `va` is that address. The mode the program gave is not looked
at. `open_file` (polytracker.cpp 29-42) asks for the size of the file of that name. -/
def opn (va : Nat) (K : FileSys) (T : Tracker) (path : List Nat) (fl : OFlags) (_mode : Nat) :
    Res (FileSys × Tracker × FObs) :=
  let (K, o) := K.opn path fl (va % 2 ^ 32)
  if o.ret ≥ 0 then do
    let (T, _) ← T.openFile o.ret path (K.sizeOf path)
    return (K, T, o)
  else return (K, T, o)

/-- One operation of the instrumented program. close: taint_sources.cpp 201-210; read: 223-227 with
113-140; pread: 229-245; write: write_taints.cpp 49-65. -/
def step (va : Nat) (K : FileSys) (T : Tracker) : FileOp → Res (FileSys × Tracker × FObs)
  | .opn path fl mode => opn va K T path fl mode
  | .close fd =>
    let (K, o) := K.step (.close fd)
    if o.ret = 0 then .ok (K, T.closeFile fd, o) else .ok (K, T, o)
  | .read fd buf n => do
    let (K', o) := K.step (.read fd buf n)
    let (T, _) ← Wrap.read T fd buf (K.tell fd) o.ret
    return (K', T, o)
  | .pread fd buf n off => do
    let (K', o) := K.step (.pread fd buf n off)
    let (T, _) ← Wrap.pread T fd buf off o.ret
    return (K', T, o)
  | .write fd buf bytes => do
    let (K', o) := K.step (.write fd buf bytes)
    let (T, _) ← Wrap.write T fd buf (K.tell fd) o.ret
    return (K', T, o)
  | op =>
    let (K, o) := K.step op
    .ok (K, T, o)

/-- Limits: names are bytes, the numbers fit their types, opened files find room in the tables of the
trace file, positions of tracked inputs stay below 2^54. -/
def Fits (K : FileSys) (T : Tracker) : FileOp → Prop
  | .opn path _ _ => (∀ b ∈ path, b < 256) ∧ K.fds.length < 2 ^ 31 - 1 ∧
      (∀ nd ∈ K.nodes, nd.data.length < 2 ^ 63) ∧ T.sources.length < T.cfg.srcCap ∧
      T.strings.size + (path.length + 3) / 2 * 2 ≤ T.cfg.strSize
  | .read fd _ n => ∀ i, T.mappingIdx fd = some i →
      (if K.tell fd < 0 then T.rd i else (K.tell fd).toNat) + n ≤ 2 ^ 54
  | .pread _ _ n off => off + n ≤ 2 ^ 54
  | .write fd _ bytes => ∀ i, T.mappingIdx fd = some i →
      (if K.tell fd < 0 then T.wr i else (K.tell fd).toNat) + bytes.length ≤ 2 ^ 54
  | _ => True

/-- Calls at the tracker that have nothing to do with descriptors: labels combined and stored, branches
and functions reported, command line. -/
def NoFile : Call → Prop
  | .openFile _ _ _ | .closeFile _ | .read _ _ _ _ | .write _ _ _ _ | .writeLabel _ _ _ _ => False
  | _ => True

/-- The instrumented program, started in `K₀`, `T₀`, performed the file operations `E` (newest first)
among other things. The address of the `va_list` may be different each time. -/
inductive Exec (K₀ : FileSys) (T₀ : Tracker) : FHist → FileSys → Tracker → Prop
  | nil : Exec K₀ T₀ [] K₀ T₀
  | file {E K T va op K' T' o} : Exec K₀ T₀ E K T → Fits K T op → step va K T op = .ok (K', T', o) →
      Exec K₀ T₀ ((op, o) :: E) K' T'
  | call {E K T c r T'} : Exec K₀ T₀ E K T → NoFile c → T.Allowed c → T.exec c = .ok (T', r) →
      Exec K₀ T₀ E K T'

end Files
end Verif
