import Verif.Files
import Verif.Spec.Stdio
/-
A program working with streams through the wrappers of /repo/polytracker/src/taint_sources/taint_sources.cpp (fopen, fclose,
fread, getc, fgets) and write_taints.cpp (fwrite, putc). getline, getdelim, fscanf, ungetc, fdopen, freopen, popen and tmpfile
are `uninstrumented` without `custom` in /repo/polytracker/custom_abi/dfsan_abilist.txt (2299, 2266, 2190, 3606, 2084, 2185,
2897, 3572), fputs, puts, putchar, fprintf and fseek `discard` (196, 221, 220, 194, 198), so the program calls the C
library directly.

The C library is `Spec.StdSys`.
-/
namespace Verif
open Spec
namespace Stdio

/-- The position that ftello reports, -1 for unknown streams. -/
def tell (K : StdSys) (fd : Nat) : Int := ((K.get fd).map Strm.tell).getD (-1)

/-- One call of the instrumented program, with the label of the result. fopen: `impl_fopen`, taint_sources.cpp 66-76 and
189-199; fclose: 212-221; fread: 147-156 and 247-261; getc: 94-111 and 263-294; fgets: 296-307; fwrite, putc:
write_taints.cpp 67-95. The label that fgets gives to its result is that of the buffer's address, here 0. -/
def step (K : StdSys) (T : Tracker) (op : StdOp) : Res (StdSys × Tracker × StdObs × Nat) :=
  let (K', o) := K.step op
  match op with
  | .fopen fd path _ size => do
    let (T, _) ← T.openFile fd path size
    return (K', T, o, 0)
  | .fread fd buf size _ _ => do
    let (T, _, l) ← Wrap.fread T fd buf size (tell K fd) o.ret.toNat
    return (K', T, o, l)
  | .getc fd _ => do
    let (T, _, l) ← Wrap.getc T fd (tell K fd) o.ret
    return (K', T, o, l)
  | .fgets fd buf _ _ => do
    let (T, _, l) ← Wrap.fgets T fd buf 0 (tell K fd) (if o.ret > 0 then some o.data else none)
    return (K', T, o, l)
  | .fwrite fd buf size _ _ => do
    let (T, _, l) ← Wrap.fwrite T fd buf size (tell K fd) o.ret.toNat
    return (K', T, o, l)
  | .putc fd ch label => do
    let (T, _, l) ← Wrap.putc T fd ch label (tell K fd) o.ret
    return (K', T, o, l)
  | .fclose fd => if o.ret = 0 then .ok (K', T.closeFile fd, o, 0) else .ok (K', T, o, 0)
  | _ => .ok (K', T, o, 0)

/-- Limits: paths are bytes, numbers fit their types, files find room in the tables of the trace file, positions of tracked
files stay below 2^54, items have a size, new streams begin at the start of pipes, fgets has room for a byte and labels exist. -/
def Fits (K : StdSys) (T : Tracker) (op : StdOp) : Prop :=
  match op with
  | .fopen fd path s size => fd < 2 ^ 31 ∧ (∀ b ∈ path, b < 256) ∧ path.length ≤ 65535 ∧ size.getD 0 < 2 ^ 64 ∧
      T.sources.length < T.cfg.srcCap ∧ T.strings.size + (path.length + 3) / 2 * 2 ≤ T.cfg.strSize ∧
      (s.regular = true ∨ s.pos = 0) ∧ s.back = [] ∧ s.out = []
  | .fread fd _ size _ _ => 0 < size ∧ ∀ i, T.mappingIdx fd = some i →
      (if tell K fd < 0 then T.rd i else (tell K fd).toNat) + (K.step op).2.data.length ≤ 2 ^ 54
  | .getc fd _ => ∀ i, T.mappingIdx fd = some i → (if tell K fd < 0 then T.rd i else (tell K fd).toNat) + 1 ≤ 2 ^ 54
  | .fgets fd _ n _ => 2 ≤ n ∧ ∀ i, T.mappingIdx fd = some i →
      (if tell K fd < 0 then T.rd i else (tell K fd).toNat) + (K.step op).2.data.length ≤ 2 ^ 54
  | .fwrite fd _ size bytes k => 0 < size ∧ size * k ≤ bytes.length ∧ ∀ i, T.mappingIdx fd = some i →
      (if tell K fd < 0 then T.wr i else (tell K fd).toNat) + bytes.length ≤ 2 ^ 54
  | .putc fd _ label => label < T.labels.words.length ∧ ∀ i, T.mappingIdx fd = some i →
      (if tell K fd < 0 then T.wr i else (tell K fd).toNat) + 1 ≤ 2 ^ 54
  | _ => True

/-- Calls at the tracker that do not concern streams. -/
def Aside (K : StdSys) : Call → Prop
  | .openFile fd _ _ | .read fd _ _ _ | .write fd _ _ _ | .writeLabel fd _ _ _ => ∀ n : Nat, (K.get n).isSome = true → fd ≠ n
  | _ => True

/-- The instrumented program, started in `K₀`, `T₀`, made the calls `E` (newest first) among other things. -/
inductive Exec (K₀ : StdSys) (T₀ : Tracker) : StdHist → StdSys → Tracker → Prop
  | nil : Exec K₀ T₀ [] K₀ T₀
  | std {E K T op K' T' o l} : Exec K₀ T₀ E K T → Fits K T op → step K T op = .ok (K', T', o, l) →
      Exec K₀ T₀ ((op, o) :: E) K' T'
  | call {E K T c r T'} : Exec K₀ T₀ E K T → Aside K c → T.Allowed c → T.exec c = .ok (T', r) →
      Exec K₀ T₀ E K T'

end Stdio
end Verif
