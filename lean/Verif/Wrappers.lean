import Verif.Tracker
/-
Wrappers of the library calls that read and write files,
/repo/polytracker/src/taint_sources/taint_sources.cpp and write_taints.cpp, with
/repo/polytracker/include/taintdag/util.h and src/taintdag/util.cpp.

The library calls themselves are not modelled: their results (return value, position reported by lseek
or ftello before the call, bytes placed in the buffer) are parameters. `fileno` is applied to the stream
by the caller of the model. Addresses are natural numbers.
-/
namespace Verif
namespace Wrap

/-- `Length::from_returned_size`, util.cpp 19-25; `none` is an invalid Length. -/
def fromReturnedSize (ret : Int) : Option Nat := if ret > 0 then some ret.toNat else none

/-- `Length::from_returned_size_count`, util.cpp 27-46. -/
def fromReturnedSizeCount (size nitems : Nat) : Res (Option Nat) :=
  if size * nitems ≥ 2 ^ 64 then .fatal
  else if size * nitems = 0 then .ok none
  else .ok (some (size * nitems))

/-- `std::string_view{str}.length()`: the number of bytes before the first zero byte. -/
def cStrLen : List Nat → Res Nat
  | [] => .ub
  | b :: s => if b = 0 then .ok 0 else do
    let n ← cStrLen s
    return n + 1

/-- `Length::from_returned_string`, util.cpp 48-54; the argument is the memory the string pointer points
to, `none` for a null pointer. -/
def fromReturnedString : Option (List Nat) → Res (Option Nat)
  | none => .ok none
  | some mem => do
    let n ← cStrLen mem
    return some n

/-- `Offset::from_off_t`, util.cpp 70-81; `from_fd` and `from_file` (62-68) pass the result of lseek and
ftello. -/
def fromOffT (o : Int) : Res (Option Nat) :=
  if o < 0 then .ok none else if o > (maxSourceOffset : Int) then .fatal else .ok (some o.toNat)

/-- `taint_source_buffer`, taint_sources.cpp 78-87. -/
def taintSourceBuffer (T : Tracker) (fd : Int) (buf : Nat) (off len : Option Nat) : Res Tracker :=
  match len with
  | none => .ok T
  | some n => do
    let (T, _) ← T.sourceTaint fd (some buf) off n
    return T

/-- `impl_read_recv_functions` and `impl_offset_read_functions`, taint_sources.cpp 113-140: read, recv,
recvfrom. `pos` is the result of lseek before the call, `ret` the result of the call. The results are the
return value and its label. -/
def read (T : Tracker) (fd : Int) (buf : Nat) (pos ret : Int) : Res (Tracker × Int × Nat) := do
  let off ← fromOffT pos
  let T ← taintSourceBuffer T fd buf off (fromReturnedSize ret)
  return (T, ret, 0)

/-- `__dfsw_pread`, `__dfsw_pread64`, taint_sources.cpp 229-245. (The two arguments of the helper are
evaluated in either order: the call may or may not have been made when the program ends.) -/
def pread (T : Tracker) (fd : Int) (buf : Nat) (offset ret : Int) : Res (Tracker × Int × Nat) :=
  read T fd buf offset ret

/-- `impl_fread`, taint_sources.cpp 147-156: fread, fread_unlocked. -/
def fread (T : Tracker) (fd : Int) (buf size : Nat) (pos : Int) (ret : Nat) : Res (Tracker × Nat × Nat) := do
  let off ← fromOffT pos
  let len ← fromReturnedSizeCount size ret
  let T ← taintSourceBuffer T fd buf off len
  return (T, ret, 0)

/-- `impl_getc_style_functions`, taint_sources.cpp 94-111: fgetc, getc, getchar and the like. EOF is -1. -/
def getc (T : Tracker) (fd : Int) (pos c : Int) : Res (Tracker × Int × Nat) := do
  let off ← fromOffT pos
  if c ≠ -1 then
    let (T, r) ← T.sourceTaint fd none off 1
    match r with
    | some (first, _) => return (T, c, first)
    | none => return (T, c, 0)
  else return (T, c, 0)

/-- `__dfsw_fgets`, taint_sources.cpp 296-307. `res` are the bytes taken from the stream, followed in the
buffer by a zero byte, or `none` if fgets returned a null pointer. The results are whether the returned
pointer is not null, and its label. -/
def fgets (T : Tracker) (fd : Int) (str strLabel : Nat) (pos : Int) (res : Option (List Nat)) :
    Res (Tracker × Bool × Nat) := do
  let off ← fromOffT pos
  let len ← fromReturnedString (res.map (· ++ [0]))
  let T ← taintSourceBuffer T fd str off len
  return (T, res.isSome, if len.isSome then strLabel else 0)

/-- `__dfsw_getdelim`, `__dfsw___getdelim`, taint_sources.cpp 328-352; `line` is `*lineptr` after the
call. -/
def getdelim (T : Tracker) (fd : Int) (line : Nat) (pos ret : Int) : Res (Tracker × Int × Nat) :=
  read T fd line pos ret

/-- `__dfsw_mmap`, taint_sources.cpp 354-367; `res` is the address of the mapping, `none` for
MAP_FAILED. -/
def mmap (T : Tracker) (fd : Int) (length : Nat) (offset : Int) (res : Option Nat) :
    Res (Tracker × Option Nat × Nat) := do
  let off ← fromOffT offset
  match res with
  | some a =>
    let (T, _) ← T.sourceTaint fd (some a) off length
    return (T, res, 0)
  | none => return (T, res, 0)

/-- `dfsan_set_label(label, addr, size)` on the labels of bytes. -/
def setAll (sh : Shadow) (label addr : Nat) : Nat → Shadow
  | 0 => sh
  | n + 1 => setAll (Dfsan.upd sh addr label) label (addr + 1) n

/-- `__dfsw_munmap`, taint_sources.cpp 369-378: the labels are cleared whatever munmap returns. -/
def munmap (T : Tracker) (addr length : Nat) (ret : Int) : Tracker × Int × Nat :=
  ({ T with shadow := setAll T.shadow 0 addr length }, ret, 0)

/-- What the C library's fgets takes from a stream that has the bytes `s` left, with room for `n` bytes:
up to and including the first newline. (C standard 7.21.7.2; not part of PolyTracker.) -/
def fgetsTake : Nat → List Nat → List Nat
  | 0, _ => []
  | _ + 1, [] => []
  | n + 1, b :: s => if b = 10 then [b] else b :: fgetsTake n s

/-- `__dfsw_gets`, taint_sources.cpp 312-326, on a standard input that has the bytes `s` left: it calls
fgets with `sizeof str`, which is 8, so 7 bytes at most. The results are the bytes placed in the buffer
before the terminating zero (`none` for a null pointer), and the label of the returned pointer. -/
def gets (T : Tracker) (fd : Int) (str strLabel : Nat) (pos : Int) (s : List Nat) :
    Res (Tracker × Option (List Nat) × Nat) := do
  let off ← fromOffT pos
  if s = [] then return (T, none, 0)
  else
    let got := fgetsTake 7 s
    let n ← cStrLen (got ++ [0])
    let (T, _) ← T.sourceTaint fd (some str) off n
    return (T, some got, strLabel)

/-- `impl_taint_sink`, write_taints.cpp 35-40. -/
def taintSinkBuffer (T : Tracker) (fd : Int) (off len : Option Nat) (buf : Nat) : Res Tracker :=
  match len with
  | none => .ok T
  | some n => T.taintSink fd off buf n

/-- `impl_write_send`, write_taints.cpp 49-57: write, send. -/
def write (T : Tracker) (fd : Int) (buf : Nat) (pos ret : Int) : Res (Tracker × Int × Nat) := do
  let off ← fromOffT pos
  let T ← taintSinkBuffer T fd off (fromReturnedSize ret) buf
  return (T, ret, 0)

/-- `__dfsw_fwrite`, write_taints.cpp 67-78. -/
def fwrite (T : Tracker) (fd : Int) (buf size : Nat) (pos : Int) (ret : Nat) : Res (Tracker × Nat × Nat) := do
  let off ← fromOffT pos
  let len ← fromReturnedSizeCount size ret
  let T ← taintSinkBuffer T fd off len buf
  return (T, ret, 0)

/-- `__dfsw_putc`, `__dfsw_fputc`, write_taints.cpp 80-95. -/
def putc (T : Tracker) (fd : Int) (ch : Int) (chLabel : Nat) (pos ret : Int) : Res (Tracker × Int × Nat) := do
  let off ← fromOffT pos
  if ret = ch then
    let T ← T.taintSinkLabel fd off chLabel 1
    return (T, ret, 0)
  else return (T, ret, 0)

/-- `__dfsw__putc`, taint_sources.cpp 380-384: nothing is logged. -/
def putcNoLog (T : Tracker) (ret : Int) : Tracker × Int × Nat := (T, ret, 0)

end Wrap
end Verif
