import Verif.ShadowMem
/-
Model of the wrappers of sprintf and snprintf,
/repo/polytracker/src/compiler-rt/lib/dfsan/dfsan_custom.cpp 2162-2463. Both are `custom` in the ABI
lists, so the instrumented program calls them with the labels of the variadic arguments in an array
(DataFlowSanitizer.cpp 2898-2911).

The C library's `snprintf` called for one chunk is a parameter: a function from memory, format and
arguments to the text it makes (`none` for a negative result). The variadic arguments are a list of
64-bit slots, taken one by one by `va_arg`; floating-point values are slots as well (their bit pattern).
The format is the list of its bytes before the terminator. Not modelled: origins (`__dfso_*`), failure of
`malloc` in `build_format_string`, results of 2^31 characters or more for one chunk.
-/
namespace Verif
namespace Fmt

open DfsanMem

/-- The C library's `snprintf`: text for memory, format and arguments. -/
abbrev Lib := Mem → List Nat → List Int → Option (List Nat)

/-- State of `format_buffer`: memory, `str_off`, the arguments and labels not consumed yet. -/
structure St where
  m : Mem
  off : Nat
  args : List Nat
  labels : List Nat

/-- Result of `format_buffer`: return value, `*ret_label` (`none`: not written) and memory. -/
structure Out where
  ret : Int
  retLabel : Option Nat
  m : Mem

/-- Writing bytes one after the other. -/
def putBytes : Nat → List Nat → Mem → Mem
  | _, [], m => m
  | a, b :: bs, m => putBytes (a + 1) bs (m.set a b)

/-- `snprintf(dst, avail, fmt, args...)` of the C library: at most `avail - 1` bytes and a terminator;
returns the length of the whole text. -/
def snprintf (lib : Lib) (m : Mem) (dst avail : Nat) (fmt : List Nat) (args : List Int) : Mem × Int :=
  match lib m fmt args with
  | none => (m, -1)
  | some t => (if avail = 0 then m else putBytes dst (t.take (avail - 1) ++ [0]) m, t.length)

/-- `str_off < size ? size - str_off : 0`, dfsan_custom.cpp 2175, 2185, 2188, 2211. -/
def numAvail (size off : Nat) : Nat := if off < size then size - off else 0

/-- `Formatter::num_written_bytes`, dfsan_custom.cpp 2206-2224. -/
def numWritten (size off : Nat) (retval : Int) : Nat :=
  if retval < 0 then 0
  else if numAvail size off = 0 then 0
  else if numAvail size off ≤ retval.toNat then retval.toNat - numAvail size off
  else retval.toNat

/-- Width of a value taken by `va_arg`: `int`; or long, long long, intmax_t, size_t, double, long double
and pointers. -/
inductive VaTy where
  | w32
  | w64

/-- The value of a slot. -/
def VaTy.read : VaTy → Nat → Int
  | w32, v => toInt32 v
  | w64, v => v

/-- The type chosen by the inner switch for integer conversions, dfsan_custom.cpp 2278-2304; `pre` are
the characters of the chunk before the conversion letter, last one first. -/
def intTy : List Nat → VaTy
  | 104 :: _ => .w32
  | 108 :: _ => .w64
  | 113 :: _ => .w64
  | 106 :: _ => .w64
  | 122 :: _ => .w64
  | 116 :: _ => .w64
  | _ => .w32

/-- `va_arg`. Reading more arguments than were passed is undefined. -/
def vaArg (st : St) : Res (Nat × St) :=
  match st.args with
  | [] => .ub
  | v :: args => .ok (v, { st with args })

/-- `*va_labels++`. -/
def vaLabel (st : St) : Res (Nat × St) :=
  match st.labels with
  | [] => .ub
  | l :: labels => .ok (l, { st with labels })

/-- The arguments of `Formatter::format(T arg)`, dfsan_custom.cpp 2184-2190. -/
def formatArgs (width v : Int) : List Int := if 0 ≤ width then [width, v] else [v]

/-- `Formatter::format()` and labelling with 0: literal text and `%%`, dfsan_custom.cpp 2172-2179,
2262-2264, 2389-2394. -/
def plain (lib : Lib) (page str size : Nat) (chunk : List Nat) (st : St) : Res (Int × St) := do
  let (m, r) := snprintf lib st.m (str + st.off) (numAvail size st.off) chunk []
  let m ← setLabel page m 0 (str + st.off) (numWritten size st.off r)
  .ok (r, { st with m })

/-- Conversion of a value, dfsan_custom.cpp 2272-2313 (integers), 2315-2336 (floating point), 2338-2348
(characters), 2366-2376 (pointers). -/
def valueConv (lib : Lib) (page str size : Nat) (chunk : List Nat) (width : Int) (ty : VaTy) (st : St) :
    Res (Int × St) := do
  let (v, st) ← vaArg st
  let (m, r) := snprintf lib st.m (str + st.off) (numAvail size st.off) chunk (formatArgs width (ty.read v))
  let (l, st) ← vaLabel st
  let m ← setLabel page m l (str + st.off) (numWritten size st.off r)
  .ok (r, { st with m })

/-- Conversion of a string, dfsan_custom.cpp 2350-2364: the shadow of the argument is copied. -/
def strConv (lib : Lib) (str size : Nat) (chunk : List Nat) (width : Int) (st : St) : Res (Int × St) := do
  let (p, st) ← vaArg st
  let (m, r) := snprintf lib st.m (str + st.off) (numAvail size st.off) chunk (formatArgs width (VaTy.w64.read p))
  let st := { st with labels := st.labels.drop 1 }
  .ok (r, { st with m := memcpy m (shadowFor (str + st.off)) (shadowFor p) (4 * numWritten size st.off r % 2 ^ 64) })

/-- `%n`, dfsan_custom.cpp 2378-2387. `sizeof(ptr)` is 8; `retval` stays 0. -/
def countConv (page : Nat) (st : St) : Res (Int × St) := do
  let (p, st) ← vaArg st
  let m := st.m.write32 p (st.off % 2 ^ 32)
  let st := { st with labels := st.labels.drop 1 }
  let m ← setLabel page m 0 p 8
  .ok (0, { st with m })

/-- d i o u x X. -/
def isInt (c : Nat) : Bool := [100, 105, 111, 117, 120, 88].contains c

/-- a A e E f F g G. -/
def isFloat (c : Nat) : Bool := [97, 65, 101, 69, 102, 70, 103, 71].contains c

/-- The loop over a directive, dfsan_custom.cpp 2266-2406; `pre` are the characters of the chunk seen so
far (last one first), the next list the format after them. Returns `retval`, the state and the format
after the chunk. A format that ends inside a directive: `fmt_cur` is left at the terminator and
incremented past it (2413), so the format is read beyond its end. -/
def directive (lib : Lib) (page str size : Nat) : List Nat → List Nat → Int → St →
    Res (Int × St × List Nat)
  | _, [], _, _ => .ub
  | pre, c :: rest, width, st =>
    let chunk := (c :: pre).reverse
    if isInt c then do
      let (r, st) ← valueConv lib page str size chunk width (intTy pre) st
      .ok (r, st, rest)
    else if isFloat c then do
      let (r, st) ← valueConv lib page str size chunk width .w64 st
      .ok (r, st, rest)
    else if c = 99 then do
      let (r, st) ← valueConv lib page str size chunk width .w32 st
      .ok (r, st, rest)
    else if c = 115 then do
      let (r, st) ← strConv lib str size chunk width st
      .ok (r, st, rest)
    else if c = 112 then do
      let (r, st) ← valueConv lib page str size chunk width .w64 st
      .ok (r, st, rest)
    else if c = 110 then do
      let (r, st) ← countConv page st
      .ok (r, st, rest)
    else if c = 37 then do
      let (r, st) ← plain lib page str size chunk st
      .ok (r, st, rest)
    else if c = 42 then do
      let (v, st) ← vaArg st
      directive lib page str size (c :: pre) rest (toInt32 v) { st with labels := st.labels.drop 1 }
    else directive lib page str size (c :: pre) rest width st

/-- Literal text, dfsan_custom.cpp 2258-2264: the characters up to the next `%`. -/
def literal (lib : Lib) (page str size : Nat) (c : Nat) (rest : List Nat) (st : St) :
    Res (Int × St × List Nat) := do
  let (r, st) ← plain lib page str size (c :: rest.takeWhile (· ≠ 37)) st
  .ok (r, st, rest.dropWhile (· ≠ 37))

/-- One chunk, dfsan_custom.cpp 2254-2407. -/
def oneChunk (lib : Lib) (page str size c : Nat) (rest : List Nat) (st : St) :
    Res (Int × St × List Nat) :=
  if c ≠ 37 then literal lib page str size c rest st
  else directive lib page str size [c] rest (-1) st

/-- The main loop of `format_buffer`, dfsan_custom.cpp 2253-2422. Cut off after `fuel` chunks. -/
def loop (lib : Lib) (page str size : Nat) : Nat → List Nat → St → Res Out
  | 0, _, _ => .hang
  | _ + 1, [], st => .ok ⟨toInt32 st.off, some 0, st.m⟩
  | fuel + 1, c :: rest, st => do
    let (r, st, rest) ← oneChunk lib page str size c rest st
    if r < 0 then .ok ⟨r, none, st.m⟩
    else loop lib page str size fuel rest { st with off := st.off + r.toNat }

/-- `format_buffer`, dfsan_custom.cpp 2247-2423, hence `__dfsw_snprintf` (2452-2463). -/
def formatBuffer (lib : Lib) (page : Nat) (m : Mem) (str size : Nat) (fmt args labels : List Nat) :
    Res Out :=
  loop lib page str size (fmt.length + 1) fmt ⟨m, 0, args, labels⟩

/-- `__dfsw_sprintf`, dfsan_custom.cpp 2426-2436. -/
def sprintfW (lib : Lib) (page : Nat) (m : Mem) (str : Nat) (fmt args labels : List Nat) : Res Out :=
  formatBuffer lib page m str (2 ^ 64 - 1) fmt args labels

end Fmt
end Verif
