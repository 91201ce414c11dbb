import Verif.Base
/-
Model of the shadow memory of the DataFlowSanitizer runtime on x86-64, at the level of bytes of the
address space:
/repo/polytracker/src/compiler-rt/lib/dfsan/{dfsan.cpp, dfsan.h, dfsan_platform.h, dfsan_custom.cpp},
the internal memory functions of /repo/polytracker/src/compiler-rt/lib/sanitizer_common, the shadow
address computation of /repo/polytracker/src/passes/DataFlowSanitizer.cpp, and the wrappers of
/repo/polytracker/src/taint_sources/{string_taints.cpp, memory_taints.cpp}.

Simplifications: origin tracking is off (its default, dfsan.cpp 77-79). Pointer increments inside
loops are natural-number additions (no wrap-around at 2^64; the theorems are about ranges below
2^47). Accesses to unmapped memory are not modelled, except where stated.
-/
namespace Verif

/-- Content of the process memory: the byte at each address. -/
abbrev Mem := Nat → Nat

namespace Mem

/-- `*(char *)a = v`. -/
def set (m : Mem) (a v : Nat) : Mem := fun x => if x = a then v else m x

/-- Reading a `dfsan_label` (dfsan.h 28: uint32_t), little endian. -/
def read32 (m : Mem) (a : Nat) : Nat :=
  m a + 2 ^ 8 * m (a + 1) + 2 ^ 16 * m (a + 2) + 2 ^ 24 * m (a + 3)

/-- Writing a `dfsan_label`, little endian. -/
def write32 (m : Mem) (a v : Nat) : Mem :=
  (((m.set a (v % 2 ^ 8)).set (a + 1) (v / 2 ^ 8 % 2 ^ 8)).set (a + 2) (v / 2 ^ 16 % 2 ^ 8)).set
    (a + 3) (v / 2 ^ 24 % 2 ^ 8)

/-- Reading a `u64`, little endian. -/
def read64 (m : Mem) (a : Nat) : Nat := m.read32 a + 2 ^ 32 * m.read32 (a + 4)

/-- Writing a `u64`, little endian. -/
def write64 (m : Mem) (a v : Nat) : Mem :=
  (m.write32 a (v % 2 ^ 32)).write32 (a + 4) (v / 2 ^ 32 % 2 ^ 32)

end Mem

namespace DfsanMem

open Mem

/-! ### Address mapping -/

/-- `kShadowAddr` (x86-64), dfsan_platform.h 21. -/
def kShadowAddr : Nat := 0x10000

/-- `kOriginAddr` (x86-64), dfsan_platform.h 22. -/
def kOriginAddr : Nat := 0x200000000000

/-- `kUnionTableAddr` (x86-64), dfsan_platform.h 23. `UnusedAddr()` returns it, dfsan.cpp 180-183. -/
def kUnionTableAddr : Nat := 0x400000000000

/-- `kAppAddr` (x86-64), dfsan_platform.h 24. -/
def kAppAddr : Nat := 0x700000008000

/-- `kShadowMask` = ~0x700000000000 as a 64-bit number, dfsan_platform.h 25. -/
def kShadowMask : Nat := 2 ^ 64 - 1 - 0x700000000000

/-- `shadow_for`, dfsan.h 68-71. -/
def shadowFor (p : Nat) : Nat := ((p &&& kShadowMask) <<< 2) % 2 ^ 64

/-- `origin_for`, dfsan.h 79-87. -/
def originFor (p : Nat) : Nat := ((kOriginAddr + (p &&& kShadowMask)) % 2 ^ 64) &&& (2 ^ 64 - 4)

/-- `is_shadow_addr_valid`, dfsan.h 93-95. -/
def isShadowAddrValid (s : Nat) : Bool := decide (kShadowAddr ≤ s) && decide (s < kOriginAddr)

/-- The shadow address computed by instrumented code, `getShadowOffset` and `getShadowAddress`,
DataFlowSanitizer.cpp 1801-1812, 1834-1843, with ShadowWidthBits = 32 (782-783, 1052) and
ShadowPtrMask = ~0x700000000000 (1057-1061). -/
def passShadow (p : Nat) : Nat := (p &&& (2 ^ 64 - 1 - 0x700000000000)) * (32 / 8) % 2 ^ 64

/-! ### Internal memory functions -/

/-- `RoundUpTo`, sanitizer_common.h 432-435 (`~(boundary - 1)` is a 64-bit complement). -/
def roundUpTo (x b : Nat) : Nat := ((x + b - 1) % 2 ^ 64) &&& (2 ^ 64 - 1 - (b - 1))

/-- `RoundDownTo`, sanitizer_common.h 437-439. -/
def roundDownTo (x b : Nat) : Nat := x &&& (2 ^ 64 - 1 - (b - 1))

/-- A loop `all |= *mem` over `n` bytes from `a`; prologue and epilogue of `mem_is_zero`,
sanitizer_libc.cpp 268-269, 275. (`*mem` is sign-extended; this changes only which nonzero value is
or-ed.) -/
def orBytes (m : Mem) : Nat → Nat → Nat → Nat
  | _, 0, all => all
  | a, n + 1, all => orBytes m (a + 1) n (all ||| m a)

/-- The aligned loop of `mem_is_zero`, sanitizer_libc.cpp 271-272, over `n` words. -/
def orWords (m : Mem) : Nat → Nat → Nat → Nat
  | _, 0, all => all
  | a, n + 1, all => orWords m (a + 8) n (all ||| m.read64 a)

/-- `mem_is_zero`, sanitizer_libc.cpp 261-278. The failing CHECK is `fatal`. -/
def memIsZero (m : Mem) (beg size : Nat) : Res Bool :=
  if 2 ^ 40 < size then .fatal else
  let end' := beg + size
  let alignedBeg := roundUpTo beg 8
  let alignedEnd := roundDownTo end' 8
  let all := orBytes m beg (min alignedBeg end' - beg) 0
  let all := orWords m alignedBeg ((alignedEnd - alignedBeg) / 8) all
  let all := if beg ≤ alignedEnd then orBytes m alignedEnd (end' - alignedEnd) all else all
  .ok (all == 0)

/-- The word loop of `internal_memset`, sanitizer_libc.cpp 84-85, `n` rounds. -/
def fillWords (v : Nat) : Nat → Nat → Mem → Mem
  | _, 0, m => m
  | p, n + 1, m => fillWords v (p + 16) n ((m.write64 (p + 8) v).write64 p v)

/-- The byte loop of `internal_memset`, sanitizer_libc.cpp 92-95. -/
def fillBytes (c : Nat) : Nat → Nat → Mem → Mem
  | _, 0, m => m
  | t, n + 1, m => fillBytes c (t + 1) n (m.set t c)

/-- The word pattern of `internal_memset`, sanitizer_libc.cpp 80-83. -/
def pattern (c : Nat) : Nat :=
  let v := c
  let v := v ||| (v <<< 8 % 2 ^ 64)
  let v := v ||| (v <<< 16 % 2 ^ 64)
  v ||| (v <<< 32 % 2 ^ 64)

/-- `internal_memset`, sanitizer_libc.cpp 75-97. The argument `c` is an `int`; its conversion to u64
is sign extension. -/
def memset (m : Mem) (s : Nat) (c : Int) (n : Nat) : Mem :=
  if s % 16 = 0 ∧ n % 16 = 0 then fillWords (pattern (c % 2 ^ 64).toNat) s (n / 8 / 2) m
  else fillBytes (c % 2 ^ 8).toNat s n m

/-- Copy loop with increasing index, sanitizer_libc.cpp 52-53 and 63-64; `i` is the loop counter and
the second number the iterations left. -/
def copyUp (d s : Nat) : Nat → Nat → Mem → Mem
  | _, 0, m => m
  | i, n + 1, m => copyUp d s (i + 1) n (m.set (d + i) (m (s + i)))

/-- Copy loop with decreasing index, sanitizer_libc.cpp 67-69. -/
def copyDown (d s : Nat) : Nat → Mem → Mem
  | 0, m => m
  | n + 1, m => copyDown d s n (m.set (d + n) (m (s + n)))

/-- `internal_memcpy`, sanitizer_libc.cpp 49-55. -/
def memcpy (m : Mem) (d s n : Nat) : Mem := copyUp d s 0 n m

/-- `internal_memmove`, sanitizer_libc.cpp 57-73. The failing CHECK is `fatal`. -/
def memmove (m : Mem) (d s n : Nat) : Res Mem :=
  if 2 ^ 63 ≤ n then .fatal
  else if d < s then .ok (copyUp d s 0 n m)
  else if s < d then .ok (copyDown d s n m)
  else .ok m

/-- `ReleaseMemoryPagesToOS`, sanitizer_posix_libcdep.cpp 58-65, for page size `page`. Pages given to
`madvise(MADV_DONTNEED)` read as zero afterwards (Linux, private anonymous mapping). -/
def releasePages (page : Nat) (m : Mem) (beg end' : Nat) : Mem :=
  let b := roundUpTo beg page
  let e := roundDownTo end' page
  if b < e then fun x => if b ≤ x ∧ x < e then 0 else m x else m

/-! ### Setting labels -/

/-- `WriteShadowIfDifferent`, dfsan.cpp 534-551. -/
def writeShadow (label : Nat) : Nat → Nat → Mem → Mem
  | _, 0, m => m
  | p, n + 1, m =>
    writeShadow label (p + 4) n (if label = m.read32 p then m else m.write32 p label)

/-- `ClearShadowIfNonZero`, dfsan.cpp 619-623. -/
def clearShadow (m : Mem) (a n : Nat) : Res Mem := do
  let z ← memIsZero m a n
  if z then .ok m else .ok (memset m a 0 n)

/-- `SetShadow`, dfsan.cpp 625-659, hence `__dfsan_set_label` (661-664) and `dfsan_set_label`
(666-675). `page` is the page size, `GetPageSizeCached`. -/
def setLabel (page : Nat) (m : Mem) (label addr size : Nat) : Res Mem :=
  let beg := shadowFor addr
  if label ≠ 0 then .ok (writeShadow label beg size m)
  else
    let end' := shadowFor ((addr + size) % 2 ^ 64)
    let begA := roundUpTo beg page
    let endA := roundDownTo end' page
    if endA ≤ begA + 8 * page then .ok (writeShadow label beg size m)
    else do
      let m ← clearShadow m beg (begA - beg)
      let m := releasePages page m begA endA
      clearShadow m endA (end' - endA)

/-- The label of the application byte `a`: its shadow cell, as read by `dfsan_read_label(a, 1)`,
dfsan.cpp 728-733, 233-242. -/
def labelOf (m : Mem) (a : Nat) : Nat := m.read32 (shadowFor a)

/-! ### Copying wrappers -/

/-- `dfsan_memmove`, dfsan_custom.cpp 504-509, hence `__dfsw_memmove` (558-564). -/
def dfsanMemmove (m : Mem) (d s n : Nat) : Res Mem := do
  let m ← memmove m (shadowFor d) (shadowFor s) (n * 4 % 2 ^ 64)
  memmove m d s n

/-- `dfsan_memcpy`, dfsan_custom.cpp 516-521, hence `__dfsw_memcpy` (539-545). -/
def dfsanMemcpy (m : Mem) (d s n : Nat) : Mem :=
  memcpy (memcpy m (shadowFor d) (shadowFor s) (n * 4 % 2 ^ 64)) d s n

/-- `dfsan_memset`, dfsan_custom.cpp 528-531, hence `__dfsw_memset` (577-584). -/
def dfsanMemset (page : Nat) (m : Mem) (s : Nat) (c : Int) (cLabel n : Nat) : Res Mem :=
  setLabel page (memset m s c n) cLabel s n

/-- `strlen`: the number of bytes before the first zero byte. The search is cut off at `fuel` bytes,
`hang` then; `strlen` uses the size of the address space. -/
def strlenLoop (m : Mem) (s : Nat) : Nat → Nat → Res Nat
  | 0, _ => .hang
  | fuel + 1, i => if m (s + i) = 0 then .ok i else strlenLoop m s fuel (i + 1)

/-- C library `strlen`. -/
def strlen (m : Mem) (s : Nat) : Res Nat := strlenLoop m s (2 ^ 64) 0

/-- `__dfsw_strcpy`, dfsan_custom.cpp 1105-1114. The C library's `strcpy` is modelled as copying the
bytes up to and including the terminator in increasing order; it returns `dest`, which is taken to be
non-null. -/
def strcpyW (m : Mem) (d s : Nat) : Res Mem := do
  let n ← strlen m s
  let m := memcpy m d s (n + 1)
  let n ← strlen m s
  .ok (memcpy m (shadowFor d) (shadowFor s) (4 * (n + 1) % 2 ^ 64))

/-- `__dfsw_strncpy`, dfsan_custom.cpp 650-665. -/
def strncpyW (page : Nat) (m : Mem) (s1 s2 n : Nat) : Res Mem := do
  let len ← strlen m s2
  if len < n then
    let m := dfsanMemcpy m s1 s2 (len + 1)
    dfsanMemset page m (s1 + len + 1) 0 0 (n - len - 1)
  else .ok (dfsanMemcpy m s1 s2 n)

/-- `__dfsw_strdup`, dfsan_custom.cpp 629-636. `p` is the result of `malloc`, taken to be non-null. -/
def strdupW (m : Mem) (s p : Nat) : Res Mem := do
  let len ← strlen m s
  .ok (dfsanMemcpy m p s (len + 1))

/-- `__dfsw_strcat` of dfsan_custom.cpp 598-609. PolyTracker's own definition below takes precedence
when linking (polytracker/build.py 88-137: libPolytracker.a comes before the DFSan library and
multiple definitions are allowed). The C library's `strcat` copies the source string with its
terminator to the end of the destination string. -/
def strcatDfsan (m : Mem) (d s : Nat) : Res Mem := do
  let dl ← strlen m d
  let sl ← strlen m s
  let m := memcpy m (d + dl) s (sl + 1)
  let sl ← strlen m s
  .ok (memcpy m (shadowFor (d + dl)) (shadowFor s) (sl * 4 % 2 ^ 64))

/-- Conversion of a `size_t` to `int`. -/
def toInt32 (x : Nat) : Int := if x % 2 ^ 32 < 2 ^ 31 then x % 2 ^ 32 else (x % 2 ^ 32 : Nat) - 2 ^ 32

/-- `__dfsw_strcat`, string_taints.cpp 4-11. `srcLabel` is the label of the pointer argument `src`. -/
def strcatW (page : Nat) (m : Mem) (d s srcLabel : Nat) : Res Mem := do
  let dl ← strlen m d
  let cur := toInt32 ((dl + 2 ^ 64 - 1) % 2 ^ 64)
  let sl ← strlen m s
  let m := memcpy m (d + dl) s (sl + 1)
  let tl ← strlen m d
  setLabel page m srcLabel (((d : Int) + cur) % 2 ^ 64).toNat (((tl : Int) - cur) % 2 ^ 64).toNat

/-- The writing loop of `__dfsw_realloc`, memory_taints.cpp 33-36. -/
def setEach (page : Nat) : Nat → List Nat → Mem → Res Mem
  | _, [], m => .ok m
  | a, l :: ls, m => do
    let m ← setLabel page m l a 1
    setEach page (a + 1) ls m

/-- `__dfsw_realloc`, memory_taints.cpp 11-40. The C library's `realloc` is given by its result `q`
and the memory `mr` it leaves. `ub` stands for the access to the unmapped shadow of the null page
when `realloc` fails. -/
def reallocW (page : Nat) (m mr : Mem) (ptr newSize q : Nat) : Res Mem :=
  let shadow := if ptr ≠ 0 ∧ 0 < newSize then
    (List.range newSize).map (fun i => labelOf m (ptr + i)) else []
  if q ≠ ptr then
    if q = 0 ∧ shadow ≠ [] then .ub else setEach page q shadow mr
  else .ok mr

/-- The code inserted before an `llvm.memcpy`/`llvm.memmove` instruction whose length has `w` bits,
followed by the instruction itself: `visitMemTransferInst`, DataFlowSanitizer.cpp 2814-2852. The
shadow length is multiplied in the type of the length. -/
def memTransfer (move : Bool) (w : Nat) (m : Mem) (d s n : Nat) : Res Mem :=
  if move then do
    let m ← memmove m (passShadow d) (passShadow s) (n * 4 % 2 ^ w)
    memmove m d s n
  else .ok (memcpy (memcpy m (passShadow d) (passShadow s) (n * 4 % 2 ^ w)) d s n)

/-- The code inserted before an `llvm.memset` instruction, followed by the instruction itself:
`visitMemSetInst`, DataFlowSanitizer.cpp 2801-2812, with `__dfsan_set_label` (dfsan.cpp 661-664). The value
operand of the instruction is a byte. -/
def memSetInst (page : Nat) (m : Mem) (d c cLabel n : Nat) : Res Mem := do
  let m ← setLabel page m cLabel d n
  .ok (fillBytes (c % 2 ^ 8) d n m)

end DfsanMem
end Verif
