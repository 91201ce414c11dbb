import Verif.Dfsan
import Verif.ShadowMem
/-
Model of the wrappers that compare, search and convert strings,
/repo/polytracker/src/compiler-rt/lib/dfsan/dfsan_custom.cpp. These functions are listed as `custom`
in polytracker/custom_abi/dfsan_abilist.txt, so a call in the instrumented program goes to the wrapper,
which receives the labels of the arguments and returns the label of the result.

`strict` is flags().strict_data_dependencies (dfsan_flags.inc 24, on by default). `m` gives the bytes
of memory, `sh` the labels of application bytes (dfsan_read_label reads the shadow). A result is the
label store, the label of the returned value and the returned value; pointers into the argument are
given as positions, the null pointer as `none`. `char` is signed (x86-64). Not modelled: origins
(`__dfso_*`), the weak hooks of memcmp/strcmp/strncmp (no definition in /repo), and the wrap-around of
`size_t` counters (strings and ranges are shorter than 2^64).

Where the wrapper calls the C library, the library function is modelled by a search loop.
-/
namespace Verif
namespace CustomCmp

open Dfsan DfsanMem

/-- Value of a `char` with bit pattern `b`, promoted to `int`. -/
def schar (b : Nat) : Int := if b < 128 then (b : Int) else (b : Int) - 256

/-- Loop of `dfsan_memcmp_bcmp`, dfsan_custom.cpp 206-217; the first number counts the iterations left.
Returns `*bytes_read` and the result. -/
def memcmpLoop (m : Mem) (s1 s2 : Nat) : Nat → Nat → Nat × Int
  | 0, i => (i, 0)
  | k + 1, i =>
    if schar (m (s1 + i)) ≠ schar (m (s2 + i)) then (i + 1, schar (m (s1 + i)) - schar (m (s2 + i)))
    else memcmpLoop m s1 s2 k (i + 1)

/-- `dfsan_get_memcmp_label`, dfsan_custom.cpp 219-224. -/
def memcmpLabel (strict started : Bool) (L : Labels) (sh : Shadow) (s1 s2 pos : Nat) :
    Res (Labels × Nat) :=
  if strict then .ok (L, 0) else do
    let (L, a) ← readLabel started L sh s1 pos
    let (L, b) ← readLabel started L sh s2 pos
    union started L a b

/-- `__dfsw_memcmp`, dfsan_custom.cpp 264-272, and `__dfsw_bcmp`, 285-291, both through
`dfsan_memcmp_bcmp_label`, 236-242. -/
def memcmpW (strict started : Bool) (L : Labels) (m : Mem) (sh : Shadow) (s1 s2 n : Nat) :
    Res (Labels × Nat × Int) := do
  let (pos, r) := memcmpLoop m s1 s2 n 0
  let (L, l) ← memcmpLabel strict started L sh s1 s2 pos
  .ok (L, l, r)

/-- Loop of `dfsan_strncmp`, dfsan_custom.cpp 301-311 (`f` is the promotion to `int`), and of
`dfsan_strncasecmp`, 346-360 (`f` also applies `tolower`). Cut off after `fuel` iterations. -/
def strncmpLoop (m : Mem) (f : Nat → Int) (s1 s2 n : Nat) : Nat → Nat → Res (Nat × Int)
  | 0, _ => .hang
  | fuel + 1, i =>
    if f (m (s1 + i)) ≠ f (m (s2 + i)) ∨ m (s1 + i) = 0 ∨ m (s2 + i) = 0 ∨ (0 < n ∧ i = n - 1) then
      .ok (i + 1, f (m (s1 + i)) - f (m (s2 + i)))
    else strncmpLoop m f s1 s2 n fuel (i + 1)

/-- `__dfsw_strcmp`, dfsan_custom.cpp 322-332. -/
def strcmpW (strict started : Bool) (L : Labels) (m : Mem) (sh : Shadow) (s1 s2 : Nat) :
    Res (Labels × Nat × Int) := do
  let (pos, r) ← strncmpLoop m schar s1 s2 0 (2 ^ 64) 0
  let (L, l) ← memcmpLabel strict started L sh s1 s2 pos
  .ok (L, l, r)

/-- `__dfsw_strncmp`, dfsan_custom.cpp 394-411. -/
def strncmpW (strict started : Bool) (L : Labels) (m : Mem) (sh : Shadow) (s1 s2 n : Nat) :
    Res (Labels × Nat × Int) :=
  if n = 0 then .ok (L, 0, 0) else do
    let (pos, r) ← strncmpLoop m schar s1 s2 n (2 ^ 64) 0
    let (L, l) ← memcmpLabel strict started L sh s1 s2 pos
    .ok (L, l, r)

/-- `tolower` in the C locale, on a `char` promoted to `int`. (Negative arguments other than EOF are
undefined in ISO C; the GNU library accepts them and, in this locale, returns them.) -/
def toLower (c : Int) : Int := if 65 ≤ c ∧ c ≤ 90 then c + 32 else c

/-- `char s1_lower = tolower(s1[i])`, dfsan_custom.cpp 349-350. -/
def lowerChar (b : Nat) : Int := toLower (schar b)

/-- `__dfsw_strcasecmp`, dfsan_custom.cpp 362-371. -/
def strcasecmpW (strict started : Bool) (L : Labels) (m : Mem) (sh : Shadow) (s1 s2 : Nat) :
    Res (Labels × Nat × Int) := do
  let (pos, r) ← strncmpLoop m lowerChar s1 s2 0 (2 ^ 64) 0
  let (L, l) ← memcmpLabel strict started L sh s1 s2 pos
  .ok (L, l, r)

/-- `__dfsw_strncasecmp`, dfsan_custom.cpp 433-445. -/
def strncasecmpW (strict started : Bool) (L : Labels) (m : Mem) (sh : Shadow) (s1 s2 n : Nat) :
    Res (Labels × Nat × Int) :=
  if n = 0 then .ok (L, 0, 0) else do
    let (pos, r) ← strncmpLoop m lowerChar s1 s2 n (2 ^ 64) 0
    let (L, l) ← memcmpLabel strict started L sh s1 s2 pos
    .ok (L, l, r)

/-- `__dfsw_strlen`, dfsan_custom.cpp 482-491. -/
def strlenW (strict started : Bool) (L : Labels) (m : Mem) (sh : Shadow) (s : Nat) :
    Res (Labels × Nat × Nat) := do
  let ret ← strlen m s
  if strict then .ok (L, 0, ret) else
    let (L, l) ← readLabel started L sh s (ret + 1)
    .ok (L, l, ret)

/-! ### Searching -/

/-- Loop of `dfsan_strchr_with_label`, dfsan_custom.cpp 122-131: `*bytes_read` and the position of
`match_pos`. The `char` is compared with the `int` argument. -/
def strchrLoop (m : Mem) (s : Nat) (c : Int) : Nat → Nat → Res (Nat × Option Nat)
  | 0, _ => .hang
  | fuel + 1, i =>
    if schar (m (s + i)) = c ∨ m (s + i) = 0 then
      .ok (i + 1, if m (s + i) = 0 ∧ c ≠ 0 then none else some i)
    else strchrLoop m s c fuel (i + 1)

/-- `dfsan_union(bytes, dfsan_union(a, b))`, the label combination at dfsan_custom.cpp 135-136,
1803-1804 and 1837-1839. Arguments are evaluated from left to right (clang). -/
def bytesAnd2 (started : Bool) (L : Labels) (sh : Shadow) (s len a b : Nat) : Res (Labels × Nat) := do
  let (L, x) ← readLabel started L sh s len
  let (L, y) ← union started L a b
  union started L x y

/-- `__dfsw_strchr`, dfsan_custom.cpp 140-147, through `dfsan_strchr_with_label`, 119-138. -/
def strchrW (strict started : Bool) (L : Labels) (m : Mem) (sh : Shadow) (s : Nat) (c : Int)
    (sLabel cLabel : Nat) : Res (Labels × Nat × Option Nat) := do
  let (read, pos) ← strchrLoop m s c (2 ^ 64) 0
  if strict then .ok (L, sLabel, pos) else
    let (L, l) ← bytesAnd2 started L sh s read sLabel cLabel
    .ok (L, l, pos)

/-- C library `memchr`. -/
def memchrLoop (m : Mem) (s : Nat) (c : Int) : Nat → Nat → Option Nat
  | 0, _ => none
  | k + 1, i => if (m (s + i) : Int) = c % 256 then some i else memchrLoop m s c k (i + 1)

/-- `__dfsw_memchr`, dfsan_custom.cpp 1793-1809. -/
def memchrW (strict started : Bool) (L : Labels) (m : Mem) (sh : Shadow) (s : Nat) (c : Int)
    (n sLabel cLabel : Nat) : Res (Labels × Nat × Option Nat) := do
  let ret := memchrLoop m s c n 0
  if strict then .ok (L, if ret.isSome then sLabel else 0, ret) else
    let len := match ret with
      | some i => i + 1
      | none => n
    let (L, l) ← bytesAnd2 started L sh s len sLabel cLabel
    .ok (L, l, ret)

/-- C library `strrchr` on a string of length `k - 1`: search from the end. -/
def strrchrLoop (m : Mem) (s : Nat) (c : Int) : Nat → Option Nat
  | 0 => none
  | k + 1 => if (m (s + k) : Int) = c % 256 then some k else strrchrLoop m s c k

/-- `__dfsw_strrchr`, dfsan_custom.cpp 1829-1843. -/
def strrchrW (strict started : Bool) (L : Labels) (m : Mem) (sh : Shadow) (s : Nat) (c : Int)
    (sLabel cLabel : Nat) : Res (Labels × Nat × Option Nat) := do
  let len ← strlen m s
  let ret := strrchrLoop m s c (len + 1)
  if strict then .ok (L, if ret.isSome then sLabel else 0, ret) else
    let (L, l) ← bytesAnd2 started L sh s (len + 1) sLabel cLabel
    .ok (L, l, ret)

/-- Do the `k` bytes at `a` and `b` agree? -/
def agree (m : Mem) (a b : Nat) : Nat → Bool
  | 0 => true
  | k + 1 => m (a + k) == m (b + k) && agree m a b k

/-- C library `strstr`: try the positions from `i` on, `k` of them. -/
def strstrLoop (m : Mem) (h n nl : Nat) : Nat → Nat → Option Nat
  | 0, _ => none
  | k + 1, i => if agree m (h + i) n nl then some i else strstrLoop m h n nl k (i + 1)

/-- `dfsan_union(dfsan_read_label(s, len), dfsan_union(dfsan_read_label(t, tlen), dfsan_union(a, b)))`,
dfsan_custom.cpp 174-177 and 1871-1874. -/
def bytes2And2 (started : Bool) (L : Labels) (sh : Shadow) (s len t tlen a b : Nat) :
    Res (Labels × Nat) := do
  let (L, x) ← readLabel started L sh s len
  let (L, y) ← bytesAnd2 started L sh t tlen a b
  union started L x y

/-- `__dfsw_strstr`, dfsan_custom.cpp 1862-1878. -/
def strstrW (strict started : Bool) (L : Labels) (m : Mem) (sh : Shadow) (h n hLabel nLabel : Nat) :
    Res (Labels × Nat × Option Nat) := do
  let hl ← strlen m h
  let nl ← strlen m n
  let ret := strstrLoop m h n nl (hl + 1 - nl) 0
  if strict then .ok (L, if ret.isSome then hLabel else 0, ret) else
    let len := match ret with
      | some i => i + nl
      | none => hl + 1
    let (L, l) ← bytes2And2 started L sh h len n (nl + 1) hLabel nLabel
    .ok (L, l, ret)

/-- Does the byte `b` occur among the `k` bytes at `a`? -/
def occurs (m : Mem) (a b : Nat) : Nat → Bool
  | 0 => false
  | k + 1 => m (a + k) == b || occurs m a b k

/-- C library `strpbrk`. -/
def strpbrkLoop (m : Mem) (s acc al : Nat) : Nat → Nat → Option Nat
  | 0, _ => none
  | k + 1, i => if occurs m acc (m (s + i)) al then some i else strpbrkLoop m s acc al k (i + 1)

/-- `__dfsw_strpbrk`, dfsan_custom.cpp 165-181. -/
def strpbrkW (strict started : Bool) (L : Labels) (m : Mem) (sh : Shadow)
    (s acc sLabel accLabel : Nat) : Res (Labels × Nat × Option Nat) := do
  let sl ← strlen m s
  let al ← strlen m acc
  let ret := strpbrkLoop m s acc al sl 0
  if strict then .ok (L, if ret.isSome then sLabel else 0, ret) else
    let read := (match ret with
      | some i => i
      | none => sl) + 1
    let (L, l) ← bytes2And2 started L sh s read acc (al + 1) sLabel accLabel
    .ok (L, l, ret)

/-! ### Converting -/

/-- `dfsan_strtolong_label`, dfsan_custom.cpp 1143-1154. `e` is `tmp_endptr - nptr`, set by the C
library. -/
def strtolongLabel (started : Bool) (L : Labels) (m : Mem) (sh : Shadow) (nptr e baseLabel : Nat) :
    Res (Labels × Nat) :=
  if 0 < e then do
    let (L, x) ← readLabel started L sh nptr (e + (if m (nptr + e) ≠ 0 then 0 else 1))
    union started L baseLabel x
  else .ok (L, 0)

/-- `dfsan_strtod_label`, dfsan_custom.cpp 1204-1214. -/
def strtodLabel (started : Bool) (L : Labels) (m : Mem) (sh : Shadow) (nptr e : Nat) :
    Res (Labels × Nat) :=
  if 0 < e then readLabel started L sh nptr (e + (if m (nptr + e) ≠ 0 then 0 else 1))
  else .ok (L, 0)

/-- `if (endptr) *endptr = *tmp_endptr;`, dfsan_custom.cpp 1138-1139, 1199-1200, 1247-1248, 1282-1283,
1315-1316: a plain store, no label is written. -/
def storeEnd (m : Mem) (endptr nptr e : Nat) : Mem :=
  if endptr ≠ 0 then m.write64 endptr (nptr + e) else m

/-- `__dfsw_strtol`, dfsan_custom.cpp 1172-1180 (with `dfsan_strtol`, 1134-1141), and likewise
`__dfsw_strtoll` (1252-1260), `__dfsw_strtoul` (1287-1295), `__dfsw_strtoull` (1320-1329). The library
function is not modelled: it converts a prefix of `e` bytes to the value `v`. The labels are those in
the shadow of the memory itself. -/
def strtolW {α : Type} (started : Bool) (L : Labels) (m : Mem) (nptr endptr e : Nat) (v : α)
    (baseLabel : Nat) : Res (Labels × Nat × α × Mem) := do
  let m := storeEnd m endptr nptr e
  let (L, l) ← strtolongLabel started L m (labelOf m) nptr e baseLabel
  .ok (L, l, v, m)

/-- `__dfsw_strtod`, dfsan_custom.cpp 1216-1223 (with `dfsan_strtod`, 1196-1202). -/
def strtodW {α : Type} (started : Bool) (L : Labels) (m : Mem) (nptr endptr e : Nat) (v : α) :
    Res (Labels × Nat × α × Mem) := do
  let m := storeEnd m endptr nptr e
  let (L, l) ← strtodLabel started L m (labelOf m) nptr e
  .ok (L, l, v, m)

end CustomCmp
end Verif
