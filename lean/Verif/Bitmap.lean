import Verif.Base
/-
Model of BitmapSectionBase, /repo/polytracker/include/taintdag/bitmap_section.h.

`W` is bits_per_bucket (8 * sizeof(BucketType)), `cap` is BitCapacity, a bucket is a natural number
below 2^W. Nothing in `set` and `set_range` depends on the bucket contents except inside `set_bits`
and `update_buckets_used`; both functions are therefore modelled as the list of bucket actions they
perform. C12 runs the actions in order, C13 interleaves the loads and compare-exchanges of several
threads.
-/
namespace Verif

/-- One access of the section to its memory. -/
inductive BAct where
  /-- `set_bits(bucket(b), m)`, bitmap_section.h 212-221 -/
  | bits (b m : Nat)
  /-- `bucket(b).store(all_bits_set)`, bitmap_section.h 142-145 -/
  | fill (b : Nat)
  /-- `update_buckets_used(b)`, bitmap_section.h 226-234 -/
  | used (b : Nat)
  deriving DecidableEq, Repr

structure Bitmap where
  W : Nat
  cap : Nat
  /-- mem_ as an array of buckets -/
  buckets : List Nat
  /-- buckets_used_ -/
  used : Nat
  deriving DecidableEq, Repr

namespace Bitmap

/-- bucket_count, bitmap_section.h 48-50. -/
def bucketCount (W cap : Nat) : Nat := (cap + W - 1) / W

/-- all_bits_set, bitmap_section.h 176-177. -/
def allBits (W : Nat) : Nat := 2 ^ W - 1

/-- Constructor, bitmap_section.h 64-73, on zeroed memory of exactly allocation_size bytes (this is
what OutputFile::do_allocation provides; the file is fresh and zero-filled, see Storage). -/
def empty (W cap : Nat) : Bitmap :=
  { W, cap, buckets := List.replicate (bucketCount W cap) 0, used := 0 }

/-- Effect of one action when it runs without interference. The Boolean is the result of `set_bits`
("already set"), meaningless for the other two. A bucket outside the memory is undefined. -/
def act (B : Bitmap) : BAct → Res (Bitmap × Bool)
  | .bits b m =>
    match B.buckets[b]? with
    | none => .ub
    | some old =>
      if old &&& m = m then .ok (B, true)
      else .ok ({ B with buckets := B.buckets.set b (old ||| m) }, false)
  | .fill b =>
    match B.buckets[b]? with
    | none => .ub
    | some _ => .ok ({ B with buckets := B.buckets.set b (allBits B.W) }, false)
  | .used b =>
    if B.used > b + 1 then .ok (B, false) else .ok ({ B with used := b + 1 }, false)

/-- Several actions in a row. -/
def acts (B : Bitmap) : List BAct → Res Bitmap
  | [] => .ok B
  | a :: as => do
    let (B, _) ← act B a
    acts B as

/-- mask(bitno), bitmap_section.h 183-186. -/
def mask (W bitno : Nat) : Nat := 1 <<< (bitno % W)

/-- Body of `set` after the capacity check, bitmap_section.h 93-104. -/
def setActs (W bitno : Nat) : List BAct := [.bits (bitno / W) (mask W bitno), .used (bitno / W)]

/-- The mask for the first, partially covered bucket, bitmap_section.h 125-131. For bucket types
narrower than int the C++ expression is computed in int and truncated; the `&` makes that the same
value. -/
def preMask (W s e : Nat) : Nat := ((allBits W <<< s) % 2 ^ W) &&& (allBits W >>> (W - e))

/-- Body of `set_range` after the checks, bitmap_section.h 118-157. -/
def setRangeActs (W bit_begin n : Nat) : List BAct :=
  let cur := bit_begin / W
  let s := bit_begin % W
  let e := min ((s + n) % 2 ^ 64) W
  let pre := if s ≠ 0 then [BAct.bits cur (preMask W s e)] else []
  let n1 := if s ≠ 0 then n - (e - s) else n
  let cur1 := if s ≠ 0 then cur + 1 else cur
  let full := n1 / W
  let cur2 := cur1 + full
  let n2 := n1 - full * W
  let post := if n2 > 0 then [BAct.bits cur2 (allBits W >>> (W - n2))] else []
  pre ++ ((List.range' cur1 full).map BAct.fill ++ (post ++ [.used cur2]))

/-- `set`, bitmap_section.h 90-105. -/
def set (B : Bitmap) (bitno : Nat) : Res (Bitmap × Bool) :=
  if bitno ≥ B.cap then .fatal
  else do
    let (B, ret) ← B.act (.bits (bitno / B.W) (mask B.W bitno))
    let (B, _) ← B.act (.used (bitno / B.W))
    return (B, ret)

/-- `set_range`, bitmap_section.h 110-158. The capacity check is computed in size_t. -/
def setRange (B : Bitmap) (bit_begin n : Nat) : Res Bitmap :=
  if n = 0 then .ok B
  else if bit_begin ≥ B.cap then .fatal
  else if (bit_begin + n) % 2 ^ 64 > B.cap then .fatal
  else B.acts (setRangeActs B.W bit_begin n)

/-- `is_set`, bitmap_section.h 162-166. -/
def isSet (B : Bitmap) (bitno : Nat) : Res Bool :=
  if bitno ≥ B.cap then .fatal
  else match B.buckets[bitno / B.W]? with
    | none => .ub
    | some v => .ok (v &&& mask B.W bitno != 0)

/-- `size`, bitmap_section.h 84-86, in bytes. -/
def size (B : Bitmap) : Nat := B.used * (B.W / 8)

/-- allocation_size, bitmap_section.h 53. -/
def allocationSize (W cap : Nat) : Nat := bucketCount W cap * (W / 8)

end Bitmap
end Verif
