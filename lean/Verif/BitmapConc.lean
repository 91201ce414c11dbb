import Verif.BitmapLemmas
/-
Concurrent use of BitmapSectionBase (/repo/polytracker/include/taintdag/bitmap_section.h): any
number of threads, each performing its own list of insertions, interleaved at the granularity of
single atomic operations (load, compare_exchange_weak, store). All atomics of the class are relaxed;
the model interleaves them on one shared memory, i.e. it assumes per-location coherence, and the
theorems only relate different locations after all threads have finished.
-/
namespace Verif
open Spec

/-- Code left to execute by a thread. The tag of a `set_bits` is the index of the `set` call whose
result it is (`none` inside `set_range`, which drops the result). `old` is the local variable of the
compare-exchange loops, once loaded. -/
structure BThread where
  code : List (BAct × Option Nat)
  old : Option Nat

/-- Shared memory, the threads, and the observable results: (thread, index, answer) for every
finished `set` call, in the order in which the answers were determined. -/
structure BSys where
  W : Nat
  buckets : List Nat
  used : Nat
  threads : Nat → BThread
  log : List (Nat × Nat × Bool)

namespace BSys

/-- The atomic operations of `set` (bitmap_section.h 90-105) and `set_range` (110-158). -/
def compile (W : Nat) : Ins → List (BAct × Option Nat)
  | .one i => [(.bits (i / W) (Bitmap.mask W i), some i), (.used (i / W), none)]
  | .range b n => if n = 0 then [] else (Bitmap.setRangeActs W b n).map (·, none)

/-- All threads at the start of their programs, on zeroed memory. -/
def init (W cap : Nat) (ps : Nat → List Ins) : BSys :=
  { W, buckets := List.replicate (Bitmap.bucketCount W cap) 0, used := 0,
    threads := fun t => { code := (ps t).flatMap (compile W), old := none }, log := [] }

def setThread (S : BSys) (t : Nat) (th : BThread) : BSys :=
  { S with threads := fun u => if u = t then th else S.threads u }

/-- Thread `t` executes one atomic operation. `spurious` makes a compare_exchange_weak fail although
the value matches. set_bits: lines 212-221, store: 144, update_buckets_used: 226-234. -/
def step (S : BSys) (t : Nat) (spurious : Bool) : Res BSys :=
  match (S.threads t).code with
  | [] => .ok S
  | (.bits b m, tag) :: rest =>
    match S.buckets[b]? with
    | none => .ub
    | some cur =>
      match (S.threads t).old with
      | none => .ok (S.setThread t { code := (.bits b m, tag) :: rest, old := some cur })
      | some old =>
        let answer (S : BSys) (r : Bool) : BSys :=
          match tag with
          | none => S
          | some i => { S with log := S.log ++ [(t, i, r)] }
        if old &&& m = m then .ok (answer (S.setThread t { code := rest, old := none }) true)
        else if cur = old ∧ spurious = false then
          .ok (answer ({ S with buckets := S.buckets.set b (old ||| m) }.setThread t
            { code := rest, old := none }) false)
        else .ok (S.setThread t { code := (.bits b m, tag) :: rest, old := some cur })
  | (.fill b, _) :: rest =>
    match S.buckets[b]? with
    | none => .ub
    | some _ =>
      .ok ({ S with buckets := S.buckets.set b (Bitmap.allBits S.W) }.setThread t
        { code := rest, old := none })
  | (.used c, tag) :: rest =>
    match (S.threads t).old with
    | none => .ok (S.setThread t { code := (.used c, tag) :: rest, old := some S.used })
    | some old =>
      if old > c + 1 then .ok (S.setThread t { code := rest, old := none })
      else if S.used = old ∧ spurious = false then
        .ok ({ S with used := c + 1 }.setThread t { code := rest, old := none })
      else .ok (S.setThread t { code := (.used c, tag) :: rest, old := some S.used })

/-- A schedule: which thread moves next, and whether its compare-exchange fails spuriously. -/
def run (S : BSys) : List (Nat × Bool) → Res BSys
  | [] => .ok S
  | (t, sp) :: rest => do
    let S ← S.step t sp
    S.run rest

/-- All threads have finished. -/
def Done (S : BSys) : Prop := ∀ t, (S.threads t).code = []

/-- `is_set(i)`, bitmap_section.h 162-166, for an index below the capacity. -/
def isSet (S : BSys) (i : Nat) : Bool :=
  match S.buckets[i / S.W]? with
  | none => false
  | some v => v &&& Bitmap.mask S.W i != 0

end BSys
end Verif
