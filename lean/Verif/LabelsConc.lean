import Verif.Labels
import Verif.Spec.History
/-
Concurrent use of the label section (/repo/polytracker/include/taintdag/labels.h, section.h): any
number of threads call union_taint, create_source_labels and affects_control_flow. A step of a thread
is one load or store of a 64-bit word of the section, or one acquisition / release of the section's
mutex; threads are interleaved arbitrarily on one shared memory.

Simplified: sequentially consistent memory with indivisible 64-bit words (the comment in labels.h
179-184 relies on the latter; formally the unlocked accesses of `affects_control_flow` are data
races). The section memory is a list whose length is the write position `write_it_`; accesses past it
are `ub`. Thread-local computation is part of the next step.
-/
namespace Verif
open Spec

/-- Where a thread is. -/
inductive PC where
  | idle
  /-- union_taint: about to read the left operand (labels.h 60) -/
  | uLeft (l r : Nat)
  /-- about to read the right operand (61) -/
  | uRight (l r : Nat) (lval : Taint)
  /-- duplicate_check: about to call `end()`, which locks (95, section.h 33-36, 191) -/
  | uSize (l r encoded : Nat)
  /-- scanning backwards: `i` one past the next index, `n` entries left (104-106) -/
  | uScan (l r encoded i n : Nat)
  /-- construct: about to lock and allocate (75, section.h 139, 54-70) -/
  | uAlloc (l r encoded : Nat)
  /-- holding the lock, about to write the word (section.h 141-142) -/
  | uWrite (l r encoded idx : Nat)
  /-- about to release the lock and return the index (76) -/
  | uUnlock (l r idx : Nat)
  /-- create_source_labels: about to lock and allocate (labels.h 41, section.h 157-158) -/
  | sAlloc (src off n : Nat)
  /-- holding the lock with `k` words written (section.h 159-162) -/
  | sWrite (src off n first k : Nat)
  /-- affects_control_flow of `x`: about to load the word of child `c` in `add_to_q` (labels.h 126) -/
  | mChild (x : Nat) (q : LabelDeq) (c : Nat) (rest : List Nat)
  /-- `c` is a source: about to load its word in `set_affects_control_flow` (131, 187) -/
  | mSrcLoad (x : Nat) (q : LabelDeq) (c : Nat) (rest : List Nat)
  /-- about to store the word with the flag (187) -/
  | mSrcStore (x : Nat) (q : LabelDeq) (c : Nat) (rest : List Nat) (w : Nat)
  /-- at the head of the loop (170) -/
  | mPop (x : Nat) (q : LabelDeq)
  /-- about to load the word of the label taken from the queue (172) -/
  | mEnc (x : Nat) (q : LabelDeq) (l : Nat)
  /-- about to load it again in `set_affects_control_flow` (174, 187) -/
  | mSetLoad (x : Nat) (q : LabelDeq) (l encoded : Nat)
  /-- about to store it with the flag, and then visit the children (187, 175) -/
  | mSetStore (x : Nat) (q : LabelDeq) (l encoded w : Nat)
  deriving DecidableEq, Repr

/-- Shared memory, the mutex, the threads, and the completed calls in the order of their completion. -/
structure CSys where
  cap : Nat
  mem : List Nat
  lock : Option Nat
  threads : Nat → PC
  log : List Event

namespace CSys
open Labels

def goto (S : CSys) (t : Nat) (pc : PC) : CSys :=
  { S with threads := fun u => if u = t then pc else S.threads u }

/-- Thread `t` returns from its call. -/
def finish (S : CSys) (t : Nat) (e : Event) : CSys :=
  { (S.goto t .idle) with log := S.log ++ [e] }

/-- Continue with the children still to be visited, then with the loop. -/
def next (x : Nat) (q : LabelDeq) : List Nat → PC
  | [] => .mPop x q
  | c :: rest => .mChild x q c rest

/-- One step of thread `t`; `none` if it has nothing to do or waits for the mutex. -/
def step (S : CSys) (t : Nat) : Option (Res CSys) :=
  match S.threads t with
  | .idle => none
  | .uLeft l r => some do
    let lval ← decode (← getRes S.mem l)
    pure (S.goto t (.uRight l r lval))
  | .uRight l r lval => some do
    let rval ← decode (← getRes S.mem r)
    match compute l lval r rval with
    | .label u => pure (S.finish t (.union l r u))
    | .taint ty => pure (S.goto t (.uSize l r (encode ty)))
  | .uSize l r encoded =>
    if S.lock = none then
      let dist := S.mem.length - max l r
      let n := if dist ≥ redundantLabelRange then redundantLabelRange else dist
      some (.ok (S.goto t (.uScan l r encoded S.mem.length n)))
    else none
  | .uScan l r encoded i n => some
    (match n with
    | 0 => .ok (S.goto t (.uAlloc l r encoded))
    | n + 1 => do
      let s ← getRes S.mem (i - 1)
      if equalIgnoreCf s encoded then pure (S.finish t (.union l r (i - 1)))
      else pure (S.goto t (.uScan l r encoded (i - 1) n)))
  | .uAlloc l r encoded =>
    if S.lock = none then
      if S.mem.length + 1 ≤ S.cap then
        some (.ok ({ S with mem := S.mem ++ [0], lock := some t }.goto t
          (.uWrite l r encoded S.mem.length)))
      else some .fatal
    else none
  | .uWrite l r encoded idx =>
    if idx < S.mem.length then
      some (.ok ({ S with mem := S.mem.set idx encoded }.goto t (.uUnlock l r idx)))
    else some .ub
  | .uUnlock l r idx => some (.ok ({ S with lock := none }.finish t (.union l r idx)))
  | .sAlloc src off n =>
    if S.lock = none then
      if S.mem.length + n ≤ S.cap then
        some (.ok ({ S with mem := S.mem ++ List.replicate n 0, lock := some t }.goto t
          (.sWrite src off n S.mem.length 0)))
      else some .ub
    else none
  | .sWrite src off n first k =>
    if k < n then
      if first + k < S.mem.length then
        some (.ok ({ S with mem := S.mem.set (first + k) (encode (.source false src (off + k))) }.goto t
          (.sWrite src off n first (k + 1))))
      else some .ub
    else some (.ok ({ S with lock := none }.finish t (.source src off n first)))
  | .mChild x q c rest => some do
    let encoded ← getRes S.mem c
    if checkCf encoded then pure (S.goto t (next x q rest))
    else if isSourceTaint encoded then pure (S.goto t (.mSrcLoad x q c rest))
    else do
      let q ← q.pushBack queueSlots c
      pure (S.goto t (next x q rest))
  | .mSrcLoad x q c rest => some do
    let w ← getRes S.mem c
    pure (S.goto t (.mSrcStore x q c rest w))
  | .mSrcStore x q c rest w =>
    if c < S.mem.length then
      some (.ok ({ S with mem := S.mem.set c (addCf w) }.goto t (next x q rest)))
    else some .ub
  | .mPop x q => some
    (if q.isEmpty then .ok (S.finish t (.mark x))
    else do
      let (l, q) ← q.popFront queueSlots
      pure (S.goto t (.mEnc x q l)))
  | .mEnc x q l => some do
    let encoded ← getRes S.mem l
    pure (S.goto t (.mSetLoad x q l encoded))
  | .mSetLoad x q l encoded => some do
    let w ← getRes S.mem l
    pure (S.goto t (.mSetStore x q l encoded w))
  | .mSetStore x q l encoded w =>
    if l < S.mem.length then some do
      let ty ← decode encoded
      pure ({ S with mem := S.mem.set l (addCf w) }.goto t (next x q (childList ty)))
    else some .ub

/-- Thread `t` enters `union_taint(l, r)` (labels.h 55-58). -/
def callUnion (S : CSys) (t l r : Nat) : CSys :=
  if l = r then S.finish t (.union l r l) else S.goto t (.uLeft l r)

/-- Thread `t` enters `create_source_labels(src, off, n)`. -/
def callSource (S : CSys) (t src off n : Nat) : CSys := S.goto t (.sAlloc src off n)

/-- Thread `t` enters `affects_control_flow(x)` (labels.h 118-142; the first `add_to_q` and `push_back`
work like the later ones). -/
def callMark (S : CSys) (t x : Nat) : CSys := S.goto t (.mChild x (LabelDeq.new queueSlots) x [])

/-- The section as its constructor leaves it, no thread inside. -/
def init (cap : Nat) : CSys := ⟨cap, [0], none, fun _ => .idle, []⟩

/-- The label was returned by the call. -/
def Returned : Event → Nat → Prop
  | .source _ _ n first, l => first ≤ l ∧ l < first + n
  | .union _ _ u, l => l = u
  | .mark _, _ => False

/-- Some completed call returned the label. -/
def Known (S : CSys) (l : Nat) : Prop := ∃ e ∈ S.log, Returned e l

/-- All states reachable when threads call with labels returned by completed calls of any thread, and
read non-empty parts of sources with index below 256 at offsets below 2^54. -/
inductive Reach (cap : Nat) : CSys → Prop where
  | init : Reach cap (init cap)
  | step {S t S'} : Reach cap S → S.step t = some (.ok S') → Reach cap S'
  | union {S t l r} : Reach cap S → S.threads t = .idle → S.Known l → S.Known r →
      Reach cap (S.callUnion t l r)
  | source {S t src off n} : Reach cap S → S.threads t = .idle → src < 256 → 0 < n → off + n ≤ 2 ^ 54 →
      Reach cap (S.callSource t src off n)
  | mark {S t x} : Reach cap S → S.threads t = .idle → S.Known x → Reach cap (S.callMark t x)

end CSys
end Verif
