import Verif.LabelsConcView
/-
The label section under weak memory (/repo/polytracker/include/taintdag/labels.h, section.h). The
unlocked loads and stores of `union_taint` and `affects_control_flow` (labels.h 60-61, 104-106, 126,
172, 187) are plain accesses of shared words, so a thread need not see the latest store to a word.
Two machines for the calls of LabelsConc.lean:

* `WSys`: a load outside the mutex gives any value the word ever had since it was first published;
  different loads are unrelated, not even two loads of one thread from one word. This allows all
  reorderings of the flag stores. A label reaches a thread only after the word it names was stored
  (release and acquire of the mutex, and of the label itself).
* `TSys`: x86-TSO. Every thread has a first-in first-out buffer of its stores; a load takes the
  youngest store to that word in the thread's own buffer, else the shared memory. The mutex is
  acquired by a locked instruction, which waits for the own buffer to be empty; the store that
  releases it goes through the buffer like any other. Labels travel between threads through shadow
  memory: a store of a label sits in the buffer behind the stores made before, so another thread can
  have the label only once they have reached memory. `ret` stands for the first such store.

Simplified: indivisible 64-bit words (the comment in labels.h 180-184 relies on it); no reordering by
the compiler beyond what the machines allow; accesses past the write position are `ub`.
-/
namespace Verif
open Spec

/-- The label graph read from `n` words (labels.h 50-52). -/
def wordGraph (n : Nat) (f : Nat → Nat) : Graph := fun l =>
  if l < n then (match decode (f l) with | .ok ty => some ty | _ => none) else none

namespace CSys
open Labels

/-- The word of the section that the next step loads without holding the mutex (labels.h 60, 61,
104-106, 126, 187, 172). -/
def loads : PC → Option Nat
  | .uLeft l _ => some l
  | .uRight _ r _ => some r
  | .uScan _ _ _ i (_ + 1) => some (i - 1)
  | .mChild _ _ c _ => some c
  | .mSrcLoad _ _ c _ => some c
  | .mEnc _ _ l => some l
  | .mSetLoad _ _ l _ => some l
  | _ => none

/-- What the thread does once it has loaded the word `w`: where it goes on, and the call it completes
(the same lines). -/
def react : PC → Nat → Res (PC × List Event)
  | .uLeft l r, w => do
    let lval ← decode w
    pure (.uRight l r lval, [])
  | .uRight l r lval, w => do
    let rval ← decode w
    match compute l lval r rval with
    | .label u => pure (.idle, [.union l r u])
    | .taint ty => pure (.uSize l r (encode ty), [])
  | .uScan l r encoded i (n + 1), w =>
    if equalIgnoreCf w encoded then .ok (.idle, [.union l r (i - 1)])
    else .ok (.uScan l r encoded (i - 1) n, [])
  | .mChild x q c rest, w =>
    if checkCf w then .ok (next x q rest, [])
    else if isSourceTaint w then .ok (.mSrcLoad x q c rest, [])
    else do
      let q ← q.pushBack queueSlots c
      pure (next x q rest, [])
  | .mSrcLoad x q c rest, w => .ok (.mSrcStore x q c rest w, [])
  | .mEnc x q l, w => .ok (.mSetLoad x q l w, [])
  | .mSetLoad x q l encoded, w => .ok (.mSetStore x q l encoded w, [])
  | pc, _ => .ok (pc, [])

/-- Thread `t` goes on at `p.1`, having completed the calls `p.2`. -/
def become (S : CSys) (t : Nat) (p : PC × List Event) : CSys :=
  { (S.goto t p.1) with log := S.log ++ p.2 }

/-- The label whose word the next step stores, with the flag, without holding the mutex
(`set_affects_control_flow`, labels.h 185-188). -/
def stores : PC → Option Nat
  | .mSrcStore _ _ c _ _ => some c
  | .mSetStore _ _ l _ _ => some l
  | _ => none

/-- A load in the machine of LabelsConc.lean is `react` applied to the word in memory. -/
theorem step_loads {S : CSys} {t a : Nat} (h : loads (S.threads t) = some a) :
    S.step t = some (do
      let w ← getRes S.mem a
      let p ← react (S.threads t) w
      pure (S.become t p)) := by
  unfold CSys.step
  cases hpc : S.threads t with
  | uLeft l r =>
    rw [hpc] at h; simp only [loads, Option.some.injEq] at h; subst h
    cases hw : getRes S.mem l <;> simp [react, hw]
    rename_i w
    cases hd : decode w <;> simp [hw, hd, become, goto]
  | uRight l r lval =>
    rw [hpc] at h; simp only [loads, Option.some.injEq] at h; subst h
    cases hw : getRes S.mem r <;> simp [react, hw]
    rename_i w
    cases hd : decode w <;> simp [hw, hd]
    rename_i rv
    cases hc : compute l lval r rv <;> simp [hw, hd, hc, become, goto, finish]
  | uScan l r encoded i n =>
    rw [hpc] at h
    cases n with
    | zero => cases h
    | succ n =>
      simp only [loads, Option.some.injEq] at h; subst h
      cases hw : getRes S.mem (i - 1) <;> simp [react, hw]
      rename_i w
      by_cases he : equalIgnoreCf w encoded = true <;> simp [hw, he, become, goto, finish]
  | mChild x q c rest =>
    rw [hpc] at h; simp only [loads, Option.some.injEq] at h; subst h
    cases hw : getRes S.mem c <;> simp [react, hw]
    rename_i w
    by_cases h1 : checkCf w = true
    · simp [hw, h1, become, goto]
    · by_cases h2 : isSourceTaint w = true
      · simp [hw, h1, h2, become, goto]
      · cases hq : q.pushBack queueSlots c <;> simp [hw, hq, h1, h2, become, goto]
  | mSrcLoad x q c rest =>
    rw [hpc] at h; simp only [loads, Option.some.injEq] at h; subst h
    cases hw : getRes S.mem c <;> simp [react, hw, become, goto]
  | mEnc x q l =>
    rw [hpc] at h; simp only [loads, Option.some.injEq] at h; subst h
    cases hw : getRes S.mem l <;> simp [react, hw, become, goto]
  | mSetLoad x q l encoded =>
    rw [hpc] at h; simp only [loads, Option.some.injEq] at h; subst h
    cases hw : getRes S.mem l <;> simp [react, hw, become, goto]
  | _ => rw [hpc] at h; cases h

end CSys

/-- `sys` holds the last value stored to each word; `old` the values words had before. -/
structure WSys where
  sys : CSys
  old : Nat → List Nat

namespace WSys
open CSys

/-- A load of word `a` may give `w`. -/
def Has (S : WSys) (a w : Nat) : Prop := S.sys.mem[a]? = some w ∨ w ∈ S.old a

/-- A store of the flag replaces a value, which may still be seen. -/
def past (S : WSys) (t a : Nat) : List Nat :=
  if stores (S.sys.threads t) = some a then S.sys.mem[a]?.toList ++ S.old a else S.old a

/-- One step of thread `t`. -/
inductive Step (S : WSys) (t : Nat) : Res WSys → Prop where
  /-- loads a value of word `a` -/
  | load {a w : Nat} : loads (S.sys.threads t) = some a → S.Has a w →
      Step S t (do
        let p ← react (S.sys.threads t) w
        pure ⟨S.sys.become t p, S.old⟩)
  /-- loads past the write position -/
  | wild {a : Nat} : loads (S.sys.threads t) = some a → S.sys.mem.length ≤ a → Step S t .ub
  /-- anything else -/
  | other {R : Res CSys} : loads (S.sys.threads t) = none → S.sys.step t = some R →
      Step S t (do
        let S' ← R
        pure ⟨S', S.past t⟩)

/-- As the constructor of the section leaves it. -/
def init (cap : Nat) : WSys := ⟨CSys.init cap, fun _ => []⟩

/-- All states reachable by the calls of LabelsConc.lean. -/
inductive Reach (cap : Nat) : WSys → Prop where
  | init : Reach cap (init cap)
  | step {S t S'} : Reach cap S → Step S t (.ok S') → Reach cap S'
  | union {S t l r} : Reach cap S → S.sys.threads t = .idle → S.sys.Known l → S.sys.Known r →
      Reach cap ⟨S.sys.callUnion t l r, S.old⟩
  | source {S t src off n} : Reach cap S → S.sys.threads t = .idle → src < 256 → 0 < n → off + n ≤ 2 ^ 54 →
      Reach cap ⟨S.sys.callSource t src off n, S.old⟩
  | mark {S t x} : Reach cap S → S.sys.threads t = .idle → S.sys.Known x →
      Reach cap ⟨S.sys.callMark t x, S.old⟩

end WSys

/-- What waits in a store buffer. -/
inductive Item where
  /-- word `a` of the section := `w` -/
  | word (a w : Nat)
  /-- `write_it_` := `n` (section.h 69) -/
  | size (n : Nat)
  /-- the mutex is released (end of the `WriteCtx`, section.h 48, or of `size()`, 33-35) -/
  | unlock
  /-- the call returned and its result was passed on -/
  | ret (e : Event)
  deriving DecidableEq, Repr

/-- Shared memory, store buffers (oldest first) and threads; `seen` are the completed calls whose
result other threads can have, `log` all completed calls. -/
structure TSys where
  cap : Nat
  mem : Nat → Nat
  size : Nat
  lock : Option Nat
  seen : List Event
  buf : Nat → List Item
  threads : Nat → PC
  log : List Event

namespace TSys
open Labels CSys

/-- Memory after the stores of a buffer. -/
def after (m : Nat → Nat) : List Item → Nat → Nat
  | [] => m
  | .word a w :: b => after (fun x => if x = a then w else m x) b
  | _ :: b => after m b

/-- Write position after the stores of a buffer. -/
def sizeAfter (s : Nat) : List Item → Nat
  | [] => s
  | .size n :: b => sizeAfter n b
  | _ :: b => sizeAfter s b

/-- The word `a` as thread `t` loads it. -/
def load (S : TSys) (t a : Nat) : Nat := after S.mem (S.buf t) a

/-- The write position as thread `t` sees it. -/
def sizeFor (S : TSys) (t : Nat) : Nat := sizeAfter S.size (S.buf t)

/-- Thread `t` stores and goes on, completing calls. -/
def push (S : TSys) (t : Nat) (items : List Item) (pc : PC) (es : List Event) : TSys :=
  { S with
    buf := fun u => if u = t then S.buf t ++ items ++ es.map .ret else S.buf u
    threads := fun u => if u = t then pc else S.threads u
    log := S.log ++ es }

/-- One step of the program in thread `t`; `none` if it has nothing to do or has to wait. -/
def step (S : TSys) (t : Nat) : Option (Res TSys) :=
  match loads (S.threads t) with
  | some a => some (
    if a < S.sizeFor t then do
      let p ← react (S.threads t) (S.load t a)
      pure (S.push t [] p.1 p.2)
    else .ub)
  | none =>
    match S.threads t with
    | .uSize l r encoded =>
      if S.lock = none ∧ S.buf t = [] then
        let dist := S.size - max l r
        let n := if dist ≥ redundantLabelRange then redundantLabelRange else dist
        some (.ok ({ S with lock := some t }.push t [.unlock] (.uScan l r encoded S.size n) []))
      else none
    | .uScan l r encoded _ _ => some (.ok (S.push t [] (.uAlloc l r encoded) []))
    | .uAlloc l r encoded =>
      if S.lock = none ∧ S.buf t = [] then
        if S.size + 1 ≤ S.cap then
          some (.ok ({ S with lock := some t }.push t [.size (S.size + 1)] (.uWrite l r encoded S.size) []))
        else some .fatal
      else none
    | .uWrite l r encoded idx =>
      if idx < S.sizeFor t then some (.ok (S.push t [.word idx encoded] (.uUnlock l r idx) [])) else some .ub
    | .uUnlock l r idx => some (.ok (S.push t [.unlock] .idle [.union l r idx]))
    | .sAlloc src off n =>
      if S.lock = none ∧ S.buf t = [] then
        if S.size + n ≤ S.cap then
          some (.ok ({ S with lock := some t }.push t [.size (S.size + n)] (.sWrite src off n S.size 0) []))
        else some .ub
      else none
    | .sWrite src off n first k =>
      if k < n then
        if first + k < S.sizeFor t then
          some (.ok (S.push t [.word (first + k) (encode (.source false src (off + k)))]
            (.sWrite src off n first (k + 1)) []))
        else some .ub
      else some (.ok (S.push t [.unlock] .idle [.source src off n first]))
    | .mSrcStore x q c rest w =>
      if c < S.sizeFor t then some (.ok (S.push t [.word c (addCf w)] (next x q rest) [])) else some .ub
    | .mPop x q => some
      (if q.isEmpty then .ok (S.push t [] .idle [.mark x])
      else do
        let (l, q) ← q.popFront queueSlots
        pure (S.push t [] (.mEnc x q l) []))
    | .mSetStore x q l encoded w =>
      if l < S.sizeFor t then some do
        let ty ← decode encoded
        pure (S.push t [.word l (addCf w)] (next x q (childList ty)) [])
      else some .ub
    | _ => none

/-- The oldest store in the buffer of thread `t` reaches memory. -/
def commit (S : TSys) (t : Nat) : Option TSys :=
  match S.buf t with
  | [] => none
  | i :: b =>
    let S' := { S with buf := fun u => if u = t then b else S.buf u }
    some (match i with
    | .word a w => { S' with mem := fun x => if x = a then w else S.mem x }
    | .size n => { S' with size := n }
    | .unlock => { S' with lock := none }
    | .ret e => { S' with seen := S.seen ++ [e] })

/-- Thread `t` can have the label: a call whose result reached memory returned it, or a call of its
own. -/
def KnownTo (S : TSys) (t l : Nat) : Prop := ∃ e, (e ∈ S.seen ∨ .ret e ∈ S.buf t) ∧ Returned e l

/-- Thread `t` enters `union_taint(l, r)` (labels.h 55-58). -/
def callUnion (S : TSys) (t l r : Nat) : TSys :=
  if l = r then S.push t [] .idle [.union l r l] else S.push t [] (.uLeft l r) []

/-- Thread `t` enters `create_source_labels(src, off, n)` (labels.h 38). -/
def callSource (S : TSys) (t src off n : Nat) : TSys := S.push t [] (.sAlloc src off n) []

/-- Thread `t` enters `affects_control_flow(x)` (labels.h 118). -/
def callMark (S : TSys) (t x : Nat) : TSys := S.push t [] (.mChild x (LabelDeq.new queueSlots) x []) []

/-- As the constructor of the section leaves it: word 0 stored, everything else zero. -/
def init (cap : Nat) : TSys := ⟨cap, fun _ => 0, 1, none, [], fun _ => [], fun _ => .idle, []⟩

/-- All states reachable when threads call with labels they can have. -/
inductive Reach (cap : Nat) : TSys → Prop where
  | init : Reach cap (init cap)
  | step {S t S'} : Reach cap S → S.step t = some (.ok S') → Reach cap S'
  | commit {S t S'} : Reach cap S → S.commit t = some S' → Reach cap S'
  | union {S t l r} : Reach cap S → S.threads t = .idle → S.KnownTo t l → S.KnownTo t r →
      Reach cap (S.callUnion t l r)
  | source {S t src off n} : Reach cap S → S.threads t = .idle → src < 256 → 0 < n → off + n ≤ 2 ^ 54 →
      Reach cap (S.callSource t src off n)
  | mark {S t x} : Reach cap S → S.threads t = .idle → S.KnownTo t x → Reach cap (S.callMark t x)

/-- The label graph as thread `t` reads it. -/
def view (S : TSys) (t : Nat) : Graph := wordGraph (S.sizeFor t) (S.load t)

/-- The label graph in shared memory. -/
def graph (S : TSys) : Graph := wordGraph S.size S.mem

end TSys
end Verif
