import Verif.Signal
import Verif.OutParamLemmas
import Verif.Props.C58
/- C59: signal actions of the instrumented program. -/
namespace Verif
open Spec Spec.Signal Sig OutParam DfsanMem

/-- Operations on signal numbers of the table, with handlers that are functions of the program. -/
def Proper (code : Code) : SigOp → Prop
  | .sigaction s act _ => 0 ≤ s ∧ s < 1024 ∧
    ∀ a, act = some a → a.handler ≠ code.sigHandler ∧ a.handler ≠ code.sigAction
  | .deliver s => 0 ≤ s ∧ s < 1024

namespace Sig

/-- What the kernel holds for an action of the program. -/
def wrapped (code : Code) (a : Action) : Action :=
  if a.handler = 0 ∨ a.handler = 1 then a
  else { a with handler := if a.siginfo then code.sigAction else code.sigHandler }

/-- The code of the runtime: two different functions. -/
structure Code.Ok (code : Code) : Prop where
  h : 1 < code.sigHandler
  a : 1 < code.sigAction
  ne : code.sigHandler ≠ code.sigAction

/-- Correspondence of the instrumented and the plain program. -/
structure Rel (code : Code) (allowed : Int → Bool → Bool) (S : St) (k : Kernel) : Prop where
  kern : ∀ s, S.kern s = wrapped code (k s)
  table : ∀ s, 0 ≤ s → 1 < (k s).handler → S.table s.toNat = (k s).handler
  fixed : ∀ s, allowed s true = false → (k s).handler = 0 ∨ (k s).handler = 1
  prog : ∀ s, (k s).handler ≠ code.sigHandler ∧ (k s).handler ≠ code.sigAction

theorem restore_wrapped {code : Code} (hc : code.Ok) {a : Action} {cb : Nat}
    (hcb : 1 < a.handler → cb = a.handler) : restore code cb (wrapped code a) = a := by
  obtain ⟨h, si, os, rest⟩ := a
  have h1 := hc.h
  have h2 := hc.a
  unfold wrapped
  by_cases hh : h = 0 ∨ h = 1
  · rw [if_pos hh]
    unfold restore
    cases si
    · rw [if_neg (by simp), if_neg (by simp only []; omega)]
    · rw [if_pos rfl, if_neg (by simp only []; omega)]
  · rw [if_neg hh]
    have := hcb (by simp only []; omega)
    subst this
    unfold restore
    cases si <;> simp

theorem begin_ok (code : Code) (S : St) {s : Int} (h0 : 0 ≤ s) (h1 : s < 1024) (act : Option Action) :
    ∃ tbl, begin' code S s act
        = .ok (S.table s.toNat, { S with table := tbl }, act.map (wrapped code)) ∧
      (∀ i, i ≠ s.toNat → tbl i = S.table i) ∧
      (∀ a, act = some a → 1 < a.handler → tbl s.toNat = a.handler) ∧
      (act = none → tbl = S.table) := by
  unfold begin' kMaxSignals
  rw [if_neg (by omega), if_neg (by omega)]
  cases act with
  | none => exact ⟨S.table, rfl, fun _ _ => rfl, fun a h => by simp at h, fun _ => rfl⟩
  | some a =>
    simp only []
    by_cases hh : a.handler ≠ 1 ∧ a.handler ≠ 0
    · rw [if_pos hh]
      refine ⟨fun i => if i = s.toNat then a.handler else S.table i, ?_, fun i hi => if_neg hi, ?_,
        fun h => by simp at h⟩
      · have hn : ¬ (a.handler = 0 ∨ a.handler = 1) := by omega
        simp only [Option.map_some, wrapped, if_neg hn]
      · intro a' ha _
        cases ha
        exact if_pos rfl
    · rw [if_neg hh]
      refine ⟨S.table, ?_, fun _ _ => rfl, ?_, fun _ => rfl⟩
      · have hn : a.handler = 0 ∨ a.handler = 1 := by omega
        simp only [Option.map_some, wrapped, if_pos hn]
      · intro a' ha h
        cases ha
        omega

theorem Rel.sigaction {code : Code} (hc : code.Ok) {allowed : Int → Bool → Bool} {S : St} {k : Kernel}
    (h : Rel code allowed S k) {s : Int} {act : Option Action} {w : Bool}
    (hp : Proper code (.sigaction s act w)) :
    ∃ S', sigactionW code allowed S s act w = .ok (S', (k.step allowed (.sigaction s act w)).2) ∧
      Rel code allowed S' (k.step allowed (.sigaction s act w)).1 := by
  obtain ⟨h0, h1, hact⟩ := hp
  have hold : restore code (S.table s.toNat) (S.kern s) = k s := by
    rw [h.kern s]
    exact restore_wrapped hc (h.table s h0)
  obtain ⟨tbl, e, t1, t2, t3⟩ := begin_ok code S h0 h1 act
  unfold sigactionW
  rw [e]
  simp only [Res.bind_ok, finish, Kernel.step, Kernel.sigaction, Option.isSome_map]
  by_cases ha : allowed s act.isSome = true
  · simp only [if_pos ha]
    cases act with
    | none =>
      refine ⟨{ S with table := tbl }, ?_, ?_⟩
      · cases w <;> simp [hold]
      · rw [t3 rfl]
        exact h
    | some a =>
      refine ⟨⟨fun x => if x = s then wrapped code a else S.kern x, tbl, S.tls⟩, ?_, ?_, ?_, ?_, ?_⟩
      · cases w <;> simp [hold]
      · intro x
        simp only []
        by_cases hx : x = s
        · rw [if_pos hx, if_pos hx]
        · rw [if_neg hx, if_neg hx]
          exact h.kern x
      · intro x hx0
        simp only []
        by_cases hx : x = s
        · subst hx
          rw [if_pos rfl]
          exact t2 a rfl
        · rw [if_neg hx, t1 x.toNat (by omega)]
          exact h.table x hx0
      · intro x hf
        simp only []
        by_cases hx : x = s
        · subst hx
          simp [hf] at ha
        · rw [if_neg hx]
          exact h.fixed x hf
      · intro x
        simp only []
        by_cases hx : x = s
        · rw [if_pos hx]
          exact hact a rfl
        · rw [if_neg hx]
          exact h.prog x
  · simp only [if_neg ha]
    refine ⟨_, rfl, h.kern, ?_, h.fixed, h.prog⟩
    intro x hx0 hx1
    simp only []
    cases act with
    | none =>
      rw [t3 rfl]
      exact h.table x hx0 hx1
    | some a =>
      have hf := h.fixed s (by simpa using ha)
      have : x ≠ s := fun e => by subst e; omega
      rw [t1 x.toNat (by omega)]
      exact h.table x hx0 hx1

theorem deliver_obs (k : Kernel) (s : Int) (hh : 1 < (k s).handler) :
    k.deliver s = (if (k s).oneshot then fun x => if x = s then { k x with handler := 0 } else k x else k,
      .called (k s).handler (k s).siginfo) := by
  unfold Kernel.deliver
  split
  · omega
  · omega
  · rfl

theorem Rel.deliver {code : Code} (hc : code.Ok) {allowed : Int → Bool → Bool} {S : St} {k : Kernel}
    (h : Rel code allowed S k) {s : Int} (hp : Proper code (.deliver s)) :
    ∃ S' ls, Sig.deliver code S s = .ok (S', (k.step allowed (.deliver s)).2, ls) ∧
      Rel code allowed S' (k.step allowed (.deliver s)).1 ∧
      ∀ l ∈ ls, l = 0 := by
  obtain ⟨h0, h1⟩ := hp
  have ek := h.kern s
  have g1 := hc.h
  have g2 := hc.a
  show ∃ S' ls, Sig.deliver code S s = .ok (S', (k.deliver s).2, ls) ∧
    Rel code allowed S' (k.deliver s).1 ∧ ∀ l ∈ ls, l = 0
  by_cases hh : (k s).handler = 0 ∨ (k s).handler = 1
  · have ew : S.kern s = k s := by rw [ek, wrapped, if_pos hh]
    rcases hh with hh | hh
    · have e1 : k.deliver s = (k, .byDefault) := by unfold Kernel.deliver; rw [hh]; rfl
      have e2 : S.kern.deliver s = (S.kern, .byDefault) := by unfold Kernel.deliver; rw [ew, hh]; rfl
      rw [e1]
      refine ⟨S, [], ?_, h, by simp⟩
      unfold Sig.deliver
      rw [e2]
    · have e1 : k.deliver s = (k, .ignored) := by unfold Kernel.deliver; rw [hh]; rfl
      have e2 : S.kern.deliver s = (S.kern, .ignored) := by unfold Kernel.deliver; rw [ew, hh]; rfl
      rw [e1]
      refine ⟨S, [], ?_, h, by simp⟩
      unfold Sig.deliver
      rw [e2]
  · have hgt : 1 < (k s).handler := by omega
    have htab := h.table s h0 hgt
    obtain ⟨p1, p2⟩ := h.prog s
    have ew : S.kern s = { k s with handler := if (k s).siginfo then code.sigAction else code.sigHandler } := by
      rw [ek, wrapped, if_neg hh]
    have e1 := deliver_obs k s hgt
    have e2 := deliver_obs S.kern s (by rw [ew]; simp only []; split <;> omega)
    rw [e1]
    have hrel : ∀ tls, Rel code allowed
        ⟨if (S.kern s).oneshot then fun x => if x = s then { S.kern x with handler := 0 } else S.kern x
          else S.kern, S.table, tls⟩
        (if (k s).oneshot then fun x => if x = s then { k x with handler := 0 } else k x else k) := by
      intro tls
      rw [show (S.kern s).oneshot = (k s).oneshot by rw [ew]]
      cases ho : (k s).oneshot
      · simp only [Bool.false_eq_true, if_false]
        exact ⟨h.kern, h.table, h.fixed, h.prog⟩
      · simp only [if_true]
        refine ⟨fun x => ?_, fun x hx0 hx1 => ?_, fun x hf => ?_, fun x => ?_⟩
        · simp only []
          by_cases hx : x = s
          · subst hx
            rw [if_pos rfl, if_pos rfl, ew]
            simp [wrapped]
          · rw [if_neg hx, if_neg hx]
            exact h.kern x
        · simp only [] at hx1 ⊢
          by_cases hx : x = s
          · rw [if_pos hx] at hx1
            simp at hx1
          · rw [if_neg hx] at hx1 ⊢
            exact h.table x hx0 hx1
        · by_cases hx : x = s
          · rw [if_pos hx]; exact Or.inl rfl
          · rw [if_neg hx]; exact h.fixed x hf
        · by_cases hx : x = s
          · rw [if_pos hx]; simp only []; omega
          · rw [if_neg hx]; exact h.prog x
    unfold Sig.deliver
    rw [e2]
    simp only [ew]
    rw [ew] at hrel
    cases hsi : (k s).siginfo
    · simp only [Bool.false_eq_true, if_false, if_true, enter] at hrel ⊢
      rw [htab, if_neg (by omega)]
      exact ⟨_, _, rfl, hrel _, by simp [clearArgs]⟩
    · simp only [if_true, enter] at hrel ⊢
      rw [if_neg (fun e => hc.ne e.symm), htab, if_neg (by omega)]
      exact ⟨_, _, rfl, hrel _, by simp [clearArgs]⟩

theorem run_rel {code : Code} (hc : code.Ok) {allowed : Int → Bool → Bool} :
    ∀ (ops : List ((Tls → Tls) × SigOp)) (S : St) (k : Kernel), Rel code allowed S k →
      (∀ op ∈ ops, Proper code op.2) →
      ∃ os, run code allowed S ops = .ok os ∧ os.map Prod.fst = k.run allowed (ops.map Prod.snd) ∧
        ∀ o ∈ os, ∀ l ∈ o.2, l = 0
  | [], _, _, _, _ => ⟨[], rfl, rfl, by simp⟩
  | (f, op) :: ops, S, k, h, hp => by
    have hw : Rel code allowed { S with tls := f S.tls } k := ⟨h.kern, h.table, h.fixed, h.prog⟩
    have hop := hp _ (List.mem_cons_self ..)
    have key : ∃ S' ls, step code allowed f S op = .ok (S', (k.step allowed op).2, ls) ∧
        Rel code allowed S' (k.step allowed op).1 ∧ ∀ l ∈ ls, l = 0 := by
      cases op with
      | sigaction s act w =>
        obtain ⟨S', e, h'⟩ := hw.sigaction hc hop
        refine ⟨S', [], ?_, h', by simp⟩
        simp only [step]
        rw [e]
        rfl
      | deliver s => exact hw.deliver hc hop
    obtain ⟨S', ls, e, h', hl⟩ := key
    obtain ⟨os, e', h1, h2⟩ := run_rel hc ops S' _ h' (fun o ho => hp o (List.mem_cons_of_mem _ ho))
    refine ⟨((k.step allowed op).2, ls) :: os, ?_, ?_, ?_⟩
    · unfold run
      rw [e]
      simp only [Res.bind_ok]
      rw [e']
      rfl
    · simp only [List.map_cons, Kernel.run, h1]
    · intro o ho
      rcases List.mem_cons.1 ho with rfl | ho
      · exact hl
      · exact h2 o ho

end Sig

/-- The instrumented program observes exactly what the plain one does: over all sequences of `sigaction`
calls and signals, the same results and old actions, and the same handlers called in the same way; the
arguments of every handler are untainted, whatever the interrupted code had in its label state. (For signal
numbers 0 to 1023, and without `signal` or a signal in another thread during a call.) -/
theorem C59_sigaction_partial (code : Code) (hc : code.Ok) (allowed : Int → Bool → Bool) (S : St)
    (hinit : ∀ s, (S.kern s).handler = 0 ∨ (S.kern s).handler = 1)
    (ops : List ((Tls → Tls) × SigOp)) (hp : ∀ op ∈ ops, Proper code op.2) :
    ∃ os, Sig.run code allowed S ops = .ok os ∧
      os.map Prod.fst = S.kern.run allowed (ops.map Prod.snd) ∧ ∀ o ∈ os, ∀ l ∈ o.2, l = 0 := by
  have g1 := hc.h
  have g2 := hc.a
  refine run_rel hc ops S S.kern ⟨fun s => ?_, fun s _ h => ?_, fun s _ => hinit s, fun s => ?_⟩ hp
  · rw [wrapped, if_pos (hinit s)]
  · rcases hinit s with e | e <;> omega
  · rcases hinit s with e | e <;> omega

/-- Whatever a handler does to the label state, no label is left in it when the handler has returned. -/
theorem C59_return (S : St) (body : Tls → Tls) (o : Nat) :
    (leave { S with tls := body S.tls }).tls.arg o = 0 ∧ (leave { S with tls := body S.tls }).tls.ret o = 0 :=
  ⟨rfl, rfl⟩

/-- The memory a handler is given, and the old action, are untainted; other labels and data stay. -/
theorem C59_memory (k : Nat) (hk : k ≤ 40) (m : Mem) (si uc oldact : Nat)
    (hsi : 0x700000008000 ≤ si) (hsi' : si + 128 < 0x800000000000)
    (huc : 0x700000008000 ≤ uc) (huc' : uc + 968 < 0x800000000000)
    (hold : oldact = 0 ∨ (0x700000008000 ≤ oldact ∧ oldact + 152 < 0x800000000000)) :
    (∃ m', signalActionMem (2 ^ k) m si uc = .ok m' ∧
      Cleared [(si, 128), (uc, 968)] (labelOf m) (labelOf m') ∧ ∀ b, IsApp b → m' b = m b) ∧
    ∃ m', sigactionMem (2 ^ k) m oldact = .ok m' ∧
      Cleared (if oldact = 0 then [] else [(oldact, 152)]) (labelOf m) (labelOf m') ∧
      ∀ b, IsApp b → m' b = m b := by
  refine ⟨(setAt_clears m hk hsi hsi').bind (fun m' _ => setAt_clears m' hk huc huc'), ?_⟩
  unfold sigactionMem clearIf
  rcases hold with rfl | ⟨h1, h2⟩
  · exact Clears.skip m
  · rw [if_pos (by omega), if_neg (by omega)]
    exact setAt_clears m hk h1 h2

/-- A negative signal number, which the kernel rejects, passes the check of the wrapper and accesses the
table out of bounds; one of 1024 or more stops the program. -/
theorem C59_number_refuted (code : Code) (S : St) (s : Int) (act : Option Action) (w : Bool)
    (allowed : Int → Bool → Bool) (hs : allowed s act.isSome = false) :
    (S.kern.step allowed (.sigaction s act w)).2 = .result (-1) none ∧
    (s < 0 → sigactionW code allowed S s act w = .ub) ∧
    (1024 ≤ s → sigactionW code allowed S s act w = .fatal) := by
  refine ⟨by simp [Kernel.step, Kernel.sigaction, hs], fun h => ?_, fun h => ?_⟩
  · unfold sigactionW begin' kMaxSignals
    rw [if_neg (by omega), if_pos h]
    rfl
  · unfold sigactionW begin' kMaxSignals
    rw [if_pos (by omega)]
    rfl

/-- `signal` is not wrapped: after `sigaction` has installed a handler, it returns the runtime's own
function, and installing that one again, as programs do to restore a handler, makes the next signal recurse
without end. -/
theorem C59_signal_refuted (code : Code) (hc : code.Ok) (S : St) (s : Int) (h0 : 0 ≤ s) (h1 : s < 1024)
    (h h' : Nat) (hh : 1 < h) :
    ∃ S1 o1 S3 o3, sigactionW code (fun _ _ => true) S s (some ⟨h, false, false, 0⟩) false = .ok (S1, o1) ∧
      (rawSignal S1 s h').2 = code.sigHandler ∧
      sigactionW code (fun _ _ => true) (rawSignal S1 s h').1 s
        (some ⟨(rawSignal S1 s h').2, false, false, 0⟩) false = .ok (S3, o3) ∧
      deliver code S3 s = .hang := by
  have g := hc.h
  refine ⟨⟨fun x => if x = s then ⟨code.sigHandler, false, false, 0⟩ else S.kern x,
    fun i => if i = s.toNat then h else S.table i, S.tls⟩, .result 0 none,
    ⟨fun x => if x = s then ⟨code.sigHandler, false, false, 0⟩ else
        if x = s then ⟨h', false, false, 0⟩ else
          if x = s then ⟨code.sigHandler, false, false, 0⟩ else S.kern x,
      fun i => if i = s.toNat then code.sigHandler else if i = s.toNat then h else S.table i, S.tls⟩,
    .result 0 none, ?_, ?_, ?_, ?_⟩
  · unfold sigactionW begin' kMaxSignals
    rw [if_neg (by omega), if_neg (by omega)]
    simp only []
    rw [if_pos (by omega)]
    simp [finish, Kernel.sigaction]
  · simp [rawSignal]
  · unfold sigactionW begin' kMaxSignals
    rw [if_neg (by omega), if_neg (by omega)]
    simp only [rawSignal, if_true]
    rw [if_pos (by omega)]
    simp [finish, Kernel.sigaction]
  · unfold Sig.deliver
    rw [deliver_obs _ _ (by simp only [if_true]; exact g)]
    simp [enter]

/-- A signal that another thread receives while a call replaces a one-argument handler by a three-argument
one: the new handler is called without its three arguments, which neither action allows. -/
theorem C59_race_refuted (code : Code) (hc : code.Ok) (S : St) (s : Int) (h0 : 0 ≤ s) (h1 : s < 1024)
    (hk : S.kern s = ⟨code.sigHandler, false, false, 0⟩) (h3 : Nat) (hh : 1 < h3)
    (hp : h3 ≠ code.sigHandler ∧ h3 ≠ code.sigAction) :
    ∃ cb S1 act S2 ls, begin' code S s (some ⟨h3, true, false, 0⟩) = .ok (cb, S1, act) ∧
      deliver code S1 s = .ok (S2, .called h3 false, ls) := by
  have g := hc.h
  unfold begin' kMaxSignals
  rw [if_neg (by omega), if_neg (by omega)]
  simp only []
  rw [if_pos (by omega)]
  have key : ∃ S2 ls, deliver code
      { S with table := fun i => if i = s.toNat then h3 else S.table i } s
        = .ok (S2, .called h3 false, ls) := by
    unfold Sig.deliver
    rw [deliver_obs _ _ (by simp only [hk]; exact g)]
    simp only [hk, Bool.false_eq_true, if_false, if_true, enter]
    rw [if_neg (by omega)]
    exact ⟨_, _, rfl⟩
  obtain ⟨S2, ls, e⟩ := key
  exact ⟨_, _, _, S2, ls, rfl, e⟩

/-- A handler that interrupts the program between storing the label of an argument and the call that reads
it: whatever the handler does, the label is gone when it has returned. -/
theorem C59_interrupted_refuted (code : Code) (S S1 : St) (s : Int) (obs : Obs) (ls : ArgLabels)
    (body : Tls → Tls) (o : Nat) (hl : S.tls.arg o ≠ 0) (_ : deliver code S s = .ok (S1, obs, ls)) :
    (leave { S1 with tls := body S1.tls }).tls.arg o ≠ S.tls.arg o := fun h => hl h.symm

/-- Runtime functions at 100 and 200, all signals 1 to 64 but 9 can be set, all actions default. -/
def exCode : Code := ⟨100, 200⟩
def exAllowed : Int → Bool → Bool := fun s set => decide (1 ≤ s) && decide (s ≤ 64) && !(set && decide (s = 9))
def exSig : St := ⟨fun _ => ⟨0, false, false, 0⟩, fun _ => 0, ⟨fun _ => 7, fun _ => 7⟩⟩

def exSigOps : List ((Tls → Tls) × SigOp) :=
  [(id, .sigaction 10 (some ⟨5000, false, false, 3⟩) true), (id, .deliver 10),
   (fun t => { t with arg := fun _ => 9 }, .sigaction 10 (some ⟨6000, true, true, 4⟩) true),
   (id, .sigaction 9 (some ⟨5000, false, false, 0⟩) true), (id, .deliver 10), (id, .deliver 10),
   (id, .sigaction 10 none true), (id, .deliver 9)]

/-- Hypotheses of `C59_sigaction_partial`, and what is observed. -/
example : exCode.Ok ∧ (∀ s, (exSig.kern s).handler = 0 ∨ (exSig.kern s).handler = 1) ∧
    (∀ op ∈ exSigOps, Proper exCode op.2) ∧
    exSig.kern.run exAllowed (exSigOps.map Prod.snd) =
      [.result 0 (some ⟨0, false, false, 0⟩), .called 5000 false, .result 0 (some ⟨5000, false, false, 3⟩),
       .result (-1) none, .called 6000 true, .byDefault, .result 0 (some ⟨0, true, true, 4⟩), .byDefault] := by
  refine ⟨⟨by decide, by decide, by decide⟩, fun _ => Or.inl rfl, ?_, by decide +kernel⟩
  intro op hop
  simp only [exSigOps, List.mem_cons, List.not_mem_nil, or_false] at hop
  rcases hop with rfl | rfl | rfl | rfl | rfl | rfl | rfl | rfl <;> simp [Proper, exCode]

/-- The state of `C59_race_refuted` is reached by installing a handler. -/
example : ∃ o, sigactionW exCode exAllowed exSig 10 (some ⟨5000, false, false, 0⟩) false = .ok o ∧
    o.1.kern 10 = ⟨exCode.sigHandler, false, false, 0⟩ := Res.exists_ok (by decide +kernel)

end Verif
