import Verif.CfPass
import Verif.IrMap
/- Helper lemmas: a program with inserted reports follows the original program. -/
namespace Verif
namespace CfPass
open Ir

variable {τ : Type} {A : Alg τ} {m : Marks} {F : Func}

/-! ### Positions -/

theorem startAt_succ (m : Marks) (b : Nat) (B : Block) (j : Nat) :
    startAt m b B (j + 1) = posOf m b B j + 1 := rfl

theorem startAt_le_posOf (m : Marks) (b : Nat) (B : Block) (j : Nat) :
    startAt m b B j ≤ posOf m b B j := Nat.le_add_right _ _

theorem posOf_lt_startAt {m : Marks} {b : Nat} {B : Block} {i j : Nat} (h : i < j) :
    posOf m b B i < startAt m b B j := by
  induction j with
  | zero => omega
  | succ j ih =>
    rw [startAt_succ]
    by_cases c : i = j
    · subst c; omega
    · have := ih (by omega)
      have := startAt_le_posOf m b B j
      omega

theorem posOf_lt {m : Marks} {b : Nat} {B : Block} {i j : Nat} (h : i < j) :
    posOf m b B i < posOf m b B j :=
  Nat.lt_of_lt_of_le (posOf_lt_startAt h) (startAt_le_posOf ..)

theorem posOf_inj {m : Marks} {b : Nat} {B : Block} {i j : Nat} (h : posOf m b B i = posOf m b B j) :
    i = j := by
  rcases Nat.lt_trichotomy i j with c | c | c
  · have := posOf_lt (m := m) (b := b) (B := B) c; omega
  · exact c
  · have := posOf_lt (m := m) (b := b) (B := B) c; omega

theorem posOf_outside (m : Marks) (b : Nat) (B : Block) (i j : Nat) :
    posOf m b B i < startAt m b B j ∨ posOf m b B j ≤ posOf m b B i := by
  by_cases c : i < j
  · exact Or.inl (posOf_lt_startAt c)
  · by_cases d : i = j
    · subst d; exact Or.inr (Nat.le_refl _)
    · exact Or.inr (Nat.le_of_lt (posOf_lt (by omega)))

theorem renReg_inj {r s : Reg} (h : renReg m F r = renReg m F s) : r = s := by
  cases r with
  | phi b k =>
    cases s with
    | phi c l => simpa [renReg] using h
    | ins c l => simp only [renReg] at h; split at h <;> cases h
  | ins b j =>
    cases s with
    | phi c l => simp only [renReg] at h; split at h <;> cases h
    | ins c l =>
      have hb : b = c := by
        simp only [renReg] at h
        split at h <;> split at h <;> · injection h
      subst hb
      simp only [renReg] at h
      split at h
      · injection h with _ h
        rw [posOf_inj h]
      · exact h

/-- No renamed value has the name of an inserted call. -/
theorem renReg_ne {r : Reg} {b j p : Nat} {B : Block} (hB : F.blocks[b]? = some B)
    (h1 : startAt m b B j ≤ p) (h2 : p < posOf m b B j) : renReg m F r ≠ .ins b p := by
  intro e
  cases r with
  | phi c k => cases e
  | ins c i =>
    have hc : c = b := by
      simp only [renReg] at e
      split at e <;> · injection e
    subst hc
    simp only [renReg, hB] at e
    injection e with _ e
    rcases posOf_outside m c B i j with h | h <;> omega

/-! ### The inserted code -/

theorem tap_len (lg : Nat → Bool) (b : Nat) : ∀ (os : List Opd) (k i : Nat),
    (tap m F b lg k i os).1.length = (decisions lg i os).length
  | [], _, _ => rfl
  | o :: os, k, i => by
    by_cases c : lg i = true
    · simp [tap, decisions, c, tap_len lg b os]
    · simp [tap, decisions, c, tap_len lg b os]

theorem visit_len (m : Marks) (F : Func) (b j k : Nat) (t : Term) (I : Instr) :
    (visit m F b j k I).1.length = extra m b j t (some I) := by
  cases I <;> simp only [visit, extra, tap_len, List.length_nil]
  split <;> rfl

theorem visitTerm_len (m : Marks) (F : Func) (b j k : Nat) (t : Term) :
    (visitTerm m F b k t).1.length = extra m b j t none := by
  cases t <;> simp only [visitTerm, extra, List.length_nil]
  · split <;> rfl
  · cases m.leave <;> rfl

theorem prefix_len (m : Marks) (b : Nat) (B : Block) : (prefixOf m b).length = startAt m b B 0 := by
  simp only [prefixOf, startAt]
  cases m.enter with
  | none => simp
  | some h => by_cases c : b = 0 <;> simp [c]

theorem body_drop (m : Marks) (F : Func) (b : Nat) (B : Block) (j : Nat) (h : j ≤ B.body.length) :
    (passBlock m F b B).body.drop (startAt m b B j) = emit m F b B j (B.body.drop j) := by
  induction j with
  | zero =>
    simp only [passBlock, List.drop_zero]
    rw [← prefix_len m b B, List.drop_left]
  | succ j ih =>
    have hj : j < B.body.length := by omega
    have := ih (by omega)
    rw [List.drop_eq_getElem_cons hj] at this
    simp only [emit] at this
    rw [startAt_succ, posOf, Nat.add_assoc, ← List.drop_drop, this, List.getElem?_eq_getElem hj,
      ← visit_len m F b j (startAt m b B j) B.term, ← List.drop_drop, List.drop_left]
    rfl

theorem body_at {b j : Nat} {B : Block} {I : Instr} (hI : B.body[j]? = some I) :
    ∃ R, (passBlock m F b B).body.drop (startAt m b B j) =
      (visit m F b j (startAt m b B j) I).1 ++ (visit m F b j (startAt m b B j) I).2 :: R := by
  obtain ⟨hj, rfl⟩ := List.getElem?_eq_some_iff.1 hI
  rw [body_drop m F b B j (by omega), List.drop_eq_getElem_cons hj]
  exact ⟨_, rfl⟩

theorem body_end (m : Marks) (F : Func) (b : Nat) (B : Block) :
    (passBlock m F b B).body.drop (startAt m b B B.body.length) =
      (visitTerm m F b (startAt m b B B.body.length) B.term).1 := by
  rw [body_drop m F b B _ (Nat.le_refl _), List.drop_eq_nil_of_le (Nat.le_refl _)]
  rfl

theorem get_of_drop {α : Type} {l R : List α} {k : Nat} {x : α} (h : l.drop k = x :: R) :
    l[k]? = some x := by
  have := List.getElem?_drop (xs := l) (i := k) (j := 0)
  rw [h] at this
  simpa using this.symm

theorem drop_succ {α : Type} {l R : List α} {k : Nat} {x : α} (h : l.drop k = x :: R) :
    l.drop (k + 1) = R := by
  rw [← List.drop_drop, h]; rfl

/-! ### Frames -/

/-- A frame of the original program and of the program after the pass. -/
structure FRel (m : Marks) (F : Func) (fr fr' : Frame τ) : Prop where
  fn : fr'.fn = fr.fn
  blk : fr'.blk = fr.blk
  args : fr'.args = fr.args
  vars : fr'.vars = fr.vars
  sp : fr'.sp = fr.sp
  env : ∀ r, fr'.env (renReg m F r) = fr.env r

theorem FRel.get {fr fr' : Frame τ} (h : FRel m F fr fr') (o : Opd) :
    fr'.get A (renOpd m F o) = fr.get A o := by
  cases o with
  | const v => rfl
  | arg i => simp only [renOpd, Frame.get, h.args]
  | reg r => exact h.env r

theorem FRel.gets {fr fr' : Frame τ} (h : FRel m F fr fr') (os : List Opd) :
    (os.map (renOpd m F)).map (fr'.get A) = os.map (fr.get A) := by
  rw [List.map_map]
  exact List.map_congr_left (fun o _ => h.get o)

theorem FRel.set {fr fr' : Frame τ} (h : FRel m F fr fr') {B : Block}
    (hB : F.blocks[fr.blk]? = some B) (hi : fr'.idx = posOf m fr.blk B fr.idx) (x : Nat × τ) :
    FRel m F (fr.set x) (fr'.set x) := by
  refine ⟨h.fn, h.blk, h.args, h.vars, h.sp, fun r => ?_⟩
  have e : Reg.ins fr'.blk fr'.idx = renReg m F (.ins fr.blk fr.idx) := by
    simp only [renReg, hB, h.blk, hi]
  simp only [Frame.set, e]
  by_cases c : r = .ins fr.blk fr.idx
  · subst c; simp
  · rw [if_neg c, if_neg (fun e => c (renReg_inj e)), h.env]

/-- Giving an inserted call its result does not disturb the relation. -/
theorem FRel.skip {fr fr' : Frame τ} (h : FRel m F fr fr') {B : Block} {j : Nat}
    (hB : F.blocks[fr.blk]? = some B) (h1 : startAt m fr.blk B j ≤ fr'.idx)
    (h2 : fr'.idx < posOf m fr.blk B j) (x : Nat × τ) : FRel m F fr (fr'.set x) := by
  refine ⟨h.fn, h.blk, h.args, h.vars, h.sp, fun r => ?_⟩
  simp only [Frame.set, h.blk]
  rw [if_neg (renReg_ne hB h1 h2), h.env]

/-! ### Running -/

theorem run_add (P : Prog) (inp : World) (a b : Nat) (s : State τ) :
    run A P inp (a + b) s = match run A P inp a s with
      | .next t => run A P inp b t
      | o => o := by
  induction a generalizing s with
  | zero => simp [run]
  | succ a ih =>
    rw [Nat.succ_add]
    simp only [run]
    cases step A P inp s with
    | next t => exact ih t
    | done v g => rfl
    | stuck => rfl

theorem run_next {P : Prog} {inp : World} {a b : Nat} {s t : State τ}
    (h : run A P inp a s = .next t) : run A P inp (a + b) s = run A P inp b t := by
  rw [run_add, h]

theorem run_one (P : Prog) (inp : World) (s : State τ) : run A P inp 1 s = step A P inp s := by
  simp only [run]
  cases step A P inp s <;> rfl

theorem runCost_next {P : Prog} {inp : World} {a b : Nat} {s t : State τ}
    (h : run A P inp a s = .next t) :
    runCost A P inp (a + b) s = runCost A P inp a s + runCost A P inp b t := by
  induction a generalizing s with
  | zero => simp only [run, Out.next.injEq] at h; subst h; simp [runCost]
  | succ a ih =>
    rw [Nat.succ_add]
    simp only [run] at h
    simp only [runCost]
    cases hs : step A P inp s with
    | next u => rw [hs] at h; simp only; rw [ih h]; omega
    | done v g => rw [hs] at h; cases h
    | stuck => rw [hs] at h; cases h

theorem runCost_one (P : Prog) (inp : World) (s : State τ) : runCost A P inp 1 s = s.cost P inp := by
  simp only [runCost]
  cases step A P inp s <;> rfl

theorem cost_at {P : Prog} {inp : World} {fr : Frame τ} {rest : List (Frame τ)} {g : Glob τ} {F : Func}
    {B : Block} {I : Instr} (hF : P[fr.fn]? = some F) (hB : F.blocks[fr.blk]? = some B)
    (hI : B.body[fr.idx]? = some I) : (State.mk (fr :: rest) g).cost P inp = I.cost fr.val (inp.got g.pos) := by
  simp only [State.cost, hF, hB, hI]

theorem cost_end {P : Prog} {inp : World} {fr : Frame τ} {rest : List (Frame τ)} {g : Glob τ} {F : Func}
    {B : Block} (hF : P[fr.fn]? = some F) (hB : F.blocks[fr.blk]? = some B)
    (hI : B.body[fr.idx]? = none) : (State.mk (fr :: rest) g).cost P inp = 0 := by
  simp only [State.cost, hF, hB, hI]

theorem step_at {P : Prog} {inp : World} {fr : Frame τ} {rest : List (Frame τ)} {g : Glob τ} {F : Func}
    {B : Block} {I : Instr} (hF : P[fr.fn]? = some F) (hB : F.blocks[fr.blk]? = some B)
    (hI : B.body[fr.idx]? = some I) :
    step A P inp ⟨fr :: rest, g⟩ = stepInstr A P inp fr rest g I := by
  simp only [step, hF, hB, hI]

theorem step_end {P : Prog} {inp : World} {fr : Frame τ} {rest : List (Frame τ)} {g : Glob τ} {F : Func}
    {B : Block} (hF : P[fr.fn]? = some F) (hB : F.blocks[fr.blk]? = some B)
    (hI : B.body[fr.idx]? = none) :
    step A P inp ⟨fr :: rest, g⟩ = stepTerm A F fr rest g B.term := by
  simp only [step, hF, hB, hI]

theorem pass_get {C : Nat → Marks} {P : Prog} {f : Nat} (hF : P[f]? = some F) :
    (pass C P)[f]? = some (passFunc (C f) F) := by
  simp [pass, hF]

theorem passFunc_get {b : Nat} {B : Block} (hB : F.blocks[b]? = some B) :
    (passFunc m F).blocks[b]? = some (passBlock m F b B) := by
  simp [passFunc, hB]

/-- An inserted call. -/
theorem hook_step {P : Prog} {inp : World} {fr : Frame τ} {rest : List (Frame τ)} {g : Glob τ} {F : Func}
    {B : Block} {k : Hook} {o : Opd} {R : List Instr} (hF : P[fr.fn]? = some F)
    (hB : F.blocks[fr.blk]? = some B) (hd : B.body.drop fr.idx = .hook k o :: R) :
    run A P inp 1 ⟨fr :: rest, g⟩ =
      .next ⟨fr.set (if k.gives then fr.get A o else (0, A.zero)) :: rest,
        { g with ev := g.ev ++ [fr.report A k o] }⟩ := by
  rw [run_one, step_at hF hB (get_of_drop hd)]
  rfl

/-! ### What is tallied -/

/-- A second choice `D` of decisions of the program, the choice `D'` of the same decisions after the pass, and
the reports of interest. The calls inserted by the pass are of no interest. -/
structure Both (C : Nat → Marks) (P : Prog) where
  D : Nat → Marks
  D' : Nat → Marks
  p : Hook → Bool
  hk : ∀ f, p (C f).hk = false
  enter : ∀ (f : Nat) F h, P[f]? = some F → (C f).enter = some h → p h = false
  leave : ∀ (f : Nat) F h, P[f]? = some F → (C f).leave = some h → p h = false
  hk' : ∀ f, (D' f).hk = (D f).hk
  enter' : ∀ f, (D' f).enter = (D f).enter
  leave' : ∀ f, (D' f).leave = (D f).leave
  cond' : ∀ (f : Nat) F b, P[f]? = some F → (D' f).cond b = (D f).cond b
  logged' : ∀ (f : Nat) F (b : Nat) B j i, P[f]? = some F → F.blocks[b]? = some B →
    (D' f).logged b (posOf (C f) b B j) i = (D f).logged b j i

variable {C : Nat → Marks} {P : Prog}

/-- Nothing of interest. -/
def nothing (C : Nat → Marks) (P : Prog) : Both C P where
  D := fun _ => ⟨.noted, none, none, fun _ _ _ => false, fun _ => false⟩
  D' := fun _ => ⟨.noted, none, none, fun _ _ _ => false, fun _ => false⟩
  p := fun _ => false
  hk := fun _ => rfl
  enter := fun _ _ _ _ _ => rfl
  leave := fun _ _ _ _ _ => rfl
  hk' := fun _ => rfl
  enter' := fun _ => rfl
  leave' := fun _ => rfl
  cond' := fun _ _ _ _ => rfl
  logged' := fun _ _ _ _ _ _ _ _ => rfl

/-- The cost of a run after the pass and its reports of interest. -/
def tally (S : Both C P) (A : Alg τ) (inp : World) (n : Nat) (s : State τ) : Nat × List (Hook × Nat × τ) :=
  (runCost A (pass C P) inp n s, (observeRun A S.D' (pass C P) inp n s).filter (fun x => S.p x.1))

/-- The same for one step. -/
def weigh (S : Both C P) (A : Alg τ) (inp : World) (s : State τ) : Nat × List (Hook × Nat × τ) :=
  (s.cost (pass C P) inp, (observe A S.D' (pass C P) s).filter (fun x => S.p x.1))

/-- The same for one step of the original program. -/
def weight (S : Both C P) (A : Alg τ) (inp : World) (s : State τ) : Nat × List (Hook × Nat × τ) :=
  (s.cost P inp, (observe A S.D P s).filter (fun x => S.p x.1))

def plus (a b : Nat × List (Hook × Nat × τ)) : Nat × List (Hook × Nat × τ) := (a.1 + b.1, a.2 ++ b.2)

theorem zero_plus (a : Nat × List (Hook × Nat × τ)) : plus (0, []) a = a := by simp [plus]

theorem plus_zero (a : Nat × List (Hook × Nat × τ)) : plus a (0, []) = a := by simp [plus]

theorem observeRun_next {A : Alg τ} {D : Nat → Marks} {P : Prog} {inp : World} {a b : Nat} {s t : State τ}
    (h : run A P inp a s = .next t) :
    observeRun A D P inp (a + b) s = observeRun A D P inp a s ++ observeRun A D P inp b t := by
  induction a generalizing s with
  | zero => simp only [run, Out.next.injEq] at h; subst h; simp [observeRun]
  | succ a ih =>
    rw [Nat.succ_add]
    simp only [run] at h
    simp only [observeRun]
    cases hs : step A P inp s with
    | next u => rw [hs] at h; simp only; rw [ih h, List.append_assoc]
    | done v g => rw [hs] at h; cases h
    | stuck => rw [hs] at h; cases h

theorem tally_next {S : Both C P} {inp : World} {a b : Nat} {s t : State τ}
    (h : run A (pass C P) inp a s = .next t) :
    tally S A inp (a + b) s = plus (tally S A inp a s) (tally S A inp b t) := by
  simp only [tally, plus, runCost_next h, observeRun_next h, List.filter_append]

theorem tally_one (S : Both C P) (inp : World) (s : State τ) : tally S A inp 1 s = weigh S A inp s := by
  simp only [tally, weigh, runCost_one, observeRun]
  cases step A (pass C P) inp s <;> simp

theorem hook_tally {S : Both C P} {inp : World} {fr : Frame τ} {rest : List (Frame τ)} {g : Glob τ} {F : Func}
    {B : Block} {k : Hook} {o : Opd} {R : List Instr} (hF : (pass C P)[fr.fn]? = some F)
    (hB : F.blocks[fr.blk]? = some B) (hd : B.body.drop fr.idx = .hook k o :: R) (hp : S.p k = false) :
    tally S A inp 1 ⟨fr :: rest, g⟩ = (0, []) := by
  rw [tally_one, weigh, cost_at hF hB (get_of_drop hd)]
  simp only [observe, hF, hB, get_of_drop hd, Frame.report, Instr.cost]
  simp [hp]

/-- Reports to be made next by the innermost call, and the call after them. -/
inductive Pending (A : Alg τ) (Q : Prog) : Frame τ → List (Hook × Nat × τ) → Frame τ → Prop
  | nil (fr : Frame τ) : Pending A Q fr [] fr
  | cons {fr fr2 : Frame τ} {F : Func} {B : Block} {k : Hook} {o : Opd} {rs : List (Hook × Nat × τ)}
      (hF : Q[fr.fn]? = some F) (hB : F.blocks[fr.blk]? = some B) (hI : B.body[fr.idx]? = some (.hook k o))
      (h : Pending A Q (fr.set (if k.gives then fr.get A o else (0, A.zero))) rs fr2) :
      Pending A Q fr (fr.report A k o :: rs) fr2

theorem Pending.run {Q : Prog} {inp : World} {fr fr2 : Frame τ} {rs : List (Hook × Nat × τ)}
    (h : Pending A Q fr rs fr2) (rest : List (Frame τ)) (g : Glob τ) :
    Ir.run A Q inp rs.length ⟨fr :: rest, g⟩ = .next ⟨fr2 :: rest, { g with ev := g.ev ++ rs }⟩ := by
  induction h generalizing g with
  | nil fr => simp [Ir.run]
  | cons hF hB hI h ih =>
    simp only [List.length_cons, Ir.run, step_at hF hB hI, stepInstr]
    rw [ih]
    simp [Frame.report]

theorem Pending.tally {S : Both C P} {inp : World} {fr fr2 : Frame τ} {rs : List (Hook × Nat × τ)}
    (h : Pending A (pass C P) fr rs fr2) (hp : ∀ r ∈ rs, S.p r.1 = false) (rest : List (Frame τ)) (g : Glob τ) :
    CfPass.tally S A inp rs.length ⟨fr :: rest, g⟩ = (0, []) := by
  induction h generalizing g with
  | nil fr => simp [CfPass.tally, runCost, observeRun]
  | @cons fr fr2 F B k o rs hF hB hI h ih =>
    have h1 : Ir.run A (pass C P) inp 1 ⟨fr :: rest, g⟩ = .next
        ⟨fr.set (if k.gives then fr.get A o else (0, A.zero)) :: rest, { g with ev := g.ev ++ [fr.report A k o] }⟩ := by
      rw [run_one, step_at hF hB hI]; rfl
    have h2 : CfPass.tally S A inp 1 ⟨fr :: rest, g⟩ = (0, []) := by
      rw [tally_one, weigh, cost_at hF hB hI]
      simp only [observe, hF, hB, hI, Frame.report, Instr.cost]
      have := hp _ (List.mem_cons_self ..)
      simp only [Frame.report] at this
      simp [this]
    rw [List.length_cons, Nat.add_comm, tally_next h1, h2, ih (fun r hr => hp r (List.mem_cons_of_mem _ hr)), zero_plus]

/-- The calls inserted for the operands of an address computation. -/
theorem tap_run {S : Both C P} {inp : World} {fr : Frame τ} {rest' : List (Frame τ)}
    {B : Block} {j : Nat} (hF : P[fr.fn]? = some F) (hB : F.blocks[fr.blk]? = some B)
    (lg : Nat → Bool) {R : List Instr} : ∀ (os : List Opd) (k i : Nat) (fr' : Frame τ) (g : Glob τ),
    FRel (C fr.fn) F fr fr' → fr'.idx = k → startAt (C fr.fn) fr.blk B j ≤ k →
    k + (decisions lg i os).length ≤ posOf (C fr.fn) fr.blk B j →
    (passBlock (C fr.fn) F fr.blk B).body.drop k = (tap (C fr.fn) F fr.blk lg k i os).1 ++ R →
    ∃ fr'' : Frame τ, run A (pass C P) inp (decisions lg i os).length ⟨fr' :: rest', g⟩ =
        .next ⟨fr'' :: rest', { g with ev := g.ev ++ (decisions lg i os).map (fr.report A (C fr.fn).hk) }⟩ ∧
      FRel (C fr.fn) F fr fr'' ∧ fr''.idx = k + (decisions lg i os).length ∧
      (tap (C fr.fn) F fr.blk lg k i os).2.map (fr''.get A) = os.map (fr.get A) ∧
      (∀ p, p < k → fr''.env (.ins fr.blk p) = fr'.env (.ins fr.blk p)) ∧
      (passBlock (C fr.fn) F fr.blk B).body.drop fr''.idx = R ∧
      tally S A inp (decisions lg i os).length ⟨fr' :: rest', g⟩ = (0, []) ∧
      (tap (C fr.fn) F fr.blk lg k i os).2.length = os.length ∧
      Pending A (pass C P) fr' ((decisions lg i os).map (fr.report A (C fr.fn).hk)) fr''
  | [], k, i, fr', g, hr, hk, _, _, hd => by
    refine ⟨fr', ?_, hr, ?_, rfl, fun _ _ => rfl, ?_, by simp [decisions, tally, runCost, observeRun], rfl, .nil _⟩
    · simp [decisions, run]
    · simp [decisions, hk]
    · rw [hk, hd]; rfl
  | o :: os, k, i, fr', g, hr, hk, h1, h2, hd => by
    by_cases c : lg i = true
    · simp only [tap, decisions, c, if_true, List.length_cons, List.cons_append] at hd h2 ⊢
      have hF' : (pass C P)[fr'.fn]? = some (passFunc (C fr.fn) F) := by
        rw [hr.fn]; exact pass_get hF
      have hB' : (passFunc (C fr.fn) F).blocks[fr'.blk]? = some (passBlock (C fr.fn) F fr.blk B) := by
        rw [hr.blk]; exact passFunc_get hB
      have e1 := hook_step (A := A) (inp := inp) (rest := rest') (g := g) hF' hB'
        (by rw [hk]; exact hd)
      have c1 := hook_tally (A := A) (S := S) (inp := inp) (rest := rest') (g := g) hF' hB'
        (by rw [hk]; exact hd) (S.hk _)
      obtain ⟨fr'', e2, h3, h4, h5, h6, h7, h8, h9, h10⟩ := tap_run (S := S) (j := j) hF hB lg os (k + 1) (i + 1) _
        { g with ev := g.ev ++ [fr'.report A (C fr.fn).hk (renOpd (C fr.fn) F o)] }
        (hr.skip (j := j) hB (by omega) (by omega)
          (if (C fr.fn).hk.gives then fr'.get A (renOpd (C fr.fn) F o) else (0, A.zero)))
        (by simp [Frame.set, hk]) (by omega) (by omega) (drop_succ hd)
      refine ⟨fr'', ?_, h3, by omega, ?_, ?_, h7, ?_, by simp [h9], ?_⟩
      · rw [Nat.add_comm, run_next e1, e2]
        simp [Frame.report, hr.get]
      · simp only [List.map_cons, h5]
        congr 1
        unfold instead
        split
        · rename_i cg
          show fr''.env (.ins fr.blk k) = _
          rw [h6 k (by omega)]
          simp [Frame.set, hr.blk, hk, cg, hr.get]
        · exact h3.get o
      · intro p hp
        rw [h6 p (by omega)]
        simp only [Frame.set]
        rw [if_neg]
        intro e
        injection e with _ e
        omega
      · rw [Nat.add_comm, tally_next e1, c1, h8, zero_plus]
      · have := Pending.cons hF' hB' (get_of_drop (by rw [hk]; exact hd)) h10
        simpa [Frame.report, hr.get] using this
    · simp only [tap, decisions, c, Bool.false_eq_true, if_false] at hd h2 ⊢
      obtain ⟨fr'', e2, h3, h4, h5, h6, h7, h8, h9, h10⟩ := tap_run (S := S) (j := j) hF hB lg os k (i + 1) fr' g hr hk h1 h2 hd
      refine ⟨fr'', e2, h3, h4, ?_, h6, h7, h8, by simp [h9], h10⟩
      simp only [List.map_cons, h5]
      congr 1
      exact h3.get o

end CfPass
end Verif
