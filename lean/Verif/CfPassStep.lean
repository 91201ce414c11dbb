import Mathlib.Data.List.Forall2
import Verif.CfPassSim
/- Helper lemmas: one step of the original program, and the steps of the program with reports that go with
it. -/
namespace Verif
namespace CfPass
open Ir

variable {τ : Type} {A : Alg τ} {C : Nat → Marks} {P : Prog} {S : Both C P} {inp : World}

/-- The innermost frames. -/
def Top (C : Nat → Marks) (P : Prog) (fr fr' : Frame τ) : Prop :=
  ∃ F B, P[fr.fn]? = some F ∧ F.blocks[fr.blk]? = some B ∧ fr.idx ≤ B.body.length ∧
    FRel (C fr.fn) F fr fr' ∧ fr'.idx = startAt (C fr.fn) fr.blk B fr.idx

/-- The frames of callers, at their calls. -/
def Below (C : Nat → Marks) (P : Prog) (fr fr' : Frame τ) : Prop :=
  ∃ F B, P[fr.fn]? = some F ∧ F.blocks[fr.blk]? = some B ∧ fr.idx < B.body.length ∧
    FRel (C fr.fn) F fr fr' ∧ fr'.idx = posOf (C fr.fn) fr.blk B fr.idx

/-- States of the original program and of the program after the pass, whose reports are `E`. -/
def SRel (C : Nat → Marks) (P : Prog) (s s' : State τ) (E : List (Hook × Nat × τ)) : Prop :=
  ∃ fr rest fr' rest', s.frames = fr :: rest ∧ s' = ⟨fr' :: rest', { s.glob with ev := E }⟩ ∧
    Top C P fr fr' ∧ List.Forall₂ (Below C P) rest rest'

/-- The program after the pass, in state `s'`, gets to where the original program gets, and `c` is tallied. -/
def Follows (A : Alg τ) {C : Nat → Marks} {P : Prog} (S : Both C P) (inp : World) (o : Out τ)
    (c : Nat × List (Hook × Nat × τ)) (s' : State τ)
    (E : List (Hook × Nat × τ)) : Prop :=
  match o with
  | .next t => ∃ k t', 0 < k ∧ run A (pass C P) inp k s' = .next t' ∧ tally S A inp k s' = c ∧
      SRel C P t t' E
  | .done v g => ∃ k, run A (pass C P) inp k s' = .done v { g with ev := E } ∧
      tally S A inp k s' = c
  | .stuck => ∃ k, run A (pass C P) inp k s' = .stuck ∧ tally S A inp k s' = c

theorem Follows.after {o : Out τ} {s' t' : State τ} {E : List (Hook × Nat × τ)} {k : Nat}
    {c : Nat × List (Hook × Nat × τ)}
    (h : run A (pass C P) inp k s' = .next t') (hc : tally S A inp k s' = (0, []))
    (hf : Follows A S inp o c t' E) :
    Follows A S inp o c s' E := by
  cases o with
  | next t =>
    obtain ⟨l, u, hl, h1, h3, h2⟩ := hf
    exact ⟨k + l, u, by omega, by rw [run_next h, h1], by rw [tally_next h, h3, hc, zero_plus], h2⟩
  | done v g =>
    obtain ⟨l, h1, h2⟩ := hf
    exact ⟨k + l, by rw [run_next h, h1], by rw [tally_next h, h2, hc, zero_plus]⟩
  | stuck =>
    obtain ⟨l, h1, h2⟩ := hf
    exact ⟨k + l, by rw [run_next h, h1], by rw [tally_next h, h2, hc, zero_plus]⟩

/-- The program after the pass, at the instruction itself, does what the original program does, apart from
reports still to be made on entering a function. -/
def Steps (A : Alg τ) {C : Nat → Marks} {P : Prog} (S : Both C P) (inp : World) (o : Out τ)
    (c : Nat × List (Hook × Nat × τ)) (s' : State τ) (E : List (Hook × Nat × τ)) : Prop :=
  weigh S A inp s' = c ∧
  match o with
  | .next t => ∃ fr2 rest2 E2 rs fr3, step A (pass C P) inp s' = .next ⟨fr2 :: rest2, { t.glob with ev := E2 }⟩ ∧
      Pending A (pass C P) fr2 rs fr3 ∧ (∀ r ∈ rs, S.p r.1 = false) ∧ E2 ++ rs = E ∧
      SRel C P t ⟨fr3 :: rest2, { t.glob with ev := E }⟩ E
  | .done v g => step A (pass C P) inp s' = .done v { g with ev := E }
  | .stuck => step A (pass C P) inp s' = .stuck

theorem Steps.follows {o : Out τ} {c : Nat × List (Hook × Nat × τ)} {s' : State τ} {E : List (Hook × Nat × τ)}
    (h : Steps A S inp o c s' E) : Follows A S inp o c s' E := by
  obtain ⟨hc, h⟩ := h
  cases o with
  | next t =>
    obtain ⟨fr2, rest2, E2, rs, fr3, h1, h2, h3, rfl, h5⟩ := h
    have h0 := (run_one (A := A) (pass C P) inp s').trans h1
    exact ⟨1 + rs.length, _, by omega, by rw [run_next h0, h2.run], by rw [tally_next h0, h2.tally h3, tally_one, hc, plus_zero], h5⟩
  | done v g => exact ⟨1, by rw [run_one, h], by rw [tally_one, hc]⟩
  | stuck => exact ⟨1, by rw [run_one, h], by rw [tally_one, hc]⟩

theorem top_set {fr fr' : Frame τ} {x : Nat × τ} (h : Below C P fr fr') : Top C P (fr.set x) (fr'.set x) := by
  obtain ⟨F, B, hF, hB, hlt, hr, hi⟩ := h
  refine ⟨F, B, hF, hB, hlt, hr.set hB hi x, ?_⟩
  show fr'.idx + 1 = _
  rw [hi]; rfl

/-- A step after which nothing is left to be reported. -/
theorem steps_next {t : State τ} {s' : State τ} {E : List (Hook × Nat × τ)} {c : Nat × List (Hook × Nat × τ)}
    {fr2 : Frame τ} {rest2 : List (Frame τ)} (hc : weigh S A inp s' = c)
    (hs : step A (pass C P) inp s' = .next ⟨fr2 :: rest2, { t.glob with ev := E }⟩)
    (hr : SRel C P t ⟨fr2 :: rest2, { t.glob with ev := E }⟩ E) : Steps A S inp (.next t) c s' E :=
  ⟨hc, fr2, rest2, E, [], fr2, hs, .nil _, by simp, by simp, hr⟩

/-- An instruction that leads to a next state with its result set. -/
theorem steps_set {fr fr' : Frame τ} {rest rest' : List (Frame τ)} {g g' : Glob τ}
    {E : List (Hook × Nat × τ)} {s' : State τ} {x : Nat × τ}
    {c : Nat × List (Hook × Nat × τ)} (h : Below C P fr fr')
    (hr : List.Forall₂ (Below C P) rest rest') (hc : weigh S A inp s' = c)
    (hs : step A (pass C P) inp s' = .next ⟨fr'.set x :: rest', g'⟩) (hg : g' = { g with ev := E }) :
    Steps A S inp (.next ⟨fr.set x :: rest, g⟩) c s' E := by
  subst hg
  exact steps_next (t := ⟨fr.set x :: rest, g⟩) hc hs ⟨fr.set x, rest, fr'.set x, rest', rfl, rfl, top_set h, hr⟩

theorem steps_stuck {s' : State τ} {E : List (Hook × Nat × τ)}
    {c : Nat × List (Hook × Nat × τ)} (hc : weigh S A inp s' = c)
    (hs : step A (pass C P) inp s' = .stuck) : Steps A S inp .stuck c s' E := ⟨hc, hs⟩

/-- The start of a function. -/
theorem enter_pending {fn : Nat} {G : Func} (hG : P[fn]? = some G) (hne : G.blocks ≠ [])
    (xs : List (Nat × τ)) (sp : Nat) :
    ∃ fr', Pending A (pass C P) (newFrame A fn xs sp) (plainReport A (C fn).enter) fr' ∧
      (∀ r ∈ plainReport A (C fn).enter, S.p r.1 = false) ∧ Top C P (newFrame A fn xs sp) fr' := by
  obtain ⟨B, hB⟩ : ∃ B, G.blocks[0]? = some B := by
    cases hb : G.blocks with
    | nil => exact absurd hb hne
    | cons B Bs => exact ⟨B, rfl⟩
  have hrel : FRel (C fn) G (newFrame A fn xs sp) (newFrame A fn xs sp) :=
    ⟨rfl, rfl, rfl, rfl, rfl, fun _ => rfl⟩
  cases he : (C fn).enter with
  | none =>
    refine ⟨newFrame A fn xs sp, .nil _, by simp [plainReport], G, B, hG, hB, Nat.zero_le _, hrel, ?_⟩
    simp [newFrame, startAt, he]
  | some h =>
    have hs0 : startAt (C fn) 0 B 0 = 1 := by simp [startAt, he]
    have hd : (passBlock (C fn) G 0 B).body.drop 0 =
        .hook h (.const 0) :: emit (C fn) G 0 B 0 B.body := by
      simp [passBlock, prefixOf, he]
    have e1 := Pending.cons (A := A) (fr := newFrame A fn xs sp) (pass_get (C := C) hG) (passFunc_get hB)
      (get_of_drop hd) (.nil _)
    simp only [Frame.report, Frame.get, ite_self] at e1
    refine ⟨(newFrame A fn xs sp).set (0, A.zero), e1, ?_, G, B, hG, hB, Nat.zero_le _,
      ⟨rfl, rfl, rfl, rfl, rfl, fun r => ?_⟩, ?_⟩
    · intro r hr
      rw [List.mem_singleton.1 hr]
      exact S.enter _ _ _ hG he
    · simp only [Frame.set]
      rw [if_neg]
      · rfl
      · intro e
        cases r with
        | phi c k => cases e
        | ins c i =>
          have hc : c = 0 := by
            simp only [renReg] at e
            split at e <;> · injection e
          subst hc
          simp only [renReg, newFrame, hB] at e
          injection e with _ e
          have := startAt_le_posOf (C fn) 0 B i
          have h2 : startAt (C fn) 0 B 0 ≤ startAt (C fn) 0 B i := by
            by_cases c : i = 0
            · subst c; exact Nat.le_refl _
            · have := posOf_lt_startAt (m := C fn) (b := 0) (B := B) (show 0 < i by omega)
              have := startAt_le_posOf (C fn) 0 B 0
              omega
          have e : posOf (C fn) 0 B i = 0 := e
          omega
    · show 0 + 1 = startAt (C fn) 0 B 0
      rw [hs0]

theorem enter_run {fn : Nat} {G : Func} (hG : P[fn]? = some G) (hne : G.blocks ≠ [])
    (xs : List (Nat × τ)) (sp : Nat) (rest' : List (Frame τ)) (g : Glob τ) :
    ∃ k fr', run A (pass C P) inp k ⟨newFrame A fn xs sp :: rest', g⟩ =
      .next ⟨fr' :: rest', { g with ev := g.ev ++ plainReport A (C fn).enter }⟩ ∧
      tally S A inp k ⟨newFrame A fn xs sp :: rest', g⟩ = (0, []) ∧
      Top C P (newFrame A fn xs sp) fr' := by
  obtain ⟨fr', h1, h2, h3⟩ := enter_pending (A := A) (S := S) hG hne xs sp
  exact ⟨_, fr', h1.run rest' g, h1.tally h2 rest' g, h3⟩

theorem phiOpds_ren (ρ : Opd → Opd) (b : Nat) (phis : List (List (Nat × Opd))) :
    phiOpds b (phis.map (fun inc => inc.map (fun x => (x.1, ρ x.2)))) =
      (phiOpds b phis).map (List.map ρ) := by
  have hl : ∀ inc : List (Nat × Opd), (inc.map (fun x => (x.1, ρ x.2))).lookup b = (inc.lookup b).map ρ := by
    intro inc
    induction inc with
    | nil => rfl
    | cons x inc ih =>
      obtain ⟨i, o⟩ := x
      simp only [List.map_cons, List.lookup_cons]
      cases b == i <;> simp [ih]
  unfold phiOpds
  induction phis with
  | nil => rfl
  | cons inc phis ih =>
    simp only [List.map_cons, List.mapM_cons, hl, ih]
    cases inc.lookup b with
    | none => rfl
    | some o => cases phis.mapM (fun inc => inc.lookup b) <;> rfl

/-- The entry block is not jumped to (the LLVM verifier checks this). -/
def NoBack (F : Func) : Prop := ∀ (b : Nat) (B : Block), F.blocks[b]? = some B → 0 ∉ B.succs

theorem jump_sim {F : Func} {fr fr' : Frame τ} {rest rest' : List (Frame τ)} {g : Glob τ}
    {E : List (Hook × Nat × τ)} {s' : State τ} {t : Nat}
    {c : Nat × List (Hook × Nat × τ)} (ht : t ≠ 0) (hc : weigh S A inp s' = c) (hF : P[fr.fn]? = some F)
    (h : FRel (C fr.fn) F fr fr') (hr : List.Forall₂ (Below C P) rest rest')
    (hs : step A (pass C P) inp s' = jump A (passFunc (C fr.fn) F) fr' rest' { g with ev := E } t) :
    Steps A S inp (jump A F fr rest g t) c s' E := by
  unfold jump at hs ⊢
  cases hT : F.blocks[t]? with
  | none =>
    rw [show (passFunc (C fr.fn) F).blocks[t]? = none by simp [passFunc, hT]] at hs
    exact steps_stuck hc hs
  | some T =>
    rw [passFunc_get hT] at hs
    simp only [passBlock, phiOpds_ren, h.blk] at hs
    cases ho : phiOpds fr.blk T.phis with
    | none => rw [ho] at hs; simp only [ho]; exact steps_stuck hc hs
    | some os =>
      rw [ho] at hs
      simp only [ho]
      simp only [Option.map_some] at hs
      refine steps_next (t := ⟨_, g⟩) hc hs ⟨_, rest, _, rest', rfl, rfl, ?_, hr⟩
      refine ⟨F, T, hF, hT, Nat.zero_le _, ⟨h.fn, rfl, h.args, h.vars, h.sp, ?_⟩, ?_⟩
      · intro r
        cases r with
        | ins b j =>
          have := h.env (.ins b j)
          cases hb : F.blocks[b]? with
          | none => simp only [renReg, hb] at this ⊢; exact this
          | some B => simp only [renReg, hb] at this ⊢; exact this
        | phi b k =>
          have := h.env (.phi b k)
          simp only [renReg, List.getElem?_map] at this ⊢
          split
          · cases os[k]? with
            | none => exact this
            | some o => exact h.get o
          · exact this
      · simp [startAt, ht]

theorem return_sim {fr : Frame τ} {rest rest' : List (Frame τ)} {g : Glob τ} {E : List (Hook × Nat × τ)}
    {s' : State τ} {x : Nat × τ}
    {c : Nat × List (Hook × Nat × τ)} (hc : weigh S A inp s' = c) (hr : List.Forall₂ (Below C P) rest rest')
    (hs : step A (pass C P) inp s' = doReturn { g with ev := E } fr.sp x rest') :
    Steps A S inp (doReturn g fr.sp x rest) c s' E := by
  cases hr with
  | nil => exact ⟨hc, hs⟩
  | cons h1 h2 => exact steps_set h1 h2 hc hs rfl

/-- An instruction before which nothing is inserted. -/
theorem plain_sim {F : Func} {B : Block} {fr fr' : Frame τ} {rest rest' : List (Frame τ)} {g : Glob τ}
    {E : List (Hook × Nat × τ)} {I : Instr} (hF : P[fr.fn]? = some F) (hB : F.blocks[fr.blk]? = some B)
    (hI : B.body[fr.idx]? = some I) (h : FRel (C fr.fn) F fr fr')
    (hi : fr'.idx = startAt (C fr.fn) fr.blk B fr.idx) (hr : List.Forall₂ (Below C P) rest rest')
    (hv : ∀ k, visit (C fr.fn) F fr.blk fr.idx k I = ([], renInstr (renOpd (C fr.fn) F) I))
    (hop : ∀ f args, I ≠ .op f args) (hsel : ∀ c t e, I ≠ .select c t e) :
    Steps A S inp (stepInstr A P inp fr rest g I) (weight S A inp ⟨fr :: rest, g⟩) ⟨fr' :: rest', { g with ev := E }⟩
      (E ++ observe A C P ⟨fr :: rest, g⟩) := by
  obtain ⟨hlt, -⟩ := List.getElem?_eq_some_iff.1 hI
  have hp : fr'.idx = posOf (C fr.fn) fr.blk B fr.idx := by
    have := visit_len (C fr.fn) F fr.blk fr.idx (startAt (C fr.fn) fr.blk B fr.idx) B.term I
    rw [hv] at this
    rw [hi, posOf, hI, ← this]; rfl
  have hb : Below C P fr fr' := ⟨F, B, hF, hB, hlt, h, hp⟩
  have hF' : (pass C P)[fr'.fn]? = some (passFunc (C fr.fn) F) := by rw [h.fn]; exact pass_get hF
  have hB' : (passFunc (C fr.fn) F).blocks[fr'.blk]? = some (passBlock (C fr.fn) F fr.blk B) := by
    rw [h.blk]; exact passFunc_get hB
  have hI' : (passBlock (C fr.fn) F fr.blk B).body[fr'.idx]? = some (renInstr (renOpd (C fr.fn) F) I) := by
    obtain ⟨R, hR⟩ := body_at (m := C fr.fn) (F := F) (b := fr.blk) hI
    rw [hv, ← hi] at hR
    exact get_of_drop hR
  have hs := step_at (A := A) (inp := inp) (rest := rest') (g := { g with ev := E }) hF' hB' hI'
  have hc : weigh S A inp (State.mk (fr' :: rest') { g with ev := E }) = weight S A inp ⟨fr :: rest, g⟩ := by
    rw [weigh, weight, cost_at hF' hB' hI', cost_at hF hB hI]
    simp only [observe, hF', hB', hI', hF, hB, hI]
    cases I with
    | op f args => exact absurd rfl (hop f args)
    | select c t e => exact absurd rfl (hsel c t e)
    | call void f args => simp [renInstr, Instr.cost, h.get, S.enter']
    | hook k v => simp [renInstr, Instr.cost, Frame.report, h.get]
    | read a n => simp only [renInstr, Instr.cost, ← get_val A, h.get]
    | _ => simp [renInstr, Instr.cost]
  have hobs : observe A C P ⟨fr :: rest, g⟩ = match I with
      | .call _ f _ => plainReport A (C (fr.get A f).1).enter
      | .hook k v => [fr.report A k v]
      | _ => [] := by
    simp only [observe, hF, hB, hI]
    cases I with
    | op f args => exact absurd rfl (hop f args)
    | select c t e => exact absurd rfl (hsel c t e)
    | _ => rfl
  rw [hobs]
  cases I with
  | op f args => exact absurd rfl (hop f args)
  | select c t e => exact absurd rfl (hsel c t e)
  | untracked f args =>
    simp only [renInstr, stepInstr, h.gets] at hs ⊢
    exact steps_set hb hr hc hs (by simp)
  | load a n =>
    simp only [renInstr, stepInstr, h.get] at hs ⊢
    by_cases c : n = 0
    · simp only [c, if_true] at hs ⊢
      exact steps_set hb hr hc hs (by simp)
    · simp only [c, if_false] at hs ⊢
      by_cases d : CanAccess (fr.get A a).1 n
      · simp only [d, if_true] at hs ⊢
        exact steps_set hb hr hc hs (by simp)
      · simp only [d, if_false] at hs ⊢
        exact steps_stuck hc hs
  | store a v n =>
    simp only [renInstr, stepInstr, h.get] at hs ⊢
    by_cases c : n = 0
    · simp only [c, if_true] at hs ⊢
      exact steps_set hb hr hc hs (by simp)
    · simp only [c, if_false] at hs ⊢
      by_cases d : CanAccess (fr.get A a).1 n
      · simp only [d, if_true] at hs ⊢
        exact steps_set hb hr hc hs (by simp)
      · simp only [d, if_false] at hs ⊢
        exact steps_stuck hc hs
  | call void f args =>
    simp only [renInstr, stepInstr, h.get, h.gets] at hs ⊢
    cases hG : P[(fr.get A f).1]? with
    | none =>
      rw [show (pass C P)[(fr.get A f).1]? = none by simp [pass, hG]] at hs
      exact steps_stuck hc hs
    | some G =>
      rw [pass_get hG] at hs
      simp only [List.length_map] at hs ⊢
      have e : ((passFunc (C (fr.get A f).1) G).nparams = args.length ∧
          (passFunc (C (fr.get A f).1) G).void = void ∧
          (passFunc (C (fr.get A f).1) G).blocks ≠ []) ↔
          (G.nparams = args.length ∧ G.void = void ∧ G.blocks ≠ []) := by
        simp [passFunc]
      by_cases c : G.nparams = args.length ∧ G.void = void ∧ G.blocks ≠ []
      · rw [if_pos (e.2 c)] at hs
        rw [if_pos c]
        obtain ⟨fr2, h1, h3, h2⟩ := enter_pending (A := A) (S := S) hG c.2.2 (args.map (fr.get A)) g.sp
        exact ⟨hc, _, _, E, _, fr2, hs, h1, h3, rfl, _, _, fr2, fr' :: rest', rfl, rfl, h2, .cons hb hr⟩
      · rw [if_neg (fun x => c (e.1 x))] at hs
        rw [if_neg c]
        exact steps_stuck hc hs
  | alloca n => exact steps_set hb hr hc hs (by simp)
  | getVar k =>
    simp only [renInstr, stepInstr, h.vars] at hs ⊢
    exact steps_set hb hr hc hs (by simp)
  | setVar k v =>
    simp only [renInstr, stepInstr, h.get] at hs ⊢
    rw [List.append_nil]
    refine steps_next (t := ⟨_, g⟩) hc hs ⟨_, rest, _, rest', rfl, rfl, ?_, hr⟩
    obtain ⟨F2, B2, h1, h2, h3, h4, h5⟩ := top_set (x := (0, A.zero)) hb
    exact ⟨F2, B2, h1, h2, h3, ⟨h4.fn, h4.blk, h4.args, by simp [h.vars], h4.sp, h4.env⟩, h5⟩
  | getc =>
    simp only [renInstr, stepInstr] at hs ⊢
    cases hb0 : inp.byte g.pos with
    | some c =>
      simp only [hb0] at hs ⊢
      exact steps_set hb hr hc hs (by simp)
    | none =>
      simp only [hb0] at hs ⊢
      exact steps_set hb hr hc hs (by simp)
  | read a n =>
    simp only [renInstr, stepInstr, h.get] at hs ⊢
    by_cases d : CanFill (fr.get A a).1 (fr.get A n).1
    · simp only [d, if_true] at hs ⊢
      exact steps_set hb hr hc hs (by simp)
    · simp only [d, if_false] at hs ⊢
      exact steps_stuck hc hs
  | write a n =>
    simp only [renInstr, stepInstr, h.get] at hs ⊢
    by_cases d : CanAccess (fr.get A a).1 (fr.get A n).1
    · simp only [d, if_true] at hs ⊢
      exact steps_set hb hr hc hs (by simp)
    · simp only [d, if_false] at hs ⊢
      exact steps_stuck hc hs
  | putc v =>
    simp only [renInstr, stepInstr, h.get] at hs ⊢
    exact steps_set hb hr hc hs (by simp)
  | memset d c n =>
    simp only [renInstr, stepInstr, h.get] at hs ⊢
    by_cases d : CanFill (fr.get A d).1 (fr.get A n).1
    · simp only [d, if_true] at hs ⊢
      exact steps_set hb hr hc hs (by simp)
    · simp only [d, if_false] at hs ⊢
      exact steps_stuck hc hs
  | memcpy move d s n =>
    simp only [renInstr, stepInstr, h.get] at hs ⊢
    by_cases d : CanCopy move (fr.get A d).1 (fr.get A s).1 (fr.get A n).1
    · simp only [d, if_true] at hs ⊢
      exact steps_set hb hr hc hs (by simp)
    · simp only [d, if_false] at hs ⊢
      exact steps_stuck hc hs
  | rmw f a args n =>
    simp only [renInstr, stepInstr, h.get, h.gets] at hs ⊢
    by_cases d : 0 < n ∧ CanAccess (fr.get A a).1 n
    · simp only [d, and_self, if_true] at hs ⊢
      exact steps_set hb hr hc hs (by simp)
    · simp only [d, if_false] at hs ⊢
      exact steps_stuck hc hs
  | hook k v =>
    simp only [renInstr, stepInstr, h.get] at hs ⊢
    exact steps_set hb hr hc hs (by simp [Frame.report])

theorem report_decisions {fr fr' : Frame τ} {k : Hook} {lg : Nat → Bool} : ∀ {os os' : List Opd} {i : Nat},
    os'.map (fr'.get A) = os.map (fr.get A) →
    (decisions lg i os').map (fr'.report A k) = (decisions lg i os).map (fr.report A k)
  | [], os', i, h => by
    cases os' with
    | nil => rfl
    | cons o os' => cases h
  | o :: os, os', i, h => by
    cases os' with
    | nil => cases h
    | cons o' os' =>
      simp only [List.map_cons, List.cons.injEq] at h
      have ih := report_decisions (k := k) (lg := lg) (i := i + 1) h.2
      simp only [decisions]
      split
      · simp only [List.map_cons, ih, Frame.report, h.1]
      · exact ih

theorem weigh_br {F : Func} {B : Block} {fr fr' : Frame τ} {rest rest' : List (Frame τ)} {g : Glob τ}
    {E : List (Hook × Nat × τ)} {c c' : Opd} {f : Nat → Nat} {ts : List Nat}
    (hF : P[fr.fn]? = some F)
    (hB : F.blocks[fr.blk]? = some B) (hI : B.body[fr.idx]? = none) (ht : B.term = .br c f ts)
    (h : FRel (C fr.fn) F fr fr') {F' : Func} {B' : Block} (hF' : (pass C P)[fr'.fn]? = some F')
    (hB' : F'.blocks[fr'.blk]? = some B') (hI' : B'.body[fr'.idx]? = none)
    (ht' : B'.term = .br c' f ts) (hg : fr'.get A c' = fr.get A c) :
    weigh S A inp ⟨fr' :: rest', { g with ev := E }⟩ = weight S A inp ⟨fr :: rest, g⟩ := by
  rw [weigh, weight, cost_end hF' hB' hI', cost_end hF hB hI]
  simp only [observe, hF', hB', hI', hF, hB, hI, ht, ht']
  simp only [h.fn, h.blk, S.cond' _ _ _ hF, S.hk', Frame.report, hg]

theorem weigh_ret {F : Func} {B : Block} {fr fr' : Frame τ} {rest rest' : List (Frame τ)} {g : Glob τ}
    {E : List (Hook × Nat × τ)} {v v' : Option Opd} (hF : P[fr.fn]? = some F)
    (hB : F.blocks[fr.blk]? = some B) (hI : B.body[fr.idx]? = none) (ht : B.term = .ret v)
    (h : FRel (C fr.fn) F fr fr') {F' : Func} {B' : Block} (hF' : (pass C P)[fr'.fn]? = some F')
    (hB' : F'.blocks[fr'.blk]? = some B') (hI' : B'.body[fr'.idx]? = none)
    (ht' : B'.term = .ret v') :
    weigh S A inp ⟨fr' :: rest', { g with ev := E }⟩ = weight S A inp ⟨fr :: rest, g⟩ := by
  rw [weigh, weight, cost_end hF' hB' hI', cost_end hF hB hI]
  simp only [observe, hF', hB', hI', hF, hB, hI, ht, ht']
  simp only [h.fn, S.leave']

/-- All reports are made before the instruction they are about. -/
def Early (C : Nat → Marks) (P : Prog) : Prop :=
  (∀ f, (C f).enter = none) ∧ ∀ (f : Nat) F (b : Nat) (B : Block) (j : Nat) k v, P[f]? = some F →
    F.blocks[b]? = some B → B.body[j]? ≠ some (.hook k v)

/-- What the program after the pass does for one step of the original program: it makes the reports that come
before the instruction, and then does the instruction. -/
theorem ready (hP : ∀ (f : Nat) F, P[f]? = some F → NoBack F) {fr fr' : Frame τ} {rest rest' : List (Frame τ)}
    (ht : Top C P fr fr') (hr : List.Forall₂ (Below C P) rest rest') :
    ∃ rs fr1 post, Pending A (pass C P) fr' rs fr1 ∧ (∀ r ∈ rs, S.p r.1 = false) ∧
      (∀ g, observe A C P ⟨fr :: rest, g⟩ = rs ++ post) ∧ (Early C P → post = []) ∧
      ∀ g E, Steps A S inp (step A P inp ⟨fr :: rest, g⟩) (weight S A inp ⟨fr :: rest, g⟩)
        ⟨fr1 :: rest', { g with ev := E }⟩ (E ++ post) := by
  obtain ⟨F, B, hF, hB, hle, hrel, hi⟩ := ht
  have hF' : ∀ fr'', FRel (C fr.fn) F fr fr'' → (pass C P)[fr''.fn]? = some (passFunc (C fr.fn) F) :=
    fun fr'' h => by rw [h.fn]; exact pass_get hF
  have hB' : ∀ fr'', FRel (C fr.fn) F fr fr'' →
      (passFunc (C fr.fn) F).blocks[fr''.blk]? = some (passBlock (C fr.fn) F fr.blk B) :=
    fun fr'' h => by rw [h.blk]; exact passFunc_get hB
  cases hI : B.body[fr.idx]? with
  | some I =>
    obtain ⟨hlt, -⟩ := List.getElem?_eq_some_iff.1 hI
    cases I with
    | op f args =>
      obtain ⟨R, hR⟩ := body_at (m := C fr.fn) (F := F) (b := fr.blk) hI
      have hx : posOf (C fr.fn) fr.blk B fr.idx = startAt (C fr.fn) fr.blk B fr.idx +
          (decisions ((C fr.fn).logged fr.blk fr.idx) 0 args).length := by
        rw [posOf, hI]; rfl
      obtain ⟨fr'', -, h2, h3, h4, -, h6, -, h8, h1⟩ := tap_run (A := A) (S := S) (inp := inp) (rest' := rest') (j := fr.idx) hF hB
        ((C fr.fn).logged fr.blk fr.idx) args _ 0 fr' ⟨fun _ => 0, fun _ => A.zero, 0, 0, [], []⟩ hrel hi (Nat.le_refl _)
        (by omega) hR
      refine ⟨_, fr'', [], h1, ?_, fun g => by simp only [observe, hF, hB, hI, List.append_nil], fun _ => rfl, fun g E => ?_⟩
      · intro r hr
        obtain ⟨o, -, rfl⟩ := List.mem_map.1 hr
        exact S.hk _
      rw [step_at hF hB hI]
      have hs := step_at (A := A) (inp := inp) (rest := rest')
        (g := { g with ev := E }) (hF' fr'' h2) (hB' fr'' h2) (get_of_drop h6)
      simp only [visit, stepInstr] at hs ⊢
      rw [h4] at hs
      refine steps_set ⟨F, B, hF, hB, hlt, h2, by omega⟩ hr
        ?_ hs ?_
      · rw [weigh, weight, cost_at (hF' fr'' h2) (hB' fr'' h2) (get_of_drop h6), cost_at hF hB hI]
        simp only [observe, hF' fr'' h2, hB' fr'' h2, get_of_drop h6, hF, hB, hI, visit]
        have h9 : fr''.idx = posOf (C fr.fn) fr.blk B fr.idx := by omega
        have h10 : (S.D' fr''.fn).logged fr''.blk fr''.idx = (S.D fr.fn).logged fr.blk fr.idx := by
          funext i
          rw [h2.fn, h2.blk, h9, S.logged' _ _ _ _ _ _ hF hB]
        rw [h10, h2.fn, S.hk', report_decisions h4]
        simp [Instr.cost, h8]
      simp
    | select c t e =>
      obtain ⟨R, hR⟩ := body_at (m := C fr.fn) (F := F) (b := fr.blk) hI
      have hx : posOf (C fr.fn) fr.blk B fr.idx = startAt (C fr.fn) fr.blk B fr.idx +
          (if (C fr.fn).logged fr.blk fr.idx 0 then 1 else 0) := by
        rw [posOf, hI]; rfl
      have hobs : ∀ g, observe A C P ⟨fr :: rest, g⟩ =
          if (C fr.fn).logged fr.blk fr.idx 0 then [fr.report A (C fr.fn).hk c] else [] := by
        intro g
        simp only [observe, hF, hB, hI]
      simp only [hobs]
      by_cases cl : (C fr.fn).logged fr.blk fr.idx 0 = true
      · simp only [visit, cl, if_true, List.cons_append, List.nil_append] at hR hx ⊢
        rw [← hi] at hR
        have hrep : fr'.report A (C fr.fn).hk (renOpd (C fr.fn) F c) = fr.report A (C fr.fn).hk c := by
          simp only [Frame.report, hrel.get]
        refine ⟨_, _, [], .cons (hF' fr' hrel) (hB' fr' hrel) (get_of_drop hR) (.nil _), ?_, fun g => by rw [hrep]; simp,
          fun _ => rfl, fun g E => ?_⟩
        · intro r hr
          rw [List.mem_singleton.1 hr]
          exact S.hk _
        rw [step_at hF hB hI]
        have h2 : FRel (C fr.fn) F fr (fr'.set (if (C fr.fn).hk.gives then
            fr'.get A (renOpd (C fr.fn) F c) else (0, A.zero))) :=
          hrel.skip (j := fr.idx) hB (by omega) (by omega) _
        have hs := step_at (A := A) (inp := inp) (rest := rest')
          (g := { g with ev := E }) (hF' _ h2) (hB' _ h2)
          (get_of_drop (l := (passBlock (C fr.fn) F fr.blk B).body) (k := fr'.idx + 1) (drop_succ hR))
        have hg : Frame.get A (fr'.set (if (C fr.fn).hk.gives then
            fr'.get A (renOpd (C fr.fn) F c) else (0, A.zero))) (instead (C fr.fn) F fr.blk fr'.idx c) =
            fr.get A c := by
          unfold instead
          split
          · simp [Frame.get, Frame.set, hrel.blk]
            exact hrel.get c
          · rw [← h2.get c]
            rename_i cg
            simp [cg]
        simp only [stepInstr, hi] at hs
        rw [← hi] at hs
        simp only [hg, h2.get] at hs
        rw [List.append_nil]
        simp only [stepInstr]
        have h9 : fr'.idx + 1 = posOf (C fr.fn) fr.blk B fr.idx := by omega
        refine steps_set ⟨F, B, hF, hB, hlt, h2, h9⟩ hr ?_ hs rfl
        have hq := get_of_drop (l := (passBlock (C fr.fn) F fr.blk B).body) (k := fr'.idx + 1) (drop_succ hR)
        rw [weigh, weight, cost_at (hF' _ h2) (hB' _ h2) hq, cost_at hF hB hI]
        have e1 := hF' _ h2
        have e2 := hB' _ h2
        simp only [observe, e1, e2, hF, hB, hI]
        have hq' : (passBlock (C fr.fn) F fr.blk B).body[(fr'.set (if (C fr.fn).hk.gives then
            fr'.get A (renOpd (C fr.fn) F c) else (0, A.zero))).idx]? = _ := hq
        rw [hq']
        simp only [h2.fn, h2.blk]
        have h10 : (S.D' fr.fn).logged fr.blk (fr'.idx + 1) 0 = (S.D fr.fn).logged fr.blk fr.idx 0 := by
          rw [h9, S.logged' _ _ _ _ _ _ hF hB]
        have h11 : (fr'.set (if (C fr.fn).hk.gives then
            fr'.get A (renOpd (C fr.fn) F c) else (0, A.zero))).idx = fr'.idx + 1 := rfl
        rw [h11, h10, S.hk']
        simp only [Frame.report, hg, Instr.cost]
      · simp only [visit, cl, Bool.false_eq_true, if_false, List.nil_append, Nat.add_zero] at hR hx ⊢
        rw [← hi] at hR
        refine ⟨[], fr', [], .nil _, by simp, fun g => rfl, fun _ => rfl, fun g E => ?_⟩
        rw [step_at hF hB hI]
        simp only [List.append_nil]
        have hs := step_at (A := A) (inp := inp) (rest := rest') (g := { g with ev := E })
          (hF' _ hrel) (hB' _ hrel) (get_of_drop hR)
        simp only [stepInstr, hrel.get] at hs ⊢
        have h9 : fr'.idx = posOf (C fr.fn) fr.blk B fr.idx := by omega
        refine steps_set ⟨F, B, hF, hB, hlt, hrel, h9⟩ hr ?_ hs rfl
        rw [weigh, weight, cost_at (hF' _ hrel) (hB' _ hrel) (get_of_drop hR), cost_at hF hB hI]
        simp only [observe, hF' _ hrel, hB' _ hrel, get_of_drop hR, hF, hB, hI]
        rw [hrel.fn, hrel.blk, h9, S.logged' _ _ _ _ _ _ hF hB, S.hk']
        simp only [Frame.report, hrel.get, Instr.cost]
    | _ =>
      refine ⟨[], fr', observe A C P ⟨fr :: rest, ⟨fun _ => 0, fun _ => A.zero, 0, 0, [], []⟩⟩, .nil _, by simp, fun g => rfl,
        fun he => ?_, fun g E => ?_⟩
      · first
        | exact absurd hI (he.2 _ _ _ _ _ _ _ hF hB)
        | simp only [observe, hF, hB, hI]; done
        | simp only [observe, hF, hB, hI, plainReport, he.1]
      rw [step_at hF hB hI]
      exact plain_sim hF hB hI hrel hi hr (fun _ => rfl) (by intros; simp) (by intros; simp)
  | none =>
    have hn : fr.idx = B.body.length := by
      have := List.getElem?_eq_none_iff.1 hI
      omega
    have hR := body_end (C fr.fn) F fr.blk B
    rw [← hn, ← hi] at hR
    have hx : posOf (C fr.fn) fr.blk B fr.idx = startAt (C fr.fn) fr.blk B fr.idx +
        extra (C fr.fn) fr.blk fr.idx B.term none := by
      rw [posOf, hI]
    have hterm : (passBlock (C fr.fn) F fr.blk B).term =
        (visitTerm (C fr.fn) F fr.blk fr'.idx B.term).2 := by
      simp only [passBlock, hi, hn]
    have hnone : ∀ k, (passBlock (C fr.fn) F fr.blk B).body.drop k = [] →
        (passBlock (C fr.fn) F fr.blk B).body[k]? = none := fun k h =>
      List.getElem?_eq_none (List.drop_eq_nil_iff.1 h)
    have hobs : ∀ g, observe A C P ⟨fr :: rest, g⟩ = match B.term with
          | .br c _ _ => if (C fr.fn).cond fr.blk then [fr.report A (C fr.fn).hk c] else []
          | .ret _ => plainReport A (C fr.fn).leave
          | .unreachable => [] := by
      intro g
      simp only [observe, hF, hB, hI]
      cases B.term <;> rfl
    simp only [hobs]
    cases ht : B.term with
    | br c f ts =>
      have hts : ∀ t ∈ ts, t ≠ 0 := by
        intro t h0 e
        subst e
        exact hP _ _ hF _ _ hB (by simp [Block.succs, ht, h0])
      rw [ht] at hterm hR hx
      by_cases cl : (C fr.fn).cond fr.blk = true
      · simp only [visitTerm, extra, cl, if_true] at hR hx hterm ⊢
        have hrep : fr'.report A (C fr.fn).hk (renOpd (C fr.fn) F c) = fr.report A (C fr.fn).hk c := by
          simp only [Frame.report, hrel.get]
        refine ⟨_, _, [], .cons (hF' fr' hrel) (hB' fr' hrel) (get_of_drop hR) (.nil _), ?_, fun g => by rw [hrep]; rfl,
          fun _ => rfl, fun g E => ?_⟩
        · intro r hr
          rw [List.mem_singleton.1 hr]
          exact S.hk _
        rw [step_end hF hB hI, ht]
        have h2 : FRel (C fr.fn) F fr (fr'.set (if (C fr.fn).hk.gives then
            fr'.get A (renOpd (C fr.fn) F c) else (0, A.zero))) :=
          hrel.skip (j := fr.idx) hB (by omega) (by omega) _
        have hs := step_end (A := A) (inp := inp) (rest := rest')
          (g := { g with ev := E }) (hF' _ h2) (hB' _ h2)
          (hnone (fr'.idx + 1) (drop_succ hR))
        have hg : Frame.get A (fr'.set (if (C fr.fn).hk.gives then
            fr'.get A (renOpd (C fr.fn) F c) else (0, A.zero))) (instead (C fr.fn) F fr.blk fr'.idx c) =
            fr.get A c := by
          unfold instead
          split
          · simp [Frame.get, Frame.set, hrel.blk]
            exact hrel.get c
          · rw [← h2.get c]
            rename_i cg
            simp [cg]
        have hc := weigh_br (A := A) (S := S) (inp := inp) (rest := rest) (rest' := rest') (g := g)
          (E := E) hF hB hI ht h2 (hF' _ h2) (hB' _ h2)
          (hnone (fr'.idx + 1) (drop_succ hR)) hterm hg
        rw [hterm] at hs
        simp only [stepTerm, hg] at hs
        rw [List.append_nil]
        simp only [stepTerm]
        cases hj : ts[f (fr.get A c).1]? with
        | none => rw [hj] at hs; exact steps_stuck hc hs
        | some t =>
          rw [hj] at hs
          exact jump_sim (hts t (List.mem_of_getElem? hj)) hc hF h2 hr hs
      · simp only [visitTerm, extra, cl, Bool.false_eq_true, if_false, List.append_nil] at hR hx hterm ⊢
        refine ⟨[], fr', [], .nil _, by simp, fun g => rfl, fun _ => rfl, fun g E => ?_⟩
        rw [step_end hF hB hI, ht]
        simp only [List.append_nil]
        have hs := step_end (A := A) (inp := inp) (rest := rest') (g := { g with ev := E })
          (hF' _ hrel) (hB' _ hrel) (hnone fr'.idx hR)
        have hc := weigh_br (A := A) (S := S) (inp := inp) (rest := rest) (rest' := rest') (g := g) (E := E) hF hB hI ht hrel
          (hF' _ hrel) (hB' _ hrel) (hnone fr'.idx hR) hterm (hrel.get c)
        rw [hterm] at hs
        simp only [stepTerm, hrel.get] at hs ⊢
        cases hj : ts[f (fr.get A c).1]? with
        | none => rw [hj] at hs; exact steps_stuck hc hs
        | some t =>
          rw [hj] at hs
          exact jump_sim (hts t (List.mem_of_getElem? hj)) hc hF hrel hr hs
    | ret v =>
      rw [ht] at hterm hR hx
      simp only [visitTerm, extra] at hR hx hterm ⊢
      obtain ⟨fr'', h1, h5, h2, h3, h4⟩ : ∃ fr'', Pending A (pass C P) fr' (plainReport A (C fr.fn).leave) fr'' ∧
          (∀ r ∈ plainReport A (C fr.fn).leave, S.p r.1 = false) ∧
          FRel (C fr.fn) F fr fr'' ∧ (passBlock (C fr.fn) F fr.blk B).body[fr''.idx]? = none ∧
          fr''.sp = fr.sp := by
        cases hl : (C fr.fn).leave with
        | none =>
          rw [hl] at hR
          exact ⟨fr', .nil _, by simp [plainReport], hrel, hnone _ hR, hrel.sp⟩
        | some hk =>
          rw [hl] at hR
          simp only [hl, Option.isSome_some, if_true] at hx
          have e1 := Pending.cons (A := A) (hF' fr' hrel) (hB' fr' hrel) (get_of_drop hR) (.nil _)
          simp only [Frame.report, Frame.get, ite_self] at e1
          refine ⟨_, e1, ?_, hrel.skip (j := fr.idx) hB (by omega) (by omega) (0, A.zero),
            hnone (fr'.idx + 1) (drop_succ hR), hrel.sp⟩
          intro r hr
          rw [List.mem_singleton.1 hr]
          exact S.leave _ _ _ hF hl
      refine ⟨_, fr'', [], h1, h5, fun g => by rw [List.append_nil], fun _ => rfl, fun g E => ?_⟩
      rw [step_end hF hB hI, ht, List.append_nil]
      have hs := step_end (A := A) (inp := inp) (rest := rest')
        (g := { g with ev := E }) (hF' _ h2) (hB' _ h2) h3
      have hc := weigh_ret (A := A) (S := S) (inp := inp) (rest := rest) (rest' := rest') (g := g)
        (E := E) hF hB hI ht h2 (hF' _ h2) (hB' _ h2) h3 hterm
      rw [hterm] at hs
      have hv : (passFunc (C fr.fn) F).void = F.void := rfl
      cases v with
      | none =>
        simp only [Option.map_none, stepTerm, hv, h4] at hs ⊢
        cases hvv : F.void with
        | true => simp only [hvv, if_true] at hs ⊢; exact return_sim hc hr hs
        | false => simp only [hvv, Bool.false_eq_true, if_false] at hs ⊢; exact steps_stuck hc hs
      | some v =>
        simp only [Option.map_some, stepTerm, hv, h4, h2.get] at hs ⊢
        cases hvv : F.void with
        | true => simp only [hvv, if_true] at hs ⊢; exact steps_stuck hc hs
        | false => simp only [hvv, Bool.false_eq_true, if_false] at hs ⊢; exact return_sim hc hr hs
    | unreachable =>
      rw [ht] at hterm hR hx
      refine ⟨[], fr', [], .nil _, by simp, fun g => rfl, fun _ => rfl, fun g E => ?_⟩
      rw [step_end hF hB hI, ht]
      simp only [List.append_nil]
      have hs := step_end (A := A) (inp := inp) (rest := rest') (g := { g with ev := E })
        (hF' _ hrel) (hB' _ hrel) (hnone fr'.idx hR)
      have hc : weigh S A inp ⟨fr' :: rest', { g with ev := E }⟩ = weight S A inp ⟨fr :: rest, g⟩ := by
        rw [weigh, weight, cost_end (hF' _ hrel) (hB' _ hrel) (hnone fr'.idx hR), cost_end hF hB hI]
        simp only [observe, hF' _ hrel, hB' _ hrel, hnone fr'.idx hR, hF, hB, hI, hterm, ht, visitTerm]
      rw [hterm] at hs
      exact steps_stuck hc hs

/-- One step. -/
theorem step_sim (hP : ∀ (f : Nat) F, P[f]? = some F → NoBack F) {s s' : State τ} {E : List (Hook × Nat × τ)}
    (h : SRel C P s s' E) :
    Follows A S inp (step A P inp s) (weight S A inp s) s' (E ++ observe A C P s) := by
  obtain ⟨fr, rest, fr', rest', hfs, rfl, ht, hr⟩ := h
  obtain ⟨frs, g⟩ := s
  obtain rfl : frs = fr :: rest := hfs
  obtain ⟨rs, fr1, post, h1, h2, h4, -, h3⟩ := ready (A := A) (S := S) (inp := inp) hP ht hr
  have := (h3 g (E ++ rs)).follows
  rw [List.append_assoc, ← h4 g] at this
  exact Follows.after (h1.run rest' _) (h1.tally h2 rest' _) this

/-- What is tallied for the original program. -/
def total (S : Both C P) (A : Alg τ) (inp : World) (n : Nat) (s : State τ) : Nat × List (Hook × Nat × τ) :=
  (runCost A P inp n s, (observeRun A S.D P inp n s).filter (fun x => S.p x.1))

/-- Many steps. -/
theorem run_sim (S : Both C P) (hP : ∀ (f : Nat) F, P[f]? = some F → NoBack F) : ∀ (n : Nat) {s s' : State τ}
    {E : List (Hook × Nat × τ)}, SRel C P s s' E →
    match run A P inp n s with
    | .next t => ∃ k t', n ≤ k ∧ run A (pass C P) inp k s' = .next t' ∧
        tally S A inp k s' = total S A inp n s ∧
        SRel C P t t' (E ++ observeRun A C P inp n s)
    | .done v g => ∃ k, run A (pass C P) inp k s' = .done v { g with ev := E ++ observeRun A C P inp n s } ∧
        tally S A inp k s' = total S A inp n s
    | .stuck => ∃ k, run A (pass C P) inp k s' = .stuck ∧
        tally S A inp k s' = total S A inp n s
  | 0, s, s', E, h => ⟨0, s', Nat.le_refl _, rfl, rfl, by simpa [observeRun] using h⟩
  | n + 1, s, s', E, h => by
    have h1 := step_sim (A := A) (S := S) (inp := inp) hP h
    simp only [run, total, runCost, observeRun]
    cases hs : step A P inp s with
    | done v g =>
      rw [hs] at h1
      obtain ⟨k, h1, c1⟩ := h1
      exact ⟨k, by simpa using h1, by simpa [weight] using c1⟩
    | stuck =>
      rw [hs] at h1
      obtain ⟨k, h1, c1⟩ := h1
      exact ⟨k, h1, by simpa [weight] using c1⟩
    | next t =>
      rw [hs] at h1
      obtain ⟨k, t', hk, h1, c1, h2⟩ := h1
      have h3 := run_sim S hP n h2
      simp only
      cases hr : run A P inp n t with
      | next u =>
        rw [hr] at h3
        obtain ⟨l, u', hl, h4, c2, h5⟩ := h3
        exact ⟨k + l, u', by omega, by rw [run_next h1, h4], by rw [tally_next h1, c1, c2]; simp [plus, weight, total],
          by simpa using h5⟩
      | done v g =>
        rw [hr] at h3
        obtain ⟨l, h4, c2⟩ := h3
        exact ⟨k + l, by rw [run_next h1, h4]; simp, by rw [tally_next h1, c1, c2]; simp [plus, weight, total]⟩
      | stuck =>
        rw [hr] at h3
        obtain ⟨l, h4, c2⟩ := h3
        exact ⟨k + l, by rw [run_next h1, h4], by rw [tally_next h1, c1, c2]; simp [plus, weight, total]⟩

end CfPass
end Verif
