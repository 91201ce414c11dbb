import Verif.PassIrCall
import Verif.IrMap
/- Helper lemmas: many steps of an instrumented program. -/
namespace Verif
namespace PassIr
open Ir Spec Labels DfsanMem

theorem stepInstr_pos {τ : Type} {A : Alg τ} {P : Prog} {inp : World} {fr : Frame τ}
    {rest : List (Frame τ)} {g : Glob τ} {I : Instr} {s' : State τ}
    (h : stepInstr A P inp fr rest g I = .next s') : g.pos ≤ s'.glob.pos := by
  cases I <;> simp only [stepInstr] at h <;> (repeat' split at h) <;> cases h <;> simp

theorem stepInstr_not_done {τ : Type} {A : Alg τ} {P : Prog} {inp : World} {fr : Frame τ}
    {rest : List (Frame τ)} {g : Glob τ} {I : Instr} {v : Nat × τ} {g' : Glob τ}
    (h : stepInstr A P inp fr rest g I = .done v g') : False := by
  cases I <;> simp only [stepInstr] at h <;> (repeat' split at h) <;> cases h

/-- Input that was read stays read. -/
theorem step_pos {τ : Type} {A : Alg τ} {P : Prog} {inp : World} {s : State τ} {o : Out τ}
    (h : step A P inp s = o) (ho : o ≠ .stuck) : s.glob.pos ≤ o.pos := by
  unfold step at h
  split at h
  · exact absurd h.symm ho
  · rename_i fr rest hf
    split at h
    · exact absurd h.symm ho
    · rename_i F hF
      split at h
      · exact absurd h.symm ho
      · rename_i B hB
        split at h
        · cases o with
          | next s' => exact stepInstr_pos h
          | done v g => exact (stepInstr_not_done h).elim
          | stuck => exact absurd rfl ho
        · cases hT : B.term with
          | unreachable => rw [hT] at h; exact absurd h.symm ho
          | br c f ts =>
            rw [hT] at h
            simp only [stepTerm] at h
            split at h
            · exact absurd h.symm ho
            · unfold jump at h
              split at h
              · exact absurd h.symm ho
              · split at h
                · exact absurd h.symm ho
                · subst h; simp [Out.pos]
          | ret v =>
            rw [hT] at h
            cases v with
            | none =>
              simp only [stepTerm] at h
              split at h
              · cases rest <;> simp only [doReturn] at h <;> subst h <;> simp [Out.pos]
              · exact absurd h.symm ho
            | some v =>
              simp only [stepTerm] at h
              split at h
              · exact absurd h.symm ho
              · cases rest <;> simp only [doReturn] at h <;> subst h <;> simp [Out.pos]

theorem run_pos {τ : Type} {A : Alg τ} {P : Prog} {inp : World} : ∀ (n : Nat) {s : State τ} {o : Out τ},
    run A P inp n s = o → o ≠ .stuck → s.glob.pos ≤ o.pos
  | 0, s, o, h, _ => by subst h; simp [run, Out.pos]
  | n + 1, s, o, h, ho => by
    unfold run at h
    cases hs : step A P inp s with
    | next s' =>
      rw [hs] at h
      have := step_pos hs (by simp)
      exact Nat.le_trans this (run_pos n h ho)
    | done v g => rw [hs] at h; subst h; exact step_pos hs (by simp)
    | stuck => rw [hs] at h; exact absurd h.symm ho

theorem run_step_pos {τ : Type} {A : Alg τ} {P : Prog} {inp : World} (n : Nat) {s : State τ} {o : Out τ}
    (h : run A P inp (n + 1) s = o) (ho : o ≠ .stuck) : (step A P inp s).pos ≤ o.pos := by
  unfold run at h
  cases hs : step A P inp s with
  | next s' => rw [hs] at h; exact run_pos n h ho
  | done v g => rw [hs] at h; subst h; exact Nat.le_refl _
  | stuck => rw [hs] at h; exact absurd h.symm ho

variable {dom : Nat → Nat → Nat → Bool} {P : Prog} {cap src : Nat} {inp : World}

/-- Many steps. -/
theorem run_sim (hP : ProgOk dom P) (hsrc : src < 256) : ∀ (n : Nat) {i : IState}
    {s : State (Nat × Nat → Prop)}, Rel dom P cap i s → (run (sets src) P inp n s).pos < 2 ^ 54 →
    match run (sets src) P inp n s with
    | .stuck => True
    | .next s' => Goes cap (runCost (sets src) P inp n s) i.glob.L (irun dom P inp src n i) (fun o =>
        ∃ i', o = .next i' ∧ Rel dom P cap i' s' ∧
          Evolves (runCost (sets src) P inp n s) i.glob i'.glob)
    | .done v g => Goes cap (runCost (sets src) P inp n s) i.glob.L (irun dom P inp src n i) (fun o =>
        ∃ l g', o = .done v.1 l g' ∧ Den g'.L l v.2 ∧ GRel cap g' g ∧
          Evolves (runCost (sets src) P inp n s) i.glob g') := by
  intro n
  induction n with
  | zero =>
    intro i s h hp
    exact .ok ⟨i, rfl, h, .refl _⟩
  | succ n ih =>
    intro i s h hp
    have hs : run (sets src) P inp (n + 1) s ≠ .stuck → _ := fun hne =>
      step_sim (inp := inp) hP hsrc h (Nat.le_trans (run_step_pos n rfl hne) (Nat.le_of_lt hp))
    unfold run at hs hp
    unfold run runCost irun
    cases e : step (sets src) P inp s with
    | stuck => trivial
    | done v g =>
      rw [e] at hs
      have hs := hs (by simp)
      dsimp only at hs ⊢
      refine Goes.bind hs ?_
      rintro o ⟨l, g', rfl, h1, h2, h3⟩
      exact .ok ⟨l, g', rfl, h1, h2, h3⟩
    | next s' =>
      rw [e] at hs hp
      dsimp only at hs hp ⊢
      have key : ∀ i', Rel dom P cap i' s' → Evolves (s.cost P inp) i.glob i'.glob → _ :=
        fun i' h1 h2 => ih (i := i') (s := s') h1 hp
      cases e2 : run (sets src) P inp n s' with
      | stuck => trivial
      | next s2 =>
        rw [e2] at hs
        have hs := hs (by simp)
        dsimp only
        refine Goes.bind (hs.weak (Nat.le_add_right _ _)) ?_
        rintro o ⟨i', rfl, h1, h2⟩
        have := key i' h1 h2
        rw [e2] at this
        refine (Goes.from h2.room.choose_spec this).mono ?_
        rintro o ⟨i2, rfl, h3, h4⟩
        exact ⟨i2, rfl, h3, h2.trans h4⟩
      | done v g =>
        rw [e2] at hs
        have hs := hs (by simp)
        dsimp only
        refine Goes.bind (hs.weak (Nat.le_add_right _ _)) ?_
        rintro o ⟨i', rfl, h1, h2⟩
        have := key i' h1 h2
        rw [e2] at this
        refine (Goes.from h2.room.choose_spec this).mono ?_
        rintro o ⟨l, g', rfl, h3, h4, h5⟩
        exact ⟨l, g', rfl, h3, h4, h2.trans h5⟩

theorem start_rel (hP : ProgOk dom P) {L : Labels} (hL : Store cap L) {fn : Nat} {F : Func}
    (hF : P[fn]? = some F) (hne : F.blocks ≠ []) (args : List Nat) {mem : Mem} (hb : Spec.IsBytes mem)
    {tm : Nat → Nat × Nat → Prop} (hz : TaintedBy L mem tm) (sp : Nat) :
    Rel dom P cap (istart F fn args mem sp L) (start (sets src) fn args mem sp tm) := by
  let gs : Glob (Nat × Nat → Prop) := (start (sets src) fn args mem sp tm).glob
  let g : IGlob := (istart F fn args mem sp L).glob
  obtain ⟨B, hB⟩ := enter_rel (src := src) (gs := gs) (g := g) hP hF hne
    (args := args.map (fun v => (v, (sets src).zero))) hL rfl (fun i _ => by
      have : (((args.map (fun v => (v, (sets src).zero))).getD i (0, fun _ => False)).2) =
          fun _ => False := by
        simp only [List.getD, List.getElem?_map]
        cases args[i]? <;> rfl
      rw [this]
      exact hL.den_zero)
  refine ⟨⟨_, [], _, [], F, B, rfl, rfl, ?_, .nil _⟩, ?_⟩
  · have e : (args.map (fun v => (v, (sets src).zero))).map (·.1) = args := by
      rw [List.map_map]
      exact List.map_id _
    rw [e] at hB
    exact hB
  · exact
      { store := hL
        bytes := hb
        mem := fun _ _ => rfl
        lab := fun a ha => by
          show Den L (labelOf mem a) _
          exact hz a ha
        sp := rfl
        pos := rfl
        out := .nil
        ev := .nil }

theorem val_map {τ σ : Type} (h : τ → σ) (fr : Frame τ) : (fr.map h).val = fr.val := by
  funext o
  cases o with
  | const v => rfl
  | arg i =>
    simp only [Frame.val, Frame.map, List.getElem?_map]
    cases fr.args[i]? <;> rfl
  | reg r => rfl

theorem cost_map {τ σ : Type} (h : τ → σ) (P : Prog) (inp : World) (s : State τ) :
    (s.map h).cost P inp = s.cost P inp := by
  obtain ⟨fs, g⟩ := s
  cases fs with
  | nil => rfl
  | cons fr fs =>
    simp only [State.cost, State.map, List.map_cons, val_map]
    rfl

theorem runCost_map {τ σ : Type} {A : Alg τ} {B : Alg σ} {h : τ → σ} (hh : A.Hom B h) (P : Prog)
    (inp : World) : ∀ (n : Nat) (s : State τ),
    runCost B P inp n (s.map h) = runCost A P inp n s := by
  intro n
  induction n with
  | zero => intro s; rfl
  | succ n ih =>
    intro s
    unfold runCost
    rw [cost_map, step_map hh]
    cases step A P inp s with
    | next s' => exact congrArg _ (ih s')
    | done v g => rfl
    | stuck => rfl

end PassIr
end Verif
