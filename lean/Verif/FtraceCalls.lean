import Verif.Spec.Calls
import Verif.Ftrace
import Verif.Props.C49
import Verif.CfPassValid
/- Helper lemmas: what a step does to the stack of calls; inserting reports does not change the calls. -/
namespace Verif
namespace Ftrace
open Ir CfPass

variable {τ : Type}

/-- The frame is at a return. -/
def AtRet (P : Prog) (fr : Frame τ) : Prop :=
  ∃ F B v, P[fr.fn]? = some F ∧ F.blocks[fr.blk]? = some B ∧ B.body[fr.idx]? = none ∧ B.term = .ret v

/-- The frame is at the start of its function. -/
def Fresh (fr : Frame τ) : Prop := fr.blk = 0 ∧ fr.idx = 0

/-- What a step does to the frames. -/
inductive Shape (P : Prog) (fr : Frame τ) (rest : List (Frame τ)) : Out τ → Prop
  | same (fr' : Frame τ) (g) (hr : ¬ AtRet P fr) (hf : fr'.fn = fr.fn) (hn : ¬ Fresh fr') : Shape P fr rest (.next ⟨fr' :: rest, g⟩)
  | call (fr' : Frame τ) (g) (hr : ¬ AtRet P fr) (hn : Fresh fr') (hp : fr'.fn < P.length) :
      Shape P fr rest (.next ⟨fr' :: fr :: rest, g⟩)
  | ret (c c' : Frame τ) (r) (g) (hr : AtRet P fr) (hc : rest = c :: r) (hf : c'.fn = c.fn) (hn : ¬ Fresh c') :
      Shape P fr rest (.next ⟨c' :: r, g⟩)
  | done (v g) (hr : AtRet P fr) (hc : rest = []) : Shape P fr rest (.done v g)
  | stuck : Shape P fr rest .stuck

theorem shape_jump {A : Alg τ} {P : Prog} {fr : Frame τ} {rest : List (Frame τ)} {F : Func} {g : Glob τ} {t : Nat}
    (hr : ¬ AtRet P fr) (ht : t ≠ 0) : Shape P fr rest (jump A F fr rest g t) := by
  unfold jump
  split
  · exact .stuck
  · split
    · exact .stuck
    · exact .same _ _ hr rfl (fun h => ht h.1)

theorem shape_ret {P : Prog} {fr : Frame τ} {rest : List (Frame τ)} {g : Glob τ} {sp : Nat} {x : Nat × τ}
    (hr : AtRet P fr) : Shape P fr rest (doReturn g sp x rest) := by
  cases rest with
  | nil => exact .done _ _ hr rfl
  | cons c r => exact .ret c _ r _ hr rfl rfl (by simp [Fresh, Frame.set])

theorem step_shape {A : Alg τ} {P : Prog} (hP : C49.Accepted P) {inp : World} (fr : Frame τ) (rest : List (Frame τ))
    (g : Glob τ) : Shape P fr rest (step A P inp ⟨fr :: rest, g⟩) := by
  unfold step
  simp only
  cases hF : P[fr.fn]? with
  | none => exact .stuck
  | some F =>
    simp only
    cases hB : F.blocks[fr.blk]? with
    | none => exact .stuck
    | some B =>
      simp only
      cases hI : B.body[fr.idx]? with
      | none =>
        simp only
        cases ht : B.term with
        | unreachable => exact .stuck
        | br c f ts =>
          have hr : ¬ AtRet P fr := by
            rintro ⟨F', B', v, h1, h2, -, h4⟩
            rw [hF] at h1; cases h1
            rw [hB] at h2; cases h2
            rw [ht] at h4; cases h4
          simp only [stepTerm]
          split
          · exact .stuck
          · rename_i t h
            refine shape_jump hr ?_
            rintro rfl
            refine hP _ F hF _ B hB ?_
            rw [Block.succs, ht]
            exact List.mem_of_getElem? h
        | ret v =>
          have hr : AtRet P fr := ⟨F, B, v, hF, hB, hI, ht⟩
          cases v with
          | none =>
            simp only [stepTerm]
            split
            · exact shape_ret hr
            · exact .stuck
          | some v =>
            simp only [stepTerm]
            split
            · exact .stuck
            · exact shape_ret hr
      | some I =>
        have hr : ¬ AtRet P fr := by
          rintro ⟨F', B', v, h1, h2, h3, -⟩
          rw [hF] at h1; cases h1
          rw [hB] at h2; cases h2
          rw [hI] at h3; cases h3
        have hs : ∀ (x : Nat × τ) (g : Glob τ), Shape P fr rest (.next ⟨fr.set x :: rest, g⟩) :=
          fun x g => .same _ g hr rfl (by simp [Fresh, Frame.set])
        cases I with
        | call void f args =>
          simp only [stepInstr]
          split
          · exact .stuck
          · rename_i G hG
            split
            · exact .call _ _ hr ⟨rfl, rfl⟩ (List.getElem?_eq_some_iff.1 hG).1
            · exact .stuck
        | setVar k v => exact .same _ g hr rfl (by simp [Fresh, Frame.set])
        | _ =>
          simp only [stepInstr]
          first
            | exact hs _ _
            | (split <;> first | exact hs _ _ | exact .stuck | (split <;> first | exact hs _ _ | exact .stuck))

/-! ### Reports of calls -/

/-- Marks that report only entering and leaving, with numbers from `N` on. -/
def far (N f : Nat) : Marks :=
  { hk := .noted, enter := some (.enter (N + f)), leave := some (.leave (N + f)), logged := fun _ _ _ => false,
    cond := fun _ => false }

/-- These reports. -/
def isFar (N : Nat) : Hook → Bool
  | .enter f => decide (N ≤ f)
  | .leave f => decide (N ≤ f)
  | _ => false

/-- What they say. -/
def said (N : Nat) : Hook → Bool × Nat
  | .enter f => (true, f - N)
  | .leave f => (false, f - N)
  | _ => (false, 0)

/-- The program makes no such reports itself. -/
def Low (N : Nat) (P : Prog) : Prop :=
  ∀ (f : Nat) F (b : Nat) (B : Block) k v, P[f]? = some F → F.blocks[b]? = some B → .hook k v ∈ B.body → isFar N k = false

theorem decisions_none (os : List Opd) : ∀ i, decisions (fun _ => false) i os = [] := by
  induction os with
  | nil => intro i; rfl
  | cons o os ih => intro i; exact ih _

theorem callStep_same {s s' : State τ} (h : s'.frames.length = s.frames.length) : callStep s s' = [] := by
  simp [callStep, h]

/-- A step. -/
theorem calls_observe {A : Alg τ} {P : Prog} {N : Nat} (hN : Low N P) {inp : World} (s : State τ) :
    match step A P inp s with
    | .next s' => callStep s s' = ((observe A (far N) P s).filter (fun x => isFar N x.1)).map (fun x => said N x.1)
    | .done _ _ => [(false, s.top)] = ((observe A (far N) P s).filter (fun x => isFar N x.1)).map (fun x => said N x.1)
    | .stuck => True := by
  obtain ⟨frs, g⟩ := s
  cases frs with
  | nil => trivial
  | cons fr rest =>
    simp only [step, observe]
    cases hF : P[fr.fn]? with
    | none => trivial
    | some F =>
      simp only
      cases hB : F.blocks[fr.blk]? with
      | none => trivial
      | some B =>
        simp only
        cases hI : B.body[fr.idx]? with
        | none =>
          simp only
          have hret : ∀ (x : Nat × τ), match doReturn g fr.sp x rest with
              | .next s' => callStep ⟨fr :: rest, g⟩ s' = [(false, fr.fn)]
              | .done _ _ => [(false, State.top ⟨fr :: rest, g⟩)] = [(false, fr.fn)]
              | .stuck => True := by
            intro x
            cases rest with
            | nil => rfl
            | cons c r => simp [doReturn, callStep, State.top]
          have hobs : ((plainReport A (far N fr.fn).leave).filter (fun x => isFar N x.1)).map (fun x => said N x.1) =
              [(false, fr.fn)] := by
            simp [plainReport, far, isFar, said]
          cases ht : B.term with
          | unreachable => trivial
          | br c f ts =>
            simp only [stepTerm, far, Bool.false_eq_true, if_false]
            cases ts[f (fr.get A c).1]? with
            | none => trivial
            | some t =>
              simp only [jump]
              cases F.blocks[t]? with
              | none => trivial
              | some B' =>
                simp only
                cases phiOpds fr.blk B'.phis with
                | none => trivial
                | some os => exact callStep_same rfl
          | ret v =>
            simp only
            rw [hobs]
            cases v with
            | none =>
              simp only [stepTerm]
              split
              · rename_i h
                split at h
                · have := hret (0, A.zero); rw [h] at this; exact this
                · cases h
              · rename_i h
                split at h
                · have := hret (0, A.zero); rw [h] at this; exact this
                · cases h
              · trivial
            | some v =>
              simp only [stepTerm]
              split
              · rename_i h
                split at h
                · cases h
                · have := hret (fr.get A v); rw [h] at this; exact this
              · rename_i h
                split at h
                · cases h
                · have := hret (fr.get A v); rw [h] at this; exact this
              · trivial
        | some I =>
          simp only
          have key : ∀ (xs : List (Hook × Nat × τ)), xs.filter (fun x => isFar N x.1) = [] → ∀ (fr' : Frame τ) (g' : Glob τ),
              callStep ⟨fr :: rest, g⟩ ⟨fr' :: rest, g'⟩ = (xs.filter (fun x => isFar N x.1)).map (fun x => said N x.1) := by
            intro xs hx fr' g'
            rw [hx]
            exact callStep_same rfl
          cases I with
          | op f args => 
            refine key _ ?_ _ _
            show List.filter _ (List.map _ (decisions (fun _ => false) 0 args)) = []
            rw [decisions_none]
            rfl
          | select c t e => exact key _ rfl _ _
          | hook k v =>
            refine key _ ?_ _ _
            have := hN _ F _ B k v hF hB (List.mem_of_getElem? hI)
            simp [Frame.report, this]
          | call void f args =>
            simp only [stepInstr]
            cases P[(fr.get A f).1]? with
            | none => trivial
            | some G =>
              simp only
              split
              · rename_i h
                split at h
                · cases h
                  simp [callStep, State.top, newFrame, plainReport, far, isFar, Ftrace.said]
                · cases h
              · rename_i h
                split at h <;> cases h
              · trivial
          | getc =>
            simp only [stepInstr]
            cases inp.byte g.pos with
            | none => exact key [] rfl _ _
            | some ch => exact key [] rfl _ _
          | load a n =>
            simp only [stepInstr]
            by_cases h0 : n = 0
            · simp only [h0, if_true]; exact key [] rfl _ _
            · simp only [h0, if_false]
              by_cases h1 : CanAccess (fr.get A a).1 n
              · simp only [h1, if_true]; exact key [] rfl _ _
              · simp only [h1, if_false]
          | store a v n =>
            simp only [stepInstr]
            by_cases h0 : n = 0
            · simp only [h0, if_true]; exact key [] rfl _ _
            · simp only [h0, if_false]
              by_cases h1 : CanAccess (fr.get A a).1 n
              · simp only [h1, if_true]; exact key [] rfl _ _
              · simp only [h1, if_false]
          | read a n =>
            simp only [stepInstr]
            by_cases h1 : CanFill (fr.get A a).1 (fr.get A n).1
            · simp only [h1, if_true]; exact key [] rfl _ _
            · simp only [h1, if_false]
          | write a n =>
            simp only [stepInstr]
            by_cases h1 : CanAccess (fr.get A a).1 (fr.get A n).1
            · simp only [h1, if_true]; exact key [] rfl _ _
            · simp only [h1, if_false]
          | memset d c n =>
            simp only [stepInstr]
            by_cases h1 : CanFill (fr.get A d).1 (fr.get A n).1
            · simp only [h1, if_true]; exact key [] rfl _ _
            · simp only [h1, if_false]
          | memcpy mv d c n =>
            simp only [stepInstr]
            by_cases h1 : CanCopy mv (fr.get A d).1 (fr.get A c).1 (fr.get A n).1
            · simp only [h1, if_true]; exact key [] rfl _ _
            · simp only [h1, if_false]
          | rmw f a args n =>
            simp only [stepInstr]
            by_cases h1 : 0 < n ∧ CanAccess (fr.get A a).1 n
            · simp only [h1, and_self, if_true]; exact key [] rfl _ _
            · simp only [h1, if_false]
          | _ => exact key [] rfl _ _

/-- A run that does not get stuck. -/
theorem callsRun_observe {A : Alg τ} {P : Prog} {N : Nat} (hN : Low N P) {inp : World} : ∀ (n : Nat) (s : State τ),
    run A P inp n s ≠ .stuck →
    callsRun A P inp n s = ((observeRun A (far N) P inp n s).filter (fun x => isFar N x.1)).map (fun x => said N x.1)
  | 0, _, _ => rfl
  | n + 1, s, h => by
    have h1 := calls_observe (A := A) (inp := inp) hN s
    unfold run at h
    unfold callsRun observeRun
    cases e : step A P inp s with
    | next s' =>
      rw [e] at h1 h
      simp only at h1 h ⊢
      rw [List.filter_append, List.map_append, ← h1, callsRun_observe hN n s' h]
    | done v g =>
      rw [e] at h1
      simp only [List.append_nil] at h1 ⊢
      exact h1
    | stuck => rw [e] at h; exact absurd rfl h

/-! ### The passes that insert reports -/

section
variable {C : Nat → Marks} {P : Prog} {N : Nat}

/-- What is compared: calls and returns. -/
def callBoth (N : Nat) (hk : ∀ f, isFar N (C f).hk = false)
    (he : ∀ (f : Nat) F h, P[f]? = some F → (C f).enter = some h → isFar N h = false)
    (hl : ∀ (f : Nat) F h, P[f]? = some F → (C f).leave = some h → isFar N h = false) : Both C P where
  D := far N
  D' := far N
  p := isFar N
  hk := hk
  enter := he
  leave := hl
  hk' := fun _ => rfl
  enter' := fun _ => rfl
  leave' := fun _ => rfl
  cond' := fun _ _ _ _ => rfl
  logged' := fun _ _ _ _ _ _ _ _ => rfl

theorem tap_hooks {m : Marks} {F : Func} {b : Nat} {lg : Nat → Bool} {k : Hook} {v : Opd} : ∀ {os : List Opd} {j i : Nat},
    .hook k v ∈ (tap m F b lg j i os).1 → k = m.hk
  | [], _, _, h => by cases h
  | o :: os, j, i, h => by
    unfold tap at h
    split at h
    · rcases List.mem_cons.1 h with h | h
      · cases h; rfl
      · exact tap_hooks h
    · exact tap_hooks h

theorem visit_hooks {m : Marks} {F : Func} {b j i : Nat} {I : Instr} {k : Hook} {v : Opd}
    (h : .hook k v ∈ (visit m F b j i I).1 ++ [(visit m F b j i I).2]) : k = m.hk ∨ ∃ v', I = .hook k v' := by
  cases I with
  | op f args =>
    simp only [visit, List.mem_append, List.mem_singleton] at h
    rcases h with h | h
    · exact Or.inl (tap_hooks h)
    · cases h
  | select c t e =>
    simp only [visit] at h
    split at h
    · simp only [List.singleton_append, List.mem_cons, List.not_mem_nil, or_false] at h
      rcases h with h | h
      · cases h; exact Or.inl rfl
      · cases h
    · simp at h
  | hook k' v' =>
    simp only [visit, renInstr, List.nil_append, List.mem_singleton] at h
    cases h
    exact Or.inr ⟨_, rfl⟩
  | _ => simp [visit, renInstr] at h

theorem emit_hooks {m : Marks} {F : Func} {b : Nat} {B : Block} {k : Hook} {v : Opd} : ∀ {Is : List Instr} {j : Nat},
    .hook k v ∈ emit m F b B j Is → k = m.hk ∨ m.leave = some k ∨ ∃ v', .hook k v' ∈ Is
  | [], j, h => by
    unfold emit visitTerm at h
    split at h
    · split at h
      · simp only [List.mem_singleton] at h; cases h; exact Or.inl rfl
      · cases h
    · cases hl : m.leave with
      | none => rw [hl] at h; cases h
      | some x => rw [hl] at h; simp only [List.mem_singleton] at h; cases h; exact Or.inr (Or.inl rfl)
    · cases h
  | I :: Is, j, h => by
    unfold emit at h
    dsimp only at h
    rw [← List.singleton_append, ← List.append_assoc, List.mem_append] at h
    rcases h with h | h
    · rcases visit_hooks h with h | ⟨v', rfl⟩
      · exact Or.inl h
      · exact Or.inr (Or.inr ⟨v', by simp⟩)
    · rcases emit_hooks h with h | h | ⟨v', h⟩
      · exact Or.inl h
      · exact Or.inr (Or.inl h)
      · exact Or.inr (Or.inr ⟨v', by simp [h]⟩)

theorem low_pass (hP : Low N P) (hk : ∀ f, isFar N (C f).hk = false)
    (he : ∀ (f : Nat) F h, P[f]? = some F → (C f).enter = some h → isFar N h = false)
    (hl : ∀ (f : Nat) F h, P[f]? = some F → (C f).leave = some h → isFar N h = false) : Low N (pass C P) := by
  intro f F' b B' k v hF' hB' hm
  obtain ⟨F, hF, rfl⟩ := pass_some hF'
  obtain ⟨B, hB, rfl⟩ := passFunc_some hB'
  simp only [passBlock, List.mem_append] at hm
  rcases hm with hm | hm
  · unfold prefixOf at hm
    cases hx : (C f).enter with
    | none => rw [hx] at hm; cases hm
    | some x =>
      rw [hx] at hm
      simp only at hm
      split at hm
      · simp only [List.mem_singleton] at hm; cases hm; exact he f F _ hF hx
      · cases hm
  · rcases emit_hooks hm with rfl | h | ⟨v', h⟩
    · exact hk f
    · exact hl f F _ hF h
    · exact hP f F b B k v' hF hB h

theorem accepted_reports (hP : C49.Accepted P) : C49.Accepted (pass C P) := by
  intro f F' hF' b B' hB'
  obtain ⟨F, hF, rfl⟩ := pass_some hF'
  obtain ⟨B, hB, rfl⟩ := passFunc_some hB'
  rw [succs_pass]
  exact hP f F hF b B hB

/-- Inserting reports does not change the calls and returns. -/
theorem calls_pass {A : Alg τ} (hP2 : C49.Accepted P) (hP : Low N P) (hk : ∀ f, isFar N (C f).hk = false)
    (he : ∀ (f : Nat) F h, P[f]? = some F → (C f).enter = some h → isFar N h = false)
    (hl : ∀ (f : Nat) F h, P[f]? = some F → (C f).leave = some h → isFar N h = false) {inp : World} {fn : Nat}
    {F : Func} (hF : P[fn]? = some F) (hne : F.blocks ≠ []) {args : List Nat} {mem : Nat → Nat} {tm : Nat → τ}
    {sp n : Nat} :
    (∀ s, run A P inp n (start A fn args mem sp tm) = .next s →
      ∃ k s', run A (pass C P) inp k (start A fn args mem sp tm) = .next s' ∧
        s'.glob = { s.glob with ev := observeFrom A C P inp fn n (start A fn args mem sp tm) } ∧
        s'.frames.map (·.fn) = s.frames.map (·.fn) ∧
        runCost A (pass C P) inp k (start A fn args mem sp tm) = runCost A P inp n (start A fn args mem sp tm) ∧
        callsRun A (pass C P) inp k (start A fn args mem sp tm) = callsRun A P inp n (start A fn args mem sp tm)) ∧
    (∀ v g, run A P inp n (start A fn args mem sp tm) = .done v g →
      ∃ k, run A (pass C P) inp k (start A fn args mem sp tm) =
          .done v { g with ev := observeFrom A C P inp fn n (start A fn args mem sp tm) } ∧
        runCost A (pass C P) inp k (start A fn args mem sp tm) = runCost A P inp n (start A fn args mem sp tm) ∧
        callsRun A (pass C P) inp k (start A fn args mem sp tm) = callsRun A P inp n (start A fn args mem sp tm)) := by
  have key : ∀ k, run A (pass C P) inp k (start A fn args mem sp tm) ≠ .stuck →
      run A P inp n (start A fn args mem sp tm) ≠ .stuck →
      tally (callBoth N hk he hl) A inp k (start A fn args mem sp tm) = total (callBoth N hk he hl) A inp n (start A fn args mem sp tm) →
      runCost A (pass C P) inp k (start A fn args mem sp tm) = runCost A P inp n (start A fn args mem sp tm) ∧
      callsRun A (pass C P) inp k (start A fn args mem sp tm) = callsRun A P inp n (start A fn args mem sp tm) := by
    intro k h1 h2 h3
    refine ⟨congrArg (·.1) h3, ?_⟩
    rw [callsRun_observe (low_pass hP hk he hl) k _ h1, callsRun_observe hP n _ h2]
    exact congrArg (List.map _) (congrArg (·.2) h3)
  constructor
  · intro s hs
    obtain ⟨k, s', -, h1, h2, h3, h4⟩ := C49.both_running (callBoth N hk he hl) hP2 hF hne hs
    exact ⟨k, s', h1, h2, h3, key k (by rw [h1]; simp) (by rw [hs]; simp) h4⟩
  · intro v g hs
    obtain ⟨k, h1, h2⟩ := C49.both_finished (callBoth N hk he hl) hP2 hF hne hs
    exact ⟨k, h1, key k (by rw [h1]; simp) (by rw [hs]; simp) h2⟩

end

end Ftrace
end Verif
