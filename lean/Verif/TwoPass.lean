import Verif.LinkedMain
/- Helper lemmas: a program into which two passes have inserted reports. -/
namespace Verif
namespace TwoPass
open Ir PassIr CfPass Spec Labels DfsanMem Tracker EndToEnd Linked

/-- `D'` chooses, after the pass `C`, the same decisions as `D` before it: instructions are found at their new
positions. -/
def Same (C : Nat → Marks) (P : Prog) (D D' : Nat → Marks) : Prop :=
  ∀ (f : Nat) F, P[f]? = some F → (∀ b, (D' f).cond b = (D f).cond b) ∧
    ∀ (b : Nat) B j i, F.blocks[b]? = some B → (D' f).logged b (posOf (C f) b B j) i = (D f).logged b j i

section
variable {τ : Type} {A : Alg τ} {P : Prog} {inp : World} {D : Nat → Marks}

theorem filter_said_decisions {lg : Nat → Bool} {fr : Frame τ} {os : List Opd} {i : Nat} :
    ((decisions lg i os).map (fr.report A .noted)).filter (fun x => said x.1) = [] := by
  rw [List.filter_eq_nil_iff]
  intro x hx
  rw [mem_decisions hx]
  simp [said]

/-- The reports the program makes itself, at a step. -/
theorem step_ev (hD : ∀ f, ∃ lg cd, D f = taintTracking lg cd) {s : State τ} {g' : Glob τ}
    (h : globAfter (step A P inp s) = some g') :
    g'.ev.filter (fun x => said x.1) =
      s.glob.ev.filter (fun x => said x.1) ++ (observe A D P s).filter (fun x => said x.1) := by
  obtain ⟨frs, g⟩ := s
  cases frs with
  | nil => cases h
  | cons fr rest =>
    obtain ⟨lg, cd, hc⟩ := hD fr.fn
    simp only [step] at h
    simp only [observe]
    cases hF : P[fr.fn]? with
    | none => rw [hF] at h; cases h
    | some F =>
      rw [hF] at h
      simp only at h ⊢
      cases hB : F.blocks[fr.blk]? with
      | none => rw [hB] at h; cases h
      | some B =>
        rw [hB] at h
        simp only at h ⊢
        cases hI : B.body[fr.idx]? with
        | some I =>
          rw [hI] at h
          simp only at h ⊢
          cases I with
          | op f args =>
            cases h
            rw [hc]
            simp only [taintTracking, filter_said_decisions, List.append_nil]
          | select c t e =>
            cases h
            rw [hc]
            by_cases hl : lg fr.blk fr.idx 0 = true <;> simp [taintTracking, hl, Frame.report, said]
          | call void f args =>
            obtain ⟨lg', cd', hc'⟩ := hD (fr.get A f).1
            simp only [hc', taintTracking, plainReport, List.filter_nil, List.append_nil]
            simp only [stepInstr] at h
            split at h
            · cases h
            · split at h <;> cases h
              rfl
          | hook k v =>
            cases h
            simp only [List.filter_append, Frame.report]
          | load a n =>
            simp only [stepInstr] at h
            (repeat' split at h) <;> cases h <;> simp
          | store a v n =>
            simp only [stepInstr] at h
            (repeat' split at h) <;> cases h <;> simp
          | getc =>
            simp only [stepInstr] at h
            split at h <;> cases h <;> simp
          | read a n =>
            simp only [stepInstr] at h
            split at h <;> cases h
            simp
          | write a n =>
            simp only [stepInstr] at h
            split at h <;> cases h
            simp
          | rmw f a args n =>
            simp only [stepInstr] at h
            split at h <;> cases h
            simp
          | memset d c n =>
            simp only [stepInstr] at h
            split at h <;> cases h
            simp
          | memcpy move d s n =>
            simp only [stepInstr] at h
            split at h <;> cases h
            simp
          | _ => cases h; simp
        | none =>
          rw [hI] at h
          simp only at h ⊢
          cases hT : B.term with
          | unreachable => rw [hT] at h; cases h
          | br c f ts =>
            rw [hT] at h
            have e : (if cd fr.blk = true then [fr.report A .noted c] else []).filter (fun x => said x.1) = [] := by
              by_cases hl : cd fr.blk = true <;> simp [hl, Frame.report, said]
            simp only [hc, taintTracking, e, List.append_nil]
            simp only [stepTerm] at h
            split at h
            · cases h
            · unfold jump at h
              split at h
              · cases h
              · split at h
                · cases h
                · cases h; rfl
          | ret v =>
            rw [hT] at h
            simp only [hc, taintTracking, plainReport, List.filter_nil, List.append_nil]
            cases v with
            | none =>
              simp only [stepTerm] at h
              split at h
              · cases rest <;> simp only [doReturn] at h <;> cases h <;> rfl
              · cases h
            | some v =>
              simp only [stepTerm] at h
              split at h
              · cases h
              · cases rest <;> simp only [doReturn] at h <;> cases h <;> rfl

/-- The reports the program makes itself, in a run. -/
theorem run_ev (hD : ∀ f, ∃ lg cd, D f = taintTracking lg cd) : ∀ (n : Nat) {s : State τ} {g' : Glob τ},
    globAfter (Ir.run A P inp n s) = some g' →
    g'.ev.filter (fun x => said x.1) =
      s.glob.ev.filter (fun x => said x.1) ++ (observeRun A D P inp n s).filter (fun x => said x.1)
  | 0, s, g', h => by cases h; simp [observeRun]
  | n + 1, s, g', h => by
    unfold Ir.run at h
    simp only [observeRun]
    cases hs : step A P inp s with
    | next s' =>
      rw [hs] at h
      have h1 := step_ev (A := A) (P := P) (inp := inp) hD (s := s) (by rw [hs]; rfl)
      rw [run_ev hD n h, h1, List.filter_append, List.append_assoc]
    | done v g =>
      rw [hs] at h
      cases h
      have h1 := step_ev (A := A) (P := P) (inp := inp) hD (s := s) (by rw [hs]; rfl)
      simpa using h1
    | stuck => rw [hs] at h; cases h

end

/-! ### Decisions are the same before and after the first pass -/

section
variable {P : Prog} {C D D' : Nat → Marks}

/-- What is compared: the decisions of the second pass. -/
def both (hC : ∀ f, ∃ lg cd, C f = controlFlow f lg cd) (hD : ∀ f, ∃ lg cd, D f = taintTracking lg cd)
    (hD' : ∀ f, ∃ lg cd, D' f = taintTracking lg cd) (hS : Same C P D D') : Both C P where
  D := D
  D' := D'
  p := fun h => !said h
  hk := by intro f; obtain ⟨lg, cd, h⟩ := hC f; rw [h]; rfl
  enter := by intro f G k _ hk; obtain ⟨lg, cd, h⟩ := hC f; rw [h] at hk; cases hk; rfl
  leave := by intro f G k _ hk; obtain ⟨lg, cd, h⟩ := hC f; rw [h] at hk; cases hk; rfl
  hk' := by intro f; obtain ⟨lg, cd, h⟩ := hD f; obtain ⟨lg', cd', h'⟩ := hD' f; rw [h, h']; rfl
  enter' := by intro f; obtain ⟨lg, cd, h⟩ := hD f; obtain ⟨lg', cd', h'⟩ := hD' f; rw [h, h']; rfl
  leave' := by intro f; obtain ⟨lg, cd, h⟩ := hD f; obtain ⟨lg', cd', h'⟩ := hD' f; rw [h, h']; rfl
  cond' := fun f F b hF => (hS f F hF).1 b
  logged' := fun f F b B j i hF hB => (hS f F hF).2 b B j i hB

end

variable {dom : Nat → Nat → Nat → Bool} {P : Prog} {c : Config} {base src snk : Nat} {inp : World} {io : Io}
  {h0 : Trace} {C D D' : Nat → Marks}

theorem accepted2 (hP : C49.Accepted P) : C49.Accepted (pass C P) := by
  intro f' F' hF' b B' hB'
  obtain ⟨F, hF, rfl⟩ := pass_some hF'
  simp only [passFunc, List.getElem?_mapIdx, Option.map_eq_some_iff] at hB'
  obtain ⟨B, hB, rfl⟩ := hB'
  have := hP f' F hF b B hB
  intro h0
  apply this
  simp only [Block.succs, passBlock] at h0 ⊢
  cases ht : B.term with
  | br c f ts =>
    rw [ht] at h0
    by_cases hb : (C f').cond b = true <;> simpa [CfPass.visitTerm, hb] using h0
  | ret v => rw [ht] at h0; exact h0
  | unreachable => rw [ht] at h0; exact h0

theorem observe_said {τ : Type} {A : Alg τ} (hC : ∀ f, ∃ lg cd, C f = controlFlow f lg cd) (hN : C49.NoHooks P)
    {s : State τ} {x : Hook × Nat × τ} (hx : x ∈ observe A C P s) : said x.1 = true := by
  obtain ⟨frs, g⟩ := s
  cases frs with
  | nil => simp [observe] at hx
  | cons fr rest =>
    obtain ⟨lg, cd, hc⟩ := hC fr.fn
    simp only [observe] at hx
    cases hF : P[fr.fn]? with
    | none => rw [hF] at hx; simp at hx
    | some F =>
      rw [hF] at hx
      simp only at hx
      cases hB : F.blocks[fr.blk]? with
      | none => rw [hB] at hx; simp at hx
      | some B =>
        rw [hB] at hx
        simp only at hx
        have hk : x.1 = (C fr.fn).hk → said x.1 = true := by
          intro e
          rw [e, hc]
          rfl
        cases hI : B.body[fr.idx]? with
        | some I =>
          rw [hI] at hx
          cases I with
          | op g args => exact hk (mem_decisions hx)
          | select c t e =>
            simp only at hx
            split at hx
            · rw [List.mem_singleton.1 hx] at hk ⊢; exact hk rfl
            · simp at hx
          | call void g args =>
            simp only at hx
            obtain ⟨lg', cd', hc'⟩ := hC (fr.get A g).1
            rw [hc'] at hx
            simp only [controlFlow, plainReport, List.mem_singleton] at hx
            subst hx; rfl
          | hook k v => exact absurd hI (hN _ _ _ _ _ _ _ hF hB)
          | _ => simp at hx
        | none =>
          rw [hI] at hx
          simp only at hx
          cases ht : B.term with
          | br c g ts =>
            rw [ht] at hx
            simp only at hx
            split at hx
            · rw [List.mem_singleton.1 hx] at hk ⊢; exact hk rfl
            · simp at hx
          | ret v =>
            rw [ht, hc] at hx
            simp only [controlFlow, plainReport, List.mem_singleton] at hx
            subst hx; rfl
          | unreachable => rw [ht] at hx; simp at hx

theorem observeFrom_said {τ : Type} {A : Alg τ} (hC : ∀ f, ∃ lg cd, C f = controlFlow f lg cd)
    (hN : C49.NoHooks P) {fn n : Nat} {s : State τ} :
    ∀ x ∈ observeFrom A C P inp fn n s, said x.1 = true := by
  have hr : ∀ (n : Nat) (s : State τ), ∀ x ∈ observeRun A C P inp n s, said x.1 = true := by
    intro n
    induction n with
    | zero => intro s x hx; simp [observeRun] at hx
    | succ n ih =>
      intro s x hx
      simp only [observeRun, List.mem_append] at hx
      rcases hx with hx | hx
      · exact observe_said hC hN hx
      · split at hx
        · exact ih _ x hx
        · simp at hx
  intro x hx
  simp only [observeFrom, List.mem_append] at hx
  rcases hx with hx | hx
  · obtain ⟨lg, cd, hc⟩ := hC fn
    rw [hc] at hx
    simp only [controlFlow, plainReport, List.mem_singleton] at hx
    subst hx; rfl
  · exact hr n s x hx

/-- The program after the first pass: what it does, what it reports, and what the second pass would have it
report. -/
theorem first {o : Out (Nat × Nat → Prop)} {gs : Glob (Nat × Nat → Prop)} (hP2 : C49.Accepted P)
    (hN : C49.NoHooks P)
    (hC : ∀ f, ∃ lg cd, C f = controlFlow f lg cd) (hD : ∀ f, ∃ lg cd, D f = taintTracking lg cd)
    (hD' : ∀ f, ∃ lg cd, D' f = taintTracking lg cd) (hS : Same C P D D') {fn : Nat} {F : Func}
    (hF : P[fn]? = some F) (hne : F.blocks ≠ []) {args : List Nat} {mem : Mem} {tm : Nat → Nat × Nat → Prop}
    {sp n : Nat} (hs : Ir.run (sets src) P inp n (start (sets src) fn args mem sp tm) = o) (ho : globAfter o = some gs) :
    ∃ k o1 g1, Ir.run (sets src) (pass C P) inp k (start (sets src) fn args mem sp tm) = o1 ∧
      globAfter o1 = some g1 ∧
      g1 = { gs with ev := observeFrom (sets src) C P inp fn n (start (sets src) fn args mem sp tm) } ∧
      runCost (sets src) (pass C P) inp k (start (sets src) fn args mem sp tm) =
        runCost (sets src) P inp n (start (sets src) fn args mem sp tm) ∧
      (∀ x g, Stands o1 x g → Stands o x g) ∧
      (observeFrom (sets src) D' (pass C P) inp fn k (start (sets src) fn args mem sp tm)).filter
        (fun x => said x.1) = observeFrom (sets src) C P inp fn n (start (sets src) fn args mem sp tm) ∧
      (observeFrom (sets src) D' (pass C P) inp fn k (start (sets src) fn args mem sp tm)).filter
        (fun x => !said x.1) = observeRun (sets src) D P inp n (start (sets src) fn args mem sp tm) := by
  have hall := List.filter_eq_self.2 (observeFrom_said (A := sets src) (inp := inp) hC hN (fn := fn) (n := n)
    (s := start (sets src) fn args mem sp tm))
  have hnot : (observeRun (sets src) D P inp n (start (sets src) fn args mem sp tm)).filter (fun x => !said x.1) =
      observeRun (sets src) D P inp n (start (sets src) fn args mem sp tm) := by
    refine List.filter_eq_self.2 ?_
    intro x hx
    rw [C51.observeRun_noted hD hN n hx]
    rfl
  have hev : ∀ (k : Nat) (o1 : Out (Nat × Nat → Prop)) g1,
      Ir.run (sets src) (pass C P) inp k (start (sets src) fn args mem sp tm) = o1 → globAfter o1 = some g1 →
      g1.ev = observeFrom (sets src) C P inp fn n (start (sets src) fn args mem sp tm) →
      (observeFrom (sets src) D' (pass C P) inp fn k (start (sets src) fn args mem sp tm)).filter
        (fun x => said x.1) = observeFrom (sets src) C P inp fn n (start (sets src) fn args mem sp tm) := by
    intro k o1 g1 h1 h2 h3
    have := run_ev (A := sets src) (P := pass C P) (inp := inp) hD' k
      (s := start (sets src) fn args mem sp tm) (by rw [h1]; exact h2)
    rw [C51.observeFrom_noted hD', ← hall, ← h3, this]
    simp [start]
  cases o with
  | stuck => cases ho
  | next s =>
    cases ho
    obtain ⟨k, s', -, h1, h2, -, h3⟩ := C49.both_running (both hC hD hD' hS) hP2 hF hne hs
    refine ⟨k, _, _, h1, rfl, h2, congrArg (·.1) h3, fun x g h => ?_, ?_, ?_⟩
    · cases x with
      | next i => exact h
      | done v l g => exact h.elim
      | stuck => exact h.elim
    · exact hev k _ _ h1 rfl (by rw [h2])
    · have := congrArg (·.2) h3
      simp only [tally, total, both] at this
      rw [C51.observeFrom_noted hD', ← hnot, ← this]
  | done v g =>
    cases ho
    obtain ⟨k, h1, h3⟩ := C49.both_finished (both hC hD hD' hS) hP2 hF hne hs
    refine ⟨k, _, _, h1, rfl, rfl, congrArg (·.1) h3, fun x g h => ?_, ?_, ?_⟩
    · cases x with
      | next i => exact h.elim
      | done w l g => exact h
      | stuck => exact h.elim
    · exact hev k _ _ h1 rfl rfl
    · have := congrArg (·.2) h3
      simp only [tally, total, both] at this
      rw [C51.observeFrom_noted hD', ← hnot, ← this]

theorem saidCount_eq {τ : Type} (ev : List (Hook × Nat × τ)) :
    saidCount ev = (ev.filter (fun x => said x.1)).length := List.countP_eq_length_filter

/-- Both passes, instrumentation and linking. -/
theorem linked2 (hP : C47.Accepted dom P) (hP2 : C49.Accepted P) (hN : C49.NoHooks P) (hlen : P.length ≤ 2 ^ 32)
    (hC : ∀ f, ∃ lg cd, C f = controlFlow f lg cd) (hD : ∀ f, ∃ lg cd, D f = taintTracking lg cd)
    (hD' : ∀ f, ∃ lg cd, D' f = taintTracking lg cd) (hS : Same C P D D') (hc : c.Ok base) {T0 : Tracker}
    (hr : Tracker.Reach c base h0 T0) (hSt : Streams h0 io src snk) {fn : Nat} {F : Func} (hF : P[fn]? = some F)
    (hne : F.blocks ≠ []) {args : List Nat} {mem : Mem} (hm : Spec.IsBytes mem)
    {tm : Nat → Nat × Nat → Prop} (hz : TaintedBy T0.labels mem tm) {sp n : Nat} {o : Out (Nat × Nat → Prop)}
    {gs : Glob (Nat × Nat → Prop)} (hs : Ir.run (sets src) P inp n (start (sets src) fn args mem sp tm) = o)
    (ho : globAfter o = some gs) (hn : gs.pos < 2 ^ 54) (hb : ∀ y ∈ gs.out, y.1 < 256)
    (hl : gs.out.length < 2 ^ 54) :
    ∃ k, TGoes c (runCost plain P inp n (start plain fn args mem sp)) T0.labels (cfEvents h0).length
      (observeFrom (sets src) C P inp fn n (start (sets src) fn args mem sp tm)).length
      (trun dom (pass D' (pass C P)) inp io k
        (istart (passFunc (D' fn) (passFunc (C fn) F)) fn args mem sp T0.labels) T0)
      (fun x => ∃ g h' ev, Stands o x.1 g ∧ GRel c.labelCap g { gs with ev := ev } ∧
        Evolves (runCost plain P inp n (start plain fn args mem sp))
          (istart (passFunc (D' fn) (passFunc (C fn) F)) fn args mem sp T0.labels).glob g ∧
        Link c base io src snk h0 g x.2 h' ∧
        ev.filter (fun x => said x.1) = observeFrom (sets src) C P inp fn n (start (sets src) fn args mem sp tm) ∧
        ev.filter (fun x => !said x.1) =
          observeRun (sets src) D P inp n (start (sets src) fn args mem sp tm)) := by
  obtain ⟨k1, o1, g1, h1, h2, rfl, h4, h5, h6, h7⟩ := first hP2 hN hC hD hD' hS hF hne hs ho
  obtain ⟨k, hk⟩ := linked (C := D') (dom := dom) (inp := inp) (accepted_pass (C := C) hP) (accepted2 hP2) hc hr hSt
    (CfPass.pass_get hF) (pass_ne hne) hm hz h1 h2 hn
    { bytes := hb
      short := hl
      fns := by
        intro y hy f hf
        have hsd : said y.1 = true := by rcases hf with e | e | e <;> rw [e] <;> rfl
        have hy' : y ∈ observeFrom (sets src) C P inp fn n (start (sets src) fn args mem sp tm) := by
          rw [← h6]
          exact List.mem_filter.2 ⟨hy, hsd⟩
        refine Nat.lt_of_lt_of_le (observeFrom_fn hC hN (List.getElem?_eq_some_iff.1 hF).1 ?_ hy' ?_) hlen
        · intro e
          rw [hs] at e
          rw [e] at ho
          cases ho
        · rcases hf with e | e | e <;> rw [e] <;> rfl }
  rw [saidCount_eq, h6] at hk
  have hcost : runCost plain (pass C P) inp k1 (start plain fn args mem sp) =
      runCost plain P inp n (start plain fn args mem sp) := by
    rw [← start_plain (A := sets src) _ _ _ _ tm, runCost_map (hom_plain (sets src)), runCost_map (hom_plain (sets src)), h4]
  rw [hcost] at hk
  refine ⟨k, hk.mono ?_⟩
  rintro x ⟨g, h', a1, a2, a3, a4⟩
  exact ⟨g, h', _, h5 _ _ a1, a2, a3, a4, h6, h7⟩

end TwoPass
end Verif
