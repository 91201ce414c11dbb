import Verif.Props.C47
import Verif.Props.C49
import Verif.Props.C23
import Verif.CfPassValid
import Verif.CfRun
import Verif.Spec.Told
/- Helper lemmas: insertion of reports followed by instrumentation. -/
namespace Verif
namespace EndToEnd
open Ir PassIr CfPass Spec Labels DfsanMem

variable {dom : Nat → Nat → Nat → Bool} {P : Prog} {cap src : Nat} {inp : World} {C : Nat → Marks}

theorem accepted_pass (hP : C47.Accepted dom P) : C47.Accepted dom (pass C P) := by
  intro fn F' hF'
  obtain ⟨F, hF, rfl⟩ := pass_some hF'
  obtain ⟨h1, h2, h3⟩ := hP fn F hF
  exact ⟨pass_valid h1, h2, fun a b h => (h3 a b h).imp id (fun h hb => h (bavoid_pass hb))⟩

theorem pass_get {fn : Nat} {F : Func} (hF : P[fn]? = some F) :
    (pass C P)[fn]? = some (passFunc (C fn) F) := by
  simp [pass, List.getElem?_mapIdx, hF]

theorem pass_ne {m : Marks} {F : Func} (h : F.blocks ≠ []) : (passFunc m F).blocks ≠ [] := by
  intro e
  apply h
  have : (passFunc m F).blocks.length = 0 := by rw [e]; rfl
  simpa [passFunc] using this

/-- The program while it runs. -/
theorem running (hP : C47.Accepted dom P) (hP2 : C49.Accepted P) (hsrc : src < 256) {L : Labels}
    (hL : Store cap L) {fn : Nat} {F : Func} (hF : P[fn]? = some F) (hne : F.blocks ≠ [])
    {args : List Nat} {mem : Mem} (hm : Spec.IsBytes mem) {tm : Nat → Nat × Nat → Prop} (hz : TaintedBy L mem tm)
    {sp n : Nat} {s : State (Nat × Nat → Prop)}
    (hs : run (sets src) P inp n (start (sets src) fn args mem sp tm) = .next s) (hn : s.glob.pos < 2 ^ 54) :
    ∃ k, Goes cap (runCost plain P inp n (start plain fn args mem sp)) L
      (irun dom (pass C P) inp src k (istart (passFunc (C fn) F) fn args mem sp L))
      (fun o => ∃ i, o = .next i ∧
        GRel cap i.glob { s.glob with
          ev := observeFrom (sets src) C P inp fn n (start (sets src) fn args mem sp tm) } ∧
        Evolves (runCost plain P inp n (start plain fn args mem sp))
          (istart (passFunc (C fn) F) fn args mem sp L).glob i.glob) := by
  obtain ⟨k, s', -, h1, h2, -, h3⟩ := C49.C49_running (sets src) C P hP2 inp fn F hF hne args mem tm sp n s hs
  have hq := run_sim (inp := inp) (accepted_pass (C := C) hP) hsrc k
    (start_rel (src := src) (accepted_pass (C := C) hP) hL (pass_get hF) (pass_ne hne) args hm hz sp)
    (by rw [h1]; simpa [Out.pos, h2] using hn)
  rw [h1, h3] at hq
  refine ⟨k, ?_⟩
  rw [← start_plain (A := sets src) _ _ _ _ tm, runCost_map (hom_plain (sets src))]
  refine hq.mono ?_
  rintro o ⟨i, rfl, g1, g2⟩
  exact ⟨i, rfl, h2 ▸ g1.glob, g2⟩

/-- The program when it has ended. -/
theorem finished (hP : C47.Accepted dom P) (hP2 : C49.Accepted P) (hsrc : src < 256) {L : Labels}
    (hL : Store cap L) {fn : Nat} {F : Func} (hF : P[fn]? = some F) (hne : F.blocks ≠ [])
    {args : List Nat} {mem : Mem} (hm : Spec.IsBytes mem) {tm : Nat → Nat × Nat → Prop} (hz : TaintedBy L mem tm)
    {sp n : Nat} {v : Nat × (Nat × Nat → Prop)} {gs : Glob (Nat × Nat → Prop)}
    (hs : run (sets src) P inp n (start (sets src) fn args mem sp tm) = .done v gs) (hn : gs.pos < 2 ^ 54) :
    ∃ k, Goes cap (runCost plain P inp n (start plain fn args mem sp)) L
      (irun dom (pass C P) inp src k (istart (passFunc (C fn) F) fn args mem sp L))
      (fun o => ∃ l g, o = .done v.1 l g ∧ Den g.L l v.2 ∧
        GRel cap g { gs with
          ev := observeFrom (sets src) C P inp fn n (start (sets src) fn args mem sp tm) } ∧
        Evolves (runCost plain P inp n (start plain fn args mem sp))
          (istart (passFunc (C fn) F) fn args mem sp L).glob g) := by
  obtain ⟨k, h1, h3⟩ := C49.C49_finished (sets src) C P hP2 inp fn F hF hne args mem tm sp n v gs hs
  have hq := run_sim (inp := inp) (accepted_pass (C := C) hP) hsrc k
    (start_rel (src := src) (accepted_pass (C := C) hP) hL (pass_get hF) (pass_ne hne) args hm hz sp)
    (by rw [h1]; simpa [Out.pos] using hn)
  rw [h1, h3] at hq
  refine ⟨k, ?_⟩
  rw [← start_plain (A := sets src) _ _ _ _ tm, runCost_map (hom_plain (sets src))]
  exact hq

/-! ### The log -/

/-- What one call of a reporting function logs. -/
def logged : Hook × Nat × Nat → Option CfEvent
  | (.enter f, _, _) => some (.enter f)
  | (.leave f, _, _) => some (.leave f)
  | (.taken f, _, l) => if l > 0 then some (.tainted f l) else none
  | (.noted, _, _) => none

theorem reportAll_eq : ∀ (xs : List (Hook × Nat × Nat)) (S : Section),
    CfRun.reportAll S xs = CfLog.logAll S (xs.filterMap logged)
  | [], S => rfl
  | (k, v, l) :: xs, S => by
    have ih := reportAll_eq xs
    cases k with
    | enter f =>
      simp only [CfRun.reportAll, CfRun.report, List.filterMap_cons, logged, CfLog.logAll]
      cases CfLog.log S (.enter f) <;> simp [ih]
    | leave f =>
      simp only [CfRun.reportAll, CfRun.report, List.filterMap_cons, logged, CfLog.logAll]
      cases CfLog.log S (.leave f) <;> simp [ih]
    | taken f =>
      by_cases h : l > 0
      · simp only [CfRun.reportAll, CfRun.report, List.filterMap_cons, logged, CfLog.logAll, h, if_true]
        cases CfLog.log S (.tainted f l) <;> simp [ih]
      · simp only [CfRun.reportAll, CfRun.report, List.filterMap_cons, logged, h, if_false, Res.bind_ok, ih]
    | noted => simp only [CfRun.reportAll, CfRun.report, List.filterMap_cons, logged, Res.bind_ok, ih]

theorem told {L : Labels} (hs : Store cap L) {xs : List (Hook × Nat × Nat)}
    {rs : List (Hook × Nat × (Nat × Nat → Prop))}
    (h : List.Forall₂ (fun x y => x.1 = y.1 ∧ x.2.1 = y.2.1 ∧ Den L x.2.2 y.2.2) xs rs) :
    ∀ {st st' : List Nat}, follow (rs.map (·.1)) st = some st' →
    ∃ items, Told (Denotes L.graph) rs st items st' ∧
      replay (xs.filterMap logged) st = (items ++ drain st', false) := by
  induction h with
  | nil =>
    intro st st' h
    simp only [List.map_nil, follow, Option.some.injEq] at h
    subst h
    exact ⟨[], .nil _, rfl⟩
  | @cons x y xs rs hxy _ ih =>
    intro st st' h
    obtain ⟨k, v, l⟩ := x
    obtain ⟨k', v', t⟩ := y
    obtain ⟨rfl, rfl, hd⟩ := hxy
    simp only at hd
    simp only [List.map_cons] at h
    cases k with
    | enter f =>
      simp only [follow] at h
      obtain ⟨items, h1, h2⟩ := ih h
      exact ⟨_, .enter h1, by simp [logged, replay, h2]⟩
    | leave f =>
      cases st with
      | nil => simp [follow] at h
      | cons g st =>
        simp only [follow] at h
        split at h
        · rename_i e
          subst e
          obtain ⟨items, h1, h2⟩ := ih h
          exact ⟨_, .leave h1, by simp [logged, replay, unwound, unwinding, h2]⟩
        · cases h
    | taken f =>
      simp only [follow] at h
      split at h
      · rename_i e
        obtain ⟨st1, rfl⟩ : ∃ st1, st = f :: st1 := by
          cases st with
          | nil => simp at e
          | cons a st1 => simp at e; exact ⟨st1, by rw [e]⟩
        obtain ⟨items, h1, h2⟩ := ih h
        have hz := C47.den_zero_iff hs hd
        by_cases hl : l > 0
        · refine ⟨_, .tainted ?_ hd.2 h1, ?_⟩
          · apply Classical.byContradiction
            intro hc
            have := hz.2 (fun b hb => hc ⟨b, hb⟩)
            omega
          · simp [logged, hl, replay, unwound, unwinding, h2]
        · refine ⟨_, .untainted (hz.1 (by omega)) h1, ?_⟩
          simp [logged, hl, h2]
      · cases h
    | noted =>
      simp only [follow] at h
      obtain ⟨items, h1, h2⟩ := ih h
      exact ⟨items, .noted h1, by simp [List.filterMap_cons, logged, h2]⟩

/-- The function named in a report. -/
def fnOf : Hook → Option Nat
  | .enter f => some f
  | .leave f => some f
  | .taken f => some f
  | .noted => none

theorem mem_decisions {lg : Nat → Bool} {A : Alg τ} {fr : Frame τ} {k : Hook} {os : List Opd} {i : Nat}
    {x : Hook × Nat × τ} (h : x ∈ (decisions lg i os).map (fr.report A k)) : x.1 = k := by
  obtain ⟨o, -, rfl⟩ := List.mem_map.1 h
  rfl

theorem observe_fn {τ : Type} {A : Alg τ} (hC : ∀ f, ∃ lg cd, C f = controlFlow f lg cd)
    (hN : C49.NoHooks P) {s : State τ} (hs : step A P inp s ≠ .stuck) {x : Hook × Nat × τ}
    (hx : x ∈ observe A C P s) {f : Nat} (hf : fnOf x.1 = some f) : f < P.length := by
  obtain ⟨frs, g⟩ := s
  cases frs with
  | nil => simp [observe] at hx
  | cons fr rest =>
    obtain ⟨lg, cd, hc⟩ := hC fr.fn
    simp only [step, observe] at hs hx
    cases hF : P[fr.fn]? with
    | none => rw [hF] at hx; simp at hx
    | some F =>
      have hlt : fr.fn < P.length := (List.getElem?_eq_some_iff.1 hF).1
      rw [hF] at hs hx
      simp only at hs hx
      cases hB : F.blocks[fr.blk]? with
      | none => rw [hB] at hx; simp at hx
      | some B =>
        rw [hB] at hs hx
        simp only at hs hx
        have hk : x.1 = (C fr.fn).hk → f < P.length := by
          intro e
          rw [e, hc] at hf
          cases hf
          exact hlt
        cases hI : B.body[fr.idx]? with
        | some I =>
          rw [hI] at hs hx
          cases I with
          | op g args => exact hk (mem_decisions hx)
          | select c t e =>
            simp only at hx
            split at hx
            · rw [List.mem_singleton.1 hx] at hk; exact hk rfl
            · simp at hx
          | call void g args =>
            simp only at hx
            obtain ⟨lg', cd', hc'⟩ := hC (fr.get A g).1
            rw [hc'] at hx
            simp only [controlFlow, plainReport, List.mem_singleton] at hx
            subst hx
            cases hf
            simp only [stepInstr] at hs
            cases hG : P[(fr.get A g).1]? with
            | none => rw [hG] at hs; simp at hs
            | some G => exact (List.getElem?_eq_some_iff.1 hG).1
          | hook k v => exact absurd hI (hN _ _ _ _ _ _ _ hF hB)
          | _ => simp at hx
        | none =>
          rw [hI] at hx
          simp only at hx
          cases ht : B.term with
          | br c g ts =>
            rw [ht] at hx
            simp only at hx
            split at hx
            · rw [List.mem_singleton.1 hx] at hk; exact hk rfl
            · simp at hx
          | ret v =>
            rw [ht, hc] at hx
            simp only [controlFlow, plainReport, List.mem_singleton] at hx
            subst hx
            cases hf
            exact hlt
          | unreachable => rw [ht] at hx; simp at hx

theorem observeRun_fn {τ : Type} {A : Alg τ} (hC : ∀ f, ∃ lg cd, C f = controlFlow f lg cd)
    (hN : C49.NoHooks P) : ∀ (n : Nat) {s : State τ} (_ : run A P inp n s ≠ .stuck) {x : Hook × Nat × τ}
    (_ : x ∈ observeRun A C P inp n s) {f : Nat} (_ : fnOf x.1 = some f), f < P.length
  | 0, _, _, _, hx, _, _ => by simp [observeRun] at hx
  | n + 1, s, hs, x, hx, f, hf => by
    simp only [run] at hs
    simp only [observeRun, List.mem_append] at hx
    have h0 : step A P inp s ≠ .stuck := by
      intro e; rw [e] at hs; simp at hs
    rcases hx with hx | hx
    · exact observe_fn hC hN h0 hx hf
    · cases e : step A P inp s with
      | next s' =>
        rw [e] at hs hx
        exact observeRun_fn hC hN n hs hx hf
      | done v g => rw [e] at hx; simp at hx
      | stuck => exact absurd e h0

theorem observeFrom_fn {τ : Type} {A : Alg τ} (hC : ∀ f, ∃ lg cd, C f = controlFlow f lg cd)
    (hN : C49.NoHooks P) {fn : Nat} (hfn : fn < P.length) {n : Nat} {s : State τ}
    (hs : run A P inp n s ≠ .stuck) {x : Hook × Nat × τ}
    (hx : x ∈ observeFrom A C P inp fn n s) {f : Nat} (hf : fnOf x.1 = some f) : f < P.length := by
  simp only [observeFrom, List.mem_append] at hx
  rcases hx with hx | hx
  · obtain ⟨lg, cd, hc⟩ := hC fn
    rw [hc] at hx
    simp only [controlFlow, plainReport, List.mem_singleton] at hx
    subst hx
    cases hf
    exact hfn
  · exact observeRun_fn hC hN n hs hx hf

theorem logged_fits {L : Labels} (hs : Store cap L) {xs : List (Hook × Nat × Nat)}
    {rs : List (Hook × Nat × (Nat × Nat → Prop))}
    (h : List.Forall₂ (fun x y => x.1 = y.1 ∧ x.2.1 = y.2.1 ∧ Den L x.2.2 y.2.2) xs rs)
    (hf : ∀ y ∈ rs, ∀ f, fnOf y.1 = some f → f < 2 ^ 32) : ∀ e ∈ xs.filterMap logged, e.fits := by
  have hcap := Nat.le_trans hs.good.wf.fits hs.good.wf.cap
  induction h with
  | nil => intro e he; simp at he
  | @cons x y xs rs hxy _ ih =>
    intro e he
    obtain ⟨k, v, l⟩ := x
    obtain ⟨k', v', t⟩ := y
    obtain ⟨rfl, rfl, hd⟩ := hxy
    have hl : l < 2 ^ 32 := by have := hd.1; simp only at this; omega
    have hk := hf _ (List.mem_cons_self ..)
    rw [List.filterMap_cons] at he
    have ih' := ih (fun y hy => hf y (List.mem_cons_of_mem _ hy))
    cases k with
    | enter f =>
      rcases List.mem_cons.1 he with rfl | he
      · exact hk f rfl
      · exact ih' e he
    | leave f =>
      rcases List.mem_cons.1 he with rfl | he
      · exact hk f rfl
      · exact ih' e he
    | taken f =>
      simp only [logged] at he
      by_cases h0 : l > 0
      · simp only [h0, if_true] at he
        rcases List.mem_cons.1 he with rfl | he
        · exact ⟨hk f rfl, hl⟩
        · exact ih' e he
      · simp only [h0, if_false] at he
        exact ih' e he
    | noted => exact ih' e he

end EndToEnd
end Verif
