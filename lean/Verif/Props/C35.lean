import Verif.Examples.Conc
/- C35: concurrent control-flow marking misses nothing. -/
namespace Verif
open Spec CSys

/-- Whenever no thread is inside `affects_control_flow`, whatever unions, reads and markings ran
before in whatever order of individual loads and stores, the flagged labels are exactly the labels
marked and everything they are transitively built from. -/
theorem C35_complete (cap : Nat) (h0 : 0 < cap) (hcap : cap ≤ 2 ^ 31) (S : CSys) (hr : CSys.Reach cap S)
    (hq : ¬ S.Busy) (hfree : S.lock = none) (l : Nat) :
    Flagged S.graph l ↔ ∃ x, .mark x ∈ S.log ∧ BuiltFrom S.graph x l := by
  obtain ⟨V, tail, h, -⟩ := hr.inv h0 hcap
  have hroot : ∀ t, root (S.threads t) = none := by
    intro t; by_cases hn : root (S.threads t) = none
    · exact hn
    · exact absurd ⟨t, hn⟩ hq
  have howed : ∀ t, owed (S.threads t) = [] := by
    intro t
    have := hroot t
    cases hpc : S.threads t with
    | mChild | mSrcLoad | mSrcStore | mPop | mEnc | mSetLoad | mSetStore => rw [hpc] at this; cases this
    | _ => rfl
  have hVS : V = S.labels := by
    have := h.mem
    rw [h.free hfree, List.append_nil] at this
    unfold CSys.labels
    rw [this, ← h.cap]
  have hg : S.graph = V.graph := by rw [hVS]; rfl
  rw [hg]
  constructor
  · intro hf
    obtain ⟨x, hx, -, hb⟩ := h.asked l hf
    rcases hx with hx | ⟨t, ht⟩
    · exact ⟨x, hx, hb⟩
    · rw [hroot t] at ht; cases ht
  · rintro ⟨x, hx, hb⟩
    have hf := h.marked x hx
    clear hx
    induction hb with
    | refl => exact hf
    | step hgl hr _ ih =>
      obtain ⟨t0, ht0, hf0⟩ := hf
      rw [hgl] at ht0; cases ht0
      rcases h.closed _ _ _ hgl hf0 hr with h' | ⟨u, hu⟩
      · exact ih h'
      · rw [howed u] at hu; cases hu

/-- The same while another thread holds the mutex for a union or a read, for the labels returned so
far. -/
theorem C35_known (cap : Nat) (h0 : 0 < cap) (hcap : cap ≤ 2 ^ 31) (S : CSys) (hr : CSys.Reach cap S)
    (hq : ¬ S.Busy) (l : Nat) (hk : S.Known l) :
    (Flagged S.graph l ↔ ∃ x, .mark x ∈ S.log ∧ BuiltFrom S.graph x l) ∧
    ∀ k, .mark l ∈ S.log → BuiltFrom S.graph l k → Flagged S.graph k := by
  obtain ⟨V, tail, h, -⟩ := hr.inv h0 hcap
  have hroot : ∀ t, root (S.threads t) = none := by
    intro t; by_cases hn : root (S.threads t) = none
    · exact hn
    · exact absurd ⟨t, hn⟩ hq
  have howed : ∀ t, owed (S.threads t) = [] := by
    intro t
    have := hroot t
    cases hpc : S.threads t with
    | mChild | mSrcLoad | mSrcStore | mPop | mEnc | mSetLoad | mSetStore => rw [hpc] at this; cases this
    | _ => rfl
  have key : ∀ x k, BuiltFrom V.graph x k → Flagged V.graph x → Flagged V.graph k := by
    intro x k hb hf
    induction hb with
    | refl => exact hf
    | step hgl hr _ ih =>
      obtain ⟨t0, ht0, hf0⟩ := hf
      rw [hgl] at ht0; cases ht0
      rcases h.closed _ _ _ hgl hf0 hr with h' | ⟨u, hu⟩
      · exact ih h'
      · rw [howed u] at hu; cases hu
  have lab : ∀ x, Flagged V.graph x → V.Lab x := fun x ⟨t, ht, _⟩ => (Labels.lab_graph h.wf).2 ⟨t, ht⟩
  have hl := h.known l hk
  refine ⟨?_, ?_⟩
  · rw [h.flaggedS hl.2]
    constructor
    · intro hf
      obtain ⟨x, hx, hlx, hb⟩ := h.asked l hf
      rcases hx with hx | ⟨t, ht⟩
      · exact ⟨x, hx, (h.builtS hlx.2).2 hb⟩
      · rw [hroot t] at ht; cases ht
    · rintro ⟨x, hx, hb⟩
      have hf := h.marked x hx
      exact key x l ((h.builtS (lab x hf).2).1 hb) hf
  · intro k hm hb
    have := key l k ((h.builtS hl.2).1 hb) (h.marked l hm)
    exact (h.flaggedS (lab k this).2).2 this

/-- At every moment, also while markings are in progress, a flagged label contributes to some label
whose marking was requested: no interleaving flags a label without reason. -/
theorem C35_sound (cap : Nat) (h0 : 0 < cap) (hcap : cap ≤ 2 ^ 31) (S : CSys) (hr : CSys.Reach cap S)
    (l : Nat) (hk : S.Known l) (hf : Flagged S.graph l) :
    ∃ x, (.mark x ∈ S.log ∨ ∃ t, root (S.threads t) = some x) ∧ BuiltFrom S.graph x l := by
  obtain ⟨V, tail, h, -⟩ := hr.inv h0 hcap
  obtain ⟨x, hx, hlx, hb⟩ := h.asked l ((h.flaggedS (h.known l hk).2).1 hf)
  exact ⟨x, hx, (h.builtS hlx.2).2 hb⟩

/-- Flags only ever get added and taint values never change. -/
theorem C35_monotone (cap : Nat) (h0 : 0 < cap) (hcap : cap ≤ 2 ^ 31) (S S' : CSys) (hr : CSys.Reach cap S)
    (hl : Later S S') (l : Nat) (hk : S.Known l) :
    (Flagged S.graph l → Flagged S'.graph l) ∧ SameTaint S.graph S'.graph l := by
  obtain ⟨V, tail, h, -⟩ := hr.inv h0 hcap
  obtain ⟨V', tail', h', hg⟩ := h.later hl
  have hlab := h.known l hk
  constructor
  · rw [h.flaggedS hlab.2, h'.flaggedS (hg.lab hlab).2]
    exact hg.flagged h.wf
  · unfold SameTaint
    rw [graph_lt h hlab.2, graph_lt h' (hg.lab hlab).2]
    exact hg.same h.wf h'.wf hlab.2

/-- That all markings have finished is needed: a marking can return, because another thread has
already flagged its label, before the labels below are flagged. -/
theorem C35_early_return : ∃ S : CSys, CSys.Reach 32 S ∧ S.threads 1 = .idle ∧ .mark 8 ∈ S.log ∧
    BuiltFrom S.graph 8 6 ∧ ¬ Flagged S.graph 6 := by
  refine ⟨exC4, exC4_reach, by decide +kernel, by rw [exC4_log]; simp, ?_, ?_⟩
  · exact .step (t := .range true 5 6) (by decide +kernel) (by decide : (5 ≤ 6 ∧ 6 ≤ 6)) (.refl 6)
  · rintro ⟨t, ht, hf⟩
    rw [show exC4.graph 6 = some (.union false 1 3) by decide +kernel] at ht
    cases ht; cases hf

/-- Two overlapping markings that have finished. -/
example : CSys.Reach 32 exC5 ∧ exC5.lock = none ∧ ¬ exC5.Busy ∧
    exC5.Known 8 ∧ exC5.log = [.source 3 10 5 1, .union 1 3 6, .union 1 3 7, .union 6 5 8, .mark 8, .mark 8] ∧
    Flagged exC5.graph 6 ∧ exC5.graph 7 = some (.union false 1 3) := by
  refine ⟨exC5_reach, by decide +kernel, fun ⟨t, ht⟩ => ht (by rw [exC5_idle]; rfl),
    ⟨.union 6 5 8, by decide +kernel, rfl⟩, by decide +kernel, ⟨.union true 1 3, by decide +kernel, rfl⟩, by decide +kernel⟩

end Verif
