import Verif.DupLemmas
import Verif.Examples.Store
/- C06: label reuse is sound, and effective inside its window. -/
namespace Verif
open Spec Labels

/-- Reuse is sound: when a union adds no label, its answer already denoted the requested set. -/
theorem C06_reuse_sound (cap : Nat) (h0 : 0 < cap) (hcap : cap ≤ 2 ^ 31) (es : List Event)
    (L : Labels) (hr : Reach cap es L) (l r : Nat) (hl : 0 < l ∧ l < L.words.length)
    (hr' : 0 < r ∧ r < L.words.length) (L' : Labels) (u : Nat)
    (hu : L.unionTaint l r = .ok (L', u)) (hsame : L'.words.length = L.words.length) :
    L' = L ∧ ∀ b, Denotes L.graph u b ↔ Denotes L.graph l b ∨ Denotes L.graph r b := by
  rcases unionTaint_spec (hr.good h0 hcap).wf hl.1 hl.2 hr'.1 hr'.2 with
    ⟨h1, h2⟩ | ⟨L1, u1, h1, -, h3, h4, h5, h6⟩
  · rw [hu] at h1; cases h1
  · rw [hu] at h1; cases h1
    rcases h5 with rfl | ⟨rfl, w, -, rfl⟩
    · exact ⟨rfl, h6⟩
    · simp at hsame

/-- Reuse is effective, as far as it holds: if the label answered by a union is still among the 100
newest labels, repeating the union adds no label and answers a label with the same taint value: the
same label, or one with that taint value created after the first call. Missing from the full claim:
(1) the answer can be a newer label with the same taint value (`C06_same_label_refuted`), (2) the
window is counted from the answered label, which may be older than the first call
(`C06_window_refuted`). -/
theorem C06_repeat_partial (cap : Nat) (h0 : 0 < cap) (hcap : cap ≤ 2 ^ 31) (es es' : List Event)
    (L L1 L2 : Labels) (hr : Reach cap es L) (l r u : Nat) (hl : 0 < l ∧ l < L.words.length)
    (hr' : 0 < r ∧ r < L.words.length) (hu : L.unionTaint l r = .ok (L1, u))
    (hruns : Runs L1 es' L2) (hwin : L2.words.length ≤ u + 100) :
    ∃ u', L2.unionTaint l r = .ok (L2, u') ∧
      (L2.graph u').map (withFlag false) = (L2.graph u).map (withFlag false) ∧
      (u' = u ∨ (u < u' ∧ L1.words.length ≤ u')) :=
  union_repeat (hr.good h0 hcap) hl hr' hu hruns hwin

/-- In particular: if the first call created the label, fewer than 100 labels were added since, and
none of those has the same taint value, the answer is the same label. -/
theorem C06_repeat_new_partial (cap : Nat) (h0 : 0 < cap) (hcap : cap ≤ 2 ^ 31) (es es' : List Event)
    (L L1 L2 : Labels) (hr : Reach cap es L) (l r u : Nat) (hl : 0 < l ∧ l < L.words.length)
    (hr' : 0 < r ∧ r < L.words.length) (hu : L.unionTaint l r = .ok (L1, u))
    (hnew : L.words.length < L1.words.length)
    (hruns : Runs L1 es' L2) (hwin : L2.words.length < L1.words.length + 100)
    (huniq : ∀ d, L1.words.length ≤ d → d < L2.words.length →
      (L2.graph d).map (withFlag false) ≠ (L2.graph u).map (withFlag false)) :
    L2.unionTaint l r = .ok (L2, u) := by
  have hulen : u = L.words.length ∧ L1.words.length = L.words.length + 1 := by
    rcases unionTaint_spec (hr.good h0 hcap).wf hl.1 hl.2 hr'.1 hr'.2 with
      ⟨h1, h2⟩ | ⟨L1', u1, h1, -, h3, h4, h5, h6⟩
    · rw [hu] at h1; cases h1
    · rw [hu] at h1; cases h1
      rcases h5 with rfl | ⟨rfl, w, -, rfl⟩
      · omega
      · exact ⟨rfl, by simp⟩
  obtain ⟨u', h1, h2, h3⟩ := union_repeat (hr.good h0 hcap) hl hr' hu hruns
    (by rw [show redundantLabelRange = 100 from rfl]; omega)
  rcases h3 with rfl | ⟨h3, h4⟩
  · exact h1
  · exfalso
    by_cases hlt : u' < L2.words.length
    · exact huniq u' h4 hlt h2
    · rw [graph_none_of_ge (by omega : L2.words.length ≤ u')] at h2
      have hul : u < L2.words.length := by
        have hs : Stepped L L1 (.union l r u) :=
          step_of_exec (hr.good h0 hcap) (op := .union l r) ⟨hl.1, hl.2, hr'.1, hr'.2⟩ (by simp [exec, hu])
        have := (hruns.old hs.good).1
        omega
      have hg2 := hruns.good (step_of_exec (hr.good h0 hcap) (op := .union l r)
        ⟨hl.1, hl.2, hr'.1, hr'.2⟩ (show L.exec (.union l r) = .ok (L1, .union l r u) by simp [exec, hu])).good
      obtain ⟨t, ht, -⟩ := hg2.wf.read (by omega : 0 < u) hul
      rw [ht] at h2; cases h2

/-- Counterexample to "the same label as the first time": bytes 1-4; 5 = 1∪2, 6 = 3∪4 and 7 = 5∪6
is the range 1-4; 8 = 5∪3 is the range 1-3, and 8∪4 is again the range 1-4, but its duplicate scan
stops at label 8 and creates label 9. Asking for 5∪6 again, after two further labels, now answers 9
instead of 7. -/
theorem C06_same_label_refuted :
    ∃ es es' L L1 L2, Reach 64 es L ∧ L.unionTaint 5 6 = .ok (L1, 7) ∧ Runs L1 es' L2 ∧
      L2.words.length = L1.words.length + 2 ∧ L2.unionTaint 5 6 = .ok (L2, 9) := by
  refine ⟨_, _, endOf (init 64) [.source 0 0 4, .union 1 2, .union 3 4],
    endOf (init 64) [.source 0 0 4, .union 1 2, .union 3 4, .union 5 6],
    endOf (endOf (init 64) [.source 0 0 4, .union 1 2, .union 3 4, .union 5 6])
      [.union 5 3, .union 8 4], runs_of ?_, ?_, runs_of ?_, ?_, ?_⟩
  all_goals decide +kernel

/-- Counterexample to counting the window from the first call: label 4 = 1∪3, then 99 input bytes.
1∪3 is answered with 4; after one more byte the same request creates a new label. -/
theorem C06_window_refuted :
    ∃ es es' L L2 L3, Reach 300 es L ∧ L.unionTaint 1 3 = .ok (L, 4) ∧ Runs L es' L2 ∧
      L2.words.length = L.words.length + 1 ∧ L2.unionTaint 1 3 = .ok (L3, 105) ∧
      L3.words.length = L2.words.length + 1 := by
  refine ⟨_, _, endOf (init 300) [.source 0 0 3, .union 1 3, .source 0 3 99],
    endOf (endOf (init 300) [.source 0 0 3, .union 1 3, .source 0 3 99]) [.source 0 102 1],
    endOf (endOf (endOf (init 300) [.source 0 0 3, .union 1 3, .source 0 3 99]) [.source 0 102 1])
      [.union 1 3], runs_of ?_, ?_, runs_of ?_, ?_, ?_, ?_⟩
  all_goals decide +kernel

/-- The hypotheses of the partial theorem are met with labels added in between. -/
example : ∃ es es' L L1 L2, Reach 64 es L ∧ L.unionTaint 1 3 = .ok (L1, 5) ∧ Runs L1 es' L2 ∧
    L2.words.length ≤ 5 + 100 ∧ L1.words.length + 10 = L2.words.length := by
  refine ⟨_, _, endOf (init 64) [.source 0 0 4], endOf (init 64) [.source 0 0 4, .union 1 3],
    endOf (endOf (init 64) [.source 0 0 4, .union 1 3]) [.source 0 4 9, .union 5 2],
    runs_of ?_, ?_, runs_of ?_, ?_, ?_⟩
  all_goals decide +kernel

end Verif
