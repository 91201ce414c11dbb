import Verif.HistoryLemmas
import Verif.Examples.Store
/- C04: a label never changes its meaning. -/
namespace Verif
open Spec Labels

/-- Whatever calls follow, a label handed out before keeps denoting the same bytes. -/
theorem C04_stable (cap : Nat) (h0 : 0 < cap) (hcap : cap ≤ 2 ^ 31) (es es' : List Event)
    (L L' : Labels) (hr : Reach cap es L) (hr' : Runs L es' L') (l : Nat)
    (hl : l < L.words.length) (b : Nat × Nat) :
    Denotes L'.graph l b ↔ Denotes L.graph l b :=
  (Runs.old hr' (hr.good h0 hcap)).2.2 l b hl

/-- Stored words are never overwritten either: later calls can only add the control-flow flag. -/
theorem C04_words (cap : Nat) (h0 : 0 < cap) (hcap : cap ≤ 2 ^ 31) (es es' : List Event)
    (L L' : Labels) (hr : Reach cap es L) (hr' : Runs L es' L') :
    L.words.length ≤ L'.words.length ∧
    ∀ l w : Nat, L.words[l]? = some w → L'.words[l]? = some w ∨ L'.words[l]? = some (addCf w) :=
  ⟨(Runs.old hr' (hr.good h0 hcap)).1, (Runs.old hr' (hr.good h0 hcap)).2.1⟩

/-- The answer of a union is either fresh (one past the last label, one label added) or an existing
label that already denoted the requested set (and nothing was added). -/
theorem C04_union_fresh_or_old (cap : Nat) (h0 : 0 < cap) (hcap : cap ≤ 2 ^ 31) (es : List Event)
    (L : Labels) (hr : Reach cap es L) (l r : Nat) (hl : 0 < l ∧ l < L.words.length)
    (hr' : 0 < r ∧ r < L.words.length) (L' : Labels) (u : Nat)
    (hu : L.unionTaint l r = .ok (L', u)) :
    (u = L.words.length ∧ L'.words.length = L.words.length + 1) ∨
    (L' = L ∧ u < L.words.length ∧
      ∀ b, Denotes L.graph u b ↔ Denotes L.graph l b ∨ Denotes L.graph r b) := by
  rcases unionTaint_spec (hr.good h0 hcap).wf hl.1 hl.2 hr'.1 hr'.2 with
    ⟨h1, h2⟩ | ⟨L1, u1, h1, -, h3, h4, h5, h6⟩
  · rw [hu] at h1; cases h1
  · rw [hu] at h1; cases h1
    rcases h5 with rfl | ⟨rfl, w, -, rfl⟩
    · exact Or.inr ⟨rfl, h4, h6⟩
    · exact Or.inl ⟨rfl, by simp⟩

/-- Labels handed out by a read are fresh. -/
theorem C04_read_fresh (cap : Nat) (h0 : 0 < cap) (hcap : cap ≤ 2 ^ 31) (es : List Event)
    (L : Labels) (hr : Reach cap es L) (src off n : Nat) (ha : L.Allowed (.source src off n)) :
    ∃ L', L.createSourceLabels src off n =
        .ok (L', (L.words.length, L.words.length + n - 1)) ∧
      L'.words.length = L.words.length + n := by
  obtain ⟨L', h1, -, h2, -⟩ := createSourceLabels_spec (hr.good h0 hcap).wf ha.2.1 ha.1 ha.2.2.1 ha.2.2.2
  exact ⟨L', h1, h2⟩

/-- A run with a continuation that reuses old labels. -/
example : ∃ es' L', Runs exStore es' L' ∧ es'.length = 3 :=
  ⟨evsOf exStore [.union 1 5, .source 0 0 2, .mark 13], _, runs_of (by decide +kernel),
    by decide +kernel⟩

end Verif
