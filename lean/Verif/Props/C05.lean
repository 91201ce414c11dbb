import Verif.HistoryLemmas
import Verif.Examples.Store
/- C05: the label graph is always well-formed and acyclic. -/
namespace Verif
open Spec Labels

/-- In every reachable store, every label other than 0 has a legal taint value referring only to
non-zero, strictly smaller labels; label 0 and labels not handed out have none. -/
theorem C05_wellFormed (cap : Nat) (h0 : 0 < cap) (hcap : cap ≤ 2 ^ 31) (es : List Event)
    (L : Labels) (hr : Reach cap es L) : WellFormed L.graph L.words.length :=
  (hr.good h0 hcap).wf.graph

/-- Reading a handed-out label never aborts. -/
theorem C05_read_ok (cap : Nat) (h0 : 0 < cap) (hcap : cap ≤ 2 ^ 31) (es : List Event)
    (L : Labels) (hr : Reach cap es L) (l : Nat) (hl : 0 < l) (hl' : l < L.words.length) :
    ∃ t, L.readLabel l = .ok t ∧ LegalTaint t := by
  obtain ⟨t, h1, h2, -⟩ := (hr.good h0 hcap).wf.read hl hl'
  exact ⟨t, readLabel_eq h1, h2⟩

/-- No assertion on taint values can fire: whatever taint value a union of two distinct handed-out
labels computes satisfies the asserted conditions. -/
theorem C05_no_assert (cap : Nat) (h0 : 0 < cap) (hcap : cap ≤ 2 ^ 31) (es : List Event)
    (L : Labels) (hr : Reach cap es L) (l r : Nat) (hl : 0 < l ∧ l < L.words.length)
    (hr' : 0 < r ∧ r < L.words.length) (hne : l ≠ r) (tl tr t : Taint)
    (h1 : L.readLabel l = .ok tl) (h2 : L.readLabel r = .ok tr)
    (hc : compute l tl r tr = .taint t) : LegalTaint t := by
  have hwf := (hr.good h0 hcap).wf
  obtain ⟨tl', gl, Ll, rl⟩ := hwf.read hl.1 hl.2
  obtain ⟨tr', gr, Lr, rr⟩ := hwf.read hr'.1 hr'.2
  rw [readLabel_eq gl] at h1; cases h1
  rw [readLabel_eq gr] at h2; cases h2
  have := compute_ok (n := L.words.length) hne hl.1 hr'.1 hl.2 hr'.2
    (Nat.le_trans hwf.fits hwf.cap) Ll Lr rl rr
  rw [hc] at this
  exact this.1

/-- Every permitted call succeeds, except that a union may find the section full; none has
undefined behaviour or runs forever. -/
theorem C05_total (cap : Nat) (h0 : 0 < cap) (hcap : cap ≤ 2 ^ 31) (es : List Event)
    (L : Labels) (hr : Reach cap es L) (op : Op) (ha : L.Allowed op) :
    (∃ L' e, L.exec op = .ok (L', e)) ∨
    (L.exec op = .fatal ∧ L.words.length = cap ∧ ∃ l r, op = .union l r) := by
  rcases ha.step (hr.good h0 hcap) with ⟨L', e, h, -⟩ | ⟨h1, h2, h3⟩
  · exact Or.inl ⟨L', e, h⟩
  · exact Or.inr ⟨h1, by rw [h2, hr.cap h0 hcap], h3⟩

/-- The label graph has no cycles: nothing is built from itself through a reference. -/
theorem C05_acyclic (cap : Nat) (h0 : 0 < cap) (hcap : cap ≤ 2 ^ 31) (es : List Event)
    (L : Labels) (hr : Reach cap es L) (l k m : Nat) (t : Taint) (hg : L.graph l = some t)
    (hk : Ref t k) (hb : BuiltFrom L.graph k m) : m < l := by
  have hwf := (hr.good h0 hcap).wf
  have hkl := ((hwf.refs hg).2.2.2 k hk).2
  clear hk hg
  induction hb with
  | refl => exact hkl
  | step hg hr _ ih => exact ih (Nat.lt_trans ((hwf.refs hg).2.2.2 _ hr).2 hkl)

example : Reach 64 exEvents exStore ∧ exStore.words.length = 13 ∧
    exStore.Allowed (.union 9 12) ∧ exStore.graph 12 = some (.union false 9 11) := by
  exact ⟨exReach, by decide +kernel⟩

end Verif
