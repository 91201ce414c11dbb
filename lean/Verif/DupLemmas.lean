import Verif.HistoryLemmas
/- Helper lemmas: repeated unions and the duplicate scan. -/
namespace Verif
open Spec

theorem compute_congr_flag {l r : Nat} {tl tr tl' tr' : Taint}
    (h1 : withFlag false tl = withFlag false tl') (h2 : withFlag false tr = withFlag false tr') :
    compute l tl r tr = compute l tl' r tr' := by
  cases tl <;> cases tl' <;> simp only [withFlag, Taint.source.injEq, Taint.range.injEq,
    Taint.union.injEq, reduceCtorEq] at h1 <;>
  cases tr <;> cases tr' <;> simp only [withFlag, Taint.source.injEq, Taint.range.injEq,
    Taint.union.injEq, reduceCtorEq] at h2 <;>
  obtain ⟨-, rfl, rfl⟩ := h1 <;> obtain ⟨-, rfl, rfl⟩ := h2 <;> rfl

namespace Labels

theorem dupScan_newest {words : List Nat} {e : Nat} : ∀ {i n d : Nat},
    dupScan words e i n = some d → ∀ j, d < j → j < i → equalIgnoreCf (words.getD j 0) e = false := by
  intro i n
  induction n generalizing i with
  | zero => intro d h; simp [dupScan] at h
  | succ n ih =>
    intro d h j h1 h2
    cases i with
    | zero => omega
    | succ i =>
      rw [dupScan] at h
      split at h
      · cases h; omega
      · rename_i hc
        by_cases hj : j = i
        · subst hj; simpa using hc
        · exact ih h j h1 (by omega)

/-- Whether a stored word matches is not affected by flags. -/
theorem match_stable {L L' : Labels} (hwf : L.WF) {j : Nat} (h0 : 0 < j)
    (hj : j < L.words.length)
    (hw : ∀ l w : Nat, L.words[l]? = some w → L'.words[l]? = some w ∨ L'.words[l]? = some (addCf w))
    {t : Taint} (ht : LegalTaint t) :
    equalIgnoreCf (L'.words.getD j 0) (encode t) = equalIgnoreCf (L.words.getD j 0) (encode t) := by
  obtain ⟨u, hu, -, -⟩ := hwf.read h0 hj
  obtain ⟨w, hwj, hd⟩ := graph_eq_some.1 hu
  have hlt := hwf.word w (List.mem_of_getElem? hwj)
  have hrt := C01_decode_encode t (legal_representable ht)
  have e1 : L.words.getD j 0 = w := by rw [List.getD_eq_getElem?_getD, hwj]; rfl
  rw [e1]
  rcases hw j w hwj with h | h
  · rw [List.getD_eq_getElem?_getD, h]; rfl
  · rw [List.getD_eq_getElem?_getD, h]
    show equalIgnoreCf (addCf w) (encode t) = _
    have hac := C02_addCf w hlt
    rw [Bool.eq_iff_iff, C02_equalIgnoreCf _ _ hac.1 hrt.2 _ _ (hac.2.2.1 u hd) hrt.1,
      C02_equalIgnoreCf _ _ hlt hrt.2 _ _ hd hrt.1]
    cases u <;> rfl

theorem match_iff {L : Labels} (hwf : L.WF) {j : Nat} {u : Taint} (hu : L.graph j = some u)
    {t : Taint} (ht : LegalTaint t) :
    equalIgnoreCf (L.words.getD j 0) (encode t) = true ↔ withFlag false u = withFlag false t := by
  obtain ⟨w, hwj, hd⟩ := graph_eq_some.1 hu
  have hlt := hwf.word w (List.mem_of_getElem? hwj)
  have hrt := C01_decode_encode t (legal_representable ht)
  rw [List.getD_eq_getElem?_getD, hwj]
  exact C02_equalIgnoreCf _ _ hlt hrt.2 _ _ hd hrt.1

/-- Repeating a union. -/
theorem union_repeat {L L1 L2 : Labels} (hg : Good L) {l r u : Nat} {es : List Event}
    (hl : 0 < l ∧ l < L.words.length) (hr : 0 < r ∧ r < L.words.length)
    (hu : L.unionTaint l r = .ok (L1, u)) (hruns : Runs L1 es L2)
    (hwin : L2.words.length ≤ u + redundantLabelRange) :
    ∃ u', L2.unionTaint l r = .ok (L2, u') ∧
      (L2.graph u').map (withFlag false) = (L2.graph u).map (withFlag false) ∧
      (u' = u ∨ (u < u' ∧ L1.words.length ≤ u')) := by
  have hwf := hg.wf
  have ha : L.Allowed (.union l r) := ⟨hl.1, hl.2, hr.1, hr.2⟩
  have hs : Stepped L L1 (.union l r u) := step_of_exec hg ha (by simp [exec, hu])
  have hg1 := hs.good
  have hg2 := hruns.good hg1
  have hold := hruns.old hg1
  have hwords : ∀ l w : Nat, L.words[l]? = some w →
      L2.words[l]? = some w ∨ L2.words[l]? = some (addCf w) := by
    intro l w hw
    rcases hs.word l w hw with h | h
    · exact hold.2.1 l w h
    · rcases hold.2.1 l _ h with h' | h'
      · exact Or.inr h'
      · rw [C02_addCf_idem] at h'; exact Or.inr h'
  by_cases hlr : l = r
  · subst hlr
    simp only [unionTaint, if_true, Res.ok.injEq, Prod.mk.injEq] at hu
    obtain ⟨rfl, rfl⟩ := hu
    exact ⟨l, by simp [unionTaint], rfl, Or.inl rfl⟩
  obtain ⟨tl, gl, Ll, rl⟩ := hwf.read hl.1 hl.2
  obtain ⟨tr, gr, Lr, rr⟩ := hwf.read hr.1 hr.2
  have hread : ∀ k t, L.graph k = some t → ∃ t', L2.graph k = some t' ∧
      withFlag false t = withFlag false t' := by
    intro k t hk
    obtain ⟨w, hw, hd⟩ := graph_eq_some.1 hk
    have hlt := hwf.word w (List.mem_of_getElem? hw)
    rcases hwords k w hw with h | h
    · exact ⟨t, graph_of_word h hd, rfl⟩
    · exact ⟨_, graph_of_word h ((C02_addCf w hlt).2.2.1 t hd), by cases t <;> rfl⟩
  obtain ⟨tl2, gl2, sl⟩ := hread l tl gl
  obtain ⟨tr2, gr2, sr⟩ := hread r tr gr
  have hcomp := compute_congr_flag (l := l) (r := r) sl sr
  unfold unionTaint at hu ⊢
  rw [if_neg hlr] at hu ⊢
  rw [readLabel_eq gl, readLabel_eq gr] at hu
  rw [readLabel_eq gl2, readLabel_eq gr2]
  simp only [Res.bind_ok] at hu ⊢
  rw [← hcomp]
  have ok := compute_ok (n := L.words.length) hlr hl.1 hr.1 hl.2 hr.2
    (Nat.le_trans hwf.fits hwf.cap) Ll Lr rl rr
  cases hc : compute l tl r tr with
  | label v =>
    rw [hc] at hu
    simp only [Res.ok.injEq, Prod.mk.injEq] at hu
    obtain ⟨rfl, rfl⟩ := hu
    exact ⟨v, rfl, rfl, Or.inl rfl⟩
  | taint t =>
    rw [hc] at hu ok
    simp only at hu ⊢
    have hmax : max l r < L.words.length := by omega
    -- the first answer matches, lies after both operands, and is the newest match in L1
    have key : max l r ≤ u ∧ u < L1.words.length ∧
        equalIgnoreCf (L1.words.getD u 0) (encode t) = true ∧
        ∀ j, u < j → j < L1.words.length → equalIgnoreCf (L1.words.getD j 0) (encode t) = false := by
      cases hdup : L.duplicateCheck (max l r) (encode t) with
      | some d =>
        rw [hdup] at hu
        simp only [Res.ok.injEq, Prod.mk.injEq] at hu
        obtain ⟨rfl, rfl⟩ := hu
        have hd := duplicateCheck_some hwf ok (by omega) hdup
        unfold duplicateCheck at hdup
        exact ⟨hd.1, hd.2.1, (dupScan_some hdup).2.2, dupScan_newest hdup⟩
      | none =>
        rw [hdup] at hu
        by_cases hcap : L.words.length + 1 ≤ L.cap
        · simp only [construct, hcap, if_true, Res.ok.injEq, Prod.mk.injEq] at hu
          obtain ⟨rfl, rfl⟩ := hu
          refine ⟨by omega, by simp, ?_, ?_⟩
          · simp [List.getD_eq_getElem?_getD, equalIgnoreCf]
          · intro j h1 h2; simp at h2; omega
        · simp [construct, hcap] at hu
    obtain ⟨k1, k2, k3, k4⟩ := key
    have hu0 : 0 < u := by omega
    have hm2 : equalIgnoreCf (L2.words.getD u 0) (encode t) = true := by
      rw [match_stable hg1.wf hu0 k2 hold.2.1 ok.1]; exact k3
    have hlen := hold.1
    cases hdup : L2.duplicateCheck (max l r) (encode t) with
    | none =>
      exfalso
      unfold duplicateCheck at hdup
      have := dupScan_none hdup u (by omega) (by split <;> omega)
      rw [hm2] at this; cases this
    | some d =>
      refine ⟨d, rfl, ?_, ?_⟩
      · unfold duplicateCheck at hdup
        have hd := dupScan_some hdup
        have hd0 : 0 < d := by have := hd.2.1; split at this <;> omega
        obtain ⟨td, gd, -, -⟩ := hg2.wf.read hd0 hd.1
        obtain ⟨tu, gu, -, -⟩ := hg2.wf.read hu0 (by omega : u < L2.words.length)
        rw [gd, gu, Option.map_some, Option.map_some, (match_iff hg2.wf gd ok.1).1 hd.2.2,
          (match_iff hg2.wf gu ok.1).1 hm2]
      · unfold duplicateCheck at hdup
        have hd := dupScan_some hdup
        have hnew := dupScan_newest hdup
        by_cases h1 : u < d
        · right
          refine ⟨h1, ?_⟩
          by_cases h2 : d < L1.words.length
          · have := k4 d h1 h2
            rw [← match_stable hg1.wf (by omega) h2 hold.2.1 ok.1, hd.2.2] at this
            cases this
          · omega
        · by_cases h2 : d < u
          · have := hnew u h2 (by omega)
            rw [hm2] at this; cases this
          · left; omega

end Labels
end Verif
