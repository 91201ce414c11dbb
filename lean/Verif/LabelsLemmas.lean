import Verif.Labels
import Verif.UnionLemmas
import Verif.Props.C02
/- Helper lemmas about the label store. -/
namespace Verif
open Spec

namespace Labels

/-- The label graph stored in the section: what reading each label gives. -/
def graph (L : Labels) : Graph := fun l =>
  match L.readLabel l with
  | .ok t => some t
  | _ => none

/-- Invariant of the label section. -/
structure WF (L : Labels) : Prop where
  cap : L.cap ≤ 2 ^ 31
  nonempty : 0 < L.words.length
  fits : L.words.length ≤ L.cap
  zero : L.words[0]? = some 0
  word : ∀ w ∈ L.words, w < 2 ^ 64
  graph : WellFormed L.graph L.words.length

theorem graph_eq_some {L : Labels} {l : Nat} {t : Taint} :
    L.graph l = some t ↔ ∃ w, L.words[l]? = some w ∧ decode w = .ok t := by
  unfold graph readLabel getRes
  cases h : L.words[l]? with
  | none => simp
  | some w =>
    simp only [Res.bind_ok, Option.some.injEq]
    constructor
    · intro hd
      split at hd
      · rename_i t' ht'; cases hd; exact ⟨w, rfl, ht'⟩
      · cases hd
    · rintro ⟨w', hw, hd⟩; subst hw; rw [hd]

theorem graph_of_word {L : Labels} {l w : Nat} {t : Taint} (h : L.words[l]? = some w)
    (hd : decode w = .ok t) : L.graph l = some t := graph_eq_some.2 ⟨w, h, hd⟩

theorem graph_none_of_ge {L : Labels} {l : Nat} (h : L.words.length ≤ l) : L.graph l = none := by
  cases hg : L.graph l with
  | none => rfl
  | some t =>
    obtain ⟨w, hw, -⟩ := graph_eq_some.1 hg
    rw [List.getElem?_eq_none h] at hw; cases hw

theorem readLabel_eq {L : Labels} {l : Nat} {t : Taint} (h : L.graph l = some t) :
    L.readLabel l = .ok t := by
  unfold graph at h
  split at h
  · rename_i heq; cases h; exact heq
  · cases h

theorem WF.read {L : Labels} (h : L.WF) {l : Nat} (h0 : 0 < l) (hl : l < L.words.length) :
    ∃ t, L.graph l = some t ∧ LegalTaint t ∧ ∀ k, Ref t k → 0 < k ∧ k < l := h.graph.legal l h0 hl

theorem WF.refs {L : Labels} (h : L.WF) {l : Nat} {t : Taint} (hg : L.graph l = some t) :
    0 < l ∧ l < L.words.length ∧ LegalTaint t ∧ ∀ k, Ref t k → 0 < k ∧ k < l := by
  by_cases h0 : l = 0 ∨ L.words.length ≤ l
  · rw [h.graph.none l h0] at hg; cases hg
  · obtain ⟨t', ht, hL, hr⟩ := h.graph.legal l (by omega) (by omega)
    rw [hg] at ht; cases ht
    exact ⟨by omega, by omega, hL, hr⟩

theorem WF.refs_lt {L : Labels} (h : L.WF) (n : Nat) :
    ∀ l, l < n → ∀ t, L.graph l = some t → ∀ k, Ref t k → k < l :=
  fun _ _ _ hg k hk => ((h.refs hg).2.2.2 k hk).2

theorem init_words {cap : Nat} (h : 0 < cap) : (init cap).words = [0] ∧ (init cap).cap = cap := by
  have : 0 + 1 ≤ cap := h
  simp [init, construct, this]

theorem init_wf {cap : Nat} (h : 0 < cap) (h2 : cap ≤ 2 ^ 31) : (init cap).WF := by
  obtain ⟨hw, hc⟩ := init_words h
  refine ⟨by rw [hc]; exact h2, by simp [hw], by simp [hw, hc]; omega, by simp [hw], by simp [hw], ?_, ?_⟩
  · intro l h0 hl
    rw [hw] at hl; simp at hl; omega
  · intro l hl
    rw [hw] at hl
    rcases hl with rfl | hl
    · cases hg : (init cap).graph 0 with
      | none => rfl
      | some t =>
        obtain ⟨w, hw', hd⟩ := graph_eq_some.1 hg
        rw [hw] at hw'; simp at hw'; subst hw'
        revert hd
        have : decode 0 = .fatal := by decide
        rw [this]; simp
    · exact graph_none_of_ge (by rw [hw]; exact hl)

/-- Appending words does not change existing labels. -/
theorem graph_append_lt {L : Labels} {ws : List Nat} {l : Nat} (hl : l < L.words.length) :
    ({ L with words := L.words ++ ws } : Labels).graph l = L.graph l := by
  have h : (L.words ++ ws)[l]? = L.words[l]? := List.getElem?_append_left hl
  simp only [graph, readLabel, getRes, h]

/-- Appending legal words keeps the invariant. -/
theorem wf_append {L : Labels} (hwf : L.WF) (ws : List Nat)
    (hfit : L.words.length + ws.length ≤ L.cap)
    (hws : ∀ i w, ws[i]? = some w → w < 2 ^ 64 ∧ ∃ t, decode w = .ok t ∧ LegalTaint t ∧
      ∀ k, Ref t k → 0 < k ∧ k < L.words.length + i) :
    ({ L with words := L.words ++ ws } : Labels).WF := by
  refine ⟨hwf.cap, ?_, ?_, ?_, ?_, ?_, ?_⟩
  · have := hwf.nonempty
    simp only [List.length_append]; omega
  · simpa using hfit
  · show (L.words ++ ws)[0]? = some 0
    rw [List.getElem?_append_left hwf.nonempty]; exact hwf.zero
  · intro w hw
    rw [List.mem_append] at hw
    rcases hw with hw | hw
    · exact hwf.word w hw
    · obtain ⟨i, hi⟩ := List.mem_iff_getElem?.1 hw
      exact (hws i w hi).1
  · intro l h0 hl
    by_cases h : l < L.words.length
    · rw [graph_append_lt h]; exact hwf.read h0 h
    · simp only [List.length_append] at hl
      have hi : (L.words ++ ws)[l]? = ws[l - L.words.length]? := by
        rw [List.getElem?_append_right (by omega)]
      have hlt : l - L.words.length < ws.length := by omega
      obtain ⟨-, t, hd, hL, hr⟩ := hws (l - L.words.length) _ (List.getElem?_eq_getElem hlt)
      refine ⟨t, graph_of_word ?_ hd, hL, ?_⟩
      · show (L.words ++ ws)[l]? = _
        rw [hi]; exact List.getElem?_eq_getElem hlt
      · intro k hk; have := hr k hk; omega
  · intro l hl
    rcases hl with rfl | hl
    · rw [graph_append_lt hwf.nonempty]; exact hwf.graph.none 0 (Or.inl rfl)
    · exact graph_none_of_ge hl

theorem legal_representable {t : Taint} (h : LegalTaint t) : Representable t := by
  cases t with
  | source => exact h
  | range => exact h
  | union c lo hi => exact ⟨Nat.lt_trans (Nat.lt_succ_self lo) h.1, h.2⟩

/-- Constructing a label for a storable taint. -/
theorem construct_spec {L : Labels} (hwf : L.WF) {t : Taint} (ht : OkAt L.words.length t)
    (hcap : L.words.length + 1 ≤ L.cap) :
    ∃ L', L.construct (encode t) = some (L', L.words.length) ∧
      L' = { L with words := L.words ++ [encode t] } ∧ L'.WF ∧
      L'.graph L.words.length = some t := by
  refine ⟨{ L with words := L.words ++ [encode t] }, by simp [construct, hcap], rfl, ?_, ?_⟩
  · apply wf_append hwf
    · simpa using hcap
    · intro i w hi
      have hrt := C01_decode_encode t (legal_representable ht.1)
      cases i with
      | zero =>
        simp at hi; subst hi
        exact ⟨hrt.2, t, hrt.1, ht.1, ht.2.1⟩
      | succ i => simp at hi
  · refine graph_of_word (w := encode t) ?_ (C01_decode_encode t (legal_representable ht.1)).1
    show (L.words ++ [encode t])[L.words.length]? = _
    simp

theorem dupScan_some {words : List Nat} {e : Nat} : ∀ {i n d : Nat},
    dupScan words e i n = some d →
      d < i ∧ i ≤ d + n ∧ equalIgnoreCf (words.getD d 0) e = true := by
  intro i n
  induction n generalizing i with
  | zero => intro d h; simp [dupScan] at h
  | succ n ih =>
    intro d h
    cases i with
    | zero => simp [dupScan] at h
    | succ i =>
      rw [dupScan] at h
      split at h
      · rename_i hc; cases h; exact ⟨by omega, by omega, hc⟩
      · have := ih h; exact ⟨by omega, by omega, this.2.2⟩

theorem dupScan_none {words : List Nat} {e : Nat} : ∀ {i n : Nat}, dupScan words e i n = none →
      ∀ d, d < i → i ≤ d + n → equalIgnoreCf (words.getD d 0) e = false := by
  intro i n
  induction n generalizing i with
  | zero => intro _ d h1 h2; omega
  | succ n ih =>
    intro h d h1 h2
    cases i with
    | zero => omega
    | succ i =>
      rw [dupScan] at h
      split at h
      · cases h
      · rename_i hc
        by_cases hd : d = i
        · subst hd; simpa using hc
        · exact ih h d (by omega) (by omega)

/-- A label found by the duplicate check carries the same taint up to the flag. -/
theorem duplicateCheck_some {L : Labels} (hwf : L.WF) {t : Taint} (ht : OkAt L.words.length t)
    {hilbl d : Nat} (h0 : 0 < hilbl)
    (h : L.duplicateCheck hilbl (encode t) = some d) :
    hilbl ≤ d ∧ d < L.words.length ∧
      ∃ u, L.graph d = some u ∧ withFlag false u = withFlag false t := by
  unfold duplicateCheck at h
  have h1 := dupScan_some h
  have hd : hilbl ≤ d := by
    have := h1.2.1
    split at this <;> omega
  refine ⟨hd, h1.1, ?_⟩
  obtain ⟨u, hu, -, -⟩ := hwf.read (by omega : 0 < d) h1.1
  refine ⟨u, hu, ?_⟩
  obtain ⟨w, hw, hdw⟩ := graph_eq_some.1 hu
  have hrt := C01_decode_encode t (legal_representable ht.1)
  have hwlt : w < 2 ^ 64 := hwf.word w (List.mem_of_getElem? hw)
  have heq := h1.2.2
  rw [List.getD_eq_getElem?_getD, hw] at heq
  exact (C02_equalIgnoreCf w (encode t) hwlt hrt.2 u t hdw hrt.1).1 heq

/-- Everything there is to say about one call of `union_taint` on a well-formed store. -/
theorem unionTaint_spec {L : Labels} (hwf : L.WF) {l r : Nat} (hl0 : 0 < l)
    (hl : l < L.words.length) (hr0 : 0 < r) (hr : r < L.words.length) :
    (L.unionTaint l r = .fatal ∧ L.words.length = L.cap) ∨
    ∃ L' u, L.unionTaint l r = .ok (L', u) ∧ L'.WF ∧ 0 < u ∧ u < L'.words.length ∧
      (L' = L ∨ (u = L.words.length ∧ ∃ w, checkCf w = false ∧
        L' = { L with words := L.words ++ [w] })) ∧
      ∀ b, Denotes L'.graph u b ↔ Denotes L.graph l b ∨ Denotes L.graph r b := by
  unfold unionTaint
  split
  · rename_i h; subst h
    exact Or.inr ⟨L, l, rfl, hwf, hl0, hl, Or.inl rfl, fun b => by simp⟩
  rename_i hne
  obtain ⟨tl, gl, Ll, rl⟩ := hwf.read hl0 hl
  obtain ⟨tr, gr, Lr, rr⟩ := hwf.read hr0 hr
  rw [readLabel_eq gl, readLabel_eq gr]
  simp only [Res.bind_ok]
  have good := compute_good (D := Denotes L.graph) (denotes_iff gl) (denotes_iff gr) Ll Lr
  have ok := compute_ok (n := L.words.length) hne hl0 hr0 hl hr
    (Nat.le_trans hwf.fits hwf.cap) Ll Lr rl rr
  cases hc : compute l tl r tr with
  | label u =>
    rw [hc] at good
    refine Or.inr ⟨L, u, rfl, hwf, ?_, ?_, Or.inl rfl, good.2⟩
    · rcases good.1 with h | h <;> omega
    · rcases good.1 with h | h <;> omega
  | taint t =>
    rw [hc] at good ok
    simp only
    cases hdup : L.duplicateCheck (max l r) (encode t) with
    | some d =>
      obtain ⟨h1, h2, u, hu, hflag⟩ := duplicateCheck_some hwf ok (by omega) hdup
      refine Or.inr ⟨L, d, rfl, hwf, by omega, h2, Or.inl rfl, ?_⟩
      intro b
      rw [denotes_iff hu, DenT_congr_flag _ hflag]
      exact good b
    | none =>
      by_cases hcap : L.words.length + 1 ≤ L.cap
      · obtain ⟨L', hcon, hL', hwf', hg⟩ := construct_spec hwf ok hcap
        rw [hcon]
        refine Or.inr ⟨L', L.words.length, rfl, hwf', hwf.nonempty, by simp [hL'],
          Or.inr ⟨rfl, encode t, ?_, hL'⟩, ?_⟩
        · rw [C02_checkCf _ _ (C01_decode_encode t (legal_representable ok.1)).1]; exact ok.2.2
        intro b
        rw [denotes_iff hg, ← good b]
        apply DenT_mono
        intro k hk
        have hk' := (ok.2.1 k hk).2
        refine (denotes_congr (n := L.words.length) (hwf.refs_lt _) ?_ k hk' b).symm
        intro x hx
        rw [hL']
        unfold SameTaint
        rw [graph_append_lt hx]
      · left
        simp [construct, hcap]
        have := hwf.fits
        omega

/-- One call of `create_source_labels`. -/
theorem createSourceLabels_spec {L : Labels} (hwf : L.WF) {src off n : Nat} (hn : 0 < n)
    (hsrc : src < 256) (hoff : off + n ≤ 2 ^ 54) (hfit : L.words.length + n ≤ L.cap) :
    ∃ L', L.createSourceLabels src off n =
        .ok (L', (L.words.length, L.words.length + n - 1)) ∧ L'.WF ∧
      L'.words.length = L.words.length + n ∧ L'.cap = L.cap ∧
      (∀ l, l < L.words.length → L'.words[l]? = L.words[l]?) ∧
      ∀ k, k < n → L'.graph (L.words.length + k) = some (.source false src (off + k)) := by
  refine ⟨{ L with words := L.words ++
      (List.range n).map (fun k => encode (.source false src (off + k))) }, ?_, ?_, ?_, rfl, ?_, ?_⟩
  · simp [createSourceLabels, hfit, Nat.ne_of_gt hn]
  · apply wf_append hwf
    · simpa using hfit
    · intro i w hi
      obtain ⟨hi', rfl⟩ : i < n ∧ encode (.source false src (off + i)) = w := by
        rw [List.getElem?_map] at hi
        by_cases h : i < n
        · rw [List.getElem?_range h] at hi; simp at hi; exact ⟨h, hi⟩
        · rw [List.getElem?_eq_none (by simpa using h)] at hi; simp at hi
      have hrt := C01_decode_encode (.source false src (off + i)) ⟨hsrc, by omega⟩
      exact ⟨hrt.2, _, hrt.1, ⟨hsrc, by omega⟩, fun k hk => hk.elim⟩
  · simp
  · intro l hl; exact List.getElem?_append_left hl
  · intro k hk
    refine graph_of_word (w := encode (.source false src (off + k))) ?_
      (C01_decode_encode (.source false src (off + k)) ⟨hsrc, by omega⟩).1
    show (L.words ++ _)[L.words.length + k]? = _
    rw [List.getElem?_append_right (by omega), List.getElem?_map]
    have : L.words.length + k - L.words.length = k := by omega
    rw [this, List.getElem?_range hk]; rfl

theorem builtFrom_le {L : Labels} (hwf : L.WF) {m l : Nat} (hb : BuiltFrom L.graph m l) : l ≤ m := by
  induction hb with
  | refl => exact Nat.le_refl _
  | step hg hr _ ih => have := ((hwf.refs hg).2.2.2 _ hr).2; omega

theorem graph_congr_words {L L' : Labels} {l : Nat} (h : L'.words[l]? = L.words[l]?) :
    L'.graph l = L.graph l := by
  simp only [graph, readLabel, getRes, h]

/-- Old labels keep their meaning when the store is only extended. -/
theorem denotes_extend {L L' : Labels} (hwf : L.WF)
    (h : ∀ l, l < L.words.length → L'.words[l]? = L.words[l]?) (l : Nat) (hl : l < L.words.length)
    (b : Nat × Nat) : Denotes L'.graph l b ↔ Denotes L.graph l b := by
  refine (denotes_congr (n := L.words.length) (hwf.refs_lt _) ?_ l hl b).symm
  intro x hx
  unfold SameTaint
  rw [graph_congr_words (h x hx)]

end Labels
end Verif
