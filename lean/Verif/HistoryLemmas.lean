import Verif.History
import Verif.CfLemmas
/- Helper lemmas about runs of the label store. -/
namespace Verif
open Spec
namespace Labels

/-- What every state reachable by calls satisfies. -/
structure Good (L : Labels) : Prop where
  wf : L.WF
  closed : FlagsClosed L.graph

/-- What one call does. -/
structure Stepped (L L' : Labels) (e : Event) : Prop where
  good : Good L'
  cap : L'.cap = L.cap
  len : L.words.length ≤ L'.words.length
  /-- old words are kept up to the flag -/
  word : ∀ l w : Nat, L.words[l]? = some w → L'.words[l]? = some w ∨ L'.words[l]? = some (addCf w)
  /-- old labels keep their meaning -/
  old : ∀ l b, l < L.words.length → (Denotes L'.graph l b ↔ Denotes L.graph l b)
  /-- the meaning afterwards is the one required by the event -/
  meaning : ∀ l b, Denotes L'.graph l b ↔ after (Denotes L.graph) e l b
  /-- flags afterwards -/
  flags : ∀ l, Flagged L'.graph l ↔
    Flagged L.graph l ∨ ∃ m, e = .mark m ∧ BuiltFrom L.graph m l

theorem denotes_of_ge {L : Labels} {l : Nat} (h : L.words.length ≤ l) (b : Nat × Nat) :
    ¬ Denotes L.graph l b := denotes_none (graph_none_of_ge h) b

theorem flagged_lt {L : Labels} {l : Nat} (h : Flagged L.graph l) : l < L.words.length := by
  obtain ⟨t, ht, -⟩ := h
  by_cases hl : l < L.words.length
  · exact hl
  · rw [graph_none_of_ge (by omega)] at ht; cases ht

theorem closed_extend {L L' : Labels} (hg : Good L)
    (hw : ∀ l, l < L.words.length → L'.words[l]? = L.words[l]?)
    (hnew : ∀ l, L.words.length ≤ l → ¬ Flagged L'.graph l) :
    FlagsClosed L'.graph ∧ ∀ l, Flagged L'.graph l ↔ Flagged L.graph l := by
  have hfl : ∀ l, Flagged L'.graph l ↔ Flagged L.graph l := by
    intro l
    by_cases hl : l < L.words.length
    · unfold Flagged; rw [graph_congr_words (hw l hl)]
    · exact ⟨fun h => absurd h (hnew l (by omega)), fun h => absurd (flagged_lt h) hl⟩
  refine ⟨?_, hfl⟩
  intro l t k hgl hf hr
  have hl : l < L.words.length := by
    by_cases hl : l < L.words.length
    · exact hl
    · exact absurd ⟨t, hgl, hf⟩ (hnew l (by omega))
  rw [graph_congr_words (hw l hl)] at hgl
  exact (hfl k).2 (hg.closed l t k hgl hf hr)

theorem Allowed.step {L : Labels} (hg : Good L) {op : Op} (ha : L.Allowed op) :
    (∃ L' e, L.exec op = .ok (L', e) ∧ Stepped L L' e) ∨
    (L.exec op = .fatal ∧ L.words.length = L.cap ∧ ∃ l r, op = .union l r) := by
  have hwf := hg.wf
  cases op with
  | source src off n =>
    obtain ⟨h1, h2, h3, h4⟩ := ha
    obtain ⟨L', e, hwf', hlen, hcap, hold, hnew⟩ := createSourceLabels_spec hwf h2 h1 h3 h4
    left
    have hnf : ∀ l, L.words.length ≤ l → ¬ Flagged L'.graph l := by
      intro l hl hf
      have hlt := flagged_lt hf
      obtain ⟨t, ht, hft⟩ := hf
      have := hnew (l - L.words.length) (by omega)
      rw [show L.words.length + (l - L.words.length) = l by omega] at this
      rw [this] at ht; cases ht; cases hft
    obtain ⟨hc, hfl⟩ := closed_extend hg hold hnf
    refine ⟨L', .source src off n L.words.length, by simp [exec, e], ⟨hwf', hc⟩, hcap, by omega,
      ?_, ?_, ?_, ?_⟩
    · intro l w hw
      left; rw [hold l (List.getElem?_eq_some_iff.1 hw).1]; exact hw
    · intro l b hl; exact denotes_extend hwf hold l hl b
    · intro l b
      simp only [after]
      split
      · rename_i hl
        have := hnew (l - L.words.length) (by omega)
        rw [show L.words.length + (l - L.words.length) = l by omega] at this
        rw [denotes_iff this]; rfl
      · rename_i hl
        by_cases hl' : l < L.words.length
        · exact denotes_extend hwf hold l hl' b
        · exact ⟨fun h => absurd h (denotes_of_ge (by omega) b),
            fun h => absurd h (denotes_of_ge (by omega) b)⟩
    · intro l; rw [hfl l]; simp
  | union l r =>
    obtain ⟨h1, h2, h3, h4⟩ := ha
    rcases unionTaint_spec hwf h1 h2 h3 h4 with ⟨hf, hfull⟩ | ⟨L', u, e, hwf', hu0, hul, hcase, hden⟩
    · right; exact ⟨by simp [exec, hf], hfull, l, r, rfl⟩
    · left
      refine ⟨L', .union l r u, by simp [exec, e], ?_⟩
      have hold : ∀ l, l < L.words.length → L'.words[l]? = L.words[l]? := by
        intro l hl
        rcases hcase with rfl | ⟨-, w, -, rfl⟩
        · rfl
        · exact List.getElem?_append_left hl
      have hnf : ∀ l, L.words.length ≤ l → ¬ Flagged L'.graph l := by
        intro l hl hf
        rcases hcase with rfl | ⟨-, w, hcw, rfl⟩
        · have := flagged_lt hf; omega
        · have hlt := flagged_lt hf
          simp only [List.length_append, List.length_cons, List.length_nil] at hlt
          have hle : l = L.words.length := by omega
          subst hle
          obtain ⟨t, ht, hft⟩ := hf
          obtain ⟨w', hw', hd⟩ := graph_eq_some.1 ht
          simp at hw'; subst hw'
          rw [← C02_checkCf w t hd, hcw] at hft; cases hft
      obtain ⟨hc, hfl⟩ := closed_extend hg hold hnf
      refine ⟨⟨hwf', hc⟩, ?_, ?_, ?_, ?_, ?_, ?_⟩
      · rcases hcase with rfl | ⟨-, w, -, rfl⟩ <;> rfl
      · rcases hcase with rfl | ⟨-, w, -, rfl⟩ <;> simp
      · intro l w hw
        left; rw [hold l (List.getElem?_eq_some_iff.1 hw).1]; exact hw
      · intro l b hl; exact denotes_extend hwf hold l hl b
      · intro x b
        simp only [after]
        split
        · rename_i hx; subst hx; exact hden b
        · rename_i hx
          by_cases hl' : x < L.words.length
          · exact denotes_extend hwf hold x hl' b
          · refine ⟨fun h => ?_, fun h => absurd h (denotes_of_ge (by omega) b)⟩
            refine absurd h (denotes_of_ge ?_ b)
            rcases hcase with rfl | ⟨hu, w, -, rfl⟩
            · omega
            · simp only [List.length_append, List.length_cons, List.length_nil]; omega
      · intro l; rw [hfl l]; simp
  | mark l =>
    left
    obtain ⟨L', e, hwf', hfo, hcl, hfl⟩ := affectsControlFlow_spec hwf hg.closed ha.1 ha.2
    have hden : ∀ x b, Denotes L'.graph x b ↔ Denotes L.graph x b := by
      intro x b
      exact (denotes_congr (n := x + 1) (hwf.refs_lt _) (fun k _ => hfo.sameTaint hwf k) x
        (by omega) b).symm
    refine ⟨L', .mark l, by simp [exec, e], ⟨hwf', hcl⟩, hfo.cap, by rw [hfo.len]; exact Nat.le_refl _, hfo.word,
      fun x b _ => hden x b, fun x b => hden x b, ?_⟩
    intro x
    rw [hfl x]
    constructor
    · rintro (h | h)
      · exact Or.inl h
      · exact Or.inr ⟨l, rfl, h⟩
    · rintro (h | ⟨m, hm, h⟩)
      · exact Or.inl h
      · cases hm; exact Or.inr h

theorem init_good {cap : Nat} (h : 0 < cap) (h2 : cap ≤ 2 ^ 31) : Good (init cap) := by
  refine ⟨init_wf h h2, ?_⟩
  intro l t k hg
  have := (init_wf h h2).refs hg
  rw [(init_words h).1] at this
  simp at this; omega

theorem init_no_denotes {cap : Nat} (h : 0 < cap) (h2 : cap ≤ 2 ^ 31) (l : Nat) (b : Nat × Nat) :
    ¬ Denotes (init cap).graph l b := by
  apply denotes_none
  apply (init_wf h h2).graph.none
  rw [(init_words h).1]; simp; omega

theorem step_of_exec {L L' : Labels} {op : Op} {e : Event} (hg : Good L) (ha : L.Allowed op)
    (he : L.exec op = .ok (L', e)) : Stepped L L' e := by
  rcases ha.step hg with ⟨L1, e1, h1, h2⟩ | ⟨h1, -⟩
  · rw [he] at h1; cases h1; exact h2
  · rw [he] at h1; cases h1

theorem Runs.good {L L' : Labels} {es : List Event} (h : Runs L es L') (hg : Good L) : Good L' := by
  induction h with
  | nil => exact hg
  | snoc _ ha he ih => exact (step_of_exec ih ha he).good

theorem Reach.good {cap : Nat} {es : List Event} {L : Labels} (h : Reach cap es L) (h0 : 0 < cap)
    (h2 : cap ≤ 2 ^ 31) : Good L := Runs.good h (init_good h0 h2)

theorem Reach.cap {cap : Nat} {es : List Event} {L : Labels} (h : Reach cap es L) (h0 : 0 < cap)
    (h2 : cap ≤ 2 ^ 31) : L.cap = cap := by
  unfold Reach at h
  generalize hi : init cap = L0 at h
  induction h with
  | nil => rw [← hi]; exact (init_words h0).2
  | snoc hr ha he ih =>
    have hg := hr.good (hi ▸ init_good h0 h2)
    rw [(step_of_exec hg ha he).cap]; exact ih

theorem Runs.trans {L L1 L2 : Labels} {es es' : List Event} (h : Runs L es L1)
    (h' : Runs L1 es' L2) : Runs L (es ++ es') L2 := by
  induction h' with
  | nil => simpa using h
  | snoc _ ha he ih => rw [← List.append_assoc]; exact .snoc ih ha he

/-- What a whole run does to old words. -/
theorem Runs.old {L L' : Labels} {es : List Event} (h : Runs L es L') (hg : Good L) :
    L.words.length ≤ L'.words.length ∧
    (∀ l w : Nat, L.words[l]? = some w → L'.words[l]? = some w ∨ L'.words[l]? = some (addCf w)) ∧
    ∀ l b, l < L.words.length → (Denotes L'.graph l b ↔ Denotes L.graph l b) := by
  induction h with
  | nil => exact ⟨Nat.le_refl _, fun _ _ h => Or.inl h, fun _ _ _ => Iff.rfl⟩
  | snoc hr ha he ih =>
    obtain ⟨i1, i2, i3⟩ := ih
    have hs := step_of_exec (hr.good hg) ha he
    refine ⟨Nat.le_trans i1 hs.len, ?_, ?_⟩
    · intro l w hw
      rcases i2 l w hw with h | h
      · exact hs.word l w h
      · rcases hs.word l _ h with h' | h'
        · exact Or.inr h'
        · rw [C02_addCf_idem] at h'; exact Or.inr h'
    · intro l b hl
      rw [hs.old l b (by omega), i3 l b hl]

theorem after_congr {D E : Nat → Nat × Nat → Prop} (h : ∀ l b, D l b ↔ E l b) (e : Event) (l : Nat)
    (b : Nat × Nat) : after D e l b ↔ after E e l b := by
  cases e <;> simp only [after, h]

theorem Meaning_snoc (es : List Event) (e : Event) : Meaning (es ++ [e]) = after (Meaning es) e := by
  simp [Meaning]

theorem Reach.meaning {cap : Nat} {es : List Event} {L : Labels} (h : Reach cap es L) (h0 : 0 < cap)
    (h2 : cap ≤ 2 ^ 31) (l : Nat) (b : Nat × Nat) : Denotes L.graph l b ↔ Meaning es l b := by
  unfold Reach at h
  generalize hi : init cap = L0 at h
  induction h generalizing l b with
  | nil =>
    subst hi
    exact ⟨fun h => absurd h (init_no_denotes h0 h2 l b), fun h => h.elim⟩
  | snoc hr ha he ih =>
    have hg := hr.good (hi ▸ init_good h0 h2)
    rw [(step_of_exec hg ha he).meaning, Meaning_snoc]
    exact after_congr (fun l b => ih l b) _ l b

theorem Reach.union_ok {cap : Nat} {es : List Event} {L : Labels} (h : Reach cap es L) (h0 : 0 < cap)
    (h2 : cap ≤ 2 ^ 31) {l r : Nat} (ha : L.Allowed (.union l r)) {L' : Labels} {u : Nat}
    (hu : L.unionTaint l r = .ok (L', u)) : Stepped L L' (.union l r u) :=
  step_of_exec (h.good h0 h2) ha (by simp [exec, hu])

end Labels
end Verif
