import Verif.LabelsLemmas
import Verif.LabelDeqLemmas
/- Helper lemmas: control-flow marking. -/
namespace Verif
open Spec

namespace Labels

/-- `L` is `L0` with the flag bit added to some words. -/
structure FlagOnly (L0 L : Labels) : Prop where
  cap : L.cap = L0.cap
  len : L.words.length = L0.words.length
  word : ∀ l w : Nat, L0.words[l]? = some w → L.words[l]? = some w ∨ L.words[l]? = some (addCf w)

theorem FlagOnly.refl (L : Labels) : FlagOnly L L := ⟨rfl, rfl, fun _ _ h => Or.inl h⟩

theorem FlagOnly.trans {L0 L1 L2 : Labels} (h1 : FlagOnly L0 L1) (h2 : FlagOnly L1 L2) :
    FlagOnly L0 L2 := by
  refine ⟨h2.cap.trans h1.cap, h2.len.trans h1.len, fun l w hw => ?_⟩
  rcases h1.word l w hw with h | h
  · exact h2.word l w h
  · rcases h2.word l _ h with h' | h'
    · exact Or.inr h'
    · rw [C02_addCf_idem] at h'; exact Or.inr h'

theorem FlagOnly.graph_some {L0 L : Labels} (hwf : L0.WF) (h : FlagOnly L0 L) {l : Nat} {t : Taint}
    (hg : L0.graph l = some t) :
    L.graph l = some t ∨ L.graph l = some (withFlag true t) := by
  obtain ⟨w, hw, hd⟩ := graph_eq_some.1 hg
  have hlt := hwf.word w (List.mem_of_getElem? hw)
  rcases h.word l w hw with h' | h'
  · exact Or.inl (graph_of_word h' hd)
  · exact Or.inr (graph_of_word h' ((C02_addCf w hlt).2.2.1 t hd))

theorem FlagOnly.graph_none {L0 L : Labels} (hwf : L0.WF) (h : FlagOnly L0 L) {l : Nat}
    (hg : L0.graph l = none) : L.graph l = none := by
  by_cases h0 : l = 0 ∨ L0.words.length ≤ l
  · rcases h0 with rfl | h0
    · cases hg' : L.graph 0 with
      | none => rfl
      | some t =>
        obtain ⟨w, hw, hd⟩ := graph_eq_some.1 hg'
        rcases h.word 0 0 hwf.zero with h' | h' <;> rw [h'] at hw <;> cases hw
        · rw [show decode 0 = .fatal by decide] at hd; cases hd
        · rw [show decode (addCf 0) = .fatal by decide] at hd; cases hd
    · exact graph_none_of_ge (by rw [h.len]; exact h0)
  · obtain ⟨t, ht, -⟩ := hwf.read (l := l) (by omega) (by omega)
    rw [ht] at hg; cases hg

theorem FlagOnly.sameTaint {L0 L : Labels} (hwf : L0.WF) (h : FlagOnly L0 L) (l : Nat) :
    SameTaint L0.graph L.graph l := by
  unfold SameTaint
  cases hg : L0.graph l with
  | none => rw [h.graph_none hwf hg]
  | some t =>
    rcases h.graph_some hwf hg with h' | h' <;> rw [h']
    cases t <;> rfl

theorem FlagOnly.wf {L0 L : Labels} (hwf : L0.WF) (h : FlagOnly L0 L)
    (h0 : L.words[0]? = some 0) : L.WF := by
  refine ⟨by rw [h.cap]; exact hwf.cap, by rw [h.len]; exact hwf.nonempty,
    by rw [h.len, h.cap]; exact hwf.fits, h0, ?_, ?_, ?_⟩
  · intro w hw
    obtain ⟨i, hi⟩ := List.mem_iff_getElem?.1 hw
    have hil : i < L0.words.length := by
      rw [← h.len]
      exact (List.getElem?_eq_some_iff.1 hi).1
    have h1 := List.getElem?_eq_getElem hil
    have hlt := hwf.word _ (List.mem_of_getElem? h1)
    rcases h.word i _ h1 with h' | h' <;> rw [hi] at h' <;> cases h'
    · exact hlt
    · exact (C02_addCf _ hlt).1
  · intro l hl0 hl
    rw [h.len] at hl
    obtain ⟨t, hg, hL, hr⟩ := hwf.read hl0 hl
    rcases h.graph_some hwf hg with h' | h'
    · exact ⟨t, h', hL, hr⟩
    · exact ⟨_, h', (LegalTaint_withFlag _ _).2 hL, fun k hk => hr k ((Ref_withFlag _ _ _).1 hk)⟩
  · intro l hl
    rw [h.len] at hl
    exact h.graph_none hwf (hwf.graph.none l hl)

theorem FlagOnly.flag_mono {L0 L : Labels} (hwf : L0.WF) (h : FlagOnly L0 L) {l : Nat}
    (hf : Flagged L0.graph l) : Flagged L.graph l := by
  obtain ⟨t, hg, ht⟩ := hf
  rcases h.graph_some hwf hg with h' | h'
  · exact ⟨t, h', ht⟩
  · exact ⟨_, h', by cases t <;> rfl⟩

/-- Setting the flag on a label. -/
theorem setCf_spec {L : Labels} (hwf : L.WF) {l : Nat} {t : Taint} (hg : L.graph l = some t) :
    ∃ L', L.setCf l = .ok L' ∧ L'.WF ∧ FlagOnly L L' ∧
      L'.graph l = some (withFlag true t) ∧ ∀ k, k ≠ l → L'.graph k = L.graph k := by
  obtain ⟨w, hw, hd⟩ := graph_eq_some.1 hg
  have hlt := hwf.word w (List.mem_of_getElem? hw)
  obtain ⟨hl0, hll, -⟩ := hwf.refs hg
  have hset : (L.words.set l (addCf w))[l]? = some (addCf w) := List.getElem?_set_self hll
  have hne : ∀ k, k ≠ l → (L.words.set l (addCf w))[k]? = L.words[k]? :=
    fun k hk => List.getElem?_set_ne (Ne.symm hk)
  have hfo : FlagOnly L { L with words := L.words.set l (addCf w) } := by
    refine ⟨rfl, by simp, fun k v hv => ?_⟩
    by_cases hk : k = l
    · subst hk; rw [hw] at hv; cases hv; exact Or.inr hset
    · left; show (L.words.set l (addCf w))[k]? = _; rw [hne k hk]; exact hv
  refine ⟨{ L with words := L.words.set l (addCf w) }, by simp [setCf, hw],
    hfo.wf hwf ?_, hfo, graph_of_word hset ((C02_addCf w hlt).2.2.1 t hd), ?_⟩
  · show (L.words.set l (addCf w))[0]? = _; rw [hne 0 (by omega)]; exact hwf.zero
  · intro k hk; exact graph_congr_words (hne k hk)

/-- Loop invariant of marking. `Q` is the queue, `C` the children still to be visited. -/
structure CfInv (L0 L : Labels) (root : Nat) (Q C : List Nat) : Prop where
  wf : L.WF
  ext : FlagOnly L0 L
  sound : ∀ l, Flagged L.graph l → Flagged L0.graph l ∨ BuiltFrom L0.graph root l
  work : ∀ q, q ∈ Q ∨ q ∈ C → BuiltFrom L0.graph root q ∧ 0 < q ∧ q < L0.words.length
  closed : ∀ l t k, L.graph l = some t → flagOf t = true → Ref t k →
    Flagged L.graph k ∨ k ∈ Q ∨ k ∈ C
  root : Flagged L.graph root ∨ root ∈ Q ∨ root ∈ C

theorem visitChild_spec {L0 L : Labels} {root c : Nat} {Q C : List Nat}
    (hinv : CfInv L0 L root Q (c :: C)) {q : LabelDeq} (hq : q.Holds queueSlots Q) :
    ∃ L' q' Q', visitChild (L, q) c = .ok (L', q') ∧ q'.Holds queueSlots Q' ∧
      (Q' = Q ∨ Q' = Q ++ [c]) ∧ CfInv L0 L' root Q' C := by
  have hwf := hinv.wf
  obtain ⟨hbc, hc0, hcl⟩ := hinv.work c (by simp)
  have hcl' : c < L.words.length := by rw [hinv.ext.len]; exact hcl
  obtain ⟨t, hg, -, -⟩ := hwf.read hc0 hcl'
  obtain ⟨w, hw, hd⟩ := graph_eq_some.1 hg
  have hcf := C02_checkCf w t hd
  have hsrc := C02_isSource w t hd
  have hgw : getRes L.words c = .ok w := getRes_eq_ok.2 hw
  unfold visitChild addToQ
  simp only [hgw, Res.bind_ok]
  by_cases h1 : checkCf w = true
  · -- already flagged
    simp only [h1, if_true, Res.pure_eq, Res.bind_ok, Bool.false_eq_true, if_false]
    have hfl : Flagged L.graph c := ⟨t, hg, by rw [← hcf]; exact h1⟩
    refine ⟨L, q, Q, rfl, hq, Or.inl rfl, hwf, hinv.ext, hinv.sound, ?_, ?_, ?_⟩
    · intro x hx
      apply hinv.work
      rcases hx with hx | hx <;> simp [hx]
    · intro l t k h1 h2 h3
      rcases hinv.closed l t k h1 h2 h3 with h | h | h
      · exact Or.inl h
      · exact Or.inr (Or.inl h)
      · rcases List.mem_cons.1 h with rfl | h
        · exact Or.inl hfl
        · exact Or.inr (Or.inr h)
    · rcases hinv.root with h | h | h
      · exact Or.inl h
      · exact Or.inr (Or.inl h)
      · rcases List.mem_cons.1 h with h | h
        · rw [h]; exact Or.inl hfl
        · exact Or.inr (Or.inr h)
  · rw [if_neg h1]
    by_cases h2 : isSourceTaint w = true
    · -- a source: flagged in place
      obtain ⟨L', hset, hwf', hfo, hg', hgne⟩ := setCf_spec hwf hg
      simp only [h2, if_true, hset, Res.pure_eq, Res.bind_ok, Bool.false_eq_true, if_false]
      have hfl : Flagged L'.graph c := ⟨_, hg', by cases t <;> rfl⟩
      have hmono : ∀ k, Flagged L.graph k → Flagged L'.graph k := fun k hk => hfo.flag_mono hwf hk
      refine ⟨L', q, Q, rfl, hq, Or.inl rfl, hwf', hinv.ext.trans hfo, ?_, ?_, ?_, ?_⟩
      · intro l hl
        by_cases hlc : l = c
        · subst hlc; exact Or.inr hbc
        · apply hinv.sound
          obtain ⟨u, hu, hf⟩ := hl
          rw [hgne l hlc] at hu
          exact ⟨u, hu, hf⟩
      · intro x hx
        apply hinv.work
        rcases hx with hx | hx <;> simp [hx]
      · intro l u k hu hf hr
        by_cases hlc : l = c
        · subst hlc
          rw [hg'] at hu; cases hu
          obtain ⟨cf, i, o, rfl⟩ := hsrc.1 h2
          exact hr.elim
        · rw [hgne l hlc] at hu
          rcases hinv.closed l u k hu hf hr with h | h | h
          · exact Or.inl (hmono k h)
          · exact Or.inr (Or.inl h)
          · rcases List.mem_cons.1 h with rfl | h
            · exact Or.inl hfl
            · exact Or.inr (Or.inr h)
      · rcases hinv.root with h | h | h
        · exact Or.inl (hmono _ h)
        · exact Or.inr (Or.inl h)
        · rcases List.mem_cons.1 h with h | h
          · rw [h]; exact Or.inl hfl
          · exact Or.inr (Or.inr h)
    · -- pushed
      rw [if_neg h2]
      obtain ⟨q', hpush, hq'⟩ := LabelDeq.pushBack_holds hq c
      simp only [Res.pure_eq, Res.bind_ok, if_true, hpush]
      refine ⟨L, q', Q ++ [c], rfl, hq', Or.inr rfl, hwf, hinv.ext, hinv.sound, ?_, ?_, ?_⟩
      · intro x hx
        apply hinv.work
        simp only [List.mem_append, List.mem_cons] at hx ⊢
        grind
      · intro l t k h1 h2 h3
        rcases hinv.closed l t k h1 h2 h3 with h | h | h
        · exact Or.inl h
        · exact Or.inr (Or.inl (by simp [h]))
        · rcases List.mem_cons.1 h with rfl | h
          · exact Or.inr (Or.inl (by simp))
          · exact Or.inr (Or.inr h)
      · rcases hinv.root with h | h | h
        · exact Or.inl h
        · exact Or.inr (Or.inl (by simp [h]))
        · rcases List.mem_cons.1 h with h | h
          · exact Or.inr (Or.inl (by simp [h]))
          · exact Or.inr (Or.inr h)

/-- Sum of `2^q` over a list: the termination measure. -/
def weight : List Nat → Nat
  | [] => 0
  | q :: Q => 2 ^ q + weight Q

theorem weight_append (a b : List Nat) : weight (a ++ b) = weight a + weight b := by
  induction a with
  | nil => simp [weight]
  | cons x a ih => simp [weight, ih]; omega

theorem visitAll_spec {L0 : Labels} {root : Nat} : ∀ (C : List Nat) {L : Labels}
    {Q : List Nat}, CfInv L0 L root Q C → ∀ {q : LabelDeq}, q.Holds queueSlots Q →
    ∃ L' q' Q', visitAll C (L, q) = .ok (L', q') ∧ q'.Holds queueSlots Q' ∧
      weight Q' ≤ weight Q + weight C ∧ CfInv L0 L' root Q' [] := by
  intro C
  induction C with
  | nil => intro L Q h q hq; exact ⟨L, q, Q, rfl, hq, by simp [weight], h⟩
  | cons c C ih =>
    intro L Q h q hq
    obtain ⟨L1, q1, Q1, e1, hq1, hQ, h1⟩ := visitChild_spec h hq
    obtain ⟨L2, q2, Q2, e2, hq2, hw, h2⟩ := ih h1 hq1
    refine ⟨L2, q2, Q2, ?_, hq2, ?_, h2⟩
    · simp only [visitAll, e1, Res.bind_ok, e2]
    · have : weight Q1 ≤ weight Q + 2 ^ c := by
        rcases hQ with rfl | rfl
        · have := Nat.two_pow_pos c; omega
        · simp [weight_append, weight]
      simp only [weight]; omega

theorem mem_childList {t : Taint} {k : Nat} : k ∈ childList t ↔ Ref t k := by
  cases t with
  | source => simp [childList, Ref]
  | range c f l =>
    simp only [childList, Ref, List.mem_map, List.mem_range]
    constructor
    · rintro ⟨a, h1, h2⟩; omega
    · rintro ⟨h1, h2⟩; exact ⟨k - f, by omega, by omega⟩
  | union c lo hi => simp [childList, Ref]

theorem weight_map_range (f n : Nat) :
    weight ((List.range n).map (f + ·)) + 2 ^ f = 2 ^ (f + n) := by
  induction n with
  | zero => simp [weight]
  | succ n ih =>
    rw [List.range_succ, List.map_append, weight_append]
    simp only [List.map_cons, List.map_nil, weight]
    have : 2 ^ (f + (n + 1)) = 2 ^ (f + n) * 2 := by rw [← Nat.add_assoc, Nat.pow_succ]
    omega

/-- Children weigh less than their parent. -/
theorem weight_childList {t : Taint} {l : Nat} (hL : LegalTaint t) (hr : ∀ k, Ref t k → k < l) :
    weight (childList t) < 2 ^ l := by
  cases t with
  | source => simp [childList, weight, Nat.two_pow_pos]
  | range c f m =>
    have h1 : m < l := hr m ⟨Nat.le_of_lt hL.1, Nat.le_refl _⟩
    have h2 := weight_map_range f (m + 1 - f)
    have h3 : f + (m + 1 - f) = m + 1 := by have := hL.1; omega
    rw [h3] at h2
    have h4 : 2 ^ (m + 1) ≤ 2 ^ l := Nat.pow_le_pow_right (by omega) h1
    have h5 := Nat.two_pow_pos f
    simp only [childList]; omega
  | union c lo hi =>
    have h1 : hi < l := hr hi (Or.inr rfl)
    have h4 : 2 ^ (hi + 1) ≤ 2 ^ l := Nat.pow_le_pow_right (by omega) h1
    have h5 : 2 ^ lo < 2 ^ hi := Nat.pow_lt_pow_right (by omega) (by have := hL.1; omega)
    rw [Nat.pow_succ] at h4
    simp only [childList, weight]; omega

theorem cfStep_spec {L0 L : Labels} (hwf0 : L0.WF) {root l : Nat} {Q : List Nat}
    (hinv : CfInv L0 L root (l :: Q) []) {q : LabelDeq} (hq : q.Holds queueSlots (l :: Q)) :
    ∃ L' q' Q', cfStep (L, q) = .ok (L', q') ∧ q'.Holds queueSlots Q' ∧
      weight Q' < weight (l :: Q) ∧ CfInv L0 L' root Q' [] := by
  have hwf := hinv.wf
  obtain ⟨hbl, hl0, hll⟩ := hinv.work l (by simp)
  have hll' : l < L.words.length := by rw [hinv.ext.len]; exact hll
  obtain ⟨t, hg, hL, hr⟩ := hwf.read hl0 hll'
  obtain ⟨w, hw, hd⟩ := graph_eq_some.1 hg
  have hgw : getRes L.words l = .ok w := getRes_eq_ok.2 hw
  obtain ⟨q1, hpop, hq1⟩ := LabelDeq.popFront_holds hq
  obtain ⟨L1, hset, hwf1, hfo, hg1, hgne⟩ := setCf_spec hwf hg
  have hfl : Flagged L1.graph l := ⟨_, hg1, by cases t <;> rfl⟩
  have hinv1 : CfInv L0 L1 root Q (childList t) := by
    refine ⟨hwf1, hinv.ext.trans hfo, ?_, ?_, ?_, ?_⟩
    · intro x hx
      by_cases hlc : x = l
      · subst hlc; exact Or.inr hbl
      · apply hinv.sound
        obtain ⟨u, hu, hf⟩ := hx
        rw [hgne x hlc] at hu
        exact ⟨u, hu, hf⟩
    · intro x hx
      rcases hx with hx | hx
      · exact hinv.work x (by simp [hx])
      · have hrx := mem_childList.1 hx
        have := hr x hrx
        obtain ⟨t0, hg0, hs⟩ := sameTaint_some (sameTaint_symm (hinv.ext.sameTaint hwf0 l)) hg
        refine ⟨builtFrom_trans hbl (builtFrom_single hg0 ((Ref_congr_flag hs x).1 hrx)), by omega, by omega⟩
    · intro x u k hu hf hrk
      by_cases hlc : x = l
      · subst hlc
        rw [hg1] at hu; cases hu
        exact Or.inr (Or.inr (mem_childList.2 ((Ref_withFlag _ _ _).1 hrk)))
      · rw [hgne x hlc] at hu
        rcases hinv.closed x u k hu hf hrk with h | h | h
        · exact Or.inl (hfo.flag_mono hwf h)
        · rcases List.mem_cons.1 h with rfl | h
          · exact Or.inl hfl
          · exact Or.inr (Or.inl h)
        · cases h
    · rcases hinv.root with h | h | h
      · exact Or.inl (hfo.flag_mono hwf h)
      · rcases List.mem_cons.1 h with h | h
        · rw [h]; exact Or.inl hfl
        · exact Or.inr (Or.inl h)
      · cases h
  obtain ⟨L2, q2, Q2, e2, hq2, hw2, h2⟩ := visitAll_spec _ hinv1 hq1
  refine ⟨L2, q2, Q2, ?_, hq2, ?_, h2⟩
  · simp only [cfStep, hpop, Res.bind_ok, hgw, hset, hd, e2]
  · have := weight_childList hL (fun k hk => (hr k hk).2)
    simp only [weight]; omega

theorem cfLoop_spec {L0 : Labels} (hwf0 : L0.WF) {root : Nat} : ∀ (fuel : Nat) {L : Labels}
    {Q : List Nat}, CfInv L0 L root Q [] → ∀ {q : LabelDeq}, q.Holds queueSlots Q →
    weight Q ≤ fuel → ∃ L', cfLoop fuel (L, q) = .ok L' ∧ CfInv L0 L' root [] [] := by
  intro fuel
  induction fuel with
  | zero =>
    intro L Q h q hq hw
    cases Q with
    | nil =>
      have he := LabelDeq.isEmpty_holds hq
      have he' : q.isEmpty = true := by rw [he]; rfl
      exact ⟨L, by unfold cfLoop; simp [he'], h⟩
    | cons x Q => have := Nat.two_pow_pos x; simp [weight] at hw
  | succ n ih =>
    intro L Q h q hq hw
    have he := LabelDeq.isEmpty_holds hq
    cases Q with
    | nil =>
      have he' : q.isEmpty = true := by rw [he]; rfl
      exact ⟨L, by unfold cfLoop; simp [he'], h⟩
    | cons x Q =>
      have he' : q.isEmpty = false := by rw [he]; rfl
      obtain ⟨L1, q1, Q1, e1, hq1, hw1, h1⟩ := cfStep_spec hwf0 h hq
      obtain ⟨L2, e2, h2⟩ := ih h1 hq1 (by omega)
      refine ⟨L2, ?_, h2⟩
      unfold cfLoop
      simp only [he', Bool.false_eq_true, if_false, e1, Res.bind_ok, e2]

theorem flagged_builtFrom {g h : Graph} (hcl : FlagsClosed h) (hs : ∀ l, SameTaint g h l)
    {l k : Nat} (hb : BuiltFrom g l k) (hf : Flagged h l) : Flagged h k := by
  induction hb with
  | refl => exact hf
  | @step l t m k hg hr hb ih =>
    obtain ⟨u, hu, hfu⟩ := hf
    obtain ⟨u', hu', hs'⟩ := sameTaint_some (hs l) hg
    rw [hu] at hu'; cases hu'
    exact ih (hcl l u m hu hfu ((Ref_congr_flag hs' m).1 hr))

theorem affectsControlFlow_spec {L : Labels} (hwf : L.WF) (hcl : FlagsClosed L.graph) {label : Nat}
    (h0 : 0 < label) (hl : label < L.words.length) :
    ∃ L', L.affectsControlFlow label = .ok L' ∧ L'.WF ∧ FlagOnly L L' ∧ FlagsClosed L'.graph ∧
      ∀ l, Flagged L'.graph l ↔ Flagged L.graph l ∨ BuiltFrom L.graph label l := by
  have hstart : CfInv L L label [] [label] := by
    refine ⟨hwf, FlagOnly.refl L, fun l h => Or.inl h, ?_, ?_, Or.inr (Or.inr (by simp))⟩
    · intro q hq
      simp at hq; subst hq
      exact ⟨.refl _, h0, hl⟩
    · intro l t k h1 h2 h3; exact Or.inl (hcl l t k h1 h2 h3)
  have hnew : (LabelDeq.new queueSlots).Holds queueSlots [] := LabelDeq.new_holds (by decide)
  obtain ⟨L1, q1, Q1, e1, hq1, hQ1, h1⟩ := visitChild_spec hstart hnew
  have hfin : ∃ L', L.affectsControlFlow label = .ok L' ∧ CfInv L L' label [] [] := by
    unfold affectsControlFlow affectsControlFlowIn
    unfold visitChild at e1
    obtain ⟨⟨L2, b⟩, ha, hb⟩ := Res.bind_eq_ok.1 e1
    simp only at ha
    rw [ha]
    simp only [Res.bind_ok] at hb ⊢
    cases b with
    | true =>
      simp only [if_true] at hb ⊢
      obtain ⟨q', hp, hb⟩ := Res.bind_eq_ok.1 hb
      cases hb
      simp only [hp, Res.bind_ok]
      have hw1 : weight Q1 ≤ 2 ^ (label + 1) := by
        have := Nat.two_pow_pos label
        rw [Nat.pow_succ]
        rcases hQ1 with rfl | rfl <;> simp [weight] <;> omega
      exact cfLoop_spec hwf _ h1 hq1 hw1
    | false =>
      simp only [Bool.false_eq_true, if_false] at hb ⊢
      cases hb
      refine ⟨L1, rfl, ?_⟩
      have he := hq1
      have : Q1 = [] := by
        have e1 := LabelDeq.isEmpty_holds hq1
        have e2 := LabelDeq.isEmpty_holds hnew
        rw [e2] at e1
        simpa using e1.symm
      rw [this] at h1; exact h1
  obtain ⟨L', e, hinv⟩ := hfin
  have hclosed : FlagsClosed L'.graph := by
    intro l t k h1 h2 h3
    rcases hinv.closed l t k h1 h2 h3 with h | h | h
    · exact h
    · cases h
    · cases h
  refine ⟨L', e, hinv.wf, hinv.ext, hclosed, fun l => ⟨hinv.sound l, ?_⟩⟩
  rintro (h | h)
  · exact hinv.ext.flag_mono hwf h
  · have hroot : Flagged L'.graph label := by
      rcases hinv.root with h | h | h
      · exact h
      · cases h
      · cases h
    exact flagged_builtFrom hclosed (hinv.ext.sameTaint hwf) h hroot

end Labels
end Verif
namespace Verif
namespace Labels

theorem cfLoop_mono : ∀ (n m : Nat) (s : Labels × LabelDeq) (L' : Labels), n ≤ m →
    cfLoop n s = .ok L' → cfLoop m s = .ok L' := by
  intro n
  induction n with
  | zero =>
    intro m s L' _ h
    unfold cfLoop at h ⊢
    split at h
    · rename_i he; simpa [he] using h
    · cases h
  | succ n ih =>
    intro m s L' hm h
    obtain ⟨m, rfl⟩ : ∃ k, m = k + 1 := ⟨m - 1, by omega⟩
    unfold cfLoop at h ⊢
    split at h
    · rename_i he; simpa [he] using h
    · rename_i he
      obtain ⟨s', h1, h2⟩ := Res.bind_eq_ok.1 h
      simp only [he, h1, Res.bind_ok]
      exact ih m s' L' (by omega) h2

theorem affectsControlFlowIn_mono {n m : Nat} (hnm : n ≤ m) {L L' : Labels} {label : Nat}
    (h : affectsControlFlowIn n L label = .ok L') : affectsControlFlowIn m L label = .ok L' := by
  unfold affectsControlFlowIn at h ⊢
  obtain ⟨⟨L1, b⟩, h1, h2⟩ := Res.bind_eq_ok.1 h
  rw [h1]
  simp only [Res.bind_ok] at h2 ⊢
  split at h2
  · rename_i hb
    obtain ⟨q, h3, h4⟩ := Res.bind_eq_ok.1 h2
    simp only [hb, if_true, h3, Res.bind_ok]
    exact cfLoop_mono _ _ _ _ hnm h4
  · rename_i hb
    simpa [hb] using h2

end Labels
end Verif
