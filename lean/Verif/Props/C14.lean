import Verif.Examples.Run
/- C14: the source-label index lists exactly the source labels. -/
namespace Verif
open Spec

/-- Label `l` was given to input byte `b` by a read. -/
def Spec.GivenTo (es : List Event) (l : Nat) (b : Nat × Nat) : Prop :=
  ∃ src off n first, .source src off n first ∈ es ∧ first ≤ l ∧ l < first + n ∧
    b = (src, off + (l - first))

namespace Labels

/-- A label was either given to one byte by a read and stores it, or it was given to no byte and
denotes several bytes. -/
def Kind (es : List Event) (L : Labels) (l : Nat) : Prop :=
  (∃ b cf, (∀ b', GivenTo es l b' ↔ b' = b) ∧ L.graph l = some (.source cf b.1 b.2)) ∨
  ((∀ b, ¬ GivenTo es l b) ∧ ∃ b b', b ≠ b' ∧ Denotes L.graph l b ∧ Denotes L.graph l b')

theorem givenTo_snoc {es : List Event} {e : Event} {l : Nat} {b : Nat × Nat} :
    GivenTo (es ++ [e]) l b ↔ GivenTo es l b ∨ GivenTo [e] l b := by
  constructor
  · rintro ⟨s, o, n, f, h, k⟩
    rw [List.mem_append] at h
    rcases h with h | h
    · exact Or.inl ⟨s, o, n, f, h, k⟩
    · exact Or.inr ⟨s, o, n, f, h, k⟩
  · rintro (⟨s, o, n, f, h, k⟩ | ⟨s, o, n, f, h, k⟩)
    · exact ⟨s, o, n, f, by simp [h], k⟩
    · exact ⟨s, o, n, f, by rw [List.mem_append]; exact Or.inr h, k⟩

theorem source_keep {L L' : Labels} (hwf : L.WF)
    (hw : ∀ l w : Nat, L.words[l]? = some w → L'.words[l]? = some w ∨ L'.words[l]? = some (addCf w))
    {l i o : Nat} {cf : Bool} (h : L.graph l = some (.source cf i o)) :
    ∃ cf', L'.graph l = some (.source cf' i o) := by
  obtain ⟨w, h1, h2⟩ := graph_eq_some.1 h
  rcases hw l w h1 with h3 | h3
  · exact ⟨cf, graph_of_word h3 h2⟩
  · refine ⟨true, graph_of_word h3 ?_⟩
    exact (C02_addCf w (hwf.word w (List.mem_of_getElem? h1))).2.2.1 _ h2

theorem Reach.kinds {cap : Nat} {es : List Event} {L : Labels} (h : Reach cap es L) (h0 : 0 < cap)
    (h2 : cap ≤ 2 ^ 31) :
    (∀ l b, GivenTo es l b → 0 < l ∧ l < L.words.length) ∧
    ∀ l, 0 < l → l < L.words.length → Kind es L l := by
  unfold Reach at h
  generalize hi : init cap = L0 at h
  induction h with
  | nil =>
    subst hi
    refine ⟨fun l b ⟨_, _, _, _, h, _⟩ => by simp at h, fun l h1 h2 => ?_⟩
    rw [(init_words h0).1] at h2; simp at h2; omega
  | @snoc es L1 op L2 e hr ha he ih =>
    subst hi
    obtain ⟨ih1, ih2⟩ := ih
    have hg := Runs.good hr (init_good h0 h2)
    have hst := step_of_exec hg ha he
    have hpos : 0 < L1.words.length := by
      have := (Runs.old hr (init_good h0 h2)).1
      rw [(init_words h0).1] at this; simp at this; omega
    -- old labels
    have hold : ∀ l, 0 < l → l < L1.words.length → (∀ b, ¬ GivenTo [e] l b) → Kind (es ++ [e]) L2 l := by
      intro l l0 hl hne
      rcases ih2 l l0 hl with ⟨b, cf, h1, h3⟩ | ⟨h1, b, b', h3, h4, h5⟩
      · obtain ⟨cf', h6⟩ := source_keep hg.wf hst.word h3
        refine Or.inl ⟨b, cf', fun b' => ?_, h6⟩
        rw [givenTo_snoc, h1 b']
        exact ⟨fun h => h.elim id (fun k => absurd k (hne b')), Or.inl⟩
      · refine Or.inr ⟨fun x hx => ?_, b, b', h3, (hst.old l b hl).2 h4, (hst.old l b' hl).2 h5⟩
        rcases givenTo_snoc.1 hx with h | h
        · exact h1 x h
        · exact hne x h
    cases op with
    | source src off n =>
      obtain ⟨a1, a2, a3, a4⟩ := ha
      obtain ⟨L', e', hwf', hlen, hcap, -, hnew⟩ := createSourceLabels_spec hg.wf a2 a1 a3 a4
      have : L1.exec (.source src off n) = .ok (L', .source src off n L1.words.length) := by
        simp [exec, e']
      rw [this] at he; cases he
      have hone : ∀ l b, GivenTo [.source src off n L1.words.length] l b ↔
          L1.words.length ≤ l ∧ l < L1.words.length + n ∧ b = (src, off + (l - L1.words.length)) := by
        intro l b
        constructor
        · rintro ⟨s, o, m, f, hm, k1, k2, k3⟩
          simp only [List.mem_singleton, Event.source.injEq] at hm
          obtain ⟨rfl, rfl, rfl, rfl⟩ := hm
          exact ⟨k1, k2, k3⟩
        · rintro ⟨k1, k2, k3⟩
          exact ⟨src, off, n, _, by simp, k1, k2, k3⟩
      constructor
      · intro l b hgl
        rcases givenTo_snoc.1 hgl with h | h
        · have := ih1 l b h; omega
        · rw [hone] at h; omega
      · intro l l0 hl
        by_cases hlt : l < L1.words.length
        · exact hold l l0 hlt (fun b hb => by rw [hone] at hb; omega)
        · refine Or.inl ⟨(src, off + (l - L1.words.length)), false, fun b' => ?_, ?_⟩
          · rw [givenTo_snoc, hone]
            constructor
            · rintro (h | h)
              · have := ih1 l b' h; omega
              · exact h.2.2
            · intro h; exact Or.inr ⟨by omega, by omega, h⟩
          · have := hnew (l - L1.words.length) (by omega)
            rwa [show L1.words.length + (l - L1.words.length) = l by omega] at this
    | union l r =>
      obtain ⟨a1, a2, a3, a4⟩ := ha
      rcases unionTaint_spec hg.wf a1 a2 a3 a4 with ⟨hf, -⟩ | ⟨L', u, e', -, hu0, hul, hcase, hden⟩
      · simp [exec, hf] at he
      · have : L1.exec (.union l r) = .ok (L', .union l r u) := by simp [exec, e']
        rw [this] at he; cases he
        have hno : ∀ x b, ¬ GivenTo [Event.union l r u] x b := by
          rintro x b ⟨s, o, m, f, hm, -⟩; simp at hm
        constructor
        · intro x b hgl
          rcases givenTo_snoc.1 hgl with h | h
          · have := ih1 x b h; have := hst.len; omega
          · exact absurd h (hno x b)
        · intro x x0 hx
          by_cases hlt : x < L1.words.length
          · exact hold x x0 hlt (hno x)
          · rcases hcase with rfl | ⟨hu, w, -, rfl⟩
            · exact absurd hx hlt
            · have hxe : x = L1.words.length := by
                simp only [List.length_append, List.length_cons, List.length_nil] at hx; omega
              have hxu : x = u := by rw [hxe, hu]
              refine Or.inr ⟨fun b hb => ?_, ?_⟩
              · rcases givenTo_snoc.1 hb with h | h
                · have := ih1 x b h; omega
                · exact hno x b h
              · rw [hxu]
                rcases ih2 l a1 a2 with ⟨b, cf, -, g1⟩ | ⟨-, b, b', h3, h4, h5⟩
                · rcases ih2 r a3 a4 with ⟨b', cf', -, g2⟩ | ⟨-, b1, b2, h3, h4, h5⟩
                  · refine ⟨b, b', ?_, (hden b).2 (Or.inl (.source g1)), (hden b').2 (Or.inr (.source g2))⟩
                    rintro rfl
                    by_cases hlr : l = r
                    · simp only [unionTaint, hlr, if_true] at e'
                      have e2 := congrArg (fun x : Res (Labels × Nat) => match x with
                        | .ok (L, _) => L.words.length
                        | _ => 0) e'
                      simp at e2
                    · simp only [unionTaint, hlr, if_false, readLabel_eq g1, readLabel_eq g2, Res.bind_ok,
                        compute, and_self, if_true] at e'
                      have e2 := congrArg (fun x : Res (Labels × Nat) => match x with
                        | .ok (L, _) => L.words.length
                        | _ => 0) e'
                      simp at e2
                  · exact ⟨b1, b2, h3, (hden b1).2 (Or.inr h4), (hden b2).2 (Or.inr h5)⟩
                · exact ⟨b, b', h3, (hden b).2 (Or.inl h4), (hden b').2 (Or.inl h5)⟩
    | mark m =>
      have hev : e = .mark m := by
        simp only [exec, Res.bind_eq_ok, Res.pure_eq] at he
        obtain ⟨_, -, h⟩ := he
        cases h; rfl
      subst hev
      have hno : ∀ x b, ¬ GivenTo [Event.mark m] x b := by
        rintro x b ⟨s, o, k, f, hm, -⟩; simp at hm
      obtain ⟨L', e', -, hfo, -, -⟩ := affectsControlFlow_spec hg.wf hg.closed ha.1 ha.2
      have : L1.exec (.mark m) = .ok (L', .mark m) := by simp [exec, e']
      rw [this] at he; cases he
      constructor
      · intro x b hgl
        rcases givenTo_snoc.1 hgl with h | h
        · have := ih1 x b h; have := hst.len; omega
        · exact absurd h (hno x b)
      · intro x x0 hx
        rw [hfo.len] at hx
        exact hold x x0 hx (hno x)

end Labels

namespace Tracker

theorem covered_idxIns (es : List Event) (l : Nat) :
    Covered (idxIns es) l ↔ ∃ b, GivenTo es l b := by
  induction es with
  | nil => simp [Covered, idxIns, GivenTo]
  | cons e es ih =>
    have hsplit : (∃ b, GivenTo (e :: es) l b) ↔ (∃ b, GivenTo [e] l b) ∨ ∃ b, GivenTo es l b := by
      simp only [GivenTo, List.mem_cons, List.not_mem_nil, or_false]
      constructor
      · rintro ⟨b, s, o, n, f, (h | h), k⟩
        · exact Or.inl ⟨b, s, o, n, f, h, k⟩
        · exact Or.inr ⟨b, s, o, n, f, h, k⟩
      · rintro (⟨b, s, o, n, f, h, k⟩ | ⟨b, s, o, n, f, h, k⟩)
        · exact ⟨b, s, o, n, f, Or.inl h, k⟩
        · exact ⟨b, s, o, n, f, Or.inr h, k⟩
    rw [hsplit, ← ih]
    cases e with
    | source s o n f =>
      have : (∃ b, GivenTo [.source s o n f] l b) ↔ f ≤ l ∧ l < f + n := by
        constructor
        · rintro ⟨b, s', o', n', f', hm, k1, k2, -⟩
          simp only [List.mem_singleton, Event.source.injEq] at hm
          obtain ⟨-, -, rfl, rfl⟩ := hm
          exact ⟨k1, k2⟩
        · rintro ⟨k1, k2⟩
          exact ⟨_, s, o, n, f, by simp, k1, k2, rfl⟩
      rw [this]
      simp [Covered, idxIns, Ins.covers]
    | union a b u =>
      have : ¬ ∃ b', GivenTo [.union a b u] l b' := by
        rintro ⟨b', s', o', n', f', hm, -⟩; simp at hm
      simp [idxIns, this]
    | mark m =>
      have : ¬ ∃ b', GivenTo [.mark m] l b' := by
        rintro ⟨b', s', o', n', f', hm, -⟩; simp at hm
      simp [idxIns, this]

theorem _root_.Verif.Bitmap.Inv.isSet {W cap : Nat} {rs : List Ins} {B : Bitmap} (hW : 0 < W)
    (h2 : Bitmap.Inv W cap rs B) {i : Nat} (hi : i < cap) :
    ∃ a, B.isSet i = .ok a ∧ (a = true ↔ Covered rs i) := by
  have hb := Bitmap.bucket_lt hW hi
  rw [← h2.len, ← h2.w] at hb
  have h3 := h2.bits i
  simp only [Bitmap.bit, List.getElem?_eq_getElem hb] at h3
  refine ⟨(B.buckets[i / B.W] &&& Bitmap.mask B.W i != 0), by simp only [Bitmap.isSet, h2.c, ge_iff_le,
    Nat.not_le.2 hi, if_false, List.getElem?_eq_getElem hb], ?_⟩
  rw [← h3, bne_iff_ne, ne_eq, Bitmap.and_mask_zero]
  simp

end Tracker

open Tracker

/-- After any history, the index contains a label exactly when that label denotes a single input
byte. -/
theorem C14_index (c : Config) (base : Nat) (hc : c.Ok base) (h : Trace) (T : Tracker)
    (hr : Reach c base h T) (l : Nat) (hl : l < c.indexCap) :
    ∃ a, T.index.isSet l = .ok a ∧
      (a = true ↔ ∃ b, ∀ b', Denotes T.labels.graph l b' ↔ b' = b) := by
  have hs := hr.sim hc
  obtain ⟨a, h1, h2⟩ := hs.lab.index.isSet (by decide) hl
  refine ⟨a, h1, ?_⟩
  rw [h2, covered_idxIns]
  obtain ⟨k1, k2⟩ := hs.lab.reach.kinds hc.lab0 hc.lab
  constructor
  · rintro ⟨b, hb⟩
    obtain ⟨l0, ll⟩ := k1 l b hb
    rcases k2 l l0 ll with ⟨b', cf, -, g⟩ | ⟨hn, -⟩
    · refine ⟨b', fun x => ?_⟩
      rw [denotes_iff g]; rfl
    · exact absurd hb (hn b)
  · rintro ⟨b, hb⟩
    by_cases hlt : 0 < l ∧ l < T.labels.words.length
    · rcases k2 l hlt.1 hlt.2 with ⟨b', cf, g, -⟩ | ⟨-, x, y, hne, hx, hy⟩
      · exact ⟨b', (g b').2 rfl⟩
      · exact absurd (((hb x).1 hx).trans ((hb y).1 hy).symm) hne
    · exfalso
      have hwf := (hs.lab.reach.good hc.lab0 hc.lab).wf
      exact denotes_none (hwf.graph.none l (by omega)) b ((hb b).2 rfl)

/-- The index contains a label exactly when some read returned it for an input byte; the label
denotes that byte. -/
theorem C14_given (c : Config) (base : Nat) (hc : c.Ok base) (h : Trace) (T : Tracker)
    (hr : Reach c base h T) (l : Nat) (hl : l < c.indexCap) :
    ∃ a, T.index.isSet l = .ok a ∧ (a = true ↔ ∃ b, GivenTo (labelEvents h) l b) ∧
      ∀ b, GivenTo (labelEvents h) l b → ∀ b', Denotes T.labels.graph l b' ↔ b' = b := by
  have hs := hr.sim hc
  obtain ⟨a, h1, h2⟩ := hs.lab.index.isSet (by decide) hl
  refine ⟨a, h1, by rw [h2, covered_idxIns], ?_⟩
  intro b hb b'
  obtain ⟨k1, k2⟩ := hs.lab.reach.kinds hc.lab0 hc.lab
  obtain ⟨l0, ll⟩ := k1 l b hb
  rcases k2 l l0 ll with ⟨x, cf, hx, g⟩ | ⟨hn, -⟩
  · rw [denotes_iff g]
    rw [(hx b).1 hb]; rfl
  · exact absurd hb (hn b)

/-- The index has room for every label. -/
theorem C14_room (c : Config) (base : Nat) (hc : c.Ok base) (h : Trace) (T : Tracker)
    (hr : Reach c base h T) : T.labels.words.length ≤ c.indexCap := by
  have hs := hr.sim hc
  have hg := hs.lab.reach.good hc.lab0 hc.lab
  have := hg.wf.fits
  have := hs.lab.reach.cap hc.lab0 hc.lab
  have := hc.idx
  omega

/-- In the run of `Examples/Run.lean`, nine of the eleven labels are source labels. -/
example : ∃ T, Reach exCfg 4096 (histOf exCfg 4096 exCalls) T := exReach
example : (run exCfg 4096 exCalls).map (fun p =>
    ((List.range p.1.labels.words.length).map fun l => (p.1.index.bit l))) =
    some [false, true, true, true, true, false, true, true, true, true, true, true] := by
  decide +kernel

end Verif
