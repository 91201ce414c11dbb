import Verif.PyEarleyLemmas
/- One step of the recogniser on grammars without empty rules. -/
namespace Verif.PyEarley
open Verif.Spec Verif.PyGrammar

/-- What a state that was handled has left behind. -/
structure Done (g : Gram) (w : List Nat) (k : Nat) (st : PS) (s : EState) : Prop where
  nt : ∀ x rest, s.expected = .nt x :: rest → ∀ r ∈ g.cfg x, (⟨.pred, x, r, k, [], r, k⟩ : EState) ∈ (st.q k).queue
  term : ∀ b rest, s.expected = .term b :: rest → b <+: w.drop k →
    { s with kind := .scanned b, parsed := s.parsed ++ [.term b], expected := rest } ∈ (st.q (k + b.length)).queue
  fin : s.expected = [] → ∀ t ∈ (st.q s.index).queue, ∀ rest, t.expected = .nt s.pname :: rest →
    advance t s ∈ (st.q k).queue

theorem Done.mono {g : Gram} {w : List Nat} {k m : Nat} {st st' : PS} {s : EState} (h : Done g w k st s)
    (he : Ext m st st') (hm : s.expected = [] → s.index < m) : Done g w k st' s := by
  refine ⟨fun x rest hx r hr => he.mem (h.nt x rest hx r hr), fun b rest hb hp => he.mem (h.term b rest hb hp),
    fun hf t ht rest hr => he.mem (h.fin hf t ?_ rest hr)⟩
  rwa [he.before _ (hm hf)] at ht

theorem predicted_ok {g : Gram} {S : Nat} {w : List Nat} {x k : Nat} {r : List Sym} (hr : r ∈ g.cfg x)
    (hk : k ≤ w.length) (hx : x = S → k = 0) : OkState g S w k ⟨.pred, x, r, k, [], r, k⟩ := by
  refine ⟨rfl, hr, Nat.le_refl _, hk, ⟨[], rfl, by rw [slice_self]; exact .nil⟩,
    ⟨[], rfl, by rw [slice_self]; rfl, by simp, .inl rfl⟩, fun _ => rfl, hx⟩

/-- The loop of `_predict`. -/
theorem predictRules_spec {σ : EIter} {g : Gram} {S : Nat} (h : Clean g S) {w : List Nat} {x k : Nat}
    (hk : k ≤ w.length) (hx : x = S → k = 0) : ∀ (rs : List Rule) (st : PS), Inv g S w k st →
      (∀ r ∈ rs, r.seq ∈ g.cfg x) → Inv g S w k (predictRules σ x k rs st) ∧ Ext k st (predictRules σ x k rs st) ∧
        ∀ r ∈ rs, (⟨.pred, x, r.seq, k, [], r.seq, k⟩ : EState) ∈ ((predictRules σ x k rs st).q k).queue := by
  intro rs
  induction rs with
  | nil => intro st hi _; exact ⟨hi, Ext.refl k st, by simp⟩
  | cons r rs ih =>
    intro st hi hrs
    have ha := add_added (σ := σ) h hi.alike (hi.completed k (Nat.le_refl _)) ⟨.pred, x, r.seq, k, [], r.seq, k⟩
    have hi1 := hi.added' ha (predicted_ok (hrs r (by simp)) hk hx) (fun hlt => absurd hlt (Nat.lt_irrefl _))
    obtain ⟨hi2, he2, hm2⟩ := ih _ hi1 (fun r' hr' => hrs r' (by simp [hr']))
    refine ⟨hi2, (ha.ext (Nat.le_refl _)).trans he2, fun r' hr' => ?_⟩
    rcases List.mem_cons.1 hr' with rfl | hr'
    · exact he2.mem (ha.mem.2 (.inr rfl))
    · exact hm2 r' hr'

theorem startStates_eq {σ : EIter} {a : Nat} : ∀ (rs : List Rule) (st : PS),
    startStates σ a rs st = predictRules σ a 0 rs st := by
  intro rs
  induction rs with
  | nil => intro st; rfl
  | cons r rs ih => intro st; simp only [startStates, predictRules]; exact ih _

theorem _root_.Verif.PyGrammar.Accurate.alike {g g' : Gram} (h : Accurate g) (ha : Alike g g') : Accurate g' := by
  intro c p hp
  cases hc : g.prod c with
  | none => rw [ha.none c hc] at hp; cases hp
  | some q =>
    obtain ⟨x, hx⟩ := ha.some c q hc
    rw [hp] at hx
    cases hx
    exact h c q hc

theorem predict_spec {σ : EIter} (hσ : σ.Ok) {g : Gram} {S : Nat} (h : Clean g S) {w : List Nat} {k : Nat} {st : PS}
    (hi : Inv g S w k st) {s : EState} (hs : s ∈ (st.q k).queue) {x : Nat} {rest : List Sym}
    (hx : s.expected = .nt x :: rest) :
    ∃ st', predict σ st k s x = .ok st' ∧ Inv g S w k st' ∧ Ext k st st' ∧ Done g w k st' s := by
  have hok := hi.ok k s hs
  obtain ⟨pre, epre, _⟩ := hok.derives
  have hin : .nt x ∈ s.pexp := by rw [epre, hx]; simp
  have hxo : x ∈ g.order := (h.sane.mem_order x).2 (h.sane.closed _ _ x hok.rule hin)
  have hxS : x ≠ S := fun e => h.fresh _ _ hok.rule (e ▸ hin)
  obtain ⟨b, g', hc, hal, hkn, hiff⟩ := canProduceTerminal_spec hσ.iter (h.sane.alike hi.alike)
    (by rw [hi.alike.order]; exact h.order) (h.acc.alike hi.alike) hi.known (a := x)
    (by rw [hi.alike.isSome]; exact (h.sane.mem_order x).1 hxo)
  have hb : b = true := hiff.2 (by rw [hi.alike.cfg]; exact h.leads x hxo)
  subst hb
  have hal' := hi.alike.trans hal
  obtain ⟨p, hp⟩ := Option.isSome_iff_exists.1 (show (g'.prod x).isSome by
    rw [hal'.isSome]; exact (h.sane.mem_order x).1 hxo)
  have hpc : g.cfg x = p.rules.map (·.seq) := by rw [← hal'.cfg]; exact cfg_of_prod hp
  have hi1 : Inv g S w k { st with g := g' } :=
    ⟨hal', hkn, hi.nodup, hi.ok, hi.wait, hi.completed, hi.last⟩
  obtain ⟨hi2, he2, hm2⟩ := predictRules_spec (σ := σ) h hok.len (fun e => absurd e hxS) (σ.rules p.rules) _ hi1 (by
    intro r hr
    rw [(hσ.iter.rules _).mem_iff] at hr
    rw [hpc]
    exact List.mem_map.2 ⟨r, hr, rfl⟩)
  refine ⟨_, by simp only [predict, hc, hp], hi2, ⟨he2.before, he2.grow, he2.last⟩, ⟨?_, ?_, ?_⟩⟩
  · intro y rest' hy r hr
    rw [hx] at hy
    simp only [List.cons.injEq, Sym.nt.injEq] at hy
    obtain ⟨rfl, _⟩ := hy
    rw [hpc, List.mem_map] at hr
    obtain ⟨r', hr', rfl⟩ := hr
    exact hm2 r' ((hσ.iter.rules _).mem_iff.2 hr')
  · intro b rest' hb
    rw [hx] at hb; simp at hb
  · intro hf
    rw [hx] at hf; simp at hf

theorem scan_spec {σ : EIter} {g : Gram} {S : Nat} (h : Clean g S) {w : List Nat} {k : Nat} {st : PS}
    (hi : Inv g S w k st) {s : EState} (hs : s ∈ (st.q k).queue) {b : List Nat} {rest : List Sym}
    (hb : s.expected = .term b :: rest) :
    ∃ st', scan σ (w.length + 1) w st k s b = .ok st' ∧ Inv g S w k st' ∧ Ext k st st' ∧ Done g w k st' s := by
  have hok := hi.ok k s hs
  have hno : ∀ st', s.expected ≠ [] → (b <+: w.drop k →
      { s with kind := .scanned b, parsed := s.parsed ++ [.term b], expected := rest } ∈ (st'.q (k + b.length)).queue) →
      Done g w k st' s := by
    intro st' hne hst
    refine ⟨fun x r hx => ?_, fun b' r hb' hp => ?_, fun hf => absurd hf hne⟩
    · rw [hb] at hx; simp at hx
    · rw [hb] at hb'
      simp only [List.cons.injEq, Sym.term.injEq] at hb'
      obtain ⟨rfl, rfl⟩ := hb'
      exact hst hp
  unfold scan
  by_cases hp : b.isPrefixOf (w.drop k) = true
  · rw [if_pos hp]
    rw [List.isPrefixOf_iff_prefix] at hp
    have hlen : k + b.length ≤ w.length := by
      have := hp.length_le
      rw [List.length_drop] at this
      have := hok.len
      omega
    rw [if_pos (by omega)]
    simp only [hb, List.tail_cons]
    obtain ⟨pre, epre, hd⟩ := hok.derives
    obtain ⟨bs, e1, e2, e3, _⟩ := hok.parsed
    have hbne : b ≠ [] := by
      rintro rfl
      refine (h.nonempty _ _ hok.rule).2 ?_
      rw [epre, hb]; simp
    have hsl : slice w s.index (k + b.length) = slice w s.index k ++ b := by
      rw [← slice_append hok.le (Nat.le_add_right _ _), slice_prefix hp]
    have hok' : OkState g S w (k + b.length)
        { s with kind := .scanned b, parsed := s.parsed ++ [.term b], expected := rest } := by
      refine ⟨hok.pidx, hok.rule, Nat.le_trans hok.le (Nat.le_add_right _ _), hlen, ⟨pre ++ [.term b], ?_, ?_⟩,
        ⟨bs ++ [b], ?_, ?_, ?_, .inr (.inr ⟨b, by simp, rfl⟩)⟩, fun e => (by cases e), hok.start⟩
      · show s.pexp = (pre ++ [.term b]) ++ rest
        rw [epre, hb]; simp
      · show Derives g.cfg (pre ++ [.term b]) (slice w s.index (k + b.length))
        rw [hsl]
        refine hd.append ?_
        have : Derives g.cfg [.term b] (b ++ []) := .term .nil
        rwa [List.append_nil] at this
      · simp [e1]
      · show (bs ++ [b]).flatten = slice w s.index (k + b.length)
        rw [hsl]; simp [e2]
      · intro c hc
        rcases List.mem_append.1 hc with hc | hc
        · exact e3 c hc
        · rw [List.mem_singleton] at hc; subst hc; exact hbne
    have ha := add_added (σ := σ) h hi.alike (hi.completed (k + b.length) (Nat.le_add_right _ _))
      { s with kind := .scanned b, parsed := s.parsed ++ [.term b], expected := rest }
    have hi' := hi.added (l := k + b.length) ha hok' (fun _ => Nat.le_max_right _ _)
    have he := ha.ext (k := k) (Nat.le_add_right _ _)
    refine ⟨_, rfl, hi', ⟨he.before, he.grow, Nat.le_trans he.last (Nat.le_max_left _ _)⟩,
      hno _ (by rw [hb]; simp) (fun _ => ha.mem.2 (.inr rfl))⟩
  · rw [if_neg hp]
    rw [List.isPrefixOf_iff_prefix] at hp
    exact ⟨st, rfl, hi, Ext.refl k st, hno _ (by rw [hb]; simp) (fun h => absurd h hp)⟩

theorem advance_ok {g : Gram} {S : Nat} {w : List Nat} {i k : Nat} {s c : EState} (hs : OkState g S w i s)
    (hc : OkState g S w k c) (hi : c.index = i) (hf : c.expected = []) {rest : List Sym}
    (hr : s.expected = .nt c.pname :: rest) : OkState g S w k (advance s c) := by
  subst hi
  obtain ⟨pre, epre, hd⟩ := hs.derives
  obtain ⟨prec, eprec, hdc⟩ := hc.derives
  obtain ⟨bs, e1, e2, e3, _⟩ := hs.parsed
  obtain ⟨bsc, c1, c2, c3, _⟩ := hc.parsed
  rw [hf, List.append_nil] at eprec
  have hsl : slice w s.index k = slice w s.index c.index ++ slice w c.index k := (slice_append hs.le hc.le).symm
  refine ⟨hs.pidx, hs.rule, Nat.le_trans hs.le hc.le, hc.len, ⟨pre ++ [.nt c.pname], ?_, ?_⟩, ⟨bs ++ bsc, ?_, ?_, ?_, .inr (.inl rfl)⟩,
    fun e => (by cases e), hs.start⟩
  · show s.pexp = (pre ++ [.nt c.pname]) ++ s.expected.tail
    rw [epre, hr]; simp
  · show Derives g.cfg (pre ++ [.nt c.pname]) (slice w s.index k)
    rw [hsl]
    refine hd.append ?_
    rw [Derives.single_iff]
    exact ⟨c.pexp, hc.rule, by rw [eprec]; exact hdc⟩
  · show s.parsed ++ c.parsed = _
    simp [e1, c1]
  · show (bs ++ bsc).flatten = slice w s.index k
    rw [hsl]; simp [e2, c2]
  · intro b hb
    rcases List.mem_append.1 hb with hb | hb
    · exact e3 b hb
    · exact c3 b hb

theorem completeLoop_spec {σ : EIter} {g : Gram} {S : Nat} (h : Clean g S) {w : List Nat} {k : Nat} {c : EState}
    (hf : c.expected = []) : ∀ (ss : List EState) (st : PS), Inv g S w k st → c ∈ (st.q k).queue →
      (∀ s ∈ ss, s ∈ (st.q c.index).queue ∧ ∃ rest, s.expected = .nt c.pname :: rest) →
      ∃ st', completeLoop σ k c ss st = .ok st' ∧ Inv g S w k st' ∧ Ext k st st' ∧
        ∀ s ∈ ss, advance s c ∈ (st'.q k).queue := by
  intro ss
  induction ss with
  | nil => intro st hi _ _; exact ⟨st, rfl, hi, Ext.refl k st, by simp⟩
  | cons s ss ih =>
    intro st hi hc hss
    have hokc := hi.ok k c hc
    have hlt := hokc.lt h hf
    obtain ⟨hsq, rest, hr⟩ := hss s (by simp)
    have ha := add_added (σ := σ) h hi.alike (hi.completed k (Nat.le_refl _)) (advance s c)
    have hi1 := hi.added' ha (advance_ok (hi.ok _ s hsq) hokc rfl hf hr) (fun _ => hi.last k c hc hlt)
    have he1 := ha.ext (Nat.le_refl k)
    obtain ⟨st', h2, hi2, he2, hm2⟩ := ih _ hi1 (he1.mem hc) (fun t ht => by
      rw [he1.before _ hlt]
      exact hss t (by simp [ht]))
    refine ⟨st', ?_, hi2, he1.trans he2, fun t ht => ?_⟩
    · simp only [completeLoop]
      rw [if_pos (by rw [ha.other _ (by omega)])]
      exact h2
    · rcases List.mem_cons.1 ht with rfl | ht
      · exact he2.mem (ha.mem.2 (.inr rfl))
      · exact hm2 t ht

theorem complete_spec {σ : EIter} (hσ : σ.Ok) {g : Gram} {S : Nat} (h : Clean g S) {w : List Nat} {k : Nat} {st : PS}
    (hi : Inv g S w k st) {c : EState} (hc : c ∈ (st.q k).queue) (hf : c.expected = []) :
    ∃ st', complete σ st k c = .ok st' ∧ Inv g S w k st' ∧ Ext k st st' ∧ Done g w k st' c := by
  have hlt := (hi.ok k c hc).lt h hf
  have hq : ∀ j, ((st.setQ c.index ((st.q c.index).record st.g c k)).q j).queue = (st.q j).queue := by
    intro j
    by_cases hj : j = c.index
    · subst hj; simp [PS.setQ, EQueue.record]
    · simp [PS.setQ, hj]
  have hw : ∀ j, ((st.setQ c.index ((st.q c.index).record st.g c k)).q j).waiting = (st.q j).waiting := by
    intro j
    by_cases hj : j = c.index
    · subst hj; simp [PS.setQ, EQueue.record]
    · simp [PS.setQ, hj]
  have hi1 : Inv g S w k (st.setQ c.index ((st.q c.index).record st.g c k)) := by
    refine ⟨hi.alike, hi.known, fun j => by rw [hq]; exact hi.nodup j, fun j => by rw [hq]; exact hi.ok j,
      fun j => by rw [hq, hw]; exact hi.wait j, fun j hj x => ?_, fun j => by rw [hq]; exact hi.last j⟩
    have hne : j ≠ c.index := by omega
    simp only [PS.setQ, hne, if_false]
    exact hi.completed j hj x
  obtain ⟨st', h2, hi2, he2, hm2⟩ := completeLoop_spec (σ := σ) h hf
    (σ.states (((st.setQ c.index ((st.q c.index).record st.g c k)).q c.index).waiting c.pname)) _ hi1
    (by rw [hq]; exact hc) (fun s hs => by
      rw [(hσ.states _).mem_iff] at hs
      exact (hi1.wait _ _ _).1 hs)
  refine ⟨st', h2, hi2, ⟨fun j hj => by rw [he2.before j hj, hq], fun j => by obtain ⟨l, hl⟩ := he2.grow j; exact ⟨l, by rw [hl, hq]⟩,
    he2.last⟩, ⟨fun x rest hx => ?_, fun b rest hb => ?_, fun _ t ht rest hr => ?_⟩⟩
  · rw [hf] at hx; simp at hx
  · rw [hf] at hb; simp at hb
  · refine hm2 t ((hσ.states _).mem_iff.2 ((hi1.wait _ _ _).2 ⟨?_, rest, hr⟩))
    rwa [he2.before _ hlt] at ht

theorem step_spec {σ : EIter} (hσ : σ.Ok) {g : Gram} {S : Nat} (h : Clean g S) {w : List Nat} {k : Nat} {st : PS}
    (hi : Inv g S w k st) {s : EState} (hs : s ∈ (st.q k).queue) :
    ∃ st', step σ (w.length + 1) w st k s = .ok st' ∧ Inv g S w k st' ∧ Ext k st st' ∧ Done g w k st' s := by
  unfold step
  cases hx : s.expected with
  | nil => exact complete_spec hσ h hi hs hx
  | cons y ys =>
    cases y with
    | nt x =>
      simp only
      rw [if_neg (fun hc => hc.2 ((hi.ok k s hs).pred hc.1))]
      exact predict_spec hσ h hi hs hx
    | term b => exact scan_spec h hi hs hx

end Verif.PyEarley
