import Verif.PyEarleySteps
import Mathlib.Data.List.Perm.Subperm
import Mathlib.Data.List.Infix
/- The whole recogniser on grammars without empty rules: it ends, and it accepts the sentences of the grammar. -/
namespace Verif.PyEarley
open Verif.Spec Verif.PyGrammar

/-- The ways to cut a list into nonempty pieces. -/
def splits : List Nat → List (List (List Nat))
  | [] => [[]]
  | x :: xs => (splits xs).flatMap (fun bs => match bs with
    | [] => [[[x]]]
    | b :: bs => [[x] :: b :: bs, (x :: b) :: bs])

theorem mem_splits : ∀ (u : List Nat) (bs : List (List Nat)), bs.flatten = u → (∀ b ∈ bs, b ≠ []) → bs ∈ splits u := by
  intro u
  induction u with
  | nil =>
    intro bs hf hb
    cases bs with
    | nil => simp [splits]
    | cons b bs =>
      simp only [List.flatten_cons, List.append_eq_nil_iff] at hf
      exact absurd hf.1 (hb b (by simp))
  | cons x xs ih =>
    intro bs hf hb
    cases bs with
    | nil => simp at hf
    | cons b bs =>
      cases b with
      | nil => exact absurd rfl (hb [] (by simp))
      | cons y b =>
        simp only [List.flatten_cons, List.cons_append, List.cons.injEq] at hf
        obtain ⟨rfl, hf⟩ := hf
        simp only [splits, List.mem_flatMap]
        cases b with
        | nil =>
          refine ⟨bs, ih bs (by simpa using hf) (fun c hc => hb c (by simp [hc])), ?_⟩
          cases bs <;> simp
        | cons z b =>
          refine ⟨(z :: b) :: bs, ih _ (by simpa using hf) ?_, by simp⟩
          intro c hc
          rcases List.mem_cons.1 hc with rfl | hc
          · simp
          · exact hb c (by simp [hc])

/-- All states that a queue can hold. -/
def states (g : Gram) (w : List Nat) (j : Nat) : List EState :=
  g.order.flatMap fun a => (g.cfg a).flatMap fun r => (List.range (j + 1)).flatMap fun i =>
    (splits (slice w i j)).flatMap fun bs => r.tails.flatMap fun e =>
      (Kind.pred :: Kind.compl :: bs.map Kind.scanned).map fun kd => ⟨kd, a, r, i, bs.map Sym.term, e, i⟩

theorem mem_states {g : Gram} {S : Nat} (h : Clean g S) {w : List Nat} {j : Nat} {s : EState} (hs : OkState g S w j s) :
    s ∈ states g w j := by
  obtain ⟨kind, pname, pexp, pidx, parsed, expected, index⟩ := s
  obtain ⟨h1, h2, h3, _, ⟨pre, h4, _⟩, ⟨bs, h5, h6, h7, h8⟩, _, _⟩ := hs
  simp only at h1 h2 h3 h4 h5 h6 h7 h8
  subst h1 h5
  have ho : pname ∈ g.order := by
    rw [h.sane.mem_order]
    cases hp : g.prod pname with
    | none => simp [Gram.cfg, hp] at h2
    | some p => rfl
  simp only [states, List.mem_flatMap, List.mem_map, List.mem_range]
  refine ⟨pname, ho, pexp, h2, pidx, by omega, bs, mem_splits _ _ h6 h7, expected, ?_, kind, ?_, rfl⟩
  · rw [List.mem_tails]; exact ⟨pre, h4.symm⟩
  · rcases h8 with rfl | rfl | ⟨b, hb, rfl⟩
    · simp
    · simp
    · simp [hb]

theorem queue_length {g : Gram} {S : Nat} (h : Clean g S) {w : List Nat} {k : Nat} {st : PS} (hi : Inv g S w k st) (j : Nat) :
    (st.q j).queue.length ≤ (states g w j).length :=
  ((hi.nodup j).subperm (fun s hs => mem_states h (hi.ok j s hs))).length_le

/-- The loop over one queue. -/
theorem loop_spec {σ : EIter} (hσ : σ.Ok) {g : Gram} {S : Nat} (h : Clean g S) {w : List Nat} {k : Nat} :
    ∀ (fuel i : Nat) (st : PS), Inv g S w k st → (∀ s ∈ (st.q k).queue.take i, Done g w k st s) →
      (states g w k).length ≤ fuel + i →
      ∃ st', loop σ (w.length + 1) w k fuel i st = .ok st' ∧ Inv g S w k st' ∧ Ext k st st' ∧
        ∀ s ∈ (st'.q k).queue, Done g w k st' s := by
  intro fuel
  induction fuel with
  | zero =>
    intro i st hi hd hl
    have hle : (st.q k).queue.length ≤ i := Nat.le_trans (queue_length h hi k) (by omega)
    refine ⟨st, by simp [loop, hle], hi, Ext.refl k st, ?_⟩
    rwa [List.take_of_length_le hle] at hd
  | succ fuel ih =>
    intro i st hi hd hl
    cases hq : (st.q k).queue[i]? with
    | none =>
      have hle : (st.q k).queue.length ≤ i := by simpa using hq
      refine ⟨st, by simp [loop, hq], hi, Ext.refl k st, ?_⟩
      rwa [List.take_of_length_le hle] at hd
    | some s =>
      obtain ⟨st1, h1, hi1, he1, hd1⟩ := step_spec hσ h hi (List.mem_of_getElem? hq)
      have hlt : i < (st.q k).queue.length := (List.getElem?_eq_some_iff.1 hq).1
      have hfin : ∀ t ∈ (st.q k).queue, t.expected = [] → t.index < k := fun t ht hf => (hi.ok k t ht).lt h hf
      obtain ⟨st2, h2, hi2, he2, hd2⟩ := ih (i + 1) st1 hi1 (by
        intro t ht
        obtain ⟨l, hl⟩ := he1.grow k
        rw [hl, List.take_append_of_le_length hlt, List.take_add_one, hq] at ht
        rcases List.mem_append.1 ht with ht | ht
        · exact (hd t ht).mono he1 (hfin t (List.mem_of_mem_take ht))
        · simp only [Option.toList_some, List.mem_singleton] at ht
          subst ht
          exact hd1) (by omega)
      refine ⟨st2, ?_, hi2, he1.trans he2, hd2⟩
      simp only [loop, hq, h1]
      exact h2

/-- The loop over the positions. -/
theorem positions_spec {σ : EIter} (hσ : σ.Ok) {g : Gram} {S : Nat} (h : Clean g S) {w : List Nat} {fuel : Nat}
    (hfuel : ∀ k, k ≤ w.length → (states g w k).length ≤ fuel) :
    ∀ (n k : Nat) (st : PS), k + n = w.length + 1 → Inv g S w k st →
      (∀ j, j < k → ∀ s ∈ (st.q j).queue, Done g w j st s) →
      ∃ st', positions σ fuel (w.length + 1) w (List.range' k n) st = .ok st' ∧ Inv g S w (w.length + 1) st' ∧
        Ext k st st' ∧ ∀ j, j ≤ w.length → ∀ s ∈ (st'.q j).queue, Done g w j st' s := by
  intro n
  induction n with
  | zero =>
    intro k st hk hi hd
    have hk' : k = w.length + 1 := by omega
    subst hk'
    exact ⟨st, rfl, hi, Ext.refl _ st, fun j hj => hd j (by omega)⟩
  | succ n ih =>
    intro k st hk hi hd
    obtain ⟨st1, h1, hi1, he1, hd1⟩ := loop_spec hσ h fuel 0 st hi (by simp) (by simpa using hfuel k (by omega))
    have hi1' : Inv g S w (k + 1) st1 :=
      ⟨hi1.alike, hi1.known, hi1.nodup, hi1.ok, hi1.wait, fun j hj => hi1.completed j (by omega), hi1.last⟩
    obtain ⟨st2, h2, hi2, he2, hd2⟩ := ih (k + 1) st1 (by omega) hi1' (by
      intro j hj s hs
      rcases Nat.lt_or_ge j k with hlt | hge
      · rw [he1.before j hlt] at hs
        exact (hd j hlt s hs).mono he1 (fun _ => Nat.lt_of_le_of_lt (hi.ok j s hs).le hlt)
      · have : j = k := by omega
        subst this
        exact hd1 s hs)
    refine ⟨st2, ?_, hi2, ⟨fun j hj => by rw [he2.before j (by omega), he1.before j hj], ?_, Nat.le_trans he1.last he2.last⟩, hd2⟩
    · simp only [List.range'_succ, positions]
      rw [if_pos (by omega), h1]
      exact h2
    · intro j
      obtain ⟨l1, e1⟩ := he1.grow j
      obtain ⟨l2, e2⟩ := he2.grow j
      exact ⟨l1 ++ l2, by rw [e2, e1, List.append_assoc]⟩

/-- If every state was handled, the queues follow the derivations. -/
theorem follow {g : Gram} {w : List Nat} {st : PS} (hd : ∀ j, j ≤ w.length → ∀ s ∈ (st.q j).queue, Done g w j st s) :
    ∀ {s u}, Derives g.cfg s u → ∀ (j : Nat) (t : EState) (rest : List Sym), j ≤ w.length → t ∈ (st.q j).queue →
      t.expected = s ++ rest → u <+: w.drop j →
      ∃ t' ∈ (st.q (j + u.length)).queue, t'.expected = rest ∧ t'.pname = t.pname ∧ t'.index = t.index := by
  have hcut : ∀ {u v : List Nat} {j : Nat}, j ≤ w.length → (u ++ v) <+: w.drop j →
      u <+: w.drop j ∧ v <+: w.drop (j + u.length) ∧ j + u.length ≤ w.length := by
    rintro u v j hj ⟨z, hz⟩
    refine ⟨⟨v ++ z, by rw [← hz]; simp⟩, ⟨z, ?_⟩, ?_⟩
    · rw [← List.drop_drop, ← hz]; simp
    · have := congrArg List.length hz
      simp only [List.length_append, List.length_drop] at this
      omega
  intro s u h
  induction h with
  | nil => intro j t rest _ ht he _; exact ⟨t, by simpa using ht, by simpa using he, rfl, rfl⟩
  | @term b s u _ ih =>
    intro j t rest hj ht he hp
    obtain ⟨h1, h2, h3⟩ := hcut hj hp
    have hm := (hd j hj t ht).term b (s ++ rest) (by rw [he]; rfl) h1
    obtain ⟨t', ht', e1, e2, e3⟩ := ih _ _ rest h3 hm rfl h2
    exact ⟨t', by rw [List.length_append, ← Nat.add_assoc]; exact ht', e1, e2, e3⟩
  | @nt A r s u v hr _ _ ih1 ih2 =>
    intro j t rest hj ht he hp
    obtain ⟨h1, h2, h3⟩ := hcut hj hp
    have hm := (hd j hj t ht).nt A (s ++ rest) (by rw [he]; rfl) r hr
    obtain ⟨c, hc, c1, c2, c3⟩ := ih1 j _ [] hj hm (by simp) h1
    have hc2 : c.pname = A := c2
    have hc3 : c.index = j := c3
    have ha := (hd _ h3 c hc).fin c1 t (by rw [hc3]; exact ht) (s ++ rest) (by rw [he, hc2]; rfl)
    obtain ⟨t', ht', e1, e2, e3⟩ := ih2 _ _ rest h3 ha (by simp [advance, he]) h2
    exact ⟨t', by rw [List.length_append, ← Nat.add_assoc]; exact ht', e1, e2, e3⟩

/-- Enough steps. -/
def enough (g : Gram) (w : List Nat) : Nat := ((List.range (w.length + 1)).map fun k => (states g w k).length).sum

theorem le_sum : ∀ (l : List Nat) (x : Nat), x ∈ l → x ≤ l.sum := by
  intro l
  induction l with
  | nil => intro x hx; simp at hx
  | cons y l ih =>
    intro x hx
    rw [List.sum_cons]
    rcases List.mem_cons.1 hx with rfl | hx
    · omega
    · have := ih x hx; omega

theorem slice_all (w : List Nat) : slice w 0 w.length = w := by simp [slice]

theorem match_exact {σ : EIter} (hσ : σ.Ok) {g : Gram} {S : Nat} (h : Clean g S) (w : List Nat) {fuel : Nat}
    (hfuel : enough g w ≤ fuel) :
    (g.cfg.Lang S w → matchBytes σ fuel g S w = .ok true) ∧
    (¬ g.cfg.Lang S w → matchBytes σ fuel g S w = .ok false ∨ matchBytes σ fuel g S w = .error .value) := by
  obtain ⟨p, hp⟩ := Option.isSome_iff_exists.1 ((h.sane.mem_order S).1 h.start)
  have hpc : g.cfg S = p.rules.map (·.seq) := cfg_of_prod hp
  have hi0 : Inv g S w 0 ⟨g, fun _ => EQueue.empty, 0⟩ :=
    ⟨⟨rfl, rfl, rfl, fun _ h => h, fun _ p hp => ⟨p.cpt, hp⟩⟩, h.known, fun j => by simp [EQueue.empty], fun j s hs => by simp [EQueue.empty] at hs,
      fun j x s => by simp [EQueue.empty], fun j _ x => rfl, fun j s hs => by simp [EQueue.empty] at hs⟩
  obtain ⟨hi1, he1, hm1⟩ := predictRules_spec (σ := σ) h (x := S) (Nat.zero_le w.length) (fun _ => rfl) (σ.rules p.rules) _ hi0
    (by
      intro r hr
      rw [(hσ.iter.rules _).mem_iff] at hr
      rw [hpc]
      exact List.mem_map.2 ⟨r, hr, rfl⟩)
  obtain ⟨st, h2, hi2, he2, hd2⟩ := positions_spec hσ h (fuel := fuel) (w := w) (by
      intro k hk
      refine Nat.le_trans (le_sum _ _ (List.mem_map.2 ⟨k, ?_, rfl⟩)) hfuel
      rw [List.mem_range]; omega) (w.length + 1) 0 _ (by omega) hi1 (fun j hj => absurd hj (Nat.not_lt_zero j))
  have hparse : parse σ fuel g S (w.length + 1) w = if st.last < w.length then .error .value else .ok st := by
    simp only [parse, hp, startStates_eq]
    rw [List.range_eq_range', h2]
  have hsame : ∀ a, sameProd st.g a S = true → a ∈ g.order → a = S := by
    intro a ha hao
    exact (sameProd_iff h hi2.alike).1 ha
  constructor
  · intro hL
    rw [Cfg.Lang, Derives.single_iff] at hL
    obtain ⟨r, hr, hdr⟩ := hL
    have hr' := hr
    rw [hpc, List.mem_map] at hr'
    obtain ⟨r', hr1, rfl⟩ := hr'
    have hm := he2.mem (hm1 r' ((hσ.iter.rules _).mem_iff.2 hr1))
    obtain ⟨c, hc, c1, c2, c3⟩ := follow hd2 hdr 0 _ [] (Nat.zero_le _) hm (by simp) (by simp)
    rw [Nat.zero_add] at hc
    have hc2 : c.pname = S := c2
    have hc3 : c.index = 0 := c3
    have hl : ¬ st.last < w.length := by
      intro hlt
      have := hi2.last _ c hc (by omega)
      omega
    rw [if_neg hl] at hparse
    simp only [matchBytes, matchesWith, hparse, Except.ok.injEq, Bool.not_eq_true', List.isEmpty_eq_false_iff]
    intro hn
    have : c ∈ endStates st S (w.length + 1) := by
      simp only [endStates, List.mem_filter, Nat.add_sub_cancel]
      exact ⟨hc, by simp [c1, hc2, sameProd]⟩
    rw [hn] at this
    simp at this
  · intro hL
    by_cases hl : st.last < w.length
    · rw [if_pos hl] at hparse
      exact .inr (by simp only [matchBytes, matchesWith, hparse])
    · rw [if_neg hl] at hparse
      refine .inl ?_
      simp only [matchBytes, matchesWith, hparse, Except.ok.injEq, Bool.not_eq_false', List.isEmpty_iff]
      rw [List.eq_nil_iff_forall_not_mem]
      intro s hs
      simp only [endStates, List.mem_filter, Nat.add_sub_cancel, Bool.and_eq_true, List.isEmpty_iff] at hs
      obtain ⟨hs, hx, hsm⟩ := hs
      have hok := hi2.ok _ s hs
      have ho : s.pname ∈ g.order := by
        rw [h.sane.mem_order]
        have := hok.rule
        cases hp : g.prod s.pname with
        | none => simp [Gram.cfg, hp] at this
        | some p => rfl
      have hS := hsame _ hsm ho
      obtain ⟨pre, epre, hdp⟩ := hok.derives
      rw [hx, List.append_nil] at epre
      rw [hok.start hS, slice_all, ← epre] at hdp
      apply hL
      rw [Cfg.Lang, Derives.single_iff]
      exact ⟨s.pexp, hS ▸ hok.rule, hdp⟩

end Verif.PyEarley
