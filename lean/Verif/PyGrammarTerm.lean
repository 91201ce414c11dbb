import Verif.PyGrammarTotal
/- `can_produce_terminal` finds exactly the productions that lead to a terminal. -/
namespace Verif.PyGrammar
open Verif.Spec Verif.PyTree

theorem _root_.Verif.Spec.Cfg.Reaches.head {G : Cfg} {a b c : Nat} {r : List Sym} (hr : r ∈ G a) (hb : .nt b ∈ r)
    (h : G.Reaches b c) : G.Reaches a c := by
  induction h with
  | refl => exact .step .refl hr hb
  | step _ hr' hb' ih => exact .step ih hr' hb'

/-- The rules of two productions are the same. -/
theorem same_iff {p q : Prodn} : p.same q = true ↔ ∀ s, s ∈ p.rules.map (·.seq) ↔ s ∈ q.rules.map (·.seq) := by
  unfold Prodn.same
  rw [Bool.and_eq_true, List.all_eq_true, List.all_eq_true]
  simp only [List.any_eq_true, decide_eq_true_eq, List.mem_map]
  constructor
  · rintro ⟨h1, h2⟩ s
    constructor
    · rintro ⟨r, hr, rfl⟩
      obtain ⟨r', hr', e⟩ := h1 r hr
      exact ⟨r', hr', e⟩
    · rintro ⟨r, hr, rfl⟩
      obtain ⟨r', hr', e⟩ := h2 r hr
      exact ⟨r', hr', e⟩
  · intro h
    refine ⟨fun r hr => ?_, fun r hr => ?_⟩
    · obtain ⟨r', hr', e⟩ := (h r.seq).1 ⟨r, hr, rfl⟩
      exact ⟨r', hr', e⟩
    · obtain ⟨r', hr', e⟩ := (h r.seq).2 ⟨r, hr, rfl⟩
      exact ⟨r', hr', e⟩

theorem unvisited_iff {g : Gram} {v : List Nat} {a : Nat} (ha : (g.prod a).isSome) :
    g.unvisited v a = true ↔ ∀ b ∈ v, (g.prod b).isSome → ¬ ∀ s, s ∈ g.cfg b ↔ s ∈ g.cfg a := by
  obtain ⟨p, hp⟩ := Option.isSome_iff_exists.1 ha
  unfold Gram.unvisited
  rw [hp]
  simp only [List.all_eq_true]
  refine forall_congr' (fun b => forall_congr' (fun _ => ?_))
  cases hb : g.prod b with
  | none => simp
  | some q =>
    simp only [Option.isSome_some, forall_true_left, Bool.not_eq_true', cfg_of_prod hp, cfg_of_prod hb]
    rw [← same_iff, Bool.not_eq_true]

theorem foldl_mark_not {l : List Nat} {g : Gram} {a : Nat} (ha : a ∉ l) : (l.foldl Gram.mark g).prod a = g.prod a := by
  induction l generalizing g with
  | nil => rfl
  | cons b l ih =>
    rw [List.mem_cons, not_or] at ha
    rw [List.foldl_cons, ih ha.2]
    unfold Gram.mark
    split
    · rfl
    · simp [Gram.setProd, ha.1]

/-- What the loop keeps: all visited productions are marked, all that are not waiting have only visited users,
and productions with the same rules are visited together. -/
structure Search (g : Gram) (q v : List Nat) : Prop where
  queue : ∀ a ∈ q, a ∈ v
  some : ∀ a ∈ v, ∃ p, g.prod a = some p ∧ p.cpt = some true
  closed : ∀ a ∈ v, a ∉ q → ∀ b ∈ g.usedBy a, b ∈ v
  same : ∀ a b, a ∈ v → (g.prod b).isSome → (∀ s, s ∈ g.cfg a ↔ s ∈ g.cfg b) → b ∈ v

theorem cptLoop_search {σ : Iter} (hσ : σ.Ok) : ∀ (fuel : Nat) (g : Gram) (q v : List Nat), Sane g → g.order.Nodup →
    Search g q v → q.length + (g.order.filter (fun a => decide (a ∉ v))).length ≤ fuel →
    ∃ g' v', Gram.cptLoop σ fuel g q v = some g' ∧ Marked g g' ∧ Search g' [] v' ∧ (∀ a ∈ v, a ∈ v') ∧
      (∀ a, a ∉ v' → g'.prod a = g.prod a) ∧
      (∀ P : Nat → Prop, (∀ a ∈ v, P a) → (∀ a b r, P a → r ∈ g.cfg b → .nt a ∈ r → P b) → ∀ a ∈ v', P a) := by
  intro fuel
  induction fuel with
  | zero =>
    intro g q v hg ho hs hle
    have : q = [] := List.length_eq_zero_iff.1 (by omega)
    subst this
    exact ⟨g, v, rfl, Marked.refl g, hs, fun _ h => h, fun _ _ => rfl, fun P h _ => h⟩
  | succ n ih =>
    intro g q v hg ho hs hle
    cases q with
    | nil => exact ⟨g, v, rfl, Marked.refl g, hs, fun _ h => h, fun _ _ => rfl, fun P h _ => h⟩
    | cons a q =>
      have hav : a ∈ v := hs.queue a (by simp)
      have hall : (g.usedBy a).all (fun b => (g.prod b).isSome) = true := by
        rw [List.all_eq_true]; exact fun b hb => (hg.used b a hb).1
      simp only [Gram.cptLoop]
      rw [if_pos hall]
      generalize hus : (σ.names (g.usedBy a)).filter (g.unvisited v) = us
      have hmem : ∀ b, b ∈ us ↔ b ∈ g.usedBy a ∧ g.unvisited v b = true := by
        intro b; rw [← hus, List.mem_filter, (hσ.names _).mem_iff]
      have husS : ∀ b ∈ us, (g.prod b).isSome := fun b hb => (hg.used b a ((hmem b).1 hb).1).1
      have hm := marked_foldl us g
      have hus_rule : ∀ b ∈ us, ∃ r ∈ g.cfg b, .nt a ∈ r := by
        intro b hb
        obtain ⟨h1, h2⟩ := (hmem b).1 hb
        rcases (hg.used b a h1).2 with e | h
        · exact absurd (e ▸ hav) (unvisited_new h2)
        · exact h
      have hs' : Search (us.foldl Gram.mark g) (us.reverse ++ q) (us ++ v) := by
        refine ⟨?_, ?_, ?_, ?_⟩
        · intro b hb
          rw [List.mem_append, List.mem_reverse] at hb
          rw [List.mem_append]
          exact hb.imp id (fun h => hs.queue b (by simp [h]))
        · intro b hb
          by_cases hbu : b ∈ us
          · obtain ⟨p, hp⟩ := Option.isSome_iff_exists.1 (husS b hbu)
            exact ⟨_, foldl_mark_mem hbu hp, rfl⟩
          · rw [foldl_mark_not hbu]
            exact hs.some b ((List.mem_append.1 hb).resolve_left hbu)
        · intro b hb hbq c hc
          rw [hm.usedBy] at hc
          simp only [List.mem_append, List.mem_reverse, not_or] at hbq
          have hbv : b ∈ v := (List.mem_append.1 hb).resolve_left hbq.1
          rw [List.mem_append]
          by_cases hba : b = a
          · subst hba
            by_cases hu : g.unvisited v c = true
            · exact .inl ((hmem c).2 ⟨hc, hu⟩)
            · right
              rw [unvisited_iff (hg.used c b hc).1] at hu
              have : ∃ d ∈ v, ∀ s, s ∈ g.cfg d ↔ s ∈ g.cfg c :=
                Classical.byContradiction (fun hne => hu (fun d hd _ h => hne ⟨d, hd, h⟩))
              obtain ⟨d, hd, h⟩ := this
              exact hs.same d c hd (hg.used c b hc).1 h
          · exact .inr (hs.closed b hbv (by simp [hba, hbq.2]) c hc)
        · intro b c hb hc hsame
          rw [hm.cfg] at hsame
          rw [hm.isSome] at hc
          rw [List.mem_append]
          rcases List.mem_append.1 hb with hb | hb
          · left
            obtain ⟨h1, h2⟩ := (hmem b).1 hb
            obtain ⟨r, hr, har⟩ := hus_rule b hb
            refine (hmem c).2 ⟨hg.uses c r a ((hsame r).1 hr) har, ?_⟩
            rw [unvisited_iff (husS b hb)] at h2
            rw [unvisited_iff hc]
            exact fun d hd hds h => h2 d hd hds (fun s => (h s).trans (hsame s).symm)
          · exact .inr (hs.same b c hb hc hsame)
      obtain ⟨g', v', h, hm', hs'', hsub, hnot, hP⟩ := ih _ (us.reverse ++ q) (us ++ v) (hg.alike hm.alike)
        (by rw [hm.order]; exact ho) hs' (by
          rw [hm.order, List.length_append, List.length_reverse]
          have hnd : us.Nodup := by rw [← hus]; exact ((hσ.names _).nodup_iff.2 (hg.unodup a)).filter _
          have hsub : (us ++ g.order.filter (fun a => decide (a ∉ us ++ v))).length ≤
              (g.order.filter (fun a => decide (a ∉ v))).length := by
            refine (List.Nodup.subperm (List.nodup_append.2 ⟨hnd, ho.filter _, ?_⟩) ?_).length_le
            · intro x hx y hy e
              subst e
              rw [List.mem_filter, decide_eq_true_eq] at hy
              exact hy.2 (by simp [hx])
            · intro b hb
              rw [List.mem_filter, decide_eq_true_eq]
              rcases List.mem_append.1 hb with hb | hb
              · exact ⟨(hg.mem_order b).2 (husS b hb), unvisited_new ((hmem b).1 hb).2⟩
              · rw [List.mem_filter, decide_eq_true_eq] at hb
                exact ⟨hb.1, fun h => hb.2 (by simp [h])⟩
          rw [List.length_append] at hsub
          simp only [List.length_cons] at hle
          omega)
      refine ⟨g', v', h, hm.trans hm', hs'', fun b hb => hsub b (by simp [hb]), fun b hb => ?_, fun P hv hst => ?_⟩
      · rw [hnot b hb]
        exact foldl_mark_not (fun hbu => hb (hsub b (by simp [hbu])))
      · refine hP P (fun b hb => ?_) (fun c b r hc hr => hst c b r hc (by rw [← hm.cfg]; exact hr))
        rcases List.mem_append.1 hb with hb | hb
        · obtain ⟨r, hr, har⟩ := hus_rule b hb
          exact hst a b r (hv a hav) hr har
        · exact hv b hb

/-- The flags of the rules are right. -/
def Accurate (g : Gram) : Prop :=
  ∀ a p, g.prod a = some p → ∀ r ∈ p.rules, r.hasTerm = r.seq.any isTerm

/-- What is remembered is right, and either nothing is or all productions with terminals are known. -/
structure Known (g : Gram) : Prop where
  yes : ∀ a p, g.prod a = some p → p.cpt = some true → g.cfg.LeadsToTerminal a
  no : ∀ a p, g.prod a = some p → p.cpt = some false → ¬ g.cfg.LeadsToTerminal a
  phase : (∀ a p, g.prod a = some p → p.cpt = none) ∨
    ∀ a p, g.prod a = some p → g.cfg.LeadsToTerminal a → p.cpt = some true

theorem any_isTerm {s : List Sym} : s.any isTerm = true ↔ ∃ b, .term b ∈ s := by
  rw [List.any_eq_true]
  constructor
  · rintro ⟨x, hx, h⟩
    cases x with
    | term b => exact ⟨b, hx⟩
    | nt n => cases h
  · rintro ⟨b, hb⟩
    exact ⟨_, hb, rfl⟩

theorem canProduceTerminal_spec {σ : Iter} (hσ : σ.Ok) {g : Gram} (hg : Sane g) (ho : g.order.Nodup)
    (hacc : Accurate g) (hk : Known g) {a : Nat} (ha : (g.prod a).isSome) :
    ∃ b g', g.canProduceTerminal σ a = some (b, g') ∧ Alike g g' ∧ Known g' ∧
      (b = true ↔ g.cfg.LeadsToTerminal a) := by
  obtain ⟨p, hp⟩ := Option.isSome_iff_exists.1 ha
  unfold Gram.canProduceTerminal
  rw [hp]
  simp only
  cases hc : p.cpt with
  | some b =>
    refine ⟨b, g, rfl, (Marked.refl g).alike, hk, ?_⟩
    cases b with
    | true => simp [hk.yes a p hp hc]
    | false => simp [hk.no a p hp hc]
  | none =>
    simp only
    generalize hq : g.order.filter (fun b =>
        match g.prod b with
        | .none => false
        | .some q => q.cpt.isNone && q.rules.any (·.hasTerm)) = queue
    have hmemq : ∀ b, b ∈ queue ↔ ∃ pb, g.prod b = some pb ∧ pb.cpt = none ∧ ∃ r ∈ g.cfg b, ∃ t, .term t ∈ r := by
      intro b
      rw [← hq, List.mem_filter, hg.mem_order]
      cases hb : g.prod b with
      | none => simp
      | some pb =>
        simp only [Option.isSome_some, true_and, Bool.and_eq_true, Option.isNone_iff_eq_none, List.any_eq_true,
          Option.some.injEq, exists_eq_left', cfg_of_prod hb, List.mem_map]
        refine and_congr_right (fun _ => ?_)
        constructor
        · rintro ⟨r, hr, h⟩
          rw [hacc b pb hb r hr, any_isTerm] at h
          exact ⟨_, ⟨r, hr, rfl⟩, h⟩
        · rintro ⟨_, ⟨r, hr, rfl⟩, h⟩
          exact ⟨r, hr, by rw [hacc b pb hb r hr, any_isTerm]; exact h⟩
    have hm := marked_foldl queue g
    have hkey : ∃ g', Gram.cptLoop σ (2 * g.order.length + 1) (queue.foldl Gram.mark g) queue.reverse queue = some g' ∧
        Marked g g' ∧ ∀ b pb, g.prod b = some pb → ∃ pb', g'.prod b = some pb' ∧
          (pb'.cpt = some true ↔ g.cfg.LeadsToTerminal b) ∧ (pb'.cpt = pb.cpt ∨ pb'.cpt = some true) := by
      rcases hk.phase with hnone | hknown
      · have hs : Search (queue.foldl Gram.mark g) queue.reverse queue := by
          refine ⟨fun b hb => by simpa using hb, fun b hb => ?_, fun b hb hbq => absurd (by simpa using hb) hbq,
            fun b c hb hcs hsame => ?_⟩
          · obtain ⟨pb, hpb, _⟩ := (hmemq b).1 hb
            exact ⟨_, foldl_mark_mem hb hpb, rfl⟩
          · rw [hm.cfg] at hsame
            rw [hm.isSome] at hcs
            obtain ⟨pb, hpb, _, r, hr, ht⟩ := (hmemq b).1 hb
            obtain ⟨pc, hpc⟩ := Option.isSome_iff_exists.1 hcs
            exact (hmemq c).2 ⟨pc, hpc, hnone c pc hpc, r, (hsame r).1 hr, ht⟩
        obtain ⟨g', v', h, hm', hs', hsub, hnot, hP⟩ := cptLoop_search hσ (2 * g.order.length + 1) _ _ _
          (hg.alike hm.alike) (by rw [hm.order]; exact ho) hs (by
            rw [hm.order, List.length_reverse]
            have h1 : queue.length ≤ g.order.length := by rw [← hq]; exact List.length_filter_le _ _
            have h2 := List.length_filter_le (fun a => decide (a ∉ queue)) g.order
            omega)
        have hmm := hm.trans hm'
        refine ⟨g', h, hmm, fun b pb hpb => ?_⟩
        have hup : ∀ c d, g.cfg.Reaches c d → d ∈ v' → c ∈ v' := by
          intro c d hcd
          induction hcd with
          | refl => exact id
          | @step d e r _ hr he ih =>
            intro hev
            refine ih (hs'.closed e hev (by simp) d ?_)
            rw [hmm.usedBy]
            exact hg.uses d r e hr he
        have hfrom : ∀ c ∈ v', g.cfg.LeadsToTerminal c := by
          refine hP _ (fun c hc' => ?_) (fun c d r hc' hr hcr => ?_)
          · obtain ⟨_, _, _, r, hr, t, ht⟩ := (hmemq c).1 hc'
            exact ⟨c, r, t, .refl, hr, ht⟩
          · rw [hm.cfg] at hr
            obtain ⟨e, r', t, hre, hr', ht⟩ := hc'
            exact ⟨e, r', t, hre.head hr hcr, hr', ht⟩
        by_cases hbv : b ∈ v'
        · obtain ⟨pb', hpb', hct⟩ := hs'.some b hbv
          exact ⟨pb', hpb', ⟨fun _ => hfrom b hbv, fun _ => hct⟩, .inr hct⟩
        · have hbq : b ∉ queue := fun h => hbv (hsub b h)
          have e : g'.prod b = some pb := by rw [hnot b hbv, foldl_mark_not hbq, hpb]
          refine ⟨pb, e, ⟨fun h => ?_, fun hl => ?_⟩, .inl rfl⟩
          · rw [hnone b pb hpb] at h; cases h
          · exfalso
            obtain ⟨c, r, t, hbc, hr, ht⟩ := hl
            refine hbv (hup b c hbc (hsub c ?_))
            have hcs : (g.prod c).isSome := by
              unfold Gram.cfg at hr
              cases hpc : g.prod c with
              | none => rw [hpc] at hr; simp at hr
              | some _ => rfl
            obtain ⟨pc, hpc⟩ := Option.isSome_iff_exists.1 hcs
            exact (hmemq c).2 ⟨pc, hpc, hnone c pc hpc, r, hr, t, ht⟩
      · have hqe : queue = [] := by
          refine List.eq_nil_iff_forall_not_mem.2 (fun b hb => ?_)
          obtain ⟨pb, hpb, hn, r, hr, t, ht⟩ := (hmemq b).1 hb
          have := hknown b pb hpb ⟨b, r, t, .refl, hr, ht⟩
          rw [hn] at this
          cases this
        subst hqe
        refine ⟨g, rfl, Marked.refl g, fun b pb hpb => ⟨pb, hpb, ⟨hk.yes b pb hpb, hknown b pb hpb⟩, .inl rfl⟩⟩
    obtain ⟨g', h, hmm, hall⟩ := hkey
    obtain ⟨p', hp', hiff, hor⟩ := hall a p hp
    have hback : ∀ b pb', g'.prod b = some pb' → ∃ pb, g.prod b = some pb ∧
        (pb'.cpt = some true ↔ g.cfg.LeadsToTerminal b) ∧ (pb'.cpt = pb.cpt ∨ pb'.cpt = some true) := by
      intro b pb' hpb'
      cases hb : g.prod b with
      | none => rw [hmm.none b hb] at hpb'; cases hpb'
      | some pb =>
        obtain ⟨q, hq', h1, h2⟩ := hall b pb hb
        rw [hpb'] at hq'; cases hq'
        exact ⟨pb, rfl, h1, h2⟩
    have hkn : Known g' := by
      refine ⟨fun b pb hpb hct => ?_, fun b pb hpb hcf => ?_, .inr (fun b pb hpb hl => ?_)⟩ <;>
        obtain ⟨pb0, hpb0, h1, h2⟩ := hback b pb hpb
      · rw [hmm.cfg]; exact h1.1 hct
      · rw [hmm.cfg]
        rcases h2 with h2 | h2
        · exact hk.no b pb0 hpb0 (h2.symm.trans hcf)
        · rw [hcf] at h2; cases h2
      · rw [hmm.cfg] at hl
        exact h1.2 hl
    rw [h]
    simp only [hp']
    cases hc' : p'.cpt with
    | some b =>
      refine ⟨b, g', rfl, hmm.alike, hkn, ?_⟩
      cases b with
      | true => simp [hiff.1 hc']
      | false =>
        rcases hor with e | e <;> rw [hc'] at e
        · rw [hc] at e; cases e
        · cases e
    | none =>
      have hno : ¬ g.cfg.LeadsToTerminal a := by
        intro hl
        have := hiff.2 hl
        rw [hc'] at this; cases this
      have hal : Alike g' (g'.setProd a { p' with cpt := some false }) := by
        refine ⟨rfl, rfl, rfl, fun b hb => ?_, fun b q hq' => ?_⟩
        · have : b ≠ a := by rintro rfl; rw [hp'] at hb; cases hb
          simp [Gram.setProd, this, hb]
        · by_cases h : b = a
          · subst h
            rw [hp'] at hq'; cases hq'
            exact ⟨some false, by simp [Gram.setProd]⟩
          · exact ⟨q.cpt, by simp [Gram.setProd, h, hq']⟩
      refine ⟨false, _, rfl, hmm.alike.trans hal, ?_, by simp [hno]⟩
      have hset : ∀ b pb, (g'.setProd a { p' with cpt := some false }).prod b = some pb →
          (b = a ∧ pb.cpt = some false) ∨ (b ≠ a ∧ g'.prod b = some pb) := by
        intro b pb hpb
        by_cases h : b = a
        · subst h
          simp only [Gram.setProd, if_true, Option.some.injEq] at hpb
          exact .inl ⟨rfl, by rw [← hpb]⟩
        · simp only [Gram.setProd, h, if_false] at hpb
          exact .inr ⟨h, hpb⟩
      refine ⟨fun b pb hpb hct => ?_, fun b pb hpb hcf => ?_, .inr (fun b pb hpb hl => ?_)⟩
      · rw [hal.cfg]
        rcases hset b pb hpb with ⟨rfl, e⟩ | ⟨_, hpb⟩
        · rw [hct] at e; cases e
        · exact hkn.yes b pb hpb hct
      · rw [hal.cfg]
        rcases hset b pb hpb with ⟨rfl, e⟩ | ⟨_, hpb⟩
        · rw [hmm.cfg]; exact hno
        · exact hkn.no b pb hpb hcf
      · rw [hal.cfg] at hl
        rcases hset b pb hpb with ⟨rfl, e⟩ | ⟨_, hpb⟩
        · rw [hmm.cfg] at hl
          exact absurd hl hno
        · rcases hkn.phase with hn | hn
          · have h1 := (hback b pb hpb)
            obtain ⟨_, _, h1, _⟩ := h1
            rw [hmm.cfg] at hl
            exact h1.2 hl
          · exact hn b pb hpb hl

end Verif.PyGrammar
