import Verif.PyGrammarSimp
import Mathlib.Data.List.Perm.Subperm
/- `simplify` never fails: what `remove` keeps when it drops productions that rules still mention. -/
namespace Verif.PyGrammar
open Verif.Spec Verif.PyTree

/-- The table `used_by` has no repetitions. -/
def UsesNodup (g : Gram) : Prop := ∀ v, (g.usedBy v).Nodup

theorem addName_nodup {l : List Nat} (h : l.Nodup) (n : Nat) : (addName l n).Nodup := by
  unfold addName
  split
  · exact h
  · rename_i hn
    rw [List.nodup_append]
    refine ⟨h, by simp, ?_⟩
    intro a ha b hb
    rw [List.mem_singleton] at hb
    subst hb
    exact fun e => hn (e ▸ ha)

theorem delName_nodup {l : List Nat} (h : l.Nodup) (n : Nat) : (delName l n).Nodup := h.filter _

theorem addUses_nodup (a : Nat) : ∀ (vs : List Nat) (u : Nat → List Nat), (∀ v, (u v).Nodup) →
    ∀ v, (addUses u a vs v).Nodup := by
  intro vs
  induction vs with
  | nil => intro u h v; exact h v
  | cons w vs ih =>
    intro u h v
    refine ih _ (fun m => ?_) v
    split
    · exact addName_nodup (h w) a
    · exact h m

theorem delUses_nodup (a : Nat) : ∀ (vs : List Nat) (u : Nat → List Nat), (∀ v, (u v).Nodup) →
    ∀ v, (delUses u a vs v).Nodup := by
  intro vs
  induction vs with
  | nil => intro u h v; exact h v
  | cons w vs ih =>
    intro u h v
    refine ih _ (fun m => ?_) v
    split
    · exact delName_nodup (h w) a
    · exact h m

theorem addNode_nodup {g g' : Gram} {t : Tree Val} (hu : UsesNodup g) (h : addNode g t = some g') : UsesNodup g' := by
  unfold addNode at h
  split at h
  · cases h; exact hu
  · split at h
    · cases h
    · simp only at h
      split at h
      · cases h
        unfold Gram.addTo
        split
        · exact hu
        · exact fun v => addUses_nodup _ _ _ hu v
      · split at h <;> cases h <;> exact fun v => addUses_nodup _ _ _ hu v

theorem addNodes_nodup : ∀ (ts : List (Tree Val)) {g g' : Gram}, UsesNodup g → addNodes ts g = some g' → UsesNodup g' := by
  intro ts
  induction ts with
  | nil => intro g g' hu h; cases h; exact hu
  | cons t ts ih =>
    intro g g' hu h
    simp only [addNodes] at h
    cases h1 : addNode g t with
    | none => rw [h1] at h; cases h
    | some g1 => rw [h1] at h; exact ih (addNode_nodup hu h1) h

theorem replaceSub_nodup {σ : Iter} {g g' : Gram} {a x : Nat} {rep : List Sym} (hu : UsesNodup g)
    (h : g.replaceSub σ a x rep = some g') : UsesNodup g' := by
  unfold Gram.replaceSub at h
  split at h
  · cases h
  · simp only at h
    split at h
    · split at h
      · cases h
        intro v
        refine addUses_nodup _ _ _ (fun m => ?_) v
        split
        · exact delName_nodup (hu x) a
        · exact hu m
      · cases h
    · cases h; exact hu

theorem inlineInto_nodup {σ : Iter} {x : Nat} : ∀ (us : List Nat) {g g' : Gram}, UsesNodup g →
    Gram.inlineInto σ x us g = some g' → UsesNodup g' := by
  intro us
  induction us with
  | nil => intro g g' hu h; cases h; exact hu
  | cons a us ih =>
    intro g g' hu h
    simp only [Gram.inlineInto] at h
    split at h
    · cases h
    · split at h
      · cases h
      · rename_i h1
        exact ih (replaceSub_nodup hu h1) h

theorem removeSub_nodup {σ : Iter} {g g' : Gram} {a x : Nat} (hu : UsesNodup g)
    (h : g.removeSub σ a x = some g') : UsesNodup g' := by
  unfold Gram.removeSub at h
  split at h
  · cases h
  · simp only at h
    split at h
    · cases h
      intro v
      simp only
      split
      · exact delName_nodup (hu x) a
      · exact hu v
    · cases h

theorem removeFrom_nodup {σ : Iter} {x : Nat} : ∀ (us : List Nat) {g g' : Gram}, UsesNodup g →
    Gram.removeFrom σ x us g = some g' → UsesNodup g' := by
  intro us
  induction us with
  | nil => intro g g' hu h; cases h; exact hu
  | cons a us ih =>
    intro g g' hu h
    simp only [Gram.removeFrom] at h
    split at h
    · exact ih hu h
    · split at h
      · cases h
      · rename_i h1
        exact ih (removeSub_nodup hu h1) h

theorem remove_nodup {σ : Iter} {g g' : Gram} {x : Nat} (hu : UsesNodup g) (h : g.remove σ x = some g') :
    UsesNodup g' := by
  unfold Gram.remove at h
  split at h
  · cases h
  · simp only at h
    split at h
    · cases h
    · rename_i h1
      cases h
      intro v
      simp only
      split
      · exact List.nodup_nil
      · exact removeFrom_nodup _ (fun v => delUses_nodup _ _ _ hu v) h1 v

theorem inline_nodup {σ : Iter} {g g' : Gram} {x : Nat} {m : Bool} (hu : UsesNodup g)
    (h : g.inline σ x = some (m, g')) : UsesNodup g' := by
  unfold Gram.inline at h
  split at h
  · cases h
  · simp only at h
    split at h
    · split at h
      · split at h
        · cases h
        · rename_i h1
          simp only [Option.map_eq_some_iff, Prod.mk.injEq] at h
          obtain ⟨g2, h2, _, rfl⟩ := h
          refine remove_nodup (inlineInto_nodup _ ?_ h1) h2
          exact hu
      · cases h
    · cases h; exact hu

theorem inlineAll_nodup {σ : Iter} : ∀ (xs : List Nat) {g g' : Gram} {m : Bool}, UsesNodup g →
    Gram.inlineAll σ xs g = some (m, g') → UsesNodup g' := by
  intro xs
  induction xs with
  | nil => intro g g' m hu h; cases h; exact hu
  | cons x xs ih =>
    intro g g' m hu h
    simp only [Gram.inlineAll] at h
    split at h
    · cases h
    · rename_i h1
      simp only [Option.map_eq_some_iff, Prod.mk.injEq] at h
      obtain ⟨⟨m2, g2⟩, h2, _, rfl⟩ := h
      exact ih (inline_nodup hu h1) h2

/-- A grammar whose tables fit together; productions may have no rules left. -/
structure Sane (g : Gram) : Prop where
  mem_order : ∀ a, a ∈ g.order ↔ (g.prod a).isSome
  closed : ∀ a q v, q ∈ g.cfg a → .nt v ∈ q → (g.prod v).isSome
  uses : ∀ a q v, q ∈ g.cfg a → .nt v ∈ q → a ∈ g.usedBy v
  used : ∀ a v, a ∈ g.usedBy v → (g.prod a).isSome ∧ (a = v ∨ ∃ q ∈ g.cfg a, .nt v ∈ q)
  unodup : UsesNodup g

theorem Good.sane {g : Gram} (hg : Good g) (hu : UsesNodup g) : Sane g :=
  ⟨hg.mem_order, hg.closed, hg.uses, hg.used, hu⟩

/-- A sequence without a name. -/
def cut (x : Nat) (s : List Sym) : List Sym := combine (s.filter (fun y => decide (y ≠ .nt x)))

theorem mem_cut {x v : Nat} {s : List Sym} : .nt v ∈ cut x s ↔ v ≠ x ∧ .nt v ∈ s := by
  unfold cut
  rw [mem_combine, List.mem_filter]
  simp [and_comm]

theorem addRule_seqs {rs : List Rule} {r : Rule} {q : List Sym} :
    q ∈ (addRule rs r).map (·.seq) ↔ q ∈ rs.map (·.seq) ∨ q = r.seq := by
  unfold addRule
  split
  · rename_i h
    rw [List.any_eq_true] at h
    obtain ⟨r', hr', e⟩ := h
    rw [decide_eq_true_eq] at e
    constructor
    · exact .inl
    · rintro (h | rfl)
      · exact h
      · exact List.mem_map.2 ⟨r', hr', e⟩
  · simp

theorem removeSubLoop_seqs {x : Nat} {q : List Sym} : ∀ (rs acc : List Rule),
    q ∈ (removeSubLoop x acc rs).map (·.seq) ↔
      q ∈ acc.map (·.seq) ∨ (q ≠ [] ∧ ∃ r ∈ rs, q = cut x r.seq) := by
  intro rs
  induction rs with
  | nil => intro acc; simp [removeSubLoop]
  | cons r rs ih =>
    intro acc
    simp only [removeSubLoop]
    rw [ih]
    have hs : (r.removeSub x).seq = cut x r.seq := rfl
    by_cases he : (r.removeSub x).seq.isEmpty = true
    · rw [if_pos he]
      rw [hs, List.isEmpty_iff] at he
      constructor
      · rintro (h | ⟨h, r', hr', e⟩)
        · exact .inl h
        · exact .inr ⟨h, r', by simp [hr'], e⟩
      · rintro (h | ⟨h, r', hr', e⟩)
        · exact .inl h
        · rcases List.mem_cons.1 hr' with rfl | hr'
          · rw [he] at e; exact absurd e h
          · exact .inr ⟨h, r', hr', e⟩
    · rw [if_neg he, addRule_seqs, hs]
      rw [hs, List.isEmpty_iff] at he
      constructor
      · rintro ((h | h) | ⟨h, r', hr', e⟩)
        · exact .inl h
        · exact .inr ⟨by rw [h]; exact he, r, by simp, h⟩
        · exact .inr ⟨h, r', by simp [hr'], e⟩
      · rintro (h | ⟨h, r', hr', e⟩)
        · exact .inl (.inl h)
        · rcases List.mem_cons.1 hr' with rfl | hr'
          · exact .inl (.inr e)
          · exact .inr ⟨h, r', hr', e⟩

/-- A production without a name. -/
def Prodn.cut (σ : Iter) (x : Nat) (p : Prodn) : Prodn := { p with rules := removeSubLoop x [] (σ.rules p.rules) }

theorem removeFrom_prod {σ : Iter} {x : Nat} : ∀ (us : List Nat) (g : Gram), us.Nodup →
    (∀ a ∈ us, a ∈ g.usedBy x ∧ (g.prod a).isSome) →
    ∃ g', Gram.removeFrom σ x us g = some g' ∧ g'.order = g.order ∧ g'.start = g.start ∧
      (∀ a, g'.prod a = if a ∈ us ∧ a ≠ x then (g.prod a).map (Prodn.cut σ x) else g.prod a) ∧
      (∀ v, v ≠ x → g'.usedBy v = g.usedBy v) := by
  intro us
  induction us with
  | nil => intro g _ _; exact ⟨g, rfl, rfl, rfl, fun a => by simp, fun _ _ => rfl⟩
  | cons a us ih =>
    intro g hnd h
    obtain ⟨ha, hnd'⟩ := List.nodup_cons.1 hnd
    obtain ⟨hau, has⟩ := h a (by simp)
    by_cases hax : a = x
    · obtain ⟨g', h1, h2, h3, h4, h5⟩ := ih g hnd' (fun b hb => h b (by simp [hb]))
      refine ⟨g', by simp only [Gram.removeFrom]; rw [if_pos hax]; exact h1, h2, h3, fun b => ?_, h5⟩
      rw [h4]
      by_cases hb : b = x
      · simp [hb]
      · have : b ≠ a := fun e => hb (e.trans hax)
        simp [hb, this]
    · obtain ⟨p, hp⟩ := Option.isSome_iff_exists.1 has
      have hrem : g.removeSub σ a x = some
          { (g.setProd a (p.cut σ x)) with
            usedBy := fun m => if m = x then delName (g.usedBy x) a else g.usedBy m } := by
        simp only [Gram.removeSub, hp]
        rw [if_pos hau]
        rfl
      obtain ⟨g', h1, h2, h3, h4, h5⟩ := ih ({ (g.setProd a (p.cut σ x)) with
            usedBy := fun m => if m = x then delName (g.usedBy x) a else g.usedBy m } : Gram) hnd' (by
        intro b hb
        have hba : b ≠ a := fun e => ha (e ▸ hb)
        refine ⟨?_, ?_⟩
        · simp only [if_true, delName, List.mem_filter]
          exact ⟨(h b (by simp [hb])).1, by simpa using hba⟩
        · simp only [Gram.setProd, hba, if_false]
          exact (h b (by simp [hb])).2)
      refine ⟨g', ?_, h2, h3, fun b => ?_, fun v hv => ?_⟩
      · simp only [Gram.removeFrom]
        rw [if_neg hax, hrem]
        exact h1
      · rw [h4]
        by_cases hb : b = a
        · subst hb
          simp [ha, hax, Gram.setProd, hp]
        · simp [hb, Gram.setProd]
      · rw [h5 v hv]
        simp [hv]

/-- `remove` of a production that other rules mention. -/
theorem Sane.remove {σ : Iter} (hσ : σ.Ok) {g : Gram} (hg : Sane g) {x : Nat} (hx : (g.prod x).isSome) :
    ∃ g', g.remove σ x = some g' ∧ Sane g' ∧ g'.order = g.order.filter (fun a => decide (a ≠ x)) ∧
      g'.start = g.start ∧
      (∀ b p, b ≠ x → g.prod b = some p → ∃ p', g'.prod b = some p' ∧ p'.removable = p.removable) ∧
      (∀ b q, q ∈ g'.cfg b ↔ b ≠ x ∧ ((q ∈ g.cfg b ∧ b ∉ g.usedBy x) ∨
        (b ∈ g.usedBy x ∧ q ≠ [] ∧ ∃ r ∈ g.cfg b, q = PyGrammar.cut x r))) := by
  obtain ⟨p, hp⟩ := Option.isSome_iff_exists.1 hx
  have hnd := delUses_nodup x (p.rules.flatMap (fun r => PyGrammar.names r.seq)) g.usedBy hg.unodup
  have hmu : ∀ b v, b ∈ delUses g.usedBy x (p.rules.flatMap (fun r => PyGrammar.names r.seq)) v ↔
      b ∈ g.usedBy v ∧ ¬ (b = x ∧ ∃ r ∈ p.rules, .nt v ∈ r.seq) := by
    intro b v
    simp only [mem_delUses, List.mem_flatMap, mem_names]
  obtain ⟨g1, h1, ho1, hst1, hp1, hu1⟩ := removeFrom_prod (σ := σ) (x := x)
    (σ.names (delUses g.usedBy x (p.rules.flatMap (fun r => PyGrammar.names r.seq)) x))
    { g with usedBy := delUses g.usedBy x (p.rules.flatMap (fun r => PyGrammar.names r.seq)) }
    ((hσ.names _).nodup_iff.2 (hnd x)) (by
      intro a ha
      rw [(hσ.names _).mem_iff] at ha
      exact ⟨ha, (hg.used a x ((hmu a x).1 ha).1).1⟩)
  have heq : g.remove σ x = some { g1 with
        order := g1.order.filter (fun a => decide (a ≠ x))
        prod := fun a => if a = x then none else g1.prod a
        usedBy := fun a => if a = x then [] else g1.usedBy a } := by
    simp only [Gram.remove, hp, h1]
  generalize hg' : Gram.mk _ _ _ _ = g' at heq
  have hprod : ∀ b, b ≠ x → g'.prod b = if b ∈ g.usedBy x then (g.prod b).map (Prodn.cut σ x) else g.prod b := by
    intro b hb
    rw [← hg']
    simp only [hb, if_false, hp1, (hσ.names _).mem_iff, hmu, false_and, not_false_eq_true, and_true, ne_eq]
  have hpx : g'.prod x = none := by rw [← hg']; simp
  have hord : g'.order = g.order.filter (fun a => decide (a ≠ x)) := by rw [← hg']; simp [ho1]
  have huse : ∀ b v, b ∈ g'.usedBy v ↔ v ≠ x ∧ b ∈ g.usedBy v ∧ ¬ (b = x ∧ ∃ r ∈ p.rules, .nt v ∈ r.seq) := by
    intro b v
    rw [← hg']
    by_cases h : v = x
    · simp [h]
    · simp only [h, if_false, hu1 v h, hmu, ne_eq, not_false_eq_true, true_and]
  have hsome : ∀ b, b ≠ x → ((g'.prod b).isSome ↔ (g.prod b).isSome) := by
    intro b hb
    rw [hprod b hb]
    split <;> simp
  have hcfg : ∀ b q, q ∈ g'.cfg b ↔ b ≠ x ∧ ((q ∈ g.cfg b ∧ b ∉ g.usedBy x) ∨
        (b ∈ g.usedBy x ∧ q ≠ [] ∧ ∃ r ∈ g.cfg b, q = PyGrammar.cut x r)) := by
    intro b q
    by_cases hb : b = x
    · have : g'.cfg b = [] := by simp [Gram.cfg, hb, hpx]
      rw [this]
      simp [hb]
    · by_cases hbu : b ∈ g.usedBy x
      · have hsb := (hg.used b x hbu).1
        obtain ⟨pb, hpb⟩ := Option.isSome_iff_exists.1 hsb
        have hpb' : g'.prod b = some (pb.cut σ x) := by
          rw [hprod b hb, if_pos hbu, hpb]; rfl
        rw [cfg_of_prod hpb', cfg_of_prod hpb]
        show q ∈ (removeSubLoop x [] (σ.rules pb.rules)).map (·.seq) ↔ _
        rw [removeSubLoop_seqs]
        simp only [List.map_nil, List.not_mem_nil, false_or, hb, hbu, not_true, and_false, ne_eq,
          not_false_eq_true, true_and, (hσ.rules _).mem_iff, List.mem_map]
        constructor
        · rintro ⟨h, r, hr, e⟩; exact ⟨h, r.seq, ⟨r, hr, rfl⟩, e⟩
        · rintro ⟨h, _, ⟨r, hr, rfl⟩, e⟩; exact ⟨h, r, hr, e⟩
      · have : g'.cfg b = g.cfg b := by simp only [Gram.cfg, hprod b hb, if_neg hbu]
        simp [this, hb, hbu]
  refine ⟨g', heq, ⟨fun a => ?_, fun a q v hq hv => ?_, fun a q v hq hv => ?_, fun a v ha => ?_, ?_⟩, hord,
    by rw [← hg']; exact hst1, fun b q hb hq => ?_, hcfg⟩
  · rw [hord, List.mem_filter, hg.mem_order, decide_eq_true_eq]
    by_cases h : a = x
    · simp [h, hpx]
    · rw [hsome a h]; simp [h]
  · rw [hcfg] at hq
    obtain ⟨hax, ⟨hq, hnu⟩ | ⟨_, _, r, hr, rfl⟩⟩ := hq
    · have hvx : v ≠ x := fun e => hnu (hg.uses a q x hq (e ▸ hv))
      rw [hsome v hvx]
      exact hg.closed a q v hq hv
    · obtain ⟨hvx, hv⟩ := mem_cut.1 hv
      rw [hsome v hvx]
      exact hg.closed a r v hr hv
  · rw [hcfg] at hq
    rw [huse]
    obtain ⟨hax, ⟨hq, hnu⟩ | ⟨_, _, r, hr, rfl⟩⟩ := hq
    · exact ⟨fun e => hnu (hg.uses a q x hq (e ▸ hv)), hg.uses a q v hq hv, fun h => hax h.1⟩
    · obtain ⟨hvx, hv⟩ := mem_cut.1 hv
      exact ⟨hvx, hg.uses a r v hr hv, fun h => hax h.1⟩
  · rw [huse] at ha
    obtain ⟨hvx, ha, hne⟩ := ha
    obtain ⟨hs, hor⟩ := hg.used a v ha
    have hax : a ≠ x := by
      intro e
      subst e
      rcases hor with e | ⟨q, hq, hvq⟩
      · exact hvx e.symm
      · rw [cfg_of_prod hp, List.mem_map] at hq
        obtain ⟨r, hr, rfl⟩ := hq
        exact hne ⟨rfl, r, hr, hvq⟩
    refine ⟨(hsome a hax).2 hs, ?_⟩
    rcases hor with e | ⟨q, hq, hvq⟩
    · exact .inl e
    · right
      by_cases hau : a ∈ g.usedBy x
      · have hc : .nt v ∈ PyGrammar.cut x q := mem_cut.2 ⟨hvx, hvq⟩
        refine ⟨PyGrammar.cut x q, (hcfg a _).2 ⟨hax, .inr ⟨hau, ?_, q, hq, rfl⟩⟩, hc⟩
        intro e; rw [e] at hc; simp at hc
      · exact ⟨q, (hcfg a _).2 ⟨hax, .inl ⟨hq, hau⟩⟩, hvq⟩
  · exact remove_nodup hg.unodup heq
  · rw [hprod b hb, hq]
    split
    · exact ⟨_, rfl, rfl⟩
    · exact ⟨_, rfl, rfl⟩

/-- The same grammar up to what is known about terminals. -/
structure Alike (g g' : Gram) : Prop where
  order : g'.order = g.order
  usedBy : g'.usedBy = g.usedBy
  start : g'.start = g.start
  none : ∀ b, g.prod b = none → g'.prod b = none
  some : ∀ b p, g.prod b = some p → ∃ c, g'.prod b = some { p with cpt := c }

theorem Marked.alike {g g' : Gram} (h : Marked g g') : Alike g g' :=
  ⟨h.order, h.usedBy, h.start, h.none, fun b p hp => (h.some b p hp).imp (fun _ h => h.1)⟩

theorem Alike.cfg {g g' : Gram} (h : Alike g g') : g'.cfg = g.cfg := by
  funext a
  unfold Gram.cfg
  cases hp : g.prod a with
  | none => rw [h.none a hp]
  | some p =>
    obtain ⟨c, hc⟩ := h.some a p hp
    rw [hc]

theorem Alike.isSome {g g' : Gram} (h : Alike g g') (a : Nat) : (g'.prod a).isSome = (g.prod a).isSome := by
  cases hp : g.prod a with
  | none => rw [h.none a hp]
  | some p =>
    obtain ⟨c, hc⟩ := h.some a p hp
    rw [hc]; rfl

theorem Sane.alike {g g' : Gram} (hg : Sane g) (h : Alike g g') : Sane g' := by
  have hc := h.cfg
  refine ⟨fun a => ?_, fun a q v => ?_, fun a q v => ?_, fun a v => ?_, fun v => ?_⟩
  · rw [h.order, h.isSome]; exact hg.mem_order a
  · rw [hc, h.isSome]; exact hg.closed a q v
  · rw [hc, h.usedBy]; exact hg.uses a q v
  · rw [hc, h.usedBy, h.isSome]; exact hg.used a v
  · rw [h.usedBy]; exact hg.unodup v

theorem Alike.trans {a b c : Gram} (h : Alike a b) (h' : Alike b c) : Alike a c := by
  refine ⟨h'.order.trans h.order, h'.usedBy.trans h.usedBy, h'.start.trans h.start,
    fun x hx => h'.none x (h.none x hx), fun x p hp => ?_⟩
  obtain ⟨c1, h1⟩ := h.some x p hp
  obtain ⟨c2, h2⟩ := h'.some x _ h1
  exact ⟨c2, h2⟩

theorem canProduceTerminal_alike {σ : Iter} {g : Gram} (hg : Sane g) {a : Nat} (ha : (g.prod a).isSome) :
    ∃ b g', g.canProduceTerminal σ a = some (b, g') ∧ Alike g g' := by
  obtain ⟨p, hp⟩ := Option.isSome_iff_exists.1 ha
  unfold Gram.canProduceTerminal
  rw [hp]
  simp only
  cases hc : p.cpt with
  | some b => exact ⟨b, g, rfl, (Marked.refl g).alike⟩
  | none =>
    simp only
    generalize g.order.filter (fun b =>
        match g.prod b with
        | .none => false
        | .some q => q.cpt.isNone && q.rules.any (·.hasTerm)) = queue
    have hm := marked_foldl queue g
    obtain ⟨g', h, hm'⟩ := cptLoop_marked (σ := σ) (2 * g.order.length + 1) (queue.foldl Gram.mark g) queue.reverse queue
      (fun x b hb => by rw [hm.usedBy] at hb; rw [hm.isSome]; exact (hg.used b x hb).1)
    have hmm := (hm.trans hm').alike
    obtain ⟨c, hc'⟩ := hmm.some a p hp
    rw [h]
    simp only [hc']
    cases c with
    | some b => exact ⟨b, g', rfl, hmm⟩
    | none =>
      refine ⟨false, _, rfl, hmm.trans ⟨rfl, rfl, rfl, fun b hb => ?_, fun b q hq => ?_⟩⟩
      · have : b ≠ a := by rintro rfl; rw [hc'] at hb; cases hb
        simp [Gram.setProd, this, hb]
      · by_cases h : b = a
        · subst h
          rw [hc'] at hq; cases hq
          exact ⟨some false, by simp [Gram.setProd]⟩
        · exact ⟨q.cpt, by simp [Gram.setProd, h, hq]⟩

/-- The second loop of `simplify` never fails, and removes no production that is not removable. -/
theorem dropEmpty_sane {σ : Iter} (hσ : σ.Ok) : ∀ (xs : List Nat) (g : Gram), Sane g → xs.Nodup →
    (∀ x ∈ xs, x ∈ g.order) → ∃ m g', Gram.dropEmpty σ xs g = some (m, g') ∧ Sane g' ∧ g'.start = g.start ∧
      (∀ a p, g.prod a = some p → p.removable = false → a ∈ g'.order) ∧ (∀ a ∈ g'.order, a ∈ g.order) := by
  intro xs
  induction xs with
  | nil =>
    intro g hg _ _
    exact ⟨false, g, rfl, hg, rfl, fun a p hp _ => (hg.mem_order a).2 (by rw [hp]; rfl), fun a h => h⟩
  | cons x xs ih =>
    intro g hg hnd hin
    obtain ⟨hx, hnd'⟩ := List.nodup_cons.1 hnd
    have hsx := (hg.mem_order x).1 (hin x (by simp))
    obtain ⟨p, hp⟩ := Option.isSome_iff_exists.1 hsx
    simp only [Gram.dropEmpty, hp]
    cases hr : p.removable with
    | false =>
      simp only [Bool.false_eq_true, if_false]
      exact ih g hg hnd' (fun y hy => hin y (by simp [hy]))
    | true =>
      simp only [if_true]
      obtain ⟨b, g1, h1, ha1⟩ := canProduceTerminal_alike (σ := σ) hg hsx
      have hg1 := hg.alike ha1
      rw [h1]
      cases b with
      | true =>
        simp only
        obtain ⟨m, g2, h2, hg2, hst2, hk2, hs2⟩ := ih g1 hg1 hnd'
          (fun y hy => by rw [ha1.order]; exact hin y (by simp [hy]))
        refine ⟨m, g2, h2, hg2, hst2.trans ha1.start, fun a q hq hqr => ?_, fun a ha => ?_⟩
        · obtain ⟨c, hc⟩ := ha1.some a q hq
          exact hk2 a _ hc hqr
        · rw [← ha1.order]; exact hs2 a ha
      | false =>
        simp only
        obtain ⟨g2, h2, hg2, ho2, hst2, hk2, _⟩ := hg1.remove hσ (x := x) (by rw [ha1.isSome]; exact hsx)
        rw [h2]
        simp only
        obtain ⟨m, g3, h3, hg3, hst3, hk3, hs3⟩ := ih g2 hg2 hnd' (by
          intro y hy
          rw [ho2, List.mem_filter, ha1.order, decide_eq_true_eq]
          exact ⟨hin y (by simp [hy]), fun e => hx (e ▸ hy)⟩)
        refine ⟨true, g3, by rw [h3]; rfl, hg3, hst3.trans (hst2.trans ha1.start), fun a q hq hqr => ?_, fun a ha => ?_⟩
        · have hax : a ≠ x := by
            rintro rfl
            rw [hp] at hq; cases hq
            rw [hr] at hqr; cases hqr
          obtain ⟨c, hc⟩ := ha1.some a q hq
          obtain ⟨q', hq', hqr'⟩ := hk2 a _ hax hc
          exact hk3 a q' hq' (hqr'.trans hqr)
        · have := hs3 a ha
          rw [ho2, List.mem_filter, ha1.order] at this
          exact this.1

/-! ### The queue of `can_produce_terminal` -/

theorem unvisited_new {g : Gram} {v : List Nat} {a : Nat} (h : g.unvisited v a = true) : a ∉ v := by
  intro hin
  unfold Gram.unvisited at h
  cases hp : g.prod a with
  | none => rw [hp] at h; cases h
  | some p =>
    rw [hp] at h
    simp only [List.all_eq_true] at h
    have := h a hin
    rw [hp] at this
    simp only [Prodn.same, Bool.not_eq_true', Bool.and_eq_false_iff, or_self] at this
    have ht : (p.rules.all fun r => p.rules.any fun r' => decide (r'.seq = r.seq)) = true := by
      rw [List.all_eq_true]
      intro r hr
      rw [List.any_eq_true]
      exact ⟨r, hr, by simp⟩
    rw [ht] at this
    cases this

/-- Every production is queued at most once: with enough steps for that, more steps change nothing. -/
theorem cptLoop_enough {σ : Iter} (hσ : σ.Ok) : ∀ (fuel : Nat) (g : Gram) (q v : List Nat), g.order.Nodup →
    UsesNodup g → (∀ a b, b ∈ g.usedBy a → b ∈ g.order) →
    q.length + (g.order.filter (fun a => decide (a ∉ v))).length ≤ fuel →
    ∀ k, Gram.cptLoop σ (fuel + k) g q v = Gram.cptLoop σ fuel g q v := by
  intro fuel
  induction fuel with
  | zero =>
    intro g q v _ _ _ hle k
    have : q = [] := List.length_eq_zero_iff.1 (by omega)
    subst this
    cases k <;> rfl
  | succ n ih =>
    intro g q v ho hu hin hle k
    rw [Nat.add_right_comm]
    cases q with
    | nil => rfl
    | cons a q =>
      simp only [Gram.cptLoop]
      split
      · generalize hus : (σ.names (g.usedBy a)).filter (g.unvisited v) = us
        have hm := marked_foldl us g
        refine ih _ _ _ (by rw [hm.order]; exact ho) (fun x => by rw [hm.usedBy]; exact hu x)
          (fun x b => by rw [hm.usedBy, hm.order]; exact hin x b) ?_ k
        rw [hm.order, List.length_append, List.length_reverse]
        have hnd : us.Nodup := by rw [← hus]; exact ((hσ.names _).nodup_iff.2 (hu a)).filter _
        have hmem : ∀ b ∈ us, b ∈ g.order ∧ b ∉ v := by
          intro b hb
          rw [← hus, List.mem_filter, (hσ.names _).mem_iff] at hb
          exact ⟨hin a b hb.1, unvisited_new hb.2⟩
        have hsub : (us ++ g.order.filter (fun a => decide (a ∉ us ++ v))).length ≤
            (g.order.filter (fun a => decide (a ∉ v))).length := by
          refine (List.Nodup.subperm (List.nodup_append.2 ⟨hnd, ho.filter _, ?_⟩) ?_).length_le
          · intro x hx y hy e
            subst e
            rw [List.mem_filter, decide_eq_true_eq] at hy
            exact hy.2 (by simp [hx])
          · intro b hb
            rw [List.mem_filter, decide_eq_true_eq]
            rcases List.mem_append.1 hb with hb | hb
            · exact hmem b hb
            · rw [List.mem_filter, decide_eq_true_eq] at hb
              exact ⟨hb.1, fun h => hb.2 (by simp [h])⟩
        rw [List.length_append] at hsub
        simp only [List.length_cons] at hle
        omega
      · rfl

end Verif.PyGrammar
