import Verif.PyGrammarLemmas
/-
`Grammar.simplify`: the first loop keeps all languages.
-/
namespace Verif.Spec

theorem Derives.mono {G G' : Cfg} (h : ∀ a r, r ∈ G a → r ∈ G' a) {s : List Sym} {w : List Nat}
    (hd : Derives G s w) : Derives G' s w := by
  induction hd with
  | nil => exact .nil
  | term _ ih => exact .term ih
  | nt hr _ _ ih1 ih2 => exact .nt (h _ _ hr) ih1 ih2

/-- Rules that can be derived may be used. -/
theorem Derives.replace {G G' : Cfg} (h : ∀ a r, r ∈ G a → ∀ w, Derives G' r w → Derives G' [.nt a] w)
    {s : List Sym} {w : List Nat} (hd : Derives G s w) : Derives G' s w := by
  induction hd with
  | nil => exact .nil
  | term _ ih => exact .term ih
  | nt hr _ _ ih1 ih2 => exact (h _ _ hr _ ih1).append ih2

/-- Names that no rule mentions are not needed. -/
theorem Derives.without {G G' : Cfg} {x : Nat} (h : ∀ a, a ≠ x → ∀ r, r ∈ G a → r ∈ G' a ∧ .nt x ∉ r)
    {s : List Sym} {w : List Nat} (hd : Derives G s w) (hs : .nt x ∉ s) : Derives G' s w := by
  induction hd with
  | nil => exact .nil
  | term _ ih => exact .term (ih (fun h => hs (List.mem_cons_of_mem _ h)))
  | @nt A r s u w hr _ _ ih1 ih2 =>
    have hne : A ≠ x := fun e => hs (by simp [e])
    exact .nt (h A hne r hr).1 (ih1 (h A hne r hr).2) (ih2 (fun h => hs (List.mem_cons_of_mem _ h)))

end Verif.Spec

namespace Verif.PyGrammar
open Verif.Spec Verif.PyTree

theorem subst_derives {G : Cfg} {x : Nat} {rep : List Sym} (h : ∀ r, r ∈ G x ↔ r = rep) {s : List Sym}
    {w : List Nat} : Derives G (subst x rep s) w ↔ Derives G s w := by
  induction s generalizing w with
  | nil => simp [subst]
  | cons y s ih =>
    simp only [subst]
    split
    · next e =>
      subst e
      rw [Derives.append_iff, Derives.nt_iff]
      constructor
      · rintro ⟨u, v, rfl, h1, h2⟩
        exact ⟨rep, (h _).2 rfl, u, v, rfl, h1, ih.1 h2⟩
      · rintro ⟨r, hr, u, v, rfl, h1, h2⟩
        rw [(h r).1 hr] at h1
        exact ⟨u, v, rfl, h1, ih.2 h2⟩
    · cases y with
      | term b =>
        simp only [Derives.term_iff, ih]
      | nt a =>
        simp only [Derives.nt_iff, ih]

/-- What `replace_sub_production` makes of a sequence. -/
def inl (x : Nat) (rep s : List Sym) : List Sym := if .nt x ∈ s then combine (subst x rep s) else s

theorem replaceSub_seq (r : Rule) (x : Nat) (rep : List Sym) : (r.replaceSub x rep).1.seq = inl x rep r.seq := by
  unfold Rule.replaceSub inl
  split <;> rfl

theorem replaceSub_flag (r : Rule) (x : Nat) (rep : List Sym) : (r.replaceSub x rep).1.hasTerm = r.hasTerm := by
  unfold Rule.replaceSub
  split <;> rfl

theorem replaceSub_mod (r : Rule) (x : Nat) (rep : List Sym) :
    (r.replaceSub x rep).2 = decide (.nt x ∈ r.seq) := by
  unfold Rule.replaceSub
  split
  · next h => simp [h]
  · next h => simp [h]

theorem inl_derives {G : Cfg} {x : Nat} {rep : List Sym} (h : ∀ r, r ∈ G x ↔ r = rep) {s : List Sym}
    {w : List Nat} : Derives G (inl x rep s) w ↔ Derives G s w := by
  unfold inl
  split
  · rw [combine_derives, subst_derives h]
  · rfl

theorem mem_subst {x : Nat} {rep s : List Sym} {y : Sym} :
    y ∈ subst x rep s ↔ (y ∈ s ∧ y ≠ .nt x) ∨ (.nt x ∈ s ∧ y ∈ rep) := by
  induction s with
  | nil => simp [subst]
  | cons z s ih =>
    simp only [subst]
    split
    · next e =>
      subst e
      simp only [List.mem_append, ih, List.mem_cons, true_or, true_and]
      constructor
      · rintro (h | ⟨h1, h2⟩ | ⟨_, h⟩)
        · exact .inr h
        · exact .inl ⟨.inr h1, h2⟩
        · exact .inr h
      · rintro (⟨h1 | h1, h2⟩ | h)
        · exact absurd h1 h2
        · exact .inr (.inl ⟨h1, h2⟩)
        · exact .inl h
    · next e =>
      simp only [List.mem_cons, ih]
      constructor
      · rintro (rfl | ⟨h1, h2⟩ | ⟨h1, h2⟩)
        · exact .inl ⟨.inl rfl, e⟩
        · exact .inl ⟨.inr h1, h2⟩
        · exact .inr ⟨.inr h1, h2⟩
      · rintro (⟨rfl | h1, h2⟩ | ⟨h1 | h1, h2⟩)
        · exact .inl rfl
        · exact .inr (.inl ⟨h1, h2⟩)
        · exact absurd h1.symm e
        · exact .inr (.inr ⟨h1, h2⟩)

theorem mem_inl {x : Nat} {rep s : List Sym} {v : Nat} :
    .nt v ∈ inl x rep s ↔ (.nt v ∈ s ∧ v ≠ x) ∨ (.nt x ∈ s ∧ .nt v ∈ rep) := by
  unfold inl
  split
  · next h =>
    rw [mem_combine, mem_subst]
    simp
  · next h =>
    constructor
    · intro hv
      exact .inl ⟨hv, fun e => h (e ▸ hv)⟩
    · rintro (h1 | h1)
      · exact h1.1
      · exact absurd h1.1 h

theorem inl_self {x : Nat} {rep s : List Sym} (h : .nt x ∉ s) : inl x rep s = s := if_neg h

/-- The loop over the rules: the sequences afterwards. -/
theorem replaceSubLoop_seqs {x : Nat} {rep : List Sym} (hx : .nt x ∉ rep) :
    ∀ (todo rs : List Rule) (m : Bool), (todo.map (·.seq)).Nodup →
      (∀ s, s ∈ todo.map (·.seq) → s ∈ rs.map (·.seq)) → ∀ s,
      s ∈ (replaceSubLoop x rep todo rs m).1.map (·.seq) ↔
        (s ∈ rs.map (·.seq) ∧ s ∉ todo.map (·.seq)) ∨ ∃ r ∈ todo.map (·.seq), s = inl x rep r := by
  intro todo
  induction todo with
  | nil => intro rs m _ _ s; simp [replaceSubLoop]
  | cons r todo ih =>
    intro rs m hnd hsub s
    simp only [replaceSubLoop]
    simp only [List.map_cons, List.nodup_cons] at hnd
    have hmem : ∀ s, s ∈ (addRule (delRule rs r) (r.replaceSub x rep).1).map (·.seq) ↔
        (s ∈ rs.map (·.seq) ∧ s ≠ r.seq) ∨ s = inl x rep r.seq := by
      intro s
      rw [mem_addRule, mem_delRule, replaceSub_seq]
    rw [ih _ _ hnd.2 (by
      intro s hs
      rw [hmem]
      exact .inl ⟨hsub s (by simp only [List.map_cons, List.mem_cons]; exact .inr hs),
        fun e => hnd.1 (e ▸ hs)⟩)]
    rw [hmem]
    simp only [List.map_cons, List.mem_cons, not_or, exists_eq_or_imp]
    constructor
    · rintro (⟨⟨h1, h2⟩ | h1, h3⟩ | h1)
      · exact .inl ⟨h1, h2, h3⟩
      · exact .inr (.inl h1)
      · exact .inr (.inr h1)
    · rintro (⟨h1, h2, h3⟩ | h1 | h1)
      · exact .inl ⟨.inl ⟨h1, h2⟩, h3⟩
      · by_cases hin : s ∈ todo.map (·.seq)
        · refine .inr ⟨s, hin, ?_⟩
          rw [inl_self]
          rw [h1, mem_inl]
          rintro (⟨_, h⟩ | ⟨_, h⟩)
          · exact h rfl
          · exact hx h
        · exact .inl ⟨.inr h1, hin⟩
      · exact .inr h1

theorem replaceSubLoop_mod {x : Nat} {rep : List Sym} : ∀ (todo rs : List Rule) (m : Bool),
    (replaceSubLoop x rep todo rs m).2 = true ↔ m = true ∨ ∃ s ∈ todo.map (·.seq), .nt x ∈ s := by
  intro todo
  induction todo with
  | nil => intro rs m; simp [replaceSubLoop]
  | cons r todo ih =>
    intro rs m
    simp only [replaceSubLoop]
    rw [ih, replaceSub_mod]
    simp only [Bool.or_eq_true, decide_eq_true_eq, List.map_cons, List.mem_cons, exists_eq_or_imp]
    constructor
    · rintro ((h | h) | h)
      · exact .inr (.inl h)
      · exact .inl h
      · exact .inr (.inr h)
    · rintro (h | h | h)
      · exact .inl (.inr h)
      · exact .inl (.inl h)
      · exact .inr h

theorem nodup_addRule {rs : List Rule} {r : Rule} (h : (rs.map (·.seq)).Nodup) :
    ((addRule rs r).map (·.seq)).Nodup := by
  unfold addRule
  split
  · exact h
  · next hn =>
    rw [List.map_append, List.nodup_append]
    refine ⟨h, by simp, ?_⟩
    intro a ha b hb e
    simp only [List.map_cons, List.map_nil, List.mem_singleton] at hb
    subst hb; subst e
    exact hn (any_seq.2 ha)

theorem nodup_delRule {rs : List Rule} {r : Rule} (h : (rs.map (·.seq)).Nodup) :
    ((delRule rs r).map (·.seq)).Nodup :=
  h.sublist (List.Sublist.map _ List.filter_sublist)

theorem replaceSubLoop_nodup {x : Nat} {rep : List Sym} : ∀ (todo rs : List Rule) (m : Bool),
    (rs.map (·.seq)).Nodup → ((replaceSubLoop x rep todo rs m).1.map (·.seq)).Nodup := by
  intro todo
  induction todo with
  | nil => intro rs m h; exact h
  | cons r todo ih => intro rs m h; exact ih _ _ (nodup_addRule (nodup_delRule h))

theorem mem_addRule' {rs : List Rule} {r q : Rule} (h : q ∈ addRule rs r) : q ∈ rs ∨ q = r := by
  unfold addRule at h
  split at h
  · exact .inl h
  · simpa using h

/-- Flags stay: if all rules have the flag, so do all afterwards. -/
theorem replaceSubLoop_flags {x : Nat} {rep : List Sym} : ∀ (todo rs : List Rule) (m : Bool),
    (∀ r ∈ todo, r.hasTerm = true) → (∀ r ∈ rs, r.hasTerm = true) →
    ∀ r ∈ (replaceSubLoop x rep todo rs m).1, r.hasTerm = true := by
  intro todo
  induction todo with
  | nil => intro rs m _ h; exact h
  | cons r todo ih =>
    intro rs m ht hr
    refine ih _ _ (fun q hq => ht q (by simp [hq])) ?_
    intro q hq
    rcases mem_addRule' hq with hq | hq
    · exact hr q (List.mem_filter.1 hq).1
    · rw [hq]
      exact (replaceSub_flag r x rep).trans (ht r (by simp))

theorem replaceSubLoop_single {x : Nat} {rep : List Sym} (r : Rule) (m : Bool) :
    (replaceSubLoop x rep [r] [r] m).1.length = 1 := by
  simp [replaceSubLoop, delRule, addRule]

/-! ### The invariant -/

/-- A grammar in order: names in rules have productions, the table `used_by` is complete and, except for
entries of a production for itself, exact; every production derives something. -/
structure Good (g : Gram) : Prop where
  mem_order : ∀ a, a ∈ g.order ↔ (g.prod a).isSome
  closed : ∀ a q v, q ∈ g.cfg a → .nt v ∈ q → (g.prod v).isSome
  uses : ∀ a q v, q ∈ g.cfg a → .nt v ∈ q → a ∈ g.usedBy v
  used : ∀ a v, a ∈ g.usedBy v → (g.prod a).isSome ∧ (a = v ∨ ∃ q ∈ g.cfg a, .nt v ∈ q)
  nodup : ∀ a, (g.cfg a).Nodup
  productive : ∀ a, (g.prod a).isSome → ∃ w, g.cfg.Lang a w

theorem cfg_of_prod {g : Gram} {a : Nat} {p : Prodn} (h : g.prod a = some p) : g.cfg a = p.rules.map (·.seq) := by
  simp [Gram.cfg, h]

/-- `remove_recursive_rules` keeps all languages. -/
theorem dropRecursive_lang {g : Gram} {x : Nat} {p : Prodn} (hp : g.prod x = some p) {s : List Sym} {w : List Nat} :
    Derives (g.setProd x (p.dropRecursive x)).cfg s w ↔ Derives g.cfg s w := by
  have hc : ∀ a r, r ∈ (g.setProd x (p.dropRecursive x)).cfg a ↔ r ∈ g.cfg a ∧ ¬ (a = x ∧ r = [.nt x]) := by
    intro a r
    rw [cfg_setProd]
    by_cases h : a = x
    · subst h
      simp only [if_true, true_and, cfg_of_prod hp, Prodn.dropRecursive, List.mem_map, List.mem_filter,
        decide_eq_true_eq]
      constructor
      · rintro ⟨q, ⟨hq, hne⟩, rfl⟩; exact ⟨⟨q, hq, rfl⟩, hne⟩
      · rintro ⟨⟨q, hq, rfl⟩, hne⟩; exact ⟨q, ⟨hq, hne⟩, rfl⟩
    · simp [h]
  constructor
  · exact Derives.mono (fun a r hr => ((hc a r).1 hr).1)
  · refine Derives.replace (fun a r hr w hd => ?_)
    by_cases h : a = x ∧ r = [.nt x]
    · rw [h.2] at hd; rw [h.1]; exact hd
    · rw [Derives.single_iff]
      exact ⟨r, (hc a r).2 ⟨hr, h⟩, hd⟩

/-- A production whose only rule mentions itself derives nothing. -/
theorem not_derives_self {G : Cfg} {x : Nat} (h : ∀ r ∈ G x, .nt x ∈ r) {s : List Sym} {w : List Nat}
    (hd : Derives G s w) : .nt x ∉ s := by
  induction hd with
  | nil => simp
  | term _ ih =>
    intro hin
    rcases List.mem_cons.1 hin with e | hin
    · cases e
    · exact ih hin
  | @nt A r s u w hr _ _ ih1 ih2 =>
    intro hin
    rcases List.mem_cons.1 hin with e | hin
    · simp only [Sym.nt.injEq] at e
      subst e
      exact ih1 (h r hr)
    · exact ih2 hin

theorem Good.dropRecursive {g : Gram} (hg : Good g) {x : Nat} {p : Prodn} (hp : g.prod x = some p) :
    Good (g.setProd x (p.dropRecursive x)) := by
  have hsome : ∀ a, ((g.setProd x (p.dropRecursive x)).prod a).isSome ↔ (g.prod a).isSome := by
    intro a
    simp only [Gram.setProd]
    by_cases h : a = x
    · subst h; simp [hp]
    · simp [h]
  have hsub : ∀ a r, r ∈ (g.setProd x (p.dropRecursive x)).cfg a → r ∈ g.cfg a := by
    intro a r
    rw [cfg_setProd]
    by_cases h : a = x
    · subst h
      simp only [if_true, cfg_of_prod hp, Prodn.dropRecursive, List.mem_map, List.mem_filter]
      rintro ⟨q, ⟨hq, _⟩, rfl⟩; exact ⟨q, hq, rfl⟩
    · simp [h]
  refine ⟨fun a => ?_, fun a q v hq hv => ?_, fun a q v hq hv => ?_, fun a v ha => ?_, fun a => ?_, fun a ha => ?_⟩
  · rw [hsome]; exact hg.mem_order a
  · rw [hsome]; exact hg.closed a q v (hsub a q hq) hv
  · exact hg.uses a q v (hsub a q hq) hv
  · obtain ⟨h1, h2⟩ := hg.used a v ha
    refine ⟨(hsome a).2 h1, ?_⟩
    rcases h2 with h2 | ⟨q, hq, hv⟩
    · exact .inl h2
    · by_cases hax : a = x ∧ q = [.nt x]
      · left
        rw [hax.2] at hv
        simp only [List.mem_singleton, Sym.nt.injEq] at hv
        rw [hax.1, hv]
      · refine .inr ⟨q, ?_, hv⟩
        rw [cfg_setProd]
        by_cases h : a = x
        · subst h
          simp only [if_true, Prodn.dropRecursive, List.mem_map, List.mem_filter, decide_eq_true_eq]
          rw [cfg_of_prod hp, List.mem_map] at hq
          obtain ⟨r, hr, rfl⟩ := hq
          exact ⟨r, ⟨hr, fun e => hax ⟨rfl, e⟩⟩, rfl⟩
        · simpa [h] using hq
  · rw [cfg_setProd]
    by_cases h : a = x
    · subst h
      simp only [if_true, Prodn.dropRecursive]
      have := hg.nodup a
      rw [cfg_of_prod hp] at this
      exact this.sublist (List.Sublist.map _ List.filter_sublist)
    · simp only [h, if_false]; exact hg.nodup a
  · obtain ⟨w, hw⟩ := hg.productive a ((hsome a).1 ha)
    exact ⟨w, (dropRecursive_lang hp).2 hw⟩

/-- What becomes of a production that is changed in place. -/
structure Keeps (p p' : Prodn) : Prop where
  removable : p'.removable = p.removable
  cpt : p'.cpt = p.cpt
  single : p.rules.length = 1 → p'.rules.length = 1
  flags : (∀ r ∈ p.rules, r.hasTerm = true) → ∀ r ∈ p'.rules, r.hasTerm = true

theorem Keeps.refl (p : Prodn) : Keeps p p := ⟨rfl, rfl, id, id⟩

theorem Keeps.trans {p q r : Prodn} (h : Keeps p q) (h' : Keeps q r) : Keeps p r :=
  ⟨h'.removable.trans h.removable, h'.cpt.trans h.cpt, h'.single ∘ h.single, h'.flags ∘ h.flags⟩

/-- One user of `x` in which `x` is replaced. -/
theorem Good.replaceSub {σ : Iter} (hσ : σ.Ok) {g : Gram} (hg : Good g) {a x : Nat} {rep : List Sym}
    (ha : (g.prod a).isSome) (hx : (g.prod x).isSome) (hr : ∀ q, q ∈ g.cfg x ↔ q = rep) (hnx : .nt x ∉ rep) :
    ∃ g', g.replaceSub σ a x rep = some g' ∧ Good g' ∧ g'.order = g.order ∧ g'.start = g.start ∧
      (∀ b, (g'.prod b).isSome ↔ (g.prod b).isSome) ∧
      (∀ b q, q ∈ g'.cfg b ↔ if b = a then ∃ r ∈ g.cfg a, q = inl x rep r else q ∈ g.cfg b) ∧
      (∀ s w, Derives g'.cfg s w ↔ Derives g.cfg s w) ∧
      (∀ b ≠ a, g'.prod b = g.prod b) ∧
      (∀ p, g.prod a = some p → ∃ p', g'.prod a = some p' ∧ Keeps p p') := by
  obtain ⟨p, hp⟩ := Option.isSome_iff_exists.1 ha
  have hcfg := cfg_of_prod hp
  have hperm := hσ.rules p.rules
  have hpm : ∀ s, s ∈ (σ.rules p.rules).map (·.seq) ↔ s ∈ g.cfg a := by
    intro s; rw [hcfg]; exact (hperm.map _).mem_iff
  have hnd : ((σ.rules p.rules).map (·.seq)).Nodup := by
    rw [(hperm.map _).nodup_iff, ← hcfg]; exact hg.nodup a
  have hseqs : ∀ s, s ∈ (replaceSubLoop x rep (σ.rules p.rules) p.rules false).1.map (·.seq) ↔
      ∃ r ∈ g.cfg a, s = inl x rep r := by
    intro s
    rw [replaceSubLoop_seqs hnx _ _ _ hnd (fun s hs => by rw [hpm, hcfg] at hs; exact hs)]
    simp only [hpm, ← hcfg]
    constructor
    · rintro (⟨h1, h2⟩ | h)
      · exact absurd h1 h2
      · exact h
    · exact .inr
  have hmod := replaceSubLoop_mod (x := x) (rep := rep) (σ.rules p.rules) p.rules false
  simp only [hpm, Bool.false_eq_true, false_or] at hmod
  -- what the new grammar is like, whatever the table is
  have key : ∀ u : Nat → List Nat,
      (∀ b v, b ∈ u v ↔ ((b ∈ g.usedBy v ∧ ¬ (b = a ∧ v = x ∧ ∃ s ∈ g.cfg a, .nt x ∈ s)) ∨
        (b = a ∧ .nt v ∈ rep ∧ ∃ s ∈ g.cfg a, .nt x ∈ s))) →
      ∀ g', g' = ({ (g.setProd a { p with rules := (replaceSubLoop x rep (σ.rules p.rules) p.rules false).1 }) with
        usedBy := u } : Gram) →
      Good g' ∧ g'.order = g.order ∧ g'.start = g.start ∧
      (∀ b, (g'.prod b).isSome ↔ (g.prod b).isSome) ∧
      (∀ b q, q ∈ g'.cfg b ↔ if b = a then ∃ r ∈ g.cfg a, q = inl x rep r else q ∈ g.cfg b) ∧
      (∀ s w, Derives g'.cfg s w ↔ Derives g.cfg s w) ∧
      (∀ b ≠ a, g'.prod b = g.prod b) ∧
      (∀ p, g.prod a = some p → ∃ p', g'.prod a = some p' ∧ Keeps p p') := by
    intro u hu g' hg'
    have hc : ∀ b q, q ∈ g'.cfg b ↔ if b = a then ∃ r ∈ g.cfg a, q = inl x rep r else q ∈ g.cfg b := by
      intro b q
      subst hg'
      have := cfg_setProd g a { p with rules := (replaceSubLoop x rep (σ.rules p.rules) p.rules false).1 } b
      have e : Gram.cfg ({ (g.setProd a { p with rules := (replaceSubLoop x rep (σ.rules p.rules) p.rules false).1 }) with
        usedBy := u } : Gram) b = (g.setProd a { p with rules := (replaceSubLoop x rep (σ.rules p.rules) p.rules false).1 }).cfg b := rfl
      rw [e, this]
      by_cases h : b = a
      · subst h; simp only [if_true]; exact hseqs q
      · simp [h]
    have hsome : ∀ b, (g'.prod b).isSome ↔ (g.prod b).isSome := by
      intro b
      subst hg'
      simp only [Gram.setProd]
      by_cases h : b = a
      · subst h; simp [hp]
      · simp [h]
    have hx' : ∀ q, q ∈ g'.cfg x ↔ q = rep := by
      intro q
      rw [hc]
      by_cases h : x = a
      · subst h
        simp only [if_true, hr]
        constructor
        · rintro ⟨r, rfl, rfl⟩; exact inl_self hnx
        · rintro rfl; exact ⟨q, rfl, (inl_self hnx).symm⟩
      · simp only [h, if_false, hr]
    have hder : ∀ s w, Derives g'.cfg s w ↔ Derives g.cfg s w := by
      intro s w
      constructor
      · refine Derives.replace (fun b r hb w hd => ?_)
        rw [hc] at hb
        rw [Derives.single_iff]
        by_cases h : b = a
        · subst h
          simp only [if_true] at hb
          obtain ⟨q, hq, rfl⟩ := hb
          exact ⟨q, hq, (inl_derives hr).1 hd⟩
        · simp only [h, if_false] at hb
          exact ⟨r, hb, hd⟩
      · refine Derives.replace (fun b r hb w hd => ?_)
        rw [Derives.single_iff]
        by_cases h : b = a
        · subst h
          exact ⟨inl x rep r, (hc b _).2 (by simp only [if_true]; exact ⟨r, hb, rfl⟩), (inl_derives hx').2 hd⟩
        · exact ⟨r, (hc b _).2 (by simpa [h] using hb), hd⟩
    have hub : ∀ b v, b ∈ g'.usedBy v ↔ b ∈ u v := by intro b v; subst hg'; rfl
    refine ⟨⟨fun b => ?_, fun b q v hq hv => ?_, fun b q v hq hv => ?_, fun b v hb => ?_, fun b => ?_, fun b hb => ?_⟩,
      by subst hg'; rfl, by subst hg'; rfl, hsome, hc, hder, fun b hb => ?_, fun p0 hp0 => ?_⟩
    · rw [hsome]; subst hg'; exact hg.mem_order b
    · rw [hsome]
      rw [hc] at hq
      by_cases h : b = a
      · subst h
        simp only [if_true] at hq
        obtain ⟨r, hrr, rfl⟩ := hq
        rw [mem_inl] at hv
        rcases hv with ⟨hv, _⟩ | ⟨_, hv⟩
        · exact hg.closed b r v hrr hv
        · exact hg.closed x rep v ((hr rep).2 rfl) hv
      · simp only [h, if_false] at hq
        exact hg.closed b q v hq hv
    · rw [hub, hu]
      rw [hc] at hq
      by_cases h : b = a
      · subst h
        simp only [if_true] at hq
        obtain ⟨r, hrr, rfl⟩ := hq
        rw [mem_inl] at hv
        rcases hv with ⟨hv, hne⟩ | ⟨hxr, hv⟩
        · exact .inl ⟨hg.uses b r v hrr hv, fun h => hne h.2.1⟩
        · exact .inr ⟨rfl, hv, r, hrr, hxr⟩
      · simp only [h, if_false] at hq
        exact .inl ⟨hg.uses b q v hq hv, fun h' => h h'.1⟩
    · rw [hub, hu] at hb
      rcases hb with ⟨hb, hne⟩ | ⟨rfl, hv, s, hs, hxs⟩
      · obtain ⟨h1, h2⟩ := hg.used b v hb
        refine ⟨(hsome b).2 h1, ?_⟩
        rcases h2 with h2 | ⟨q, hq, hv⟩
        · exact .inl h2
        · by_cases h : b = a
          · subst h
            by_cases hvx : v = x
            · subst hvx
              exact absurd ⟨rfl, rfl, q, hq, hv⟩ hne
            · refine .inr ⟨inl x rep q, (hc b _).2 (by simp only [if_true]; exact ⟨q, hq, rfl⟩), ?_⟩
              rw [mem_inl]; exact .inl ⟨hv, hvx⟩
          · exact .inr ⟨q, (hc b _).2 (by simpa [h] using hq), hv⟩
      · refine ⟨(hsome b).2 ha, .inr ⟨inl x rep s, (hc b _).2 (by simp only [if_true]; exact ⟨s, hs, rfl⟩), ?_⟩⟩
        rw [mem_inl]; exact .inr ⟨hxs, hv⟩
    · have e : ∀ b, b ≠ a → g'.cfg b = g.cfg b := by
        intro b h
        subst hg'
        simp [Gram.cfg, Gram.setProd, h]
      by_cases h : b = a
      · subst h
        subst hg'
        have : Gram.cfg ({ (g.setProd b { p with rules := (replaceSubLoop x rep (σ.rules p.rules) p.rules false).1 }) with
          usedBy := u } : Gram) b = (replaceSubLoop x rep (σ.rules p.rules) p.rules false).1.map (·.seq) := by
          simp [Gram.cfg, Gram.setProd]
        rw [this]
        exact replaceSubLoop_nodup _ _ _ (by rw [← hcfg]; exact hg.nodup b)
      · rw [e b h]; exact hg.nodup b
    · obtain ⟨w, hw⟩ := hg.productive b ((hsome b).1 hb)
      exact ⟨w, (hder _ _).2 hw⟩
    · subst hg'; simp [Gram.setProd, hb]
    · rw [hp] at hp0; cases hp0
      refine ⟨{ p with rules := (replaceSubLoop x rep (σ.rules p.rules) p.rules false).1 },
        by subst hg'; simp [Gram.setProd], rfl, rfl, fun h1 => ?_, fun hf => ?_⟩
      · obtain ⟨r, hr1⟩ := List.length_eq_one_iff.1 h1
        have : σ.rules p.rules = [r] := by
          have := hperm; rw [hr1] at this ⊢; exact List.perm_singleton.1 this
        show (replaceSubLoop x rep (σ.rules p.rules) p.rules false).1.length = 1
        rw [this, hr1]
        exact replaceSubLoop_single r false
      · exact replaceSubLoop_flags _ _ _ (fun r hr => hf r ((hperm.mem_iff).1 hr)) hf
  have heq : g.replaceSub σ a x rep =
      if (replaceSubLoop x rep (σ.rules p.rules) p.rules false).2 = true then
        if a ∈ g.usedBy x then
          some { (g.setProd a { p with rules := (replaceSubLoop x rep (σ.rules p.rules) p.rules false).1 }) with
            usedBy := addUses (fun m => if m = x then delName (g.usedBy x) a else g.usedBy m) a
              (PyGrammar.names rep) }
        else none
      else some (g.setProd a { p with rules := (replaceSubLoop x rep (σ.rules p.rules) p.rules false).1 }) := by
    unfold Gram.replaceSub
    rw [hp]
  rw [heq]
  by_cases hm : ∃ s ∈ g.cfg a, .nt x ∈ s
  · have hm' := hmod.2 hm
    obtain ⟨s, hs, hxs⟩ := hm
    rw [if_pos hm', if_pos (hg.uses a s x hs hxs)]
    refine ⟨_, rfl, key (addUses (fun m => if m = x then delName (g.usedBy x) a else g.usedBy m) a
      (PyGrammar.names rep)) (fun b v => ?_) _ rfl⟩
    rw [mem_addUses, mem_names]
    by_cases hv : v = x
    · subst hv
      simp only [if_true, mem_delName]
      constructor
      · rintro (⟨h1, h2⟩ | ⟨h1, h2⟩)
        · exact .inl ⟨h1, fun h => h2 h.1⟩
        · exact .inr ⟨h1, h2, s, hs, hxs⟩
      · rintro (⟨h1, h2⟩ | ⟨h1, h2, _⟩)
        · exact .inl ⟨h1, fun h => h2 ⟨h, trivial, s, hs, hxs⟩⟩
        · exact .inr ⟨h1, h2⟩
    · simp only [hv, if_false]
      constructor
      · rintro (h1 | ⟨h1, h2⟩)
        · exact .inl ⟨h1, fun h => h.2.1.elim⟩
        · exact .inr ⟨h1, h2, s, hs, hxs⟩
      · rintro (⟨h1, _⟩ | ⟨h1, h2, _⟩)
        · exact .inl h1
        · exact .inr ⟨h1, h2⟩
  · have hm' : (replaceSubLoop x rep (σ.rules p.rules) p.rules false).2 = false := by
      cases h : (replaceSubLoop x rep (σ.rules p.rules) p.rules false).2 with
      | false => rfl
      | true => exact absurd (hmod.1 h) hm
    rw [if_neg (by simp [hm'])]
    refine ⟨_, rfl, key g.usedBy (fun b v => ?_) _ rfl⟩
    constructor
    · intro h; exact .inl ⟨h, fun h' => hm h'.2.2⟩
    · rintro (h | h)
      · exact h.1
      · exact absurd h.2.2 hm

/-- All users of `x`. -/
theorem inlineInto_good {σ : Iter} (hσ : σ.Ok) {x : Nat} {rep : List Sym} (hnx : .nt x ∉ rep) :
    ∀ (us : List Nat) (g : Gram), Good g → (∀ a ∈ us, (g.prod a).isSome) →
      (∃ p, g.prod x = some p ∧ p.rules.length = 1) → (∀ q, q ∈ g.cfg x ↔ q = rep) →
      ∃ g', Gram.inlineInto σ x us g = some g' ∧ Good g' ∧ g'.order = g.order ∧ g'.start = g.start ∧
        (∀ s w, Derives g'.cfg s w ↔ Derives g.cfg s w) ∧
        (∀ b, ((∀ q ∈ g.cfg b, .nt x ∉ q) ∨ b ∈ us) → ∀ q ∈ g'.cfg b, .nt x ∉ q) ∧
        (∀ b p, g.prod b = some p → ∃ p', g'.prod b = some p' ∧ Keeps p p') := by
  intro us
  induction us with
  | nil =>
    intro g hg _ _ _
    refine ⟨g, rfl, hg, rfl, rfl, fun _ _ => Iff.rfl, fun b hb => ?_, fun b p hp => ⟨p, hp, Keeps.refl p⟩⟩
    rcases hb with hb | hb
    · exact hb
    · simp at hb
  | cons a us ih =>
    intro g hg hus hone hr
    obtain ⟨p, hp, hlen⟩ := hone
    obtain ⟨r, hpr⟩ := List.length_eq_one_iff.1 hlen
    have hhead : (g.prod x).bind (fun p => (σ.rules p.rules).head?) = some r := by
      have hperm := hσ.rules p.rules
      rw [hpr] at hperm
      rw [hp, Option.bind_some, hpr, List.perm_singleton.1 hperm]
      rfl
    have hrs : r.seq = rep := by
      refine (hr r.seq).1 ?_
      rw [cfg_of_prod hp, hpr]
      simp
    have hx : (g.prod x).isSome := by rw [hp]; rfl
    obtain ⟨g1, h1, hg1, ho1, hst1, hsome1, hc1, hd1, hother1, hself1⟩ :=
      hg.replaceSub hσ (hus a (by simp)) hx hr hnx
    have hx1 : ∀ q, q ∈ g1.cfg x ↔ q = rep := by
      intro q
      rw [hc1]
      by_cases h : x = a
      · subst h
        simp only [if_true, hr]
        constructor
        · rintro ⟨r, rfl, rfl⟩; exact inl_self hnx
        · rintro rfl; exact ⟨q, rfl, (inl_self hnx).symm⟩
      · simp only [h, if_false, hr]
    have hk1 : ∀ b p, g.prod b = some p → ∃ p', g1.prod b = some p' ∧ Keeps p p' := by
      intro b q hq
      by_cases h : b = a
      · subst h; exact hself1 q hq
      · exact ⟨q, by rw [hother1 b h, hq], Keeps.refl q⟩
    obtain ⟨p1, hp1, hkp1⟩ := hk1 x p hp
    obtain ⟨g2, h2, hg2, ho2, hst2, hd2, hno2, hk2⟩ := ih g1 hg1
      (fun b hb => (hsome1 b).2 (hus b (by simp [hb]))) ⟨p1, hp1, hkp1.single hlen⟩ hx1
    refine ⟨g2, ?_, hg2, ho2.trans ho1, hst2.trans hst1, fun s w => (hd2 s w).trans (hd1 s w), fun b hb => ?_,
      fun b q hq => ?_⟩
    · simp only [Gram.inlineInto, hhead, hrs, h1, h2]
    · refine hno2 b ?_
      by_cases h : b = a
      · left
        intro q hq
        rw [hc1, if_pos h] at hq
        obtain ⟨r, _, rfl⟩ := hq
        rw [mem_inl]
        rintro (⟨_, h⟩ | ⟨_, h⟩)
        · exact h rfl
        · exact hnx h
      · rcases hb with hb | hb
        · left
          intro q hq
          rw [hc1, if_neg h] at hq
          exact hb q hq
        · rcases List.mem_cons.1 hb with hb | hb
          · exact absurd hb h
          · exact .inr hb
    · obtain ⟨q1, hq1, hkq1⟩ := hk1 b q hq
      obtain ⟨q2, hq2, hkq2⟩ := hk2 b q1 hq1
      exact ⟨q2, hq2, hkq1.trans hkq2⟩

theorem removeFrom_self {σ : Iter} {x : Nat} : ∀ (us : List Nat) (g : Gram), (∀ a ∈ us, a = x) →
    Gram.removeFrom σ x us g = some g := by
  intro us
  induction us with
  | nil => intro g _; rfl
  | cons a us ih =>
    intro g h
    have : a = x := h a (by simp)
    subst this
    simp only [Gram.removeFrom, if_true]
    exact ih g (fun b hb => h b (by simp [hb]))

/-- `remove` of a production that no rule mentions. -/
theorem Good.remove {σ : Iter} (hσ : σ.Ok) {g : Gram} (hg : Good g) {x : Nat} (hx : (g.prod x).isSome)
    (hno : ∀ b, ∀ q ∈ g.cfg b, .nt x ∉ q) :
    ∃ g', g.remove σ x = some g' ∧ Good g' ∧ g'.order = g.order.filter (fun a => decide (a ≠ x)) ∧
      g'.start = g.start ∧ g'.prod x = none ∧ (∀ b ≠ x, g'.prod b = g.prod b) ∧
      (∀ s w, .nt x ∉ s → (Derives g'.cfg s w ↔ Derives g.cfg s w)) := by
  obtain ⟨p, hp⟩ := Option.isSome_iff_exists.1 hx
  have hself : ∀ a ∈ σ.names (delUses g.usedBy x (p.rules.flatMap (fun r => PyGrammar.names r.seq)) x), a = x := by
    intro a ha
    rw [(hσ.names _).mem_iff, mem_delUses] at ha
    rcases (hg.used a x ha.1).2 with h | ⟨q, hq, hv⟩
    · exact h
    · exact absurd hv (hno a q hq)
  have heq : g.remove σ x = some
      { g with
        order := g.order.filter (fun a => decide (a ≠ x)),
        prod := fun a => if a = x then none else g.prod a,
        usedBy := fun a => if a = x then [] else
          delUses g.usedBy x (p.rules.flatMap (fun r => PyGrammar.names r.seq)) a } := by
    simp only [Gram.remove, hp, removeFrom_self _ _ hself]
  refine ⟨_, heq, ?_, rfl, rfl, by simp, fun b hb => by simp [hb], ?_⟩
  all_goals
    generalize hg' : Gram.mk _ _ _ _ = g'
    have hprod : ∀ b, g'.prod b = if b = x then none else g.prod b := by intro b; rw [← hg']
    have hcfg : ∀ b q, q ∈ g'.cfg b ↔ b ≠ x ∧ q ∈ g.cfg b := by
      intro b q
      simp only [Gram.cfg, hprod]
      by_cases h : b = x <;> simp [h]
    have hord : ∀ b, b ∈ g'.order ↔ b ∈ g.order ∧ b ≠ x := by intro b; rw [← hg']; simp
    have huse : ∀ b v, b ∈ g'.usedBy v ↔ v ≠ x ∧ b ∈ g.usedBy v ∧
        ¬ (b = x ∧ ∃ r ∈ p.rules, .nt v ∈ r.seq) := by
      intro b v
      rw [← hg']
      by_cases h : v = x
      · simp [h]
      · simp only [h, if_false, mem_delUses, List.mem_flatMap, mem_names, ne_eq, not_false_eq_true, true_and]
  · have hder : ∀ s w, .nt x ∉ s → (Derives g'.cfg s w ↔ Derives g.cfg s w) := by
      intro s w hs
      constructor
      · exact Derives.mono (fun a r hr => ((hcfg a r).1 hr).2)
      · intro hd
        exact hd.without (fun a ha r hr => ⟨(hcfg a r).2 ⟨ha, hr⟩, hno a r hr⟩) hs
    refine ⟨fun a => ?_, fun a q v hq hv => ?_, fun a q v hq hv => ?_, fun a v ha => ?_, fun a => ?_, fun a ha => ?_⟩
    · rw [hord, hprod, hg.mem_order]
      by_cases h : a = x <;> simp [h]
    · rw [hcfg] at hq
      have hvx : v ≠ x := fun e => hno a q hq.2 (e ▸ hv)
      rw [hprod, if_neg hvx]
      exact hg.closed a q v hq.2 hv
    · rw [hcfg] at hq
      rw [huse]
      exact ⟨fun e => hno a q hq.2 (e ▸ hv), hg.uses a q v hq.2 hv, fun h => hq.1 h.1⟩
    · rw [huse] at ha
      obtain ⟨hv, ha, hne⟩ := ha
      obtain ⟨h1, h2⟩ := hg.used a v ha
      have hax : a ≠ x := by
        intro e
        subst e
        rcases h2 with h2 | ⟨q, hq, hvq⟩
        · exact hv h2.symm
        · rw [cfg_of_prod hp, List.mem_map] at hq
          obtain ⟨r, hr, rfl⟩ := hq
          exact hne ⟨rfl, r, hr, hvq⟩
      refine ⟨by rw [hprod, if_neg hax]; exact h1, ?_⟩
      rcases h2 with h2 | ⟨q, hq, hvq⟩
      · exact .inl h2
      · exact .inr ⟨q, (hcfg a q).2 ⟨hax, hq⟩, hvq⟩
    · by_cases h : a = x
      · have : g'.cfg a = [] := by simp [Gram.cfg, hprod, h]
        rw [this]; exact List.nodup_nil
      · have : g'.cfg a = g.cfg a := by simp [Gram.cfg, hprod, h]
        rw [this]; exact hg.nodup a
    · rw [hprod] at ha
      by_cases h : a = x
      · simp [h] at ha
      · rw [if_neg h] at ha
        obtain ⟨w, hw⟩ := hg.productive a ha
        exact ⟨w, (hder _ _ (by simpa using Ne.symm h)).2 hw⟩
  · intro s w hs
    constructor
    · exact Derives.mono (fun a r hr => ((hcfg a r).1 hr).2)
    · intro hd
      exact hd.without (fun a ha r hr => ⟨(hcfg a r).2 ⟨ha, hr⟩, hno a r hr⟩) hs

/-- The body of the first loop of `simplify`. -/
theorem Good.inline {σ : Iter} (hσ : σ.Ok) {g : Gram} (hg : Good g) {x : Nat} (hx : (g.prod x).isSome) :
    ∃ m g', g.inline σ x = some (m, g') ∧ Good g' ∧ g'.start = g.start ∧
      g'.order = (if m then g.order.filter (fun a => decide (a ≠ x)) else g.order) ∧
      (∀ s w, (m = true → .nt x ∉ s) → (Derives g'.cfg s w ↔ Derives g.cfg s w)) ∧
      (∀ b p, b ≠ x → g.prod b = some p → ∃ p', g'.prod b = some p' ∧ Keeps p p') ∧
      (∀ p, g.prod x = some p → (p.removable = false → m = false) ∧
        (p.removable = true → p.rules.length = 1 → m = true) ∧
        (m = false → ∃ p', g'.prod x = some p' ∧ p'.removable = p.removable ∧ p'.cpt = p.cpt ∧
          ((∀ r ∈ p.rules, r.hasTerm = true) → ∀ r ∈ p'.rules, r.hasTerm = true))) := by
  obtain ⟨p, hp⟩ := Option.isSome_iff_exists.1 hx
  have hg1 := hg.dropRecursive hp
  have hd1 : ∀ s w, Derives (g.setProd x (p.dropRecursive x)).cfg s w ↔ Derives g.cfg s w :=
    fun s w => dropRecursive_lang hp
  have hpx : (g.setProd x (p.dropRecursive x)).prod x = some (p.dropRecursive x) := by simp [Gram.setProd]
  have hpo : ∀ b ≠ x, (g.setProd x (p.dropRecursive x)).prod b = g.prod b := by
    intro b hb; simp [Gram.setProd, hb]
  have hlen : p.rules.length = 1 → (p.dropRecursive x).rules.length = 1 := by
    intro h1
    have hle : (p.dropRecursive x).rules.length ≤ 1 := by
      rw [← h1]; exact List.length_filter_le _ _
    obtain ⟨w, hw⟩ := hg1.productive x (by rw [hpx]; rfl)
    unfold Cfg.Lang at hw
    rw [Derives.single_iff] at hw
    obtain ⟨r, hr, _⟩ := hw
    rw [cfg_of_prod hpx] at hr
    have : (p.dropRecursive x).rules ≠ [] := by intro e; rw [e] at hr; simp at hr
    have := List.length_pos_iff.2 this
    omega
  by_cases hc : ((p.dropRecursive x).removable && (p.dropRecursive x).rules.length == 1) = true
  · have hc' := hc
    rw [Bool.and_eq_true, beq_iff_eq] at hc'
    obtain ⟨r, hr⟩ := List.length_eq_one_iff.1 hc'.2
    have hrep : ∀ q, q ∈ (g.setProd x (p.dropRecursive x)).cfg x ↔ q = r.seq := by
      intro q; rw [cfg_of_prod hpx, hr]; simp
    have hnx : .nt x ∉ r.seq := by
      intro hin
      obtain ⟨w, hw⟩ := hg1.productive x (by rw [hpx]; rfl)
      exact not_derives_self (fun q hq => by rw [(hrep q).1 hq]; exact hin) hw (by simp)
    have hall : ((g.setProd x (p.dropRecursive x)).usedBy x).all
        (fun a => ((g.setProd x (p.dropRecursive x)).prod a).isSome) = true := by
      rw [List.all_eq_true]
      intro a ha
      exact (hg1.used a x ha).1
    obtain ⟨g2, h2, hg2, ho2, hst2, hd2, hno2, hk2⟩ := inlineInto_good hσ hnx
      (σ.names ((g.setProd x (p.dropRecursive x)).usedBy x)) _ hg1
      (fun a ha => (hg1.used a x ((hσ.names _).mem_iff.1 ha)).1) ⟨_, hpx, hc'.2⟩ hrep
    have hno : ∀ b, ∀ q ∈ g2.cfg b, .nt x ∉ q := by
      intro b
      refine hno2 b ?_
      by_cases h : ∀ q ∈ (g.setProd x (p.dropRecursive x)).cfg b, .nt x ∉ q
      · exact .inl h
      · have : ∃ q ∈ (g.setProd x (p.dropRecursive x)).cfg b, .nt x ∈ q := by
          refine Classical.byContradiction (fun hne => h (fun q hq hin => hne ⟨q, hq, hin⟩))
        obtain ⟨q, hq, hin⟩ := this
        exact .inr ((hσ.names _).mem_iff.2 (hg1.uses b q x hq hin))
    obtain ⟨p2, hp2, _⟩ := hk2 x _ hpx
    obtain ⟨g3, h3, hg3, ho3, hst3, hpx3, hpo3, hd3⟩ := hg2.remove hσ (x := x) (by rw [hp2]; rfl) hno
    refine ⟨true, g3, ?_, hg3, hst3.trans hst2, ?_, fun s w hs => ?_, fun b q hb hq => ?_, fun q hq => ?_⟩
    · simp only [Gram.inline, hp]
      rw [if_pos hc, if_pos hall]
      simp only [h2, h3, Option.map_some]
    · rw [ho3, ho2]; rfl
    · rw [hd3 s w (hs rfl), hd2, hd1]
    · obtain ⟨q', hq', hkq⟩ := hk2 b q (by rw [hpo b hb]; exact hq)
      exact ⟨q', by rw [hpo3 b hb]; exact hq', hkq⟩
    · rw [hp] at hq; cases hq
      refine ⟨fun hrm => ?_, fun _ _ => rfl, fun h => by cases h⟩
      have : (p.dropRecursive x).removable = p.removable := rfl
      rw [this, hrm] at hc'
      cases hc'.1
  · refine ⟨false, g.setProd x (p.dropRecursive x), ?_, hg1, rfl, rfl, fun s w _ => hd1 s w, fun b q hb hq => ?_,
      fun q hq => ?_⟩
    · simp only [Gram.inline, hp]
      rw [if_neg hc]
    · exact ⟨q, by rw [hpo b hb]; exact hq, Keeps.refl q⟩
    · rw [hp] at hq; cases hq
      refine ⟨fun _ => rfl, fun hrm h1 => ?_, fun _ => ⟨_, hpx, rfl, rfl, fun hf r hr => hf r (List.mem_filter.1 hr).1⟩⟩
      exfalso
      apply hc
      rw [Bool.and_eq_true, beq_iff_eq]
      exact ⟨hrm, hlen h1⟩

/-- Every production that may be removed is either still to come and has one rule, or all its rules are
known to have terminals. -/
def Flagged (g : Gram) (xs : List Nat) : Prop :=
  ∀ b p, g.prod b = some p → p.removable = true →
    (b ∈ xs ∧ p.rules.length = 1) ∨ ∀ r ∈ p.rules, r.hasTerm = true

/-- No production is known to produce no terminal. -/
def Unjudged (g : Gram) : Prop := ∀ b p, g.prod b = some p → p.cpt ≠ some false

/-- The first loop of `simplify`. -/
theorem inlineAll_good {σ : Iter} (hσ : σ.Ok) : ∀ (xs : List Nat) (g : Gram), Good g → xs.Nodup →
    (∀ x ∈ xs, x ∈ g.order) → ∃ m g', Gram.inlineAll σ xs g = some (m, g') ∧ Good g' ∧ g'.start = g.start ∧
      g'.order.Sublist g.order ∧ (∀ a ∈ g'.order, ∀ w, g'.cfg.Lang a w ↔ g.cfg.Lang a w) ∧
      (∀ a p, g.prod a = some p → p.removable = false → ∃ p', g'.prod a = some p' ∧ p'.removable = false) ∧
      (Flagged g xs → Flagged g' []) ∧ (Unjudged g → Unjudged g') := by
  intro xs
  induction xs with
  | nil =>
    intro g hg _ _
    exact ⟨false, g, rfl, hg, rfl, List.Sublist.refl _, fun _ _ _ => Iff.rfl,
      fun a p hp hr => ⟨p, hp, hr⟩, id, id⟩
  | cons x xs ih =>
    intro g hg hnd hin
    obtain ⟨hx, hnd'⟩ := List.nodup_cons.1 hnd
    have hsx := (hg.mem_order x).1 (hin x (by simp))
    obtain ⟨m1, g1, h1, hg1, hst1, ho1, hd1, hk1, hs1⟩ := hg.inline hσ hsx
    obtain ⟨p, hp⟩ := Option.isSome_iff_exists.1 hsx
    obtain ⟨hsa, hsb, hsc⟩ := hs1 p hp
    have hmo : ∀ a, a ∈ g1.order ↔ a ∈ g.order ∧ (m1 = true → a ≠ x) := by
      intro a
      rw [ho1]
      cases m1 <;> simp
    have hsl1 : g1.order.Sublist g.order := by
      rw [ho1]
      split
      · exact List.filter_sublist
      · exact List.Sublist.refl _
    obtain ⟨m2, g2, h2, hg2, hst2, hsub2, hl2, hrm2, hf2, hu2⟩ := ih g1 hg1 hnd' (fun a ha => by
      rw [hmo]
      exact ⟨hin a (by simp [ha]), fun _ e => hx (e ▸ ha)⟩)
    refine ⟨m1 || m2, g2, ?_, hg2, hst2.trans hst1, hsub2.trans hsl1, fun a ha w => ?_,
      fun a q hq hqr => ?_, fun hf => hf2 ?_, fun hu => hu2 ?_⟩
    · simp only [Gram.inlineAll, h1, h2, Option.map_some]
    · rw [hl2 a ha w]
      refine hd1 _ _ (fun hm => ?_)
      have := ((hmo a).1 (hsub2.subset ha)).2 hm
      simpa using Ne.symm this
    · by_cases h : a = x
      · subst h
        rw [hp] at hq; cases hq
        obtain ⟨p', hp', hr', _⟩ := hsc (hsa hqr)
        exact hrm2 a p' hp' (hr'.trans hqr)
      · obtain ⟨q', hq', hkq⟩ := hk1 a q h hq
        exact hrm2 a q' hq' (hkq.removable.trans hqr)
    · intro b q hq hqr
      have hb1 : b ∈ g1.order := (hg1.mem_order b).2 (by rw [hq]; rfl)
      have hb0 := (hmo b).1 hb1
      obtain ⟨q0, hq0⟩ := Option.isSome_iff_exists.1 ((hg.mem_order b).1 hb0.1)
      by_cases h : b = x
      · subst h
        rw [hp] at hq0; cases hq0
        cases m1 with
        | true => exact absurd rfl (hb0.2 rfl)
        | false =>
          obtain ⟨p', hp', hr', _, hfl⟩ := hsc rfl
          rw [hq] at hp'; cases hp'
          right
          rcases hf b p hp (hr'.symm.trans hqr) with ⟨_, hl⟩ | hfl'
          · exact absurd (hsb (hr'.symm.trans hqr) hl) (by simp)
          · exact hfl hfl'
      · obtain ⟨q', hq', hkq⟩ := hk1 b q0 h hq0
        rw [hq] at hq'; cases hq'
        rcases hf b q0 hq0 (hkq.removable.symm.trans hqr) with ⟨hbx, hl⟩ | hfl
        · rcases List.mem_cons.1 hbx with e | hbx
          · exact absurd e h
          · exact .inl ⟨hbx, hkq.single hl⟩
        · exact .inr (hkq.flags hfl)
    · intro b q hq
      have hb1 : b ∈ g1.order := (hg1.mem_order b).2 (by rw [hq]; rfl)
      have hb0 := (hmo b).1 hb1
      obtain ⟨q0, hq0⟩ := Option.isSome_iff_exists.1 ((hg.mem_order b).1 hb0.1)
      by_cases h : b = x
      · subst h
        rw [hp] at hq0; cases hq0
        cases m1 with
        | true => exact absurd rfl (hb0.2 rfl)
        | false =>
          obtain ⟨p', hp', _, hcp, _⟩ := hsc rfl
          rw [hq] at hp'; cases hp'
          rw [hcp]; exact hu b p hp
      · obtain ⟨q', hq', hkq⟩ := hk1 b q0 h hq0
        rw [hq] at hq'; cases hq'
        rw [hkq.cpt]; exact hu b q0 hq0

/-! ### The second loop -/

/-- The same grammar, but more productions are known to produce terminals. -/
structure Marked (g g' : Gram) : Prop where
  order : g'.order = g.order
  usedBy : g'.usedBy = g.usedBy
  start : g'.start = g.start
  none : ∀ b, g.prod b = none → g'.prod b = none
  some : ∀ b p, g.prod b = some p → ∃ c, g'.prod b = some { p with cpt := c } ∧ (c = p.cpt ∨ c = some true)

theorem Marked.refl (g : Gram) : Marked g g :=
  ⟨rfl, rfl, rfl, fun _ h => h, fun _ p h => ⟨p.cpt, h, .inl rfl⟩⟩

theorem Marked.trans {a b c : Gram} (h : Marked a b) (h' : Marked b c) : Marked a c := by
  refine ⟨h'.order.trans h.order, h'.usedBy.trans h.usedBy, h'.start.trans h.start,
    fun x hx => h'.none x (h.none x hx), fun x p hp => ?_⟩
  obtain ⟨c1, h1, e1⟩ := h.some x p hp
  obtain ⟨c2, h2, e2⟩ := h'.some x _ h1
  refine ⟨c2, h2, ?_⟩
  rcases e2 with e2 | e2
  · rw [e2]; exact e1
  · exact .inr e2

theorem Marked.cfg {g g' : Gram} (h : Marked g g') : g'.cfg = g.cfg := by
  funext a
  unfold Gram.cfg
  cases hp : g.prod a with
  | none => rw [h.none a hp]
  | some p =>
    obtain ⟨c, hc, _⟩ := h.some a p hp
    rw [hc]

theorem Marked.isSome {g g' : Gram} (h : Marked g g') (a : Nat) : (g'.prod a).isSome = (g.prod a).isSome := by
  cases hp : g.prod a with
  | none => rw [h.none a hp]
  | some p =>
    obtain ⟨c, hc, _⟩ := h.some a p hp
    rw [hc]; rfl

theorem marked_mark (g : Gram) (a : Nat) : Marked g (g.mark a) := by
  unfold Gram.mark
  cases hp : g.prod a with
  | none => exact Marked.refl g
  | some p =>
    refine ⟨rfl, rfl, rfl, fun b hb => ?_, fun b q hq => ?_⟩
    · have : b ≠ a := by rintro rfl; rw [hp] at hb; cases hb
      simp [Gram.setProd, this, hb]
    · by_cases h : b = a
      · subst h
        rw [hp] at hq; cases hq
        exact ⟨some true, by simp [Gram.setProd], .inr rfl⟩
      · exact ⟨q.cpt, by simp [Gram.setProd, h, hq], .inl rfl⟩

theorem marked_foldl (l : List Nat) (g : Gram) : Marked g (l.foldl Gram.mark g) := by
  induction l generalizing g with
  | nil => exact Marked.refl g
  | cons a l ih => exact (marked_mark g a).trans (ih _)

theorem foldl_mark_mem {l : List Nat} {g : Gram} {a : Nat} {p : Prodn} (ha : a ∈ l) (hp : g.prod a = some p) :
    (l.foldl Gram.mark g).prod a = some { p with cpt := some true } := by
  induction l generalizing g p with
  | nil => simp at ha
  | cons b l ih =>
    by_cases hb : b = a
    · subst hb
      have h1 : (g.mark b).prod b = some { p with cpt := some true } := by
        simp [Gram.mark, hp, Gram.setProd]
      obtain ⟨c, hc, e⟩ := (marked_foldl l (g.mark b)).some b _ h1
      have : c = some true := by rcases e with e | e <;> exact e
      subst this
      exact hc
    · rcases List.mem_cons.1 ha with e | ha
      · exact absurd e.symm hb
      · obtain ⟨c, hc, _⟩ := (marked_mark g b).some a p hp
        have := ih (p := { p with cpt := c }) ha hc
        exact this

theorem cptLoop_marked {σ : Iter} : ∀ (fuel : Nat) (g : Gram) (q v : List Nat),
    (∀ a b, b ∈ g.usedBy a → (g.prod b).isSome) → ∃ g', Gram.cptLoop σ fuel g q v = some g' ∧ Marked g g' := by
  intro fuel
  induction fuel with
  | zero => intro g q v _; exact ⟨g, rfl, Marked.refl g⟩
  | succ n ih =>
    intro g q v hu
    cases q with
    | nil => exact ⟨g, rfl, Marked.refl g⟩
    | cons a q =>
      have hm := marked_foldl ((σ.names (g.usedBy a)).filter (g.unvisited v)) g
      obtain ⟨g', h, hm'⟩ := ih _ (((σ.names (g.usedBy a)).filter (g.unvisited v)).reverse ++ q)
        ((σ.names (g.usedBy a)).filter (g.unvisited v) ++ v)
        (fun a b hb => by rw [hm.usedBy] at hb; rw [hm.isSome]; exact hu a b hb)
      refine ⟨g', ?_, hm.trans hm'⟩
      have hall : (g.usedBy a).all (fun b => (g.prod b).isSome) = true := by
        rw [List.all_eq_true]; exact fun b hb => hu a b hb
      simp only [Gram.cptLoop]
      rw [if_pos hall]
      exact h

theorem canProduceTerminal_flagged {σ : Iter} {g : Gram} (hg : Good g) (hu : Unjudged g) {a : Nat} {p : Prodn}
    (hp : g.prod a = some p) (hf : ∀ r ∈ p.rules, r.hasTerm = true) :
    ∃ g', g.canProduceTerminal σ a = some (true, g') ∧ Marked g g' := by
  unfold Gram.canProduceTerminal
  rw [hp]
  simp only
  cases hc : p.cpt with
  | some b =>
    cases b with
    | true => exact ⟨g, rfl, Marked.refl g⟩
    | false => exact absurd hc (hu a p hp)
  | none =>
    simp only
    have hne : p.rules ≠ [] := by
      intro e
      obtain ⟨w, hw⟩ := hg.productive a (by rw [hp]; rfl)
      unfold Cfg.Lang at hw
      rw [Derives.single_iff] at hw
      obtain ⟨r, hr, _⟩ := hw
      rw [cfg_of_prod hp, e] at hr
      simp at hr
    have hany : p.rules.any (·.hasTerm) = true := by
      obtain ⟨r, hr⟩ := List.exists_mem_of_ne_nil _ hne
      rw [List.any_eq_true]
      exact ⟨r, hr, hf r hr⟩
    generalize hq : g.order.filter (fun b =>
        match g.prod b with
        | .none => false
        | .some q => q.cpt.isNone && q.rules.any (·.hasTerm)) = queue
    have hmem : a ∈ queue := by
      rw [← hq, List.mem_filter]
      refine ⟨(hg.mem_order a).2 (by rw [hp]; rfl), ?_⟩
      rw [hp]
      simp [hc, hany]
    have hmk := foldl_mark_mem hmem hp
    have hm := marked_foldl queue g
    obtain ⟨g', h, hm'⟩ := cptLoop_marked (σ := σ) (2 * g.order.length + 1) (queue.foldl Gram.mark g) queue.reverse queue
      (fun x b hb => by rw [hm.usedBy] at hb; rw [hm.isSome]; exact (hg.used b x hb).1)
    obtain ⟨c, hc', e⟩ := hm'.some a _ hmk
    have : c = some true := by rcases e with e | e <;> exact e
    subst this
    rw [h]
    simp only [hc']
    exact ⟨g', rfl, hm.trans hm'⟩

theorem Good.marked {g g' : Gram} (hg : Good g) (h : Marked g g') : Good g' := by
  have hc := h.cfg
  refine ⟨fun a => ?_, fun a q v => ?_, fun a q v => ?_, fun a v => ?_, fun a => ?_, fun a => ?_⟩
  · rw [h.order, h.isSome]; exact hg.mem_order a
  · rw [hc, h.isSome]; exact hg.closed a q v
  · rw [hc, h.usedBy]; exact hg.uses a q v
  · rw [hc, h.usedBy, h.isSome]; exact hg.used a v
  · rw [hc]; exact hg.nodup a
  · rw [hc, h.isSome]; exact hg.productive a

/-- If all rules are known to have terminals, nothing is removed. -/
theorem dropEmpty_flagged {σ : Iter} : ∀ (xs : List Nat) (g : Gram), Good g → Unjudged g → Flagged g [] →
    (∀ x ∈ xs, x ∈ g.order) → ∃ g', Gram.dropEmpty σ xs g = some (false, g') ∧ Marked g g' := by
  intro xs
  induction xs with
  | nil => intro g _ _ _ _; exact ⟨g, rfl, Marked.refl g⟩
  | cons x xs ih =>
    intro g hg hu hf hin
    obtain ⟨p, hp⟩ := Option.isSome_iff_exists.1 ((hg.mem_order x).1 (hin x (by simp)))
    simp only [Gram.dropEmpty, hp]
    cases hr : p.removable with
    | false =>
      simp only [Bool.false_eq_true, if_false]
      exact ih g hg hu hf (fun y hy => hin y (by simp [hy]))
    | true =>
      simp only [if_true]
      have hfl : ∀ r ∈ p.rules, r.hasTerm = true := by
        rcases hf x p hp hr with ⟨h, _⟩ | h
        · simp at h
        · exact h
      obtain ⟨g1, h1, hm1⟩ := canProduceTerminal_flagged (σ := σ) hg hu hp hfl
      rw [h1]
      simp only
      have hback : ∀ b q, g1.prod b = some q → ∃ q0, g.prod b = some q0 ∧ q.rules = q0.rules ∧
          q.removable = q0.removable ∧ (q.cpt = q0.cpt ∨ q.cpt = some true) := by
        intro b q hq
        cases hb : g.prod b with
        | none => rw [hm1.none b hb] at hq; cases hq
        | some q0 =>
          obtain ⟨c, hc, e⟩ := hm1.some b q0 hb
          rw [hq] at hc; cases hc
          exact ⟨q0, rfl, rfl, rfl, e⟩
      obtain ⟨g2, h2, hm2⟩ := ih g1 (hg.marked hm1)
        (by
          intro b q hq
          obtain ⟨q0, hq0, _, _, e⟩ := hback b q hq
          rcases e with e | e
          · rw [e]; exact hu b q0 hq0
          · rw [e]; simp)
        (by
          intro b q hq hqr
          obtain ⟨q0, hq0, e1, e2, _⟩ := hback b q hq
          rw [e1]
          exact hf b q0 hq0 (e2.symm.trans hqr))
        (fun y hy => by rw [hm1.order]; exact hin y (by simp [hy]))
      exact ⟨g2, h2, hm1.trans hm2⟩

end Verif.PyGrammar
