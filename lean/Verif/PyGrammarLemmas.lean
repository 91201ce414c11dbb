import Verif.PyGrammar
import Verif.PyTreeLemmas
/-
Lemmas about grammars: derivations, combined terminals, and the grammar extracted from a tree.
-/
namespace Verif.Spec

theorem Derives.append {G : Cfg} {s t : List Sym} {u w : List Nat} (h : Derives G s u) (h' : Derives G t w) :
    Derives G (s ++ t) (u ++ w) := by
  induction h with
  | nil => simpa using h'
  | term _ ih => rw [List.cons_append, List.append_assoc]; exact .term ih
  | nt hr hd _ _ ih => rw [List.cons_append, List.append_assoc]; exact .nt hr hd ih

theorem Derives.split {G : Cfg} {s t : List Sym} {w : List Nat} (h : Derives G (s ++ t) w) :
    ∃ u v, w = u ++ v ∧ Derives G s u ∧ Derives G t v := by
  induction s generalizing w with
  | nil => exact ⟨[], w, rfl, .nil, h⟩
  | cons x s ih =>
    cases h with
    | term h =>
      obtain ⟨u, v, rfl, h1, h2⟩ := ih h
      exact ⟨_, v, by rw [List.append_assoc], .term h1, h2⟩
    | nt hr hd h =>
      obtain ⟨u, v, rfl, h1, h2⟩ := ih h
      exact ⟨_, v, by rw [List.append_assoc], .nt hr hd h1, h2⟩

theorem Derives.append_iff {G : Cfg} {s t : List Sym} {w : List Nat} :
    Derives G (s ++ t) w ↔ ∃ u v, w = u ++ v ∧ Derives G s u ∧ Derives G t v :=
  ⟨Derives.split, by rintro ⟨u, v, rfl, h1, h2⟩; exact h1.append h2⟩

theorem Derives.nil_iff {G : Cfg} {w : List Nat} : Derives G [] w ↔ w = [] :=
  ⟨fun h => by cases h; rfl, fun h => h ▸ .nil⟩

theorem Derives.term_iff {G : Cfg} {b : List Nat} {s : List Sym} {w : List Nat} :
    Derives G (.term b :: s) w ↔ ∃ v, w = b ++ v ∧ Derives G s v :=
  ⟨fun h => by cases h with | term h => exact ⟨_, rfl, h⟩, by rintro ⟨v, rfl, h⟩; exact .term h⟩

theorem Derives.nt_iff {G : Cfg} {a : Nat} {s : List Sym} {w : List Nat} :
    Derives G (.nt a :: s) w ↔ ∃ r ∈ G a, ∃ u v, w = u ++ v ∧ Derives G r u ∧ Derives G s v :=
  ⟨fun h => by cases h with | nt hr hd h => exact ⟨_, hr, _, _, rfl, hd, h⟩,
   by rintro ⟨r, hr, u, v, rfl, h1, h2⟩; exact .nt hr h1 h2⟩

theorem Derives.single_iff {G : Cfg} {a : Nat} {w : List Nat} :
    Derives G [.nt a] w ↔ ∃ r ∈ G a, Derives G r w := by
  rw [Derives.nt_iff]
  constructor
  · rintro ⟨r, hr, u, v, rfl, h1, h2⟩
    rw [Derives.nil_iff] at h2
    exact ⟨r, hr, by simpa [h2] using h1⟩
  · rintro ⟨r, hr, h⟩
    exact ⟨r, hr, w, [], by simp, h, .nil⟩

end Verif.Spec

namespace Verif.PyGrammar
open Verif.Spec Verif.PyTree

theorem combineLoop_derives {G : Cfg} (acc s : List Sym) (w : List Nat) :
    Derives G (combineLoop acc s) w ↔ Derives G (acc.reverse ++ s) w := by
  induction s generalizing acc with
  | nil => simp [combineLoop]
  | cons x s ih =>
    cases x with
    | nt n =>
      simp only [combineLoop]
      rw [ih]
      simp
    | term b =>
      cases acc with
      | nil => simp only [combineLoop]; rw [ih]; simp
      | cons y acc =>
        cases y with
        | nt n => simp only [combineLoop]; rw [ih]; simp
        | term a =>
          simp only [combineLoop]
          rw [ih]
          simp only [List.reverse_cons, List.append_assoc, List.singleton_append]
          rw [Derives.append_iff, Derives.append_iff]
          have : ∀ v, Derives G (.term (a ++ b) :: s) v ↔ Derives G (.term a :: .term b :: s) v := by
            intro v
            simp only [Derives.term_iff]
            constructor
            · rintro ⟨q, rfl, h⟩; exact ⟨b ++ q, by simp, q, rfl, h⟩
            · rintro ⟨_, rfl, q, rfl, h⟩; exact ⟨q, by simp, h⟩
          simp only [this]

/-- Combining terminals does not change what a sequence derives. -/
theorem combine_derives {G : Cfg} {s : List Sym} {w : List Nat} : Derives G (combine s) w ↔ Derives G s w := by
  unfold combine
  rw [combineLoop_derives]
  rfl

theorem mem_names {s : List Sym} {n : Nat} : n ∈ names s ↔ .nt n ∈ s := by
  induction s with
  | nil => simp [names]
  | cons x s ih => cases x <;> simp [names, ih]

theorem names_append (a b : List Sym) : names (a ++ b) = names a ++ names b := by
  induction a with
  | nil => rfl
  | cons x a ih => cases x <;> simp [names, ih]

theorem combineLoop_names (acc s : List Sym) : names (combineLoop acc s) = names (acc.reverse ++ s) := by
  induction s generalizing acc with
  | nil => simp [combineLoop]
  | cons x s ih =>
    cases x with
    | nt n => simp only [combineLoop]; rw [ih]; simp
    | term b =>
      cases acc with
      | nil => simp only [combineLoop]; rw [ih]; simp
      | cons y acc =>
        cases y with
        | nt n => simp only [combineLoop]; rw [ih]; simp
        | term a => simp only [combineLoop]; rw [ih]; simp [names_append, names]

theorem combine_names (s : List Sym) : names (combine s) = names s := by
  unfold combine; rw [combineLoop_names]; rfl

theorem mem_combine {s : List Sym} {n : Nat} : .nt n ∈ combine s ↔ .nt n ∈ s := by
  rw [← mem_names, combine_names, mem_names]

/-! ### Sets as lists -/

theorem mem_addName {l : List Nat} {n m : Nat} : m ∈ addName l n ↔ m ∈ l ∨ m = n := by
  unfold addName
  split
  · next h => exact ⟨.inl, fun h' => h'.elim id (fun e => e ▸ h)⟩
  · simp

theorem mem_delName {l : List Nat} {n m : Nat} : m ∈ delName l n ↔ m ∈ l ∧ m ≠ n := by
  simp [delName]

theorem mem_addUses {u : Nat → List Nat} {a : Nat} {vs : List Nat} {v m : Nat} :
    m ∈ addUses u a vs v ↔ m ∈ u v ∨ (m = a ∧ v ∈ vs) := by
  induction vs generalizing u with
  | nil => simp [addUses]
  | cons x vs ih =>
    simp only [addUses, ih, List.mem_cons]
    by_cases h : v = x
    · subst h; simp [mem_addName]
      intro h _; exact .inr h
    · simp [h]

theorem mem_delUses {u : Nat → List Nat} {a : Nat} {vs : List Nat} {v m : Nat} :
    m ∈ delUses u a vs v ↔ m ∈ u v ∧ ¬ (m = a ∧ v ∈ vs) := by
  induction vs generalizing u with
  | nil => simp [delUses]
  | cons x vs ih =>
    simp only [delUses, ih, List.mem_cons]
    by_cases h : v = x
    · subst h
      simp only [if_true, mem_delName, true_or, and_true]
      constructor
      · rintro ⟨⟨h, h1⟩, _⟩; exact ⟨h, h1⟩
      · rintro ⟨h, h1⟩; exact ⟨⟨h, h1⟩, fun h2 => h1 h2.1⟩
    · simp [h]

theorem mem_addRule {rs : List Rule} {r : Rule} {s : List Sym} :
    s ∈ (addRule rs r).map (·.seq) ↔ s ∈ rs.map (·.seq) ∨ s = r.seq := by
  unfold addRule
  split
  · next h =>
    rw [List.any_eq_true] at h
    obtain ⟨q, hq, he⟩ := h
    have he : q.seq = r.seq := by simpa using he
    refine ⟨.inl, fun h' => h'.elim id (fun e => ?_)⟩
    exact List.mem_map.2 ⟨q, hq, by rw [he, e]⟩
  · simp

theorem mem_delRule {rs : List Rule} {r : Rule} {s : List Sym} :
    s ∈ (delRule rs r).map (·.seq) ↔ s ∈ rs.map (·.seq) ∧ s ≠ r.seq := by
  simp only [delRule, List.mem_map, List.mem_filter, decide_eq_true_eq]
  constructor
  · rintro ⟨q, ⟨hq, hne⟩, rfl⟩; exact ⟨⟨q, hq, rfl⟩, hne⟩
  · rintro ⟨⟨q, hq, rfl⟩, hne⟩; exact ⟨q, ⟨hq, hne⟩, rfl⟩

theorem cfg_setProd (g : Gram) (a : Nat) (p : Prodn) (b : Nat) :
    (g.setProd a p).cfg b = if b = a then p.rules.map (·.seq) else g.cfg b := by
  unfold Gram.cfg Gram.setProd
  by_cases h : b = a <;> simp [h]

/-! ### The extracted grammar -/

/-- The rule that a node contributes: the name of its production and the sequence of its children. -/
def Contributes (t : Tree Val) (a : Nat) (q : List Sym) : Prop :=
  (∀ b, t.val ≠ .term b) ∧ prodName t.val = a ∧ ∃ s, childSyms t.children = some s ∧ q = combine s

/-- What holds of a grammar after some nodes. -/
structure Built (ns : List (Tree Val)) (g : Gram) : Prop where
  order : g.order.Nodup
  mem_order : ∀ a, a ∈ g.order ↔ (g.prod a).isSome
  some_iff : ∀ a, (g.prod a).isSome ↔ ∃ q, q ∈ g.cfg a
  rules : ∀ a q, q ∈ g.cfg a ↔ ∃ t ∈ ns, Contributes t a q
  used : ∀ a v, a ∈ g.usedBy v ↔ ∃ q ∈ g.cfg a, .nt v ∈ q
  nodup : ∀ a, (g.cfg a).Nodup
  flags : ∀ a p, g.prod a = some p → (p.removable = decide (a ≠ 0)) ∧ p.cpt = none ∧
    ∀ r ∈ p.rules, r.hasTerm = r.seq.any isTerm

theorem Built.empty : Built [] Gram.empty := by
  constructor <;> simp [Gram.empty, Gram.cfg]

theorem Contributes.term {t : Tree Val} {b : List Nat} (h : t.val = .term b) (a : Nat) (q : List Sym) :
    ¬ Contributes t a q := fun hc => hc.1 b h

theorem Built.snoc_term {ns : List (Tree Val)} {g : Gram} (hb : Built ns g) {t : Tree Val} {b : List Nat}
    (h : t.val = .term b) : Built (ns ++ [t]) g := by
  obtain ⟨h1, h2, h3, h4, h5, h6, h7⟩ := hb
  refine ⟨h1, h2, h3, fun a q => ?_, h5, h6, h7⟩
  rw [h4]
  simp only [List.mem_append, List.mem_singleton]
  constructor
  · rintro ⟨x, hx, hc⟩; exact ⟨x, .inl hx, hc⟩
  · rintro ⟨x, hx | rfl, hc⟩
    · exact ⟨x, hx, hc⟩
    · exact absurd hc (Contributes.term h a q)

theorem any_seq {rs : List Rule} {r : Rule} :
    rs.any (fun q => decide (q.seq = r.seq)) = true ↔ r.seq ∈ rs.map (·.seq) := by
  simp [List.any_eq_true, List.mem_map]

theorem Built.snoc {ns : List (Tree Val)} {g : Gram} (hb : Built ns g) {t : Tree Val}
    (ht : ∀ b, t.val ≠ .term b) {s : List Sym} (hs : childSyms t.children = some s) :
    ∃ g', addNode g t = some g' ∧ Built (ns ++ [t]) g' := by
  have hcon : ∀ a q, Contributes t a q ↔ a = prodName t.val ∧ q = combine s := by
    intro a q
    constructor
    · rintro ⟨_, h1, s', h2, h3⟩
      rw [hs] at h2
      cases h2
      exact ⟨h1.symm, h3⟩
    · rintro ⟨rfl, rfl⟩
      exact ⟨ht, rfl, s, hs, rfl⟩
  have hmem : ∀ a q, (∃ x ∈ ns ++ [t], Contributes x a q) ↔ q ∈ g.cfg a ∨ (a = prodName t.val ∧ q = combine s) := by
    intro a q
    rw [hb.rules]
    simp only [List.mem_append, List.mem_singleton]
    constructor
    · rintro ⟨x, hx | rfl, hc⟩
      · exact .inl ⟨x, hx, hc⟩
      · exact .inr ((hcon a q).1 hc)
    · rintro (⟨x, hx, hc⟩ | h)
      · exact ⟨x, .inl hx, hc⟩
      · exact ⟨t, .inr rfl, (hcon a q).2 h⟩
  have hadd : addNode g t = match g.prod (prodName t.val) with
      | some p => some (g.addTo (prodName t.val) p (Rule.new s))
      | none =>
        if prodName t.val = 0 then
          some ((g.newProd (prodName t.val) (Rule.new s)).setProd 0 ⟨[Rule.new s], false, none⟩)
        else some (g.newProd (prodName t.val) (Rule.new s)) := by
    unfold addNode
    cases hv : t.val with
    | term b => exact absurd hv (ht b)
    | start => simp only [hs]; cases g.prod (prodName _) <;> rfl
    | bb n => simp only [hs]; cases g.prod (prodName _) <;> rfl
    | fn n => simp only [hs]; cases g.prod (prodName _) <;> rfl
  rw [hadd]
  generalize prodName t.val = a at *
  cases hp : g.prod a with
  | some p =>
    refine ⟨_, rfl, ?_⟩
    have hcfg : g.cfg a = p.rules.map (·.seq) := by simp [Gram.cfg, hp]
    unfold Gram.addTo
    by_cases hin : (p.rules.any (fun q => decide (q.seq = (Rule.new s).seq))) = true
    · rw [if_pos hin]
      rw [any_seq, ← hcfg] at hin
      obtain ⟨h1, h2, h3, h4, h5, h6, h7⟩ := hb
      refine ⟨h1, h2, h3, fun b q => ?_, h5, h6, h7⟩
      rw [hmem]
      constructor
      · exact .inl
      · rintro (h | ⟨rfl, rfl⟩)
        · exact h
        · exact hin
    · rw [if_neg hin]
      rw [any_seq, ← hcfg] at hin
      have hc : ∀ b, Gram.cfg { (g.setProd a { p with rules := p.rules ++ [Rule.new s] }) with
          usedBy := addUses g.usedBy a (PyGrammar.names (Rule.new s).seq) } b =
          if b = a then g.cfg a ++ [combine s] else g.cfg b := by
        intro b
        have := cfg_setProd g a { p with rules := p.rules ++ [Rule.new s] } b
        simp only [List.map_append, ← hcfg] at this
        exact this
      have hmc : ∀ b q, q ∈ Gram.cfg { (g.setProd a { p with rules := p.rules ++ [Rule.new s] }) with
          usedBy := addUses g.usedBy a (PyGrammar.names (Rule.new s).seq) } b ↔
          q ∈ g.cfg b ∨ (b = a ∧ q = combine s) := by
        intro b q
        rw [hc]
        by_cases h : b = a
        · subst h; simp
        · simp [h]
      refine ⟨hb.order, fun b => ?_, fun b => ?_, fun b q => ?_, fun b v => ?_, fun b => ?_, fun b p' hp' => ?_⟩
      · simp only [Gram.setProd]
        rw [hb.mem_order]
        by_cases h : b = a
        · subst h; simp [hp]
        · simp [h]
      · simp only [hmc]
        simp only [Gram.setProd]
        by_cases h : b = a
        · subst h; simp only [if_true, Option.isSome_some, true_iff]; exact ⟨combine s, .inr ⟨trivial, rfl⟩⟩
        · simp only [h, if_false, false_and, or_false]
          exact hb.some_iff b
      · rw [hmc, hmem]
      · simp only [mem_addUses, hb.used, hmc, mem_names]
        constructor
        · rintro (⟨q, hq, hv⟩ | ⟨rfl, hv⟩)
          · exact ⟨q, .inl hq, hv⟩
          · exact ⟨combine s, .inr ⟨rfl, rfl⟩, hv⟩
        · rintro ⟨q, hq | ⟨rfl, rfl⟩, hv⟩
          · exact .inl ⟨q, hq, hv⟩
          · exact .inr ⟨rfl, hv⟩
      · rw [hc]
        by_cases h : b = a
        · subst h
          simp only [if_true]
          rw [List.nodup_append]
          refine ⟨hb.nodup b, by simp, ?_⟩
          intro x hx y hy hxy
          simp only [List.mem_singleton] at hy
          subst hy; subst hxy
          exact hin hx
        · simp only [h, if_false]; exact hb.nodup b
      · simp only [Gram.setProd] at hp'
        by_cases h : b = a
        · subst h
          simp only [if_true, Option.some.injEq] at hp'
          subst hp'
          obtain ⟨f1, f2, f3⟩ := hb.flags b p hp
          refine ⟨f1, f2, fun r hr => ?_⟩
          simp only [List.mem_append, List.mem_singleton] at hr
          rcases hr with hr | rfl
          · exact f3 r hr
          · rfl
        · simp only [h, if_false] at hp'
          exact hb.flags b p' hp'
  | none =>
    have hno : g.cfg a = [] := by simp [Gram.cfg, hp]
    have hna : a ∉ g.order := by rw [hb.mem_order, hp]; simp
    have key : ∀ (f : Bool) (g' : Gram), f = decide (a ≠ 0) → g'.order = g.order ++ [a] →
        (∀ b, g'.prod b = if b = a then some ⟨[Rule.new s], f, none⟩ else g.prod b) →
        g'.usedBy = addUses g.usedBy a (PyGrammar.names (Rule.new s).seq) → Built (ns ++ [t]) g' := by
      intro f g' hf ho hpr hu
      have hc : ∀ b, g'.cfg b = if b = a then [combine s] else g.cfg b := by
        intro b
        unfold Gram.cfg
        rw [hpr]
        by_cases h : b = a <;> simp [h, Rule.new]
      have hmc : ∀ b q, q ∈ g'.cfg b ↔ q ∈ g.cfg b ∨ (b = a ∧ q = combine s) := by
        intro b q
        rw [hc]
        by_cases h : b = a
        · subst h; simp [hno]
        · simp [h]
      refine ⟨?_, fun b => ?_, fun b => ?_, fun b q => ?_, fun b v => ?_, fun b => ?_, fun b p' hp' => ?_⟩
      · rw [ho, List.nodup_append]
        refine ⟨hb.order, by simp, ?_⟩
        intro x hx y hy hxy
        simp only [List.mem_singleton] at hy
        subst hy; subst hxy
        exact hna hx
      · rw [ho, hpr, List.mem_append, hb.mem_order]
        by_cases h : b = a <;> simp [h]
      · simp only [hmc]
        rw [hpr]
        by_cases h : b = a
        · subst h; simp only [if_true, Option.isSome_some, true_iff]; exact ⟨combine s, .inr ⟨trivial, rfl⟩⟩
        · simp only [h, if_false, false_and, or_false]
          exact hb.some_iff b
      · rw [hmc, hmem]
      · simp only [hu, mem_addUses, hb.used, hmc, mem_names]
        constructor
        · rintro (⟨q, hq, hv⟩ | ⟨rfl, hv⟩)
          · exact ⟨q, .inl hq, hv⟩
          · exact ⟨combine s, .inr ⟨rfl, rfl⟩, hv⟩
        · rintro ⟨q, hq | ⟨rfl, rfl⟩, hv⟩
          · exact .inl ⟨q, hq, hv⟩
          · exact .inr ⟨rfl, hv⟩
      · rw [hc]
        by_cases h : b = a
        · simp [h]
        · simp only [h, if_false]; exact hb.nodup b
      · rw [hpr] at hp'
        by_cases h : b = a
        · subst h
          simp only [if_true, Option.some.injEq] at hp'
          subst hp'
          refine ⟨hf, rfl, fun r hr => ?_⟩
          simp only [List.mem_singleton] at hr
          subst hr
          rfl
        · simp only [h, if_false] at hp'
          exact hb.flags b p' hp'
    by_cases h0 : a = 0
    · subst h0
      refine ⟨_, if_pos rfl, key false _ (by simp) rfl (fun b => ?_) rfl⟩
      simp only [Gram.newProd, Gram.setProd]
      by_cases h : b = 0 <;> simp [h]
    · refine ⟨_, if_neg h0, key true _ (by simp [h0]) rfl (fun b => ?_) rfl⟩
      simp only [Gram.newProd, Gram.setProd]

/-- Every node below is no `Start`. -/
def NoStart (t : Tree Val) : Prop := ∀ n ∈ t.pre, ∀ c ∈ n.children, c.val ≠ .start

theorem childSyms_some {ts : List (Tree Val)} (h : ∀ c ∈ ts, c.val ≠ .start) :
    ∃ s, childSyms ts = some s := by
  induction ts with
  | nil => exact ⟨[], rfl⟩
  | cons t ts ih =>
    obtain ⟨s, hs⟩ := ih (fun c hc => h c (by simp [hc]))
    have h0 := h t (by simp)
    cases hv : t.val <;> simp_all [childSyms, childSym]

theorem addNodes_built {ns ts : List (Tree Val)} {g : Gram} (hb : Built ns g)
    (h : ∀ n ∈ ts, ∀ c ∈ n.children, c.val ≠ .start) :
    ∃ g', addNodes ts g = some g' ∧ Built (ns ++ ts) g' := by
  induction ts generalizing ns g with
  | nil => exact ⟨g, rfl, by simpa using hb⟩
  | cons t ts ih =>
    have step : ∃ g', addNode g t = some g' ∧ Built (ns ++ [t]) g' := by
      by_cases ht : ∃ b, t.val = .term b
      · obtain ⟨b, hbv⟩ := ht
        exact ⟨g, by simp [addNode, hbv], hb.snoc_term hbv⟩
      · obtain ⟨s, hs⟩ := childSyms_some (h t (by simp))
        exact hb.snoc (fun b hbv => ht ⟨b, hbv⟩) hs
    obtain ⟨g1, h1, hb1⟩ := step
    obtain ⟨g2, h2, hb2⟩ := ih hb1 (fun n hn => h n (by simp [hn]))
    refine ⟨g2, by simp [addNodes, h1, h2], by simpa using hb2⟩

theorem Built.withStart {ns : List (Tree Val)} {g : Gram} (hb : Built ns g) (s : Option Nat) :
    Built ns { g with start := s } := by
  obtain ⟨h1, h2, h3, h4, h5, h6, h7⟩ := hb
  exact ⟨h1, h2, h3, h4, h5, h6, h7⟩

/-- Extraction succeeds for a tree whose root, and no other node, is the start. -/
theorem extract_built {t : Tree Val} (hr : t.val = .start) (hn : NoStart t) :
    ∃ g, extract t = some g ∧ Built t.pre g ∧ g.start = some 0 := by
  obtain ⟨g, h, hb⟩ := addNodes_built Built.empty (ts := t.pre) hn
  rw [List.nil_append] at hb
  have hs : ∃ s, childSyms t.children = some s := childSyms_some (hn t (mem_pre_self t))
  obtain ⟨s, hs⟩ := hs
  have hc : Contributes t 0 (combine s) := ⟨by simp [hr], by simp [hr, prodName], s, hs, rfl⟩
  have h0 : (g.prod 0).isSome := (hb.some_iff 0).2 ⟨combine s, (hb.rules 0 _).2 ⟨t, mem_pre_self t, hc⟩⟩
  refine ⟨{ g with start := some 0 }, ?_, hb.withStart _, rfl⟩
  unfold extract
  rw [preorder_eq, h]
  simp [h0]

end Verif.PyGrammar
