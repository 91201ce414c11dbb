import Verif.PyVerifySpec
import Verif.Props.C64
/- C84: `Grammar.verify` and `Grammar.dependency_graph`. -/
namespace Verif
open Spec PyGrammar PyVerify
open PyTree hiding verify

/-- The exception that `verify` raises, if any. -/
def PyVerify.raised : Except VErr Gram → Option VErr
  | .ok _ => none
  | .error e => some e

/-- `verify(test_disconnection=False)` raises nothing exactly if every name in a rule has a production, every use
is in the table `used_by`, and all users and keys in the table have productions; then it changes nothing. -/
theorem C84_table (σ : Iter) (hσ : σ.Ok) (g : Gram) (keys vs : List Nat)
    (ho : ∀ a, a ∈ g.order ↔ (g.prod a).isSome) :
    verify σ g keys vs false = .ok g ↔
      (∀ a r v, r ∈ g.cfg a → .nt v ∈ r → (g.prod v).isSome ∧ a ∈ g.usedBy v) ∧
      (∀ v u, (g.prod v).isSome → u ∈ g.usedBy v → (g.prod u).isSome) ∧ ∀ v ∈ keys, (g.prod v).isSome := by
  constructor
  · intro h
    have ht : Table g keys := by
      refine (table_iff hσ ho).1 ?_
      simp only [PyVerify.verify] at h
      split at h
      · cases h
      · rename_i h1
        split at h
        · cases h
        · rename_i h2; exact ⟨h1, h2⟩
    exact ⟨fun a r v hr hv => ⟨ht.closed a r v hr hv, ht.uses a r v hr hv⟩, ht.users, ht.keys⟩
  · rintro ⟨h1, h2, h3⟩
    obtain ⟨h4, h5⟩ := (table_iff hσ ho).2 ⟨fun a r v hr hv => (h1 a r v hr hv).1, fun a r v hr hv => (h1 a r v hr hv).2, h2, h3⟩
    simp only [PyVerify.verify, h4, h5]
    cases g.start <;> rfl

/-- The exceptions about the table are raised in every case where they should be, whether or not connections are
tested, and say what is wrong: MissingProductionError that a name in a rule has no production, and
CorruptedGrammarError that a use is not in the table or that the table has a name without production. -/
theorem C84_errors (σ : Iter) (hσ : σ.Ok) (g : Gram) (keys vs : List Nat) (test : Bool)
    (ho : ∀ a, a ∈ g.order ↔ (g.prod a).isSome) :
    (raised (verify σ g keys vs test) = some .missing → ∃ a r v, r ∈ g.cfg a ∧ .nt v ∈ r ∧ g.prod v = none) ∧
    (raised (verify σ g keys vs test) = some .corrupted → (∃ a r v, r ∈ g.cfg a ∧ .nt v ∈ r ∧ a ∉ g.usedBy v) ∨
      (∃ v u, (g.prod v).isSome ∧ u ∈ g.usedBy v ∧ g.prod u = none) ∨ ∃ v ∈ keys, g.prod v = none) ∧
    ((∃ a r v, r ∈ g.cfg a ∧ .nt v ∈ r ∧ (g.prod v = none ∨ a ∉ g.usedBy v)) ∨
      (∃ v u, (g.prod v).isSome ∧ u ∈ g.usedBy v ∧ g.prod u = none) ∨ (∃ v ∈ keys, g.prod v = none) →
      raised (verify σ g keys vs test) = some .missing ∨ raised (verify σ g keys vs test) = some .corrupted) := by
  have early : ∀ e, (g.order.findSome? (checkProd σ g) = some e ∨ (g.order.findSome? (checkProd σ g) = none ∧
      keys.findSome? (fun v => if (g.prod v).isNone then some VErr.corrupted else none) = some e)) →
      verify σ g keys vs test = .error e := by
    rintro e (h | ⟨h1, h2⟩)
    · simp only [PyVerify.verify, h]
    · simp only [PyVerify.verify, h1, h2]
  have cases3 : (∃ e, verify σ g keys vs test = .error e ∧ (g.order.findSome? (checkProd σ g) = some e ∨
      keys.findSome? (fun v => if (g.prod v).isNone then some VErr.corrupted else none) = some e)) ∨
      (Table g keys ∧ ∀ e, verify σ g keys vs test = .error e → e ≠ .missing ∧ e ≠ .corrupted) := by
    cases h1 : g.order.findSome? (checkProd σ g) with
    | some e => exact .inl ⟨e, early e (.inl h1), .inl rfl⟩
    | none =>
      cases h2 : keys.findSome? (fun v => if (g.prod v).isNone then some VErr.corrupted else none) with
      | some e => exact .inl ⟨e, early e (.inr ⟨h1, h2⟩), .inr rfl⟩
      | none =>
        refine .inr ⟨(table_iff hσ ho).1 ⟨h1, h2⟩, fun e he => ?_⟩
        simp only [PyVerify.verify, h1, h2] at he
        split at he
        · split at he
          · cases he; simp
          · split at he
            · split at he
              · cases he; simp
              · split at he
                · cases he; simp
                · cases he
            · cases he
        · cases he
  rcases cases3 with ⟨e, he, h⟩ | ⟨ht, hne⟩
  · have hw := table_error hσ h
    refine ⟨fun hr => ?_, fun hr => ?_, fun _ => ?_⟩
    · rw [he] at hr; cases hr
      rcases hw with ⟨_, h⟩ | ⟨h, _⟩
      · exact h
      · cases h
    · rw [he] at hr; cases hr
      rcases hw with ⟨h, _⟩ | ⟨_, h⟩
      · cases h
      · exact h
    · rw [he]
      rcases hw with ⟨rfl, _⟩ | ⟨rfl, _⟩
      · exact .inl rfl
      · exact .inr rfl
  · have hno : ∀ e, raised (verify σ g keys vs test) = some e → e ≠ .missing ∧ e ≠ .corrupted := by
      intro e h
      cases hv : verify σ g keys vs test with
      | ok g' => rw [hv] at h; cases h
      | error e' => rw [hv] at h; cases h; exact hne _ hv
    refine ⟨fun h => absurd rfl (hno _ h).1, fun h => absurd rfl (hno _ h).2, ?_⟩
    rintro (⟨a, r, v, hr, hv, h⟩ | ⟨v, u, hv, hu, h⟩ | ⟨v, hv, h⟩)
    · rcases h with h | h
      · have := ht.closed a r v hr hv; simp [h] at this
      · exact absurd (ht.uses a r v hr hv) h
    · have := ht.users v u hv hu; simp [h] at this
    · have := ht.keys v hv; simp [h] at this

/-- The test of connections, for grammars whose table has no entries for uses that are not there and for which
what is remembered about terminals is right: an exception of networkx is raised exactly if neither the start
nor a production with the same rules has an edge; else DisconnectedGrammarError exactly if some production
from which a terminal can be reached is not reached from the start, nor is any with the same rules; else
nothing is raised and the grammar stays the same. Missing for the claim: see the refutations. -/
theorem C84_connected_partial (σ : Iter) (hσ : σ.Ok) (g : Gram) (keys vs : List Nat) (s : Nat) (hf : Fresh g keys)
    (ht : verify σ g keys vs false = .ok g) (hst : g.start = some s) (hs : (g.prod s).isSome) (hd : Dfs g keys s vs) :
    (raised (verify σ g keys vs true) = some .node ↔ ¬ Linked g s) ∧
    (raised (verify σ g keys vs true) = some .disconnected ↔ Linked g s ∧
      ∃ a ∈ g.order, g.cfg.LeadsToTerminal a ∧ ∀ b, g.cfg.Reaches s b → ¬ Twin g.cfg a b) ∧
    (∀ e, raised (verify σ g keys vs true) = some e → e = .node ∨ e = .disconnected) ∧
    (∀ g', verify σ g keys vs true = .ok g' → g'.cfg = g.cfg ∧ g'.usedBy = g.usedBy ∧ g'.order = g.order ∧
      g'.start = g.start) := by
  obtain ⟨h1, h2, h3⟩ := (C84_table σ hσ g keys vs hf.order).1 ht
  have hT : Table g keys := ⟨fun a r v hr hv => (h1 a r v hr hv).1, fun a r v hr hv => (h1 a r v hr hv).2, h2, h3⟩
  rcases verify_conn hσ hf hT hst hs hd with ⟨hl, he⟩ | ⟨hl, hx, he⟩ | ⟨hl, hx, g', he, hg⟩
  · rw [he]
    refine ⟨by simp [raised, hl], by simp [raised, hl], ?_, ?_⟩
    · intro e h; cases h; exact .inl rfl
    · intro g' h; cases h
  · rw [he]
    refine ⟨by simp [raised, hl], ⟨fun _ => ⟨hl, hx⟩, fun _ => rfl⟩, ?_, ?_⟩
    · intro e h; cases h; exact .inr rfl
    · intro g' h; cases h
  · rw [he]
    refine ⟨by simp [raised, hl], ⟨fun h => absurd h (by simp [raised]), ?_⟩, ?_, ?_⟩
    · rintro ⟨_, a, ha, hla, hno⟩
      obtain ⟨b, hb, hab⟩ := hx a ha hla
      exact absurd hab (hno b hb)
    · intro e h; cases h
    · intro g'' h; cases h; exact hg

/-- A search meets the contract: the assumption about networkx can be fulfilled. -/
theorem PyVerify.dfs_exists (g : Gram) (keys : List Nat) (s : Nat) (ho : ∀ a, a ∈ g.order ↔ (g.prod a).isSome)
    (ht : Table g keys) (hs : (g.prod s).isSome) : ∃ vs, Dfs g keys s vs := by
  classical
  refine ⟨toSet g (g.order.filter (fun a => decide (∃ b, Visit g keys s b ∧ PyEarley.sameProd g a b = true))), ?_, ?_, ?_, ?_⟩
  · intro v hv
    have := mem_toSet hv
    simp only [List.mem_filter, decide_eq_true_eq] at this
    exact this.2
  · intro b hb
    have hkb := visit_known ht hs hb
    have hm : b ∈ g.order.filter (fun a => decide (∃ b, Visit g keys s b ∧ PyEarley.sameProd g a b = true)) := by
      simp only [List.mem_filter, decide_eq_true_eq]
      exact ⟨(ho b).2 hkb, b, hb, sameProd_refl g b⟩
    have hk : ∀ x ∈ g.order.filter (fun a => decide (∃ b, Visit g keys s b ∧ PyEarley.sameProd g a b = true)),
        (g.prod x).isSome := fun x hx => (ho x).1 (List.mem_filter.1 hx).1
    revert hm hk
    generalize g.order.filter _ = l
    intro hm hk
    induction l with
    | nil => simp at hm
    | cons z l ih =>
      rcases List.mem_cons.1 hm with rfl | hm
      · exact ⟨b, by simp [toSet], sameProd_refl g b⟩
      · obtain ⟨y, hy, hby⟩ := ih hm fun x hx => hk x (by simp [hx])
        cases hzy : PyEarley.sameProd g z y with
        | true =>
          have hkz := hk z (by simp)
          have hky := hk y (by simp [mem_toSet hy])
          have h1 := (sameProd_iff hkz hky).1 hzy
          have h2 := (sameProd_iff hkb hky).1 hby
          exact ⟨z, by simp [toSet], (sameProd_iff hkb hkz).2 fun r => (h2 r).trans (h1 r).symm⟩
        | false => exact ⟨y, by simp only [toSet, List.mem_cons]; exact .inr (List.mem_filter.2 ⟨hy, by simp [hzy]⟩), hby⟩
  · generalize g.order.filter _ = l
    induction l with
    | nil => exact .nil
    | cons z l ih =>
      simp only [toSet]
      refine List.pairwise_cons.2 ⟨fun b hb => by simpa using (List.mem_filter.1 hb).2, ih.sublist List.filter_sublist⟩
  · intro v hv
    exact (ho v).1 (List.mem_filter.1 (mem_toSet hv)).1

theorem PyVerify.extract_fresh {t : Tree Val} {g : Gram} {keys : List Nat} (ht : InputTree t) (h : extract t = some g)
    (hk : ∀ v, v ∈ keys ↔ g.usedBy v ≠ []) : Fresh g keys ∧ Table g keys ∧ g.start = some 0 ∧ (g.prod 0).isSome := by
  obtain ⟨hg, hu, ho, hst, h0, hf⟩ := extract_good ht h
  refine ⟨⟨hg.mem_order, ho, hu, fun a p hp => (hf a p hp).2.2, ⟨?_, ?_, ?_⟩, fun v hv => (hk v).2 hv, fun a v ha => (hg.used a v ha).2⟩,
    ⟨hg.closed, hg.uses, fun v u _ hu => (hg.used u v hu).1, fun v hv => ?_⟩, hst, h0⟩
  · intro a p hp hc
    rw [(hf a p hp).2.1] at hc; cases hc
  · intro a p hp hc
    rw [(hf a p hp).2.1] at hc; cases hc
  · exact .inl fun a p hp => (hf a p hp).2.1
  · obtain ⟨u, hu⟩ := List.exists_mem_of_ne_nil _ ((hk v).1 hv)
    rcases (hg.used u v hu).2 with rfl | ⟨q, hq, hvq⟩
    · exact (hg.used u u hu).1
    · exact hg.closed u q v hq hvq

/-- `verify()` on a grammar from `parse_tree_to_grammar` raises nothing, unless <START> uses no name at all; then
networkx raises an exception. -/
theorem C84_extracted_partial (σ : Iter) (hσ : σ.Ok) (t : Tree Val) (g : Gram) (keys vs : List Nat) (ht : InputTree t)
    (h : extract t = some g) (hk : ∀ v, v ∈ keys ↔ g.usedBy v ≠ []) (hd : Dfs g keys 0 vs) :
    ((∃ q ∈ g.cfg 0, ∃ v, .nt v ∈ q) → raised (verify σ g keys vs true) = none) ∧
    ((∀ q ∈ g.cfg 0, ∀ v, .nt v ∉ q) → raised (verify σ g keys vs true) = some .node) := by
  obtain ⟨hf, hT, hst, hs⟩ := extract_fresh ht h hk
  obtain ⟨_, hreach, _, _, huse⟩ := C62_sound t g ht h
  have hl : Linked g 0 ↔ ∃ q ∈ g.cfg 0, ∃ v, .nt v ∈ q := by
    constructor
    · rintro ⟨u, v, hu, _⟩
      obtain ⟨q, hq, hvq⟩ := (huse u v).1 hu
      have hr := hreach u ((hf.order u).2 (cfg_known hq))
      have key : ∀ b, g.cfg.Reaches 0 b → b = 0 ∨ ∃ q ∈ g.cfg 0, ∃ v, .nt v ∈ q := by
        intro b hb
        induction hb with
        | refl => exact .inl rfl
        | @step b c r _ hr hc ih =>
          rcases ih with rfl | ih
          · exact .inr ⟨r, hr, c, hc⟩
          · exact .inr ih
      rcases key u hr with rfl | h
      · exact ⟨q, hq, v, hvq⟩
      · exact h
    · rintro ⟨q, hq, v, hv⟩
      exact ⟨0, v, (huse 0 v).2 ⟨q, hq, hv⟩, .inl fun _ => Iff.rfl⟩
  rcases verify_conn hσ hf hT hst hs hd with ⟨h1, he⟩ | ⟨_, ⟨a, ha, _, hno⟩, _⟩ | ⟨h1, _, g', he, _⟩
  · exact ⟨fun h => absurd (hl.2 h) h1, fun _ => by rw [he]; rfl⟩
  · exact absurd (fun _ => Iff.rfl) (hno a (hreach a ha))
  · refine ⟨fun _ => by rw [he]; rfl, fun h => ?_⟩
    obtain ⟨q, hq, v, hv⟩ := hl.1 h1
    exact absurd hv (h q hq v)

/-- After `simplify` the table is still accepted. -/
theorem C84_simplified_partial (σ : Iter) (hσ : σ.Ok) (t : Tree Val) (g g' : Gram) (m : Bool) (keys vs : List Nat)
    (ht : InputTree t) (h : extract t = some g) (hs : g.simplify σ = some (m, g'))
    (ho : ∀ a, a ∈ g'.order ↔ (g'.prod a).isSome) (hk : ∀ v ∈ keys, v ∈ g'.order) :
    verify σ g' keys vs false = .ok g' := by
  obtain ⟨m', g'', h1, _, _, _, h2, h3⟩ := C63_total σ hσ t g ht h
  rw [hs] at h1
  cases h1
  exact (C84_table σ hσ g' keys vs ho).2 ⟨fun a r v hr hv => ⟨(ho v).1 (h2 a r v hr hv).1, (h2 a r v hr hv).2⟩,
    fun v u _ hu => (ho u).1 (h3 u v hu).1, fun v hv => (ho v).1 (hk v hv)⟩

/-- An input that is read by one block. -/
def PyVerify.leafTree : Tree Val := .node .start [.node (.term [97]) []]

theorem PyVerify.leafTree_input : InputTree leafTree := by
  refine ⟨rfl, ?_, ?_⟩ <;>
  · intro n hn
    simp only [leafTree, Tree.pre, Tree.preL, List.append_nil, List.mem_cons, List.not_mem_nil, or_false] at hn
    rcases hn with rfl | rfl <;> simp [Tree.children, Tree.val]

/-- `verify` need not accept a grammar that is in order: with a start that uses no names, networkx raises an
exception, because a production without edges is not a node of the dependency graph. -/
theorem C84_leaf_refuted : ∃ (t : Tree Val) (g : Gram), InputTree t ∧ extract t = some g ∧ (∀ a ∈ g.order, g.cfg.Reaches 0 a) ∧
    g.cfg.Lang 0 [97] ∧ ∀ σ : Iter, σ.Ok → ∀ vs, Dfs g [] 0 vs → raised (verify σ g [] vs true) = some .node := by
  obtain ⟨g, hg, _, hl⟩ := C62_extract leafTree leafTree_input
  obtain ⟨_, hr, _, _, hu⟩ := C62_sound leafTree g leafTree_input hg
  have hc : (extract leafTree).map (fun g => (g.order, g.cfg 0)) = some ([0], [[.term [97]]]) := by decide +kernel
  rw [hg] at hc
  simp only [Option.map_some, Option.some.injEq, Prod.mk.injEq] at hc
  obtain ⟨h1, h2⟩ := hc
  obtain ⟨hgd, _⟩ := extract_good leafTree_input hg
  refine ⟨leafTree, g, leafTree_input, hg, hr, hl _ (by decide +kernel), fun σ hσ vs hd => ?_⟩
  refine (C84_extracted_partial σ hσ leafTree g [] vs leafTree_input hg (fun v => ?_) hd).2 ?_
  rotate_left
  · intro q hq v hv
    rw [h2] at hq
    simp only [List.mem_singleton] at hq
    subst hq
    simp at hv
  · refine ⟨fun h => by simp at h, fun h => ?_⟩
    obtain ⟨u, hu'⟩ := List.exists_mem_of_ne_nil _ h
    obtain ⟨q, hq, hv⟩ := (hu u v).1 hu'
    have : u = 0 := by
      have := (hgd.mem_order u).2 (cfg_known hq)
      rw [h1] at this; simpa using this
    subst this
    rw [h2] at hq
    simp only [List.mem_singleton] at hq
    subst hq
    simp at hv

/-- Productions: 0 ::= 1, and 1 and 2 as given. -/
def PyVerify.two (r1 r2 : List Sym) (u2 : List Nat) : Gram where
  order := [0, 1, 2]
  prod := fun a => if a = 0 then some ⟨[.new [.nt 1]], false, none⟩ else if a = 1 then some ⟨[.new r1], true, none⟩
    else if a = 2 then some ⟨[.new r2], true, none⟩ else none
  usedBy := fun v => if v = 1 then [0] else if v = 2 then u2 else []
  start := some 0

theorem PyVerify.two_reaches {b c : List Nat} {u2 : List Nat} :
    ∀ a, (two [.term b] [.term c] u2).cfg.Reaches 0 a → a = 0 ∨ a = 1 := by
  intro a h
  induction h with
  | refl => exact .inl rfl
  | @step a d r _ hr hd ih =>
    rcases ih with rfl | rfl
    · simp [Gram.cfg, two, Rule.new, combine, combineLoop] at hr
      subst hr
      simp at hd; exact .inr hd
    · simp [Gram.cfg, two, Rule.new, combine, combineLoop] at hr
      subst hr
      simp at hd

/-- An entry of the table for a use that is not there is not noticed, and a production that cannot be reached is
taken to be reached because of it. -/
theorem C84_stale_refuted : ∃ (g : Gram) (keys vs : List Nat), Dfs g keys 0 vs ∧ g.start = some 0 ∧
    raised (verify inOrder g keys vs true) = none ∧
    (∃ u v, u ∈ g.usedBy v ∧ ∀ q ∈ g.cfg u, .nt v ∉ q) ∧
    ∃ a ∈ g.order, g.cfg.LeadsToTerminal a ∧ ∀ b, g.cfg.Reaches 0 b → ¬ Twin g.cfg a b := by
  refine ⟨two [.term [97]] [.term [98]] [0], [1, 2], [0, 1, 2], ⟨?_, ?_, by decide, by decide⟩, rfl, by decide +kernel,
    ⟨0, 2, by decide, by decide⟩, 2, by decide, ⟨2, [.term [98]], [98], .refl, by decide, by decide⟩, ?_⟩
  · have h1 : Visit (two [.term [97]] [.term [98]] [0]) [1, 2] 0 1 := .step .start (u := 0) (by decide) (by decide) (by decide)
    have h2 : Visit (two [.term [97]] [.term [98]] [0]) [1, 2] 0 2 := .step .start (u := 0) (by decide) (by decide) (by decide)
    intro v hv
    simp only [List.mem_cons, List.not_mem_nil, or_false] at hv
    rcases hv with rfl | rfl | rfl
    · exact ⟨0, .start, by decide⟩
    · exact ⟨1, h1, by decide⟩
    · exact ⟨2, h2, by decide⟩
  · intro b hb
    cases hb with
    | start => exact ⟨0, by decide, by decide⟩
    | step _ _ hv _ =>
      simp only [List.mem_cons, List.not_mem_nil, or_false] at hv
      rcases hv with rfl | rfl
      · exact ⟨1, by decide, by decide⟩
      · exact ⟨2, by decide, by decide⟩
  · intro b hb h
    rcases two_reaches b hb with rfl | rfl
    · exact absurd ((h [.term [98]]).1 (by decide)) (by decide)
    · exact absurd ((h [.term [98]]).1 (by decide)) (by decide)

/-- A production that cannot be reached is accepted if another one has the same rules. -/
theorem C84_twin_refuted : ∃ (g : Gram) (keys vs : List Nat), Dfs g keys 0 vs ∧ g.start = some 0 ∧
    raised (verify inOrder g keys vs true) = none ∧
    (∀ u v, u ∈ g.usedBy v ↔ ∃ q ∈ g.cfg u, .nt v ∈ q) ∧
    ∃ a ∈ g.order, g.cfg.LeadsToTerminal a ∧ ¬ g.cfg.Reaches 0 a := by
  refine ⟨two [.term [97]] [.term [97]] [], [1], [0, 1], ⟨?_, ?_, by decide, by decide⟩, rfl, by decide +kernel, ?_, 2,
    by decide, ⟨2, [.term [97]], [97], .refl, by decide, by decide⟩, fun h => ?_⟩
  · have h1 : Visit (two [.term [97]] [.term [97]] []) [1] 0 1 := .step .start (u := 0) (by decide) (by decide) (by decide)
    intro v hv
    simp only [List.mem_cons, List.not_mem_nil, or_false] at hv
    rcases hv with rfl | rfl
    · exact ⟨0, .start, by decide⟩
    · exact ⟨1, h1, by decide⟩
  · intro b hb
    cases hb with
    | start => exact ⟨0, by decide, by decide⟩
    | step _ _ hv _ =>
      simp only [List.mem_cons, List.not_mem_nil, or_false] at hv
      subst hv
      exact ⟨1, by decide, by decide⟩
  · intro u v
    by_cases h0 : u = 0
    · subst h0; by_cases h1 : v = 1 <;> simp [two, Gram.cfg, Rule.new, combine, combineLoop, h1]
    · by_cases h1 : u = 1
      · subst h1; by_cases h2 : v = 1 <;> simp [two, Gram.cfg, Rule.new, combine, combineLoop, h2]
      · by_cases h2 : u = 2
        · subst h2; by_cases h2 : v = 1 <;> simp [two, Gram.cfg, Rule.new, combine, combineLoop, h2]
        · by_cases h3 : v = 1 <;> simp [two, Gram.cfg, h0, h1, h2, h3]
  · rcases two_reaches 2 h with h | h <;> cases h

/-- The nodes of the dependency graph are not the productions: names are nodes, and a production that neither
uses nor is used is none. -/
theorem C84_graph_refuted : ∃ (g : Gram) (keys : List Nat), (∀ u v, u ∈ g.usedBy v ↔ ∃ q ∈ g.cfg u, .nt v ∈ q) ∧
    (∀ v, v ∈ keys ↔ g.usedBy v ≠ []) ∧ (∃ n ∈ nodes inOrder g keys, n = .name 0) ∧
    ∃ a ∈ g.order, ∀ n ∈ nodes inOrder g keys, GNode.same g (.prod a) n = false := by
  refine ⟨two [.term [97]] [.term [98]] [], [1], ?_, ?_, ⟨.name 0, by decide, rfl⟩, 2, by decide, by decide +kernel⟩
  · intro u v
    by_cases h0 : u = 0
    · subst h0; by_cases h1 : v = 1 <;> simp [two, Gram.cfg, Rule.new, combine, combineLoop, h1]
    · by_cases h1 : u = 1
      · subst h1; by_cases h2 : v = 1 <;> simp [two, Gram.cfg, Rule.new, combine, combineLoop, h2]
      · by_cases h2 : u = 2
        · subst h2; by_cases h2 : v = 1 <;> simp [two, Gram.cfg, Rule.new, combine, combineLoop, h2]
        · by_cases h3 : v = 1 <;> simp [two, Gram.cfg, h0, h1, h2, h3]
  · intro v
    by_cases h1 : v = 1 <;> simp [two, h1]

/-- The hypotheses can be met: a production that cannot be reached is found, in any order. -/
example : ∃ (g : Gram) (keys vs : List Nat), Dfs g keys 0 vs ∧ g.start = some 0 ∧
    verify inOrder g keys vs false = .ok g ∧ raised (verify inOrder g keys vs true) = some .disconnected := by
  refine ⟨two [.term [97]] [.term [98]] [], [1], [0, 1], ⟨?_, ?_, by decide, by decide⟩, rfl, ?_, by decide +kernel⟩
  · have h1 : Visit (two [.term [97]] [.term [98]] []) [1] 0 1 := .step .start (u := 0) (by decide) (by decide) (by decide)
    intro v hv
    simp only [List.mem_cons, List.not_mem_nil, or_false] at hv
    rcases hv with rfl | rfl
    · exact ⟨0, .start, by decide⟩
    · exact ⟨1, h1, by decide⟩
  · intro b hb
    cases hb with
    | start => exact ⟨0, by decide, by decide⟩
    | step _ _ hv _ =>
      simp only [List.mem_cons, List.not_mem_nil, or_false] at hv
      subst hv
      exact ⟨1, by decide, by decide⟩
  · rfl

/-- An extracted grammar and a search as in `C84_extracted_partial`. -/
example : ∃ (t : Tree Val) (g : Gram) (keys vs : List Nat), InputTree t ∧ extract t = some g ∧
    (∀ v, v ∈ keys ↔ g.usedBy v ≠ []) ∧ Dfs g keys 0 vs ∧ ∃ q ∈ g.cfg 0, ∃ v, .nt v ∈ q := by
  obtain ⟨g, hg, _, _⟩ := C62_extract lossTree lossTree_input
  obtain ⟨hgd, _⟩ := extract_good lossTree_input hg
  have hk : ∀ v, v ∈ g.order.filter (fun v => !(g.usedBy v).isEmpty) ↔ g.usedBy v ≠ [] := by
    intro v
    simp only [List.mem_filter, Bool.not_eq_true', List.isEmpty_eq_false_iff, and_iff_right_iff_imp]
    intro h
    obtain ⟨u, hu⟩ := List.exists_mem_of_ne_nil _ h
    rcases (hgd.used u v hu).2 with rfl | ⟨q, hq, hv⟩
    · exact (hgd.mem_order u).2 (hgd.used u u hu).1
    · exact (hgd.mem_order v).2 (hgd.closed u q v hq hv)
  obtain ⟨hf, hT, _, hs⟩ := extract_fresh lossTree_input hg hk
  obtain ⟨vs, hd⟩ := dfs_exists g _ 0 hf.order hT hs
  refine ⟨lossTree, g, _, vs, lossTree_input, hg, hk, hd, [.nt 1, .term [99], .nt 1], ?_, 1, by simp⟩
  have : (extract lossTree).map (fun g => decide ([.nt 1, .term [99], .nt 1] ∈ g.cfg 0)) = some true := by decide +kernel
  rw [hg] at this
  simpa using this

end Verif
