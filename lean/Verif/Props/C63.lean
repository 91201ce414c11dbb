import Verif.PyGrammarTotal
import Verif.Props.C62
/- C63: `Grammar.simplify`. -/
namespace Verif
open Spec PyTree PyGrammar

theorem PyGrammar.extract_good {t : Tree Val} {g : Gram} (ht : InputTree t) (h : extract t = some g) :
    Good g ∧ UsesNodup g ∧ g.order.Nodup ∧ g.start = some 0 ∧ (g.prod 0).isSome ∧
      ∀ a p, g.prod a = some p → p.removable = decide (a ≠ 0) ∧ p.cpt = none ∧
        ∀ r ∈ p.rules, r.hasTerm = r.seq.any isTerm := by
  obtain ⟨g', hg, hb, hs⟩ := extract_built ht.root ht.noStart
  rw [h] at hg
  cases hg
  obtain ⟨h1, h2, h3, h4, h5⟩ := C62_sound t g ht h
  refine ⟨⟨hb.mem_order, fun a q v hq hv => (hb.mem_order v).1 (h1 a q v hq hv), fun a q v hq hv => (h5 a v).2 ⟨q, hq, hv⟩,
    fun a v ha => ?_, hb.nodup, fun a ha => h4 a ((hb.mem_order a).2 ha)⟩, ?_, hb.order, hs, ?_, hb.flags⟩
  · obtain ⟨q, hq, hv⟩ := (h5 a v).1 ha
    exact ⟨(hb.some_iff a).2 ⟨q, hq⟩, .inr ⟨q, hq, hv⟩⟩
  · unfold extract at h
    split at h
    · cases h
    · rename_i h'
      split at h
      · cases h
        have := addNodes_nodup _ (g := Gram.empty) (fun v => List.nodup_nil) h'
        exact this
      · cases h
  · unfold extract at h
    split at h
    · cases h
    · split at h
      · rename_i h'
        cases h
        exact h'
      · cases h

/-- `simplify` never fails on an extracted grammar, whatever the order in which sets are iterated. The start
stays; no name appears; the names in rules have productions; and `used_by` is right (a production that had a
rule calling itself may stay listed as its own user). -/
theorem C63_total (σ : Iter) (hσ : σ.Ok) (t : Tree Val) (g : Gram) (ht : InputTree t) (h : extract t = some g) :
    ∃ m g', g.simplify σ = some (m, g') ∧ g'.start = some 0 ∧ 0 ∈ g'.order ∧ (∀ a ∈ g'.order, a ∈ g.order) ∧
      (∀ a q v, q ∈ g'.cfg a → .nt v ∈ q → v ∈ g'.order ∧ a ∈ g'.usedBy v) ∧
      (∀ a v, a ∈ g'.usedBy v → a ∈ g'.order ∧ (a = v ∨ ∃ q ∈ g'.cfg a, .nt v ∈ q)) := by
  obtain ⟨hg, hu, ho, hst, h0, hf⟩ := extract_good ht h
  obtain ⟨m1, g1, h1, hg1, hst1, hsub1, _, hrm1, _, _⟩ := inlineAll_good hσ g.order g hg ho (fun _ h => h)
  have hu1 := inlineAll_nodup _ hu h1
  obtain ⟨p0, hp0⟩ := Option.isSome_iff_exists.1 h0
  obtain ⟨p1, hp1, hr1⟩ := hrm1 0 p0 hp0 (by rw [(hf 0 p0 hp0).1]; rfl)
  obtain ⟨m2, g2, h2, hg2, hst2, hk2, hsub2⟩ := dropEmpty_sane hσ g1.order g1 (hg1.sane hu1) (ho.sublist hsub1)
    (fun _ h => h)
  refine ⟨m1 || m2, g2, by simp only [Gram.simplify, h1, h2]; rfl, hst2.trans (hst1.trans hst), hk2 0 p1 hp1 hr1,
    fun a ha => hsub1.subset (hsub2 a ha), fun a q v hq hv => ?_, fun a v ha => ?_⟩
  · exact ⟨(hg2.mem_order v).2 (hg2.closed a q v hq hv), hg2.uses a q v hq hv⟩
  · obtain ⟨h1, h2⟩ := hg2.used a v ha
    exact ⟨(hg2.mem_order a).2 h1, h2⟩

/-- The first part of `simplify`, which replaces every name with a single rule by that rule and drops rules
`a ::= a`, succeeds and changes no language: every production that is left, and <START> is, derives the same
strings as before. Missing for the claim: the second part (see `C63_simplify_refuted`). -/
theorem C63_inline_partial (σ : Iter) (hσ : σ.Ok) (t : Tree Val) (g : Gram) (ht : InputTree t)
    (h : extract t = some g) :
    ∃ m g', g.inlineAll σ g.order = some (m, g') ∧ g'.start = some 0 ∧ 0 ∈ g'.order ∧
      ∀ a ∈ g'.order, ∀ w, g'.cfg.Lang a w ↔ g.cfg.Lang a w := by
  obtain ⟨hg, _, ho, hst, h0, hf⟩ := extract_good ht h
  obtain ⟨m1, g1, h1, hg1, hst1, _, hl1, hrm1, _, _⟩ := inlineAll_good hσ g.order g hg ho (fun _ h => h)
  obtain ⟨p0, hp0⟩ := Option.isSome_iff_exists.1 h0
  obtain ⟨p1, hp1, _⟩ := hrm1 0 p0 hp0 (by rw [(hf 0 p0 hp0).1]; rfl)
  exact ⟨m1, g1, h1, hst1.trans hst, (hg1.mem_order 0).2 (by rw [hp1]; rfl), hl1⟩

/-- `simplify` changes no language if every production with two different rules has a terminal in each of
them. Missing for the claim: the other grammars, for which it is false (`C63_simplify_refuted`). -/
theorem C63_simplify_partial (σ : Iter) (hσ : σ.Ok) (t : Tree Val) (g : Gram) (ht : InputTree t)
    (h : extract t = some g)
    (hterm : ∀ a, a ≠ 0 → ∀ q ∈ g.cfg a, ∀ q' ∈ g.cfg a, q ≠ q' → ∃ b, .term b ∈ q) :
    ∃ m g', g.simplify σ = some (m, g') ∧ g'.start = some 0 ∧ 0 ∈ g'.order ∧
      (∀ a ∈ g'.order, ∀ w, g'.cfg.Lang a w ↔ g.cfg.Lang a w) ∧
      ∀ w, «matches» t = some w → g'.cfg.Lang 0 w := by
  obtain ⟨hg, _, ho, hst, h0, hf⟩ := extract_good ht h
  obtain ⟨m1, g1, h1, hg1, hst1, hsub1, hl1, hrm1, hf1, hu1⟩ := inlineAll_good hσ g.order g hg ho (fun _ h => h)
  obtain ⟨p0, hp0⟩ := Option.isSome_iff_exists.1 h0
  obtain ⟨p1, hp1, _⟩ := hrm1 0 p0 hp0 (by rw [(hf 0 p0 hp0).1]; rfl)
  have hflag : Flagged g g.order := by
    intro b p hp hr
    by_cases hlen : p.rules.length = 1
    · exact .inl ⟨(hg.mem_order b).2 (by rw [hp]; rfl), hlen⟩
    · right
      intro r hr'
      obtain ⟨hrm, _, hfl⟩ := hf b p hp
      have hb0 : b ≠ 0 := by rw [hrm] at hr; simpa using hr
      have hother : ∃ q' ∈ g.cfg b, r.seq ≠ q' := by
        have hnd := hg.nodup b
        rw [cfg_of_prod hp] at hnd ⊢
        match hrs : p.rules, hr', hlen, hnd with
        | [], hr', _, _ => simp at hr'
        | [_], _, hlen, _ => simp at hlen
        | r1 :: r2 :: rs, hr', _, hnd =>
          have hne : r1.seq ≠ r2.seq := by
            simp only [List.map_cons, List.nodup_cons, List.mem_cons, not_or] at hnd
            exact hnd.1.1
          by_cases e : r.seq = r1.seq
          · exact ⟨r2.seq, by simp, by rw [e]; exact hne⟩
          · exact ⟨r1.seq, by simp, e⟩
      obtain ⟨q', hq', hne⟩ := hother
      have hin : r.seq ∈ g.cfg b := by rw [cfg_of_prod hp]; exact List.mem_map.2 ⟨r, hr', rfl⟩
      obtain ⟨x, hx⟩ := hterm b hb0 _ hin _ hq' hne
      rw [hfl r hr', List.any_eq_true]
      exact ⟨_, hx, rfl⟩
  have hunj : Unjudged g := by
    intro b p hp
    rw [(hf b p hp).2.1]
    simp
  obtain ⟨g2, h2, hm2⟩ := dropEmpty_flagged (σ := σ) g1.order g1 hg1 (hu1 hunj) (hf1 hflag) (fun _ h => h)
  have h01 : 0 ∈ g1.order := (hg1.mem_order 0).2 (by rw [hp1]; rfl)
  refine ⟨m1 || false, g2, by simp only [Gram.simplify, h1, h2]; rfl, hm2.start.trans (hst1.trans hst),
    by rw [hm2.order]; exact h01, fun a ha w => ?_, fun w hw => ?_⟩
  · rw [hm2.order] at ha
    rw [hm2.cfg]
    exact hl1 a ha w
  · rw [hm2.cfg]
    obtain ⟨g', hg', _, hl⟩ := C62_extract t ht
    rw [h] at hg'
    cases hg'
    exact (hl1 0 h01 w).2 (hl w hw)

/-- Iteration in the order of insertion. -/
def PyGrammar.inOrder : Iter := ⟨id, id⟩

theorem PyGrammar.inOrder_ok : inOrder.Ok := ⟨fun _ => .refl _, fun _ => .refl _⟩

/-- The input "acb": START ::= 1 "c" 1; 1 ::= 2 | 3; 2 ::= "a"; 3 ::= "b". -/
def PyGrammar.lossTree : Tree Val :=
  .node .start [.node (.fn 1) [.node (.bb 2) [.node (.term [97]) []]], .node (.term [99]) [],
    .node (.fn 1) [.node (.bb 3) [.node (.term [98]) []]]]

theorem PyGrammar.lossTree_input : InputTree lossTree := by
  refine ⟨rfl, ?_, ?_⟩ <;>
  · intro n hn
    simp only [lossTree, Tree.pre, Tree.preL, List.append_nil, List.mem_cons, List.not_mem_nil,
      or_false, List.cons_append, List.nil_append] at hn
    rcases hn with rfl | rfl | rfl | rfl | rfl | rfl | rfl | rfl <;> simp [Tree.children, Tree.val]

/-- What a grammar is, for the examples. -/
def PyGrammar.Gram.table (g : Gram) : List (Nat × List (List Sym)) := g.order.map (fun a => (a, g.cfg a))

/-- The claim is false: the grammar extracted from the input "acb" derives "acb" and not "c". After `simplify`
it derives "c" and not "acb". The rules of production 1 were replaced by terminals, but their `has_terminals`
still says that there are none, so the production is removed from the rule of <START>. -/
theorem C63_simplify_refuted : ∃ (t : Tree Val) (g g' : Gram) (σ : Iter) (m : Bool), σ.Ok ∧ InputTree t ∧
    «matches» t = some [97, 99, 98] ∧ extract t = some g ∧ g.simplify σ = some (m, g') ∧
    g.cfg.Lang 0 [97, 99, 98] ∧ ¬ g'.cfg.Lang 0 [97, 99, 98] ∧ g'.cfg.Lang 0 [99] ∧ ¬ g.cfg.Lang 0 [99] := by
  obtain ⟨g, hg, _, hl⟩ := C62_extract lossTree lossTree_input
  have hm : «matches» lossTree = some [97, 99, 98] := by decide +kernel
  obtain ⟨m, g', hg', _⟩ := C63_total inOrder inOrder_ok lossTree g lossTree_input hg
  have h0 : g.cfg 0 = [[.nt 1, .term [99], .nt 1]] := by
    have : (extract lossTree).map (fun g => g.cfg 0) = some [[.nt 1, .term [99], .nt 1]] := by decide +kernel
    rw [hg] at this
    simpa using this
  have h1 : g.cfg 1 = [[.nt 2], [.nt 3]] := by
    have : (extract lossTree).map (fun g => g.cfg 1) = some [[.nt 2], [.nt 3]] := by decide +kernel
    rw [hg] at this
    simpa using this
  have h2 : g.cfg 2 = [[.term [97]]] := by
    have : (extract lossTree).map (fun g => g.cfg 2) = some [[.term [97]]] := by decide +kernel
    rw [hg] at this
    simpa using this
  have h3 : g.cfg 3 = [[.term [98]]] := by
    have : (extract lossTree).map (fun g => g.cfg 3) = some [[.term [98]]] := by decide +kernel
    rw [hg] at this
    simpa using this
  have h0' : g'.cfg 0 = [[.term [99]]] := by
    have : (extract lossTree).bind (fun g => (g.simplify inOrder).map (fun q => q.2.cfg 0)) =
        some [[.term [99]]] := by decide +kernel
    rw [hg] at this
    simpa [hg'] using this
  refine ⟨lossTree, g, g', inOrder, m, inOrder_ok, lossTree_input, hm, hg, hg', hl _ hm, fun h => ?_, ?_, fun h => ?_⟩
  · unfold Cfg.Lang at h
    rw [Derives.single_iff, h0'] at h
    obtain ⟨r, hr, h⟩ := h
    rw [List.mem_singleton] at hr
    subst hr
    rw [Derives.term_iff] at h
    obtain ⟨w, hw, h⟩ := h
    simp at hw
  · unfold Cfg.Lang
    rw [Derives.single_iff, h0']
    exact ⟨_, List.mem_singleton.2 rfl, .term .nil⟩
  · have hone : ∀ w, g.cfg.Lang 1 w → w.length = 1 := by
      intro w hw
      unfold Cfg.Lang at hw
      rw [Derives.single_iff, h1] at hw
      obtain ⟨r, hr, hw⟩ := hw
      simp only [List.mem_cons, List.not_mem_nil, or_false] at hr
      rcases hr with rfl | rfl
      · rw [Derives.single_iff, h2] at hw
        obtain ⟨r, hr, hw⟩ := hw
        rw [List.mem_singleton] at hr
        subst hr
        rw [Derives.term_iff] at hw
        obtain ⟨u, rfl, hu⟩ := hw
        rw [Derives.nil_iff] at hu
        subst hu
        rfl
      · rw [Derives.single_iff, h3] at hw
        obtain ⟨r, hr, hw⟩ := hw
        rw [List.mem_singleton] at hr
        subst hr
        rw [Derives.term_iff] at hw
        obtain ⟨u, rfl, hu⟩ := hw
        rw [Derives.nil_iff] at hu
        subst hu
        rfl
    unfold Cfg.Lang at h
    rw [Derives.single_iff, h0] at h
    obtain ⟨r, hr, h⟩ := h
    rw [List.mem_singleton] at hr
    subst hr
    obtain ⟨u, v, e, hu, hv⟩ := (Derives.append_iff (s := [.nt 1]) (t := [.term [99], .nt 1])).1 h
    rw [Derives.term_iff] at hv
    obtain ⟨v', rfl, hv'⟩ := hv
    have l1 := hone u hu
    have l2 := hone v' hv'
    have := congrArg List.length e
    simp [l1, l2] at this

/-- START ::= 1 1; 1 ::= 1 | "b" | "c". -/
def PyGrammar.loopTree : Tree Val :=
  .node .start [.node (.fn 1) [.node (.fn 1) [.node (.term [98]) []]], .node (.fn 1) [.node (.term [99]) []]]

theorem PyGrammar.loopTree_input : InputTree loopTree := by
  refine ⟨rfl, ?_, ?_⟩ <;>
  · intro n hn
    simp only [loopTree, Tree.pre, Tree.preL, List.append_nil, List.mem_cons, List.not_mem_nil,
      or_false, List.cons_append, List.nil_append] at hn
    rcases hn with rfl | rfl | rfl | rfl | rfl | rfl <;> simp [Tree.children, Tree.val]

/-- `simplify` says that it changed nothing although it removed a rule. -/
theorem C63_modified_refuted : ∃ (t : Tree Val) (g g' : Gram) (σ : Iter), σ.Ok ∧ InputTree t ∧
    extract t = some g ∧ g.simplify σ = some (false, g') ∧ [.nt 1] ∈ g.cfg 1 ∧ [.nt 1] ∉ g'.cfg 1 := by
  obtain ⟨g, hg, _, _⟩ := C62_extract loopTree loopTree_input
  obtain ⟨m, g', hg', _⟩ := C63_total inOrder inOrder_ok loopTree g loopTree_input hg
  have h1 : [.nt 1] ∈ g.cfg 1 := by
    have : (extract loopTree).map (fun g => decide ([.nt 1] ∈ g.cfg 1)) = some true := by decide +kernel
    rw [hg] at this
    simpa using this
  have h2 : (extract loopTree).bind (fun g => (g.simplify inOrder).map (fun q => (q.1, decide ([.nt 1] ∈ q.2.cfg 1)))) =
      some (false, false) := by decide +kernel
  rw [hg] at h2
  simp only [Option.bind_some, hg', Option.map_some, Option.some.injEq, Prod.mk.injEq, decide_eq_false_iff_not] at h2
  obtain ⟨rfl, h2⟩ := h2
  exact ⟨loopTree, g, g', inOrder, inOrder_ok, loopTree_input, hg, hg', h1, h2⟩

/-- A tree with a name that has two rules, each with a terminal, and names with one rule: START ::= 1 1;
1 ::= 2 "b" | "c"; 2 ::= "a". -/
def PyGrammar.keepTree : Tree Val :=
  .node .start [.node (.fn 1) [.node (.bb 2) [.node (.term [97]) []], .node (.term [98]) []],
    .node (.fn 1) [.node (.term [99]) []]]

example : InputTree keepTree ∧ inOrder.Ok ∧
    (extract keepTree).map Gram.table =
      some [(0, [[.nt 1, .nt 1]]), (1, [[.nt 2, .term [98]], [.term [99]]]), (2, [[.term [97]]])] ∧
    (extract keepTree).bind (fun g => (g.simplify inOrder).map (fun q => q.2.table)) =
      some [(0, [[.nt 1, .nt 1]]), (1, [[.term [97, 98]], [.term [99]]])] ∧
    ∃ g m g', extract keepTree = some g ∧ g.simplify inOrder = some (m, g') ∧ g'.cfg.Lang 0 [97, 98, 99] := by
  have hin : InputTree keepTree := by
    refine ⟨rfl, ?_, ?_⟩ <;>
    · intro n hn
      simp only [keepTree, Tree.pre, Tree.preL, List.append_nil, List.mem_cons, List.not_mem_nil,
        or_false, List.cons_append, List.nil_append] at hn
      rcases hn with rfl | rfl | rfl | rfl | rfl | rfl | rfl <;> simp [Tree.children, Tree.val]
  obtain ⟨g, hg, _, _⟩ := C62_extract keepTree hin
  have hc : ∀ a, a ≠ 0 → ∀ q ∈ g.cfg a, ∀ q' ∈ g.cfg a, q ≠ q' → ∃ b, .term b ∈ q := by
    intro a ha q hq q' hq' hne
    have hall : (extract keepTree).map (fun g => g.order.all (fun a => decide (a = 0 ∨ (g.cfg a).all (fun q => q.any isTerm)))) =
        some true := by decide +kernel
    rw [hg] at hall
    simp only [Option.map_some, Option.some.injEq, List.all_eq_true] at hall
    have hao : a ∈ g.order := by
      obtain ⟨hgood, _⟩ := extract_good hin hg
      rw [hgood.mem_order]
      unfold Gram.cfg at hq
      cases hp : g.prod a with
      | none => rw [hp] at hq; simp at hq
      | some p => rfl
    have := hall a hao
    simp only [ha, false_or, decide_eq_true_eq] at this
    obtain ⟨s, hs, hst⟩ := List.any_eq_true.1 (this q hq)
    cases s with
    | term b => exact ⟨b, hs⟩
    | nt n => cases hst
  obtain ⟨m, g', hg', _, _, _, hl⟩ := C63_simplify_partial inOrder inOrder_ok keepTree g hin hg hc
  exact ⟨hin, inOrder_ok, by decide +kernel, by decide +kernel, g, m, g', hg, hg', hl _ (by decide +kernel)⟩

end Verif
