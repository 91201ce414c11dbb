import Verif.PyGrammarTerm
import Verif.Props.C63
/- C64: `Production.can_produce_terminal`. -/
namespace Verif
open Spec PyTree PyGrammar

/-- A program that asks `can_produce_terminal` of one production after the other. -/
def PyGrammar.ask (σ : Iter) : List Nat → Gram → Option (List Bool × Gram)
  | [], g => some ([], g)
  | a :: as, g =>
    match g.canProduceTerminal σ a with
    | none => none
    | some (b, g') => (PyGrammar.ask σ as g').map (fun q => (b :: q.1, q.2))

theorem PyGrammar.ask_spec {σ : Iter} (hσ : σ.Ok) : ∀ (as : List Nat) {g : Gram}, Sane g → g.order.Nodup → Accurate g →
    Known g → (∀ a ∈ as, a ∈ g.order) → ∃ bs g', PyGrammar.ask σ as g = some (bs, g') ∧ g'.cfg = g.cfg ∧
      bs.length = as.length ∧
      ∀ (i a : Nat), as[i]? = some a → ∃ b, bs[i]? = some b ∧ (b = true ↔ g.cfg.LeadsToTerminal a) := by
  intro as
  induction as with
  | nil => intro g _ _ _ _ _; exact ⟨[], g, rfl, rfl, rfl, by simp⟩
  | cons a as ih =>
    intro g hg ho hacc hk hin
    obtain ⟨b, g1, h1, hal, hk1, hiff⟩ := canProduceTerminal_spec hσ hg ho hacc hk ((hg.mem_order a).1 (hin a (by simp)))
    have hacc1 : Accurate g1 := by
      intro c p hp
      cases hc : g.prod c with
      | none => rw [hal.none c hc] at hp; cases hp
      | some q =>
        obtain ⟨x, hx⟩ := hal.some c q hc
        rw [hp] at hx
        cases hx
        exact hacc c q hc
    obtain ⟨bs, g2, h2, hc2, hl2, hb2⟩ := ih (hg.alike hal) (by rw [hal.order]; exact ho) hacc1 hk1
      (fun c hc => by rw [hal.order]; exact hin c (by simp [hc]))
    refine ⟨b :: bs, g2, by simp only [PyGrammar.ask, h1, h2]; rfl, hc2.trans hal.cfg, by simp [hl2], fun i c hc => ?_⟩
    cases i with
    | zero =>
      simp only [List.getElem?_cons_zero, Option.some.injEq] at hc
      subst hc
      exact ⟨b, rfl, hiff⟩
    | succ i =>
      simp only [List.getElem?_cons_succ] at hc ⊢
      obtain ⟨b', hb', hi⟩ := hb2 i c hc
      exact ⟨b', hb', by rw [hi, hal.cfg]⟩

/-- On an extracted grammar, every sequence of questions `can_produce_terminal` is answered, and rightly: the
answer is True exactly if a terminal can occur in an expansion of the production. Answers are remembered,
the search stops early for productions with equal rules, and sets are iterated in any order. Missing for
the claim: grammars whose rules were changed, for which it is false. -/
theorem C64_answers_partial (σ : Iter) (hσ : σ.Ok) (t : Tree Val) (g : Gram) (ht : InputTree t) (h : extract t = some g)
    (as : List Nat) (has : ∀ a ∈ as, a ∈ g.order) :
    ∃ bs g', PyGrammar.ask σ as g = some (bs, g') ∧ g'.cfg = g.cfg ∧ bs.length = as.length ∧
      ∀ (i a : Nat), as[i]? = some a → ∃ b, bs[i]? = some b ∧ (b = true ↔ g.cfg.LeadsToTerminal a) := by
  obtain ⟨hg, hu, ho, _, _, hf⟩ := extract_good ht h
  refine PyGrammar.ask_spec hσ as (hg.sane hu) ho (fun a p hp => (hf a p hp).2.2) ⟨?_, ?_, ?_⟩ has
  · intro a p hp hc
    rw [(hf a p hp).2.1] at hc; cases hc
  · intro a p hp hc
    rw [(hf a p hp).2.1] at hc; cases hc
  · exact .inl (fun a p hp => (hf a p hp).2.1)

/-- A production that derives a string that is not empty can produce a terminal. -/
theorem C64_derives (G : Cfg) (a : Nat) (w : List Nat) (hw : w ≠ []) (h : G.Lang a w) : G.LeadsToTerminal a := by
  have key : ∀ s w, Derives G s w → w ≠ [] → (∃ b, .term b ∈ s) ∨ ∃ c, .nt c ∈ s ∧ G.LeadsToTerminal c := by
    intro s w h
    induction h with
    | nil => intro h; exact absurd rfl h
    | @term b s w _ _ => intro _; exact .inl ⟨b, by simp⟩
    | @nt A r s u w hr _ _ ih1 ih2 =>
      intro hne
      by_cases hu : u = []
      · subst hu
        rcases ih2 hne with ⟨b, hb⟩ | ⟨c, hc, hl⟩
        · exact .inl ⟨b, by simp [hb]⟩
        · exact .inr ⟨c, by simp [hc], hl⟩
      · right
        refine ⟨A, by simp, ?_⟩
        rcases ih1 hu with ⟨b, hb⟩ | ⟨c, hc, d, r', b, hd, hr', hb⟩
        · exact ⟨A, r, b, .refl, hr, hb⟩
        · exact ⟨d, r', b, hd.head hr hc, hr', hb⟩
  rcases key _ _ h hw with ⟨b, hb⟩ | ⟨c, hc, hl⟩
  · simp at hb
  · simp only [List.mem_cons, Sym.nt.injEq, List.not_mem_nil, or_false] at hc
    subst hc
    exact hl

/-- After `replace_sub_production` (here as `simplify` calls it) the answer can be wrong: the rules of
production 1 are "a" and "b", and `can_produce_terminal` is False. -/
theorem C64_replace_refuted : ∃ (t : Tree Val) (g g1 g' : Gram) (σ : Iter) (m : Bool), σ.Ok ∧ InputTree t ∧
    extract t = some g ∧ g.inlineAll σ g.order = some (m, g1) ∧ 1 ∈ g1.order ∧
    g1.canProduceTerminal σ 1 = some (false, g') ∧ g1.cfg.LeadsToTerminal 1 := by
  obtain ⟨g, hg, _, _⟩ := C62_extract lossTree lossTree_input
  obtain ⟨m, g1, h1, _⟩ := C63_inline_partial inOrder inOrder_ok lossTree g lossTree_input hg
  have hc : ((extract lossTree).bind (fun g => g.inlineAll inOrder g.order)).map
      (fun q => (decide (1 ∈ q.2.order), q.2.cfg 1, (q.2.canProduceTerminal inOrder 1).map (·.1))) =
      some (true, [[.term [97]], [.term [98]]], some false) := by decide +kernel
  rw [hg, Option.bind_some, h1] at hc
  simp only [Option.map_some, Option.some.injEq, Prod.mk.injEq, decide_eq_true_eq, Option.map_eq_some_iff] at hc
  obtain ⟨hin, hcfg, ⟨b, g'⟩, hb, rfl⟩ := hc
  refine ⟨lossTree, g, g1, g', inOrder, m, inOrder_ok, lossTree_input, hg, h1, hin, hb,
    1, [.term [97]], [97], .refl, ?_, by simp⟩
  rw [hcfg]; simp

/-- A tree whose only block has read nothing. -/
def PyGrammar.emptyTree : Tree Val := .node .start [.node (.bb 1) []]

theorem PyGrammar.emptyTree_input : InputTree emptyTree := by
  refine ⟨rfl, ?_, ?_⟩ <;>
  · intro n hn
    simp only [emptyTree, Tree.pre, Tree.preL, List.append_nil, List.mem_cons, List.not_mem_nil,
      or_false] at hn
    rcases hn with rfl | rfl <;> simp [Tree.children, Tree.val]

/-- After `add` of a rule with a terminal the answer remembered from before stays. -/
theorem C64_add_refuted : ∃ (t : Tree Val) (g g1 g2 : Gram) (p : Prodn) (σ : Iter), σ.Ok ∧ InputTree t ∧
    extract t = some g ∧ g.canProduceTerminal σ 1 = some (false, g1) ∧ g1.prod 1 = some p ∧
    (g1.addTo 1 p (Rule.new [.term [97]])).canProduceTerminal σ 1 = some (false, g2) ∧
    (g1.addTo 1 p (Rule.new [.term [97]])).cfg.LeadsToTerminal 1 := by
  obtain ⟨g, hg, _, _⟩ := C62_extract emptyTree emptyTree_input
  have hc : (extract emptyTree).bind (fun g => (g.canProduceTerminal inOrder 1).bind (fun q => (q.2.prod 1).bind (fun p =>
      ((q.2.addTo 1 p (Rule.new [.term [97]])).canProduceTerminal inOrder 1).map (fun q' =>
        (q.1, (q.2.addTo 1 p (Rule.new [.term [97]])).cfg 1, q'.1))))) = some (false, [[], [.term [97]]], false) := by
    decide +kernel
  rw [hg] at hc
  simp only [Option.bind_some, Option.bind_eq_some_iff, Option.map_eq_some_iff, Prod.mk.injEq] at hc
  obtain ⟨⟨b1, g1⟩, h1, p, hp, ⟨b2, g2⟩, h2, rfl, hcfg, rfl⟩ := hc
  refine ⟨emptyTree, g, g1, g2, p, inOrder, inOrder_ok, emptyTree_input, hg, h1, hp, h2,
    1, [.term [97]], [97], .refl, ?_, by simp⟩
  rw [hcfg]; simp

example : (extract lossTree).bind (fun g => (PyGrammar.ask inOrder [1, 0, 3] g).map (·.1)) = some [true, true, true] ∧
    (extract emptyTree).bind (fun g => (PyGrammar.ask inOrder [1, 0, 1] g).map (·.1)) = some [false, false, false] :=
  ⟨by decide +kernel, by decide +kernel⟩

end Verif
