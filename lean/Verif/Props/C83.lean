import Verif.PyPartialEnd
import Verif.PyPartialOnce
import Verif.Props.C63
/- C83: `Production.partial_match` and `Grammar.find_partial_trees`. -/
namespace Verif
open Spec PyTree PyGrammar PyPartial

/-- What is enumerated, also before the enumeration has ended or if it never ends: for a sentence that is not
empty, every match is a complete parse tree for a beginning of the sentence, or a parse tree cut off behind the
leaf where the sentence ends. The bytes left are those behind the tree; the symbols left, if bytes are left,
are none, and else those of the topmost rule. For all grammars in which every production has a rule, and all
orders of iteration. Missing for the claim: sentences that end within a terminal, the empty sentence, and
productions without rules. -/
theorem C83_sound_partial (σ : Iter) (hσ : σ.Ok) (g : Gram) (hg : ∀ a p, g.prod a = some p → p.rules ≠ [])
    (f A : Nat) (s : List Nat) (hs : s ≠ []) (m : PMatch) (hm : m ∈ (pm σ g f A s).1) :
    (m.rem ≠ [] ∧ m.syms = [] ∧ ∃ w, Full g.cfg (.nt A) m.tree w ∧ w ++ m.rem = s) ∨
    (m.rem = [] ∧ Cut g.cfg (.nt A) m.tree s m.syms) :=
  ((enum hσ hg f).1 A s hs).1 m hm

/-- An enumeration that has ended has found all of them. -/
theorem C83_complete_partial (σ : Iter) (hσ : σ.Ok) (g : Gram) (hg : ∀ a p, g.prod a = some p → p.rules ≠ [])
    (f A : Nat) (s : List Nat) (hs : s ≠ []) (hd : (pm σ g f A s).2 = .done) :
    (∀ t w rest, Full g.cfg (.nt A) t w → rest ≠ [] → w ++ rest = s → ⟨t, [], rest⟩ ∈ (pm σ g f A s).1) ∧
    (∀ t post, Cut g.cfg (.nt A) t s post → ⟨t, post, []⟩ ∈ (pm σ g f A s).1) :=
  ⟨fun _ w _ h hr hw => ((enum hσ hg f).1 A s hs).2 hd _ (.inl ⟨hr, rfl, w, h, hw⟩),
    fun _ _ h => ((enum hσ hg f).1 A s hs).2 hd _ (.inr ⟨rfl, h⟩)⟩

/-- No tree is enumerated twice, also if the enumeration does not end. -/
theorem C83_once_partial (σ : Iter) (hσ : σ.Ok) (g : Gram) (hg : ∀ a p, g.prod a = some p → p.rules ≠ [])
    (hn : ∀ a, (g.cfg a).Nodup) (f A : Nat) (s : List Nat) (hs : s ≠ []) :
    ((pm σ g f A s).1.map (·.tree)).Nodup :=
  (once hσ hg (fun a p hp => by have := hn a; simp only [Gram.cfg, hp] at this; exact this) f).1 A s hs

/-- In terms of languages: when the enumeration has ended, some match consumes the whole sentence exactly if
expanding names from the left can give the sentence followed by symbols, and some match leaves the bytes
`rest` exactly if the production derives what comes before. The symbols that a match leaves are the last ones
of those that an expansion leaves. -/
theorem C83_language_partial (σ : Iter) (hσ : σ.Ok) (g : Gram) (hg : ∀ a p, g.prod a = some p → p.rules ≠ [])
    (f A : Nat) (s : List Nat) (hs : s ≠ []) (hd : (pm σ g f A s).2 = .done) :
    ((∃ m ∈ (pm σ g f A s).1, m.rem = []) ↔ ∃ d, Begins g.cfg [.nt A] s d) ∧
    (∀ w rest, w ++ rest = s → rest ≠ [] → ((∃ m ∈ (pm σ g f A s).1, m.rem = rest) ↔ g.cfg.Lang A w)) ∧
    (∀ m ∈ (pm σ g f A s).1, ∃ w d, w ++ m.rem = s ∧ Begins g.cfg [.nt A] w d ∧ m.syms <:+ d) := by
  obtain ⟨h1, h2⟩ := (enum hσ hg f).1 A s hs
  refine ⟨⟨?_, ?_⟩, fun w rest hw hr => ⟨?_, ?_⟩, ?_⟩
  · rintro ⟨m, hm, hr⟩
    rcases h1 m hm with ⟨h, _⟩ | ⟨_, hc⟩
    · exact absurd hr h
    · exact (begins_iff hs).2 ⟨_, _, hc⟩
  · intro h
    obtain ⟨t, p, hc⟩ := (begins_iff hs).1 h
    exact ⟨⟨t, p, []⟩, h2 hd _ (.inr ⟨rfl, hc⟩), rfl⟩
  · rintro ⟨m, hm, rfl⟩
    rcases h1 m hm with ⟨_, _, w', hf, hw'⟩ | ⟨h, _⟩
    · rw [← hw] at hw'
      rw [← List.append_cancel_right hw']
      exact full_derives hf
    · exact absurd h hr
  · intro h
    obtain ⟨t, ht⟩ := derives_full h
    exact ⟨⟨t, [], rest⟩, h2 hd _ (.inl ⟨hr, rfl, w, ht, hw⟩), rfl⟩
  · intro m hm
    rcases h1 m hm with ⟨_, h, w, hf, hw⟩ | ⟨h, hc⟩
    · refine ⟨w, [], hw, ?_, by rw [h]; exact List.suffix_refl _⟩
      simpa using derives_begins (full_derives hf) (.stop (s := []))
    · obtain ⟨d, hb, hp⟩ := cut_begins hc []
      rw [List.append_nil] at hb
      exact ⟨s, d, by rw [h, List.append_nil], hb, hp⟩

/-- If no name can call itself at the left, not even through others, the enumeration ends for every
production and every sentence; more steps change nothing. -/
theorem C83_ends_partial (σ : Iter) (hσ : σ.Ok) (g : Gram) (hg : ∀ a p, g.prod a = some p → p.rules ≠ [])
    (hc : ∀ a r b, r ∈ g.cfg a → .nt b ∈ r → g.prod b ≠ none) (hl : WellFounded (fun b a => g.cfg.LeftCalls a b))
    (A : Nat) (s : List Nat) (hA : g.prod A ≠ none) :
    ∃ f, ∀ f', f ≤ f' → (pm σ g f' A s).2 = .done ∧ pm σ g f' A s = pm σ g f A s := by
  obtain ⟨f, hf⟩ := ends hσ hg hc (fun a => hl.apply a) s.length A s rfl hA
  refine ⟨f, fun f' hle => ?_⟩
  have := (mono_le hle).1 A s hf
  exact ⟨by rw [this]; exact hf, this⟩

/-- If a name is at the start of an endless chain of calls at the left, the enumeration ends for no sentence
but the empty one. -/
theorem C83_endless (σ : Iter) (hσ : σ.Ok) (g : Gram) (hg : ∀ a p, g.prod a = some p → p.rules ≠ [])
    (s : List Nat) (hs : s ≠ []) (c : Nat → Nat) (hc : ∀ i, g.cfg.LeftCalls (c i) (c (i + 1))) (f : Nat) :
    (pm σ g f (c 0) s).2 ≠ .done := by
  intro h
  have key : ∀ A, Acc (fun b a => g.cfg.LeftCalls a b) A → ∀ i, c i ≠ A := by
    intro A hA
    induction hA with
    | intro A _ ih =>
      intro i hi
      exact ih (c (i + 1)) (hi ▸ hc i) (i + 1) rfl
  exact key _ (acc_of_done hσ hg hs f _ h) 0 rfl

/-- For a grammar extracted from a parse tree: `find_partial_trees` raises no KeyError or AttributeError, yields
no tree twice and only trees for the sentence; when it has ended on a sentence that is not empty it has found
all of them; and it ends if no name calls itself at the left. The production asked is the
one given, or <START>. -/
theorem C83_extracted_partial (σ : Iter) (hσ : σ.Ok) (t : Tree Val) (g : Gram) (ht : InputTree t) (h : extract t = some g)
    (f : Nat) (s : List Nat) (hs : s ≠ []) (start : Option Nat) (hA : g.prod (start.getD 0) ≠ none) :
    ((findTrees σ g f s start).2 = .done ∨ (findTrees σ g f s start).2 = .running) ∧
    (findTrees σ g f s start).1.Nodup ∧
    (∀ u ∈ (findTrees σ g f s start).1, (∃ w rest, rest ≠ [] ∧ w ++ rest = s ∧ Full g.cfg (.nt (start.getD 0)) u w) ∨
      ∃ post, Cut g.cfg (.nt (start.getD 0)) u s post) ∧
    ((findTrees σ g f s start).2 = .done → ∀ u, ((∃ w rest, rest ≠ [] ∧ w ++ rest = s ∧ Full g.cfg (.nt (start.getD 0)) u w) ∨
      ∃ post, Cut g.cfg (.nt (start.getD 0)) u s post) → u ∈ (findTrees σ g f s start).1) ∧
    (WellFounded (fun b a => g.cfg.LeftCalls a b) → ∃ f, ∀ f', f ≤ f' → (findTrees σ g f' s start).2 = .done) := by
  obtain ⟨hg, _, _, hst, _, _⟩ := extract_good ht h
  have hr : ∀ a p, g.prod a = some p → p.rules ≠ [] := by
    intro a p hp he
    obtain ⟨w, hw⟩ := hg.productive a (by simp [hp])
    cases hw with
    | nt h1 => simp [Gram.cfg, hp, he] at h1
  have hft : ∀ f, findTrees σ g f s start = ((pm σ g f (start.getD 0) s).1.map (·.tree), (pm σ g f (start.getD 0) s).2) := by
    intro f; cases start <;> simp [findTrees, hst]
  rw [hft]
  have hcl : Closed g := fun a r b h1 h2 => Option.isSome_iff_ne_none.1 (hg.closed a r b h1 h2)
  refine ⟨(nokey hσ hr hcl f).1 _ s hA, C83_once_partial σ hσ g hr hg.nodup f (start.getD 0) s hs, fun u hu => ?_, fun hd u hu => ?_, fun hl => ?_⟩
  · obtain ⟨m, hm, rfl⟩ := List.mem_map.1 hu
    rcases C83_sound_partial σ hσ g hr f (start.getD 0) s hs m hm with ⟨h1, _, w, h2, h3⟩ | ⟨_, h2⟩
    · exact .inl ⟨w, m.rem, h1, h3, h2⟩
    · exact .inr ⟨_, h2⟩
  · obtain ⟨h1, h2⟩ := C83_complete_partial σ hσ g hr f (start.getD 0) s hs hd
    rcases hu with ⟨w, rest, h3, h4, h5⟩ | ⟨post, h3⟩
    · exact List.mem_map.2 ⟨_, h1 u w rest h5 h3 h4, rfl⟩
    · exact List.mem_map.2 ⟨_, h2 u post h3, rfl⟩
  · obtain ⟨f, hf⟩ := C83_ends_partial σ hσ g hr
      hcl hl _ s hA
    exact ⟨f, fun f' hle => by rw [hft]; exact (hf f' hle).1⟩

/-- A function that reads "ab" and calls one that reads "c". -/
def PyPartial.callTree : Tree Val :=
  .node .start [.node (.fn 1) [.node (.term [97, 98]) [], .node (.fn 2) [.node (.term [99]) []]]]

theorem PyPartial.callTree_input : InputTree callTree := by
  refine ⟨rfl, ?_, ?_⟩
  · intro n hn
    simp only [callTree, Tree.pre, Tree.preL, List.append_nil, List.mem_cons, List.not_mem_nil, or_false,
      List.cons_append, List.nil_append] at hn
    rcases hn with rfl | rfl | rfl | rfl | rfl <;> simp [Tree.children, Tree.val]
  · intro n hn
    simp only [callTree, Tree.pre, Tree.preL, List.append_nil, List.mem_cons, List.not_mem_nil, or_false,
      List.cons_append, List.nil_append] at hn
    rcases hn with rfl | rfl | rfl | rfl | rfl <;> simp [Tree.children, Tree.val]

/-- "Enumerates all partial parse trees that could result in the given starting sentence fragment": not if
the fragment ends within a terminal. Here "abc" is in the language, and for its beginning "a" there is no tree. -/
theorem C83_fragment_refuted : ∃ (t : Tree Val) (g : Gram) (s v : List Nat), InputTree t ∧ extract t = some g ∧ s ≠ [] ∧
    g.cfg.Lang 0 (s ++ v) ∧ (findTrees inOrder g 20 s none).1.length = 0 ∧ (findTrees inOrder g 20 s none).2 = .done := by
  obtain ⟨g, hg, _, hl⟩ := C62_extract callTree callTree_input
  have hc : (extract callTree).map (fun g => ((findTrees inOrder g 20 [97] none).1.length,
      (findTrees inOrder g 20 [97] none).2)) = some (0, .done) := by decide +kernel
  rw [hg] at hc
  simp only [Option.map_some, Option.some.injEq, Prod.mk.injEq] at hc
  exact ⟨callTree, g, [97], [98, 99], callTree_input, hg, by simp, hl _ (by decide +kernel), hc.1, hc.2⟩

theorem PyPartial.callTree_lang {g : Gram} (hg : extract callTree = some g) {w : List Nat} (h : g.cfg.Lang 0 w) :
    w = [97, 98, 99] := by
  have hc : (extract callTree).map (fun g => (g.cfg 0, g.cfg 1, g.cfg 2)) =
      some ([[.nt 1]], [[.term [97, 98], .nt 2]], [[.term [99]]]) := by decide +kernel
  rw [hg] at hc
  simp only [Option.map_some, Option.some.injEq, Prod.mk.injEq] at hc
  obtain ⟨h0, h1, h2⟩ := hc
  cases h with
  | @nt _ r _ u v hr hu hv =>
    cases hv
    rw [h0] at hr
    simp only [List.mem_singleton] at hr
    subst hr
    cases hu with
    | @nt _ r _ u v hr hu hv =>
      cases hv
      rw [h1] at hr
      simp only [List.mem_singleton] at hr
      subst hr
      cases hu with
      | term hu =>
        cases hu with
        | @nt _ r _ u v hr hu hv =>
          cases hv
          rw [h2] at hr
          simp only [List.mem_singleton] at hr
          subst hr
          cases hu with
          | term hu => cases hu; rfl

/-- A match that leaves neither bytes nor symbols does not say that the sentence is in the language: the
symbols that a match of a part has left are forgotten. Here "ab" is matched, and "c" is missing. -/
theorem C83_rest_refuted : ∃ (t : Tree Val) (g : Gram) (s : List Nat), InputTree t ∧ extract t = some g ∧ s ≠ [] ∧
    ((pm inOrder g 20 0 s).1.map (fun m => (m.syms, m.rem))) = [([], [])] ∧ (pm inOrder g 20 0 s).2 = .done ∧
    ¬ g.cfg.Lang 0 s := by
  obtain ⟨g, hg, _, _⟩ := C62_extract callTree callTree_input
  have hc : (extract callTree).map (fun g => ((pm inOrder g 20 0 [97, 98]).1.map (fun m => (m.syms, m.rem)),
      (pm inOrder g 20 0 [97, 98]).2)) = some ([([], [])], .done) := by decide +kernel
  rw [hg] at hc
  simp only [Option.map_some, Option.some.injEq, Prod.mk.injEq] at hc
  exact ⟨callTree, g, [97, 98], callTree_input, hg, by simp, hc.1, hc.2, fun h => by simpa using callTree_lang hg h⟩

/-- The same for the empty sentence: every production of every grammar matches it with nothing left. -/
theorem C83_empty_refuted : ∃ (t : Tree Val) (g : Gram), InputTree t ∧ extract t = some g ∧
    (∀ σ f, ((pm σ g (f + 1) 0 []).1.map (fun m => (m.syms, m.rem))) = [([], [])] ∧ (pm σ g (f + 1) 0 []).2 = .done) ∧
    ¬ g.cfg.Lang 0 [] := by
  obtain ⟨g, hg, _, _⟩ := C62_extract callTree callTree_input
  refine ⟨callTree, g, callTree_input, hg, fun σ f => ?_, fun h => by simpa using callTree_lang hg h⟩
  obtain ⟨_, _, _, _, h0, _⟩ := extract_good callTree_input hg
  obtain ⟨p, hp⟩ := Option.isSome_iff_exists.1 h0
  simp [pm, hp]

/-- "a" and then a block that has read nothing. -/
def PyPartial.tailTree : Tree Val := .node .start [.node (.term [97]) [], .node (.bb 1) []]

theorem PyPartial.tailTree_input : InputTree tailTree := by
  refine ⟨rfl, ?_, ?_⟩
  · intro n hn
    simp only [tailTree, Tree.pre, Tree.preL, List.append_nil, List.mem_cons, List.not_mem_nil, or_false,
      List.cons_append, List.nil_append] at hn
    rcases hn with rfl | rfl | rfl <;> simp [Tree.children, Tree.val]
  · intro n hn
    simp only [tailTree, Tree.pre, Tree.preL, List.append_nil, List.mem_cons, List.not_mem_nil, or_false,
      List.cons_append, List.nil_append] at hn
    rcases hn with rfl | rfl | rfl <;> simp [Tree.children, Tree.val]

/-- A sentence of the language need not have a match without symbols left: here the input itself is only
matched with a symbol left that derives the empty string. -/
theorem C83_whole_refuted : ∃ (t : Tree Val) (g : Gram) (s : List Nat), InputTree t ∧ extract t = some g ∧ s ≠ [] ∧
    PyGrammar.yield t = s ∧ g.cfg.Lang 0 s ∧
    ((pm inOrder g 20 0 s).1.map (fun m => (m.syms, m.rem))) = [([.nt 1], [])] ∧ (pm inOrder g 20 0 s).2 = .done := by
  obtain ⟨g, hg, _, _⟩ := C62_extract tailTree tailTree_input
  have hc : (extract tailTree).map (fun g => ((pm inOrder g 20 0 [97]).1.map (fun m => (m.syms, m.rem)),
      (pm inOrder g 20 0 [97]).2, g.cfg 0, g.cfg 1)) = some ([([.nt 1], [])], .done, [[.term [97], .nt 1]], [[]]) := by decide +kernel
  rw [hg] at hc
  simp only [Option.map_some, Option.some.injEq, Prod.mk.injEq] at hc
  refine ⟨tailTree, g, [97], tailTree_input, hg, by simp, by decide +kernel, ?_, hc.1, hc.2.1⟩
  exact .nt (r := [.term [97], .nt 1]) (u := [97]) (w := []) (by rw [hc.2.2.1]; simp)
    (.term (b := [97]) (.nt (r := []) (u := []) (w := []) (by rw [hc.2.2.2]; simp) .nil .nil)) .nil

/-- A function that calls itself before it reads. -/
def PyPartial.recTree : Tree Val :=
  .node .start [.node (.fn 1) [.node (.fn 1) [.node (.term [97]) []], .node (.term [98]) []]]

theorem PyPartial.recTree_input : InputTree recTree := by
  refine ⟨rfl, ?_, ?_⟩
  · intro n hn
    simp only [recTree, Tree.pre, Tree.preL, List.append_nil, List.mem_cons, List.not_mem_nil, or_false,
      List.cons_append, List.nil_append] at hn
    rcases hn with rfl | rfl | rfl | rfl | rfl <;> simp [Tree.children, Tree.val]
  · intro n hn
    simp only [recTree, Tree.pre, Tree.preL, List.append_nil, List.mem_cons, List.not_mem_nil, or_false,
      List.cons_append, List.nil_append] at hn
    rcases hn with rfl | rfl | rfl | rfl | rfl <;> simp [Tree.children, Tree.val]

/-- The enumeration need not end, in no order of iteration, on the very input that the grammar was extracted
from: a function that calls itself before it reads gives a rule that begins with its own name. -/
theorem C83_ends_refuted : ∃ (t : Tree Val) (g : Gram) (w : List Nat), InputTree t ∧ extract t = some g ∧
    «matches» t = some w ∧ g.cfg.Lang 0 w ∧ ∀ σ : Iter, σ.Ok → ∀ f, (findTrees σ g f w none).2 ≠ .done := by
  obtain ⟨g, hg, hst, hl⟩ := C62_extract recTree recTree_input
  have hm : «matches» recTree = some [97, 98] := by decide +kernel
  have hc : (extract recTree).map (fun g => (g.cfg 0, g.cfg 1)) =
      some ([[.nt 1]], [[.nt 1, .term [98]], [.term [97]]]) := by decide +kernel
  rw [hg] at hc
  simp only [Option.map_some, Option.some.injEq, Prod.mk.injEq] at hc
  refine ⟨recTree, g, [97, 98], recTree_input, hg, hm, hl _ hm, fun σ hσ f => ?_⟩
  obtain ⟨hgd, _⟩ := extract_good recTree_input hg
  have hr : ∀ a p, g.prod a = some p → p.rules ≠ [] := by
    intro a p hp he
    obtain ⟨w, hw⟩ := hgd.productive a (by simp [hp])
    cases hw with
    | nt h1 => simp [Gram.cfg, hp, he] at h1
  have := C83_endless σ hσ g hr [97, 98] (by simp) (fun i => if i = 0 then 0 else 1) (by
    intro i
    cases i with
    | zero => exact ⟨[], [], by simp [hc.1], .nil⟩
    | succ i => exact ⟨[], [.term [98]], by simp [hc.2], .nil⟩) f
  simpa [findTrees, hst] using this

/-- A production without rules derives nothing, and yet has a match with nothing left of the production: all
of the sentence remains. `dependency_graph` makes such productions for names that have none. -/
theorem C83_norules_refuted : ∃ (g : Gram), (∀ w, ¬ g.cfg.Lang 0 w) ∧
    ∀ σ f s, ((pm σ g (f + 1) 0 s).1.map (fun m => (m.syms, m.rem))) = [([], s)] ∧ (pm σ g (f + 1) 0 s).2 = .done := by
  refine ⟨⟨[0], fun a => if a = 0 then some ⟨[], true, none⟩ else none, fun _ => [], some 0⟩, fun w h => ?_, fun σ f s => ?_⟩
  · cases h with
    | nt h1 => simp [Gram.cfg] at h1
  · simp [pm]

set_option synthInstance.maxSize 1000 in
set_option synthInstance.maxHeartbeats 200000 in
/-- The hypotheses can be met: the grammar of `callTree`, its input and two bytes more. -/
example : ∃ (g : Gram) (σ : Iter), σ.Ok ∧ extract callTree = some g ∧ (∀ a p, g.prod a = some p → p.rules ≠ []) ∧
    (∀ a, (g.cfg a).Nodup) ∧ (pm σ g 20 0 [97, 98, 99, 1, 2]).2 = .done ∧
    (pm σ g 20 0 [97, 98, 99, 1, 2]).1.map (fun m => (m.syms, m.rem)) = [([], [1, 2])] ∧
    (pm σ g 20 1 [97, 98]).2 = .done ∧ (pm σ g 20 1 [97, 98]).1.map (fun m => (m.syms, m.rem)) = [([.nt 2], [])] := by
  obtain ⟨g, hg, _, _⟩ := C62_extract callTree callTree_input
  have hc : (extract callTree).map (fun g => ((pm inOrder g 20 0 [97, 98, 99, 1, 2]).2,
      (pm inOrder g 20 0 [97, 98, 99, 1, 2]).1.map (fun m => (m.syms, m.rem)),
      (pm inOrder g 20 1 [97, 98]).2, (pm inOrder g 20 1 [97, 98]).1.map (fun m => (m.syms, m.rem)))) =
      some (.done, [([], [1, 2])], .done, [([.nt 2], [])]) := by decide +kernel
  rw [hg] at hc
  simp only [Option.map_some, Option.some.injEq, Prod.mk.injEq] at hc
  obtain ⟨hgd, _⟩ := extract_good callTree_input hg
  refine ⟨g, inOrder, ⟨fun _ => .refl _, fun _ => .refl _⟩, hg, ?_, hgd.nodup, hc.1, hc.2.1, hc.2.2.1, hc.2.2.2⟩
  intro a p hp he
  obtain ⟨w, hw⟩ := hgd.productive a (by simp [hp])
  cases hw with
  | nt h1 => simp [Gram.cfg, hp, he] at h1

end Verif
