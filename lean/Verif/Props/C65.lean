import Verif.PyEarleyRun
import Verif.Props.C64
/- C65: `Grammar.match` tells whether the grammar derives the sentence. -/
namespace Verif
open Spec PyTree PyGrammar PyEarley

/-! ### Joining terminals leaves nothing empty -/

theorem PyEarley.combineLoop_full : ∀ (s acc : List Sym), .term [] ∉ acc → .term [] ∉ s → .term [] ∉ combineLoop acc s := by
  intro s
  induction s with
  | nil => intro acc ha _; simpa [combineLoop] using ha
  | cons x s ih =>
    intro acc ha hs
    have hs' : .term [] ∉ s := fun h => hs (by simp [h])
    cases x with
    | nt n =>
      simp only [combineLoop]
      exact ih _ (by simpa using ha) hs'
    | term b =>
      have hb : b ≠ [] := by rintro rfl; exact hs (by simp)
      cases acc with
      | nil => simp only [combineLoop]; exact ih _ (by simp [Ne.symm hb]) hs'
      | cons y acc =>
        have ha' : .term [] ∉ acc := fun h => ha (by simp [h])
        cases y with
        | nt n => simp only [combineLoop]; exact ih _ (by simpa [Ne.symm hb] using ha) hs'
        | term c =>
          simp only [combineLoop]
          refine ih _ ?_ hs'
          simp only [List.mem_cons, Sym.term.injEq, not_or]
          exact ⟨fun e => hb (List.append_eq_nil_iff.1 e.symm).2, ha'⟩

theorem PyEarley.combineLoop_ne : ∀ (s acc : List Sym), acc ≠ [] ∨ s ≠ [] → combineLoop acc s ≠ [] := by
  intro s
  induction s with
  | nil => intro acc h; simpa [combineLoop] using h
  | cons x s ih =>
    intro acc _
    cases x with
    | nt n => simp only [combineLoop]; exact ih _ (.inl (by simp))
    | term b =>
      cases acc with
      | nil => simp only [combineLoop]; exact ih _ (.inl (by simp))
      | cons y acc => cases y <;> (simp only [combineLoop]; exact ih _ (.inl (by simp)))

/-- A parse tree in which every block or function has read something: it has children, terminals are not
empty, and nothing but the root is called "<START>". -/
structure PyEarley.FullTree (t : Tree Val) : Prop where
  input : InputTree t
  children : ∀ n ∈ t.pre, (∀ b, n.val ≠ .term b) → n.children ≠ []
  bytes : ∀ n ∈ t.pre, n.val ≠ .term []
  named : ∀ n ∈ t.pre, n.val ≠ .start → (∀ b, n.val ≠ .term b) → prodName n.val ≠ 0

theorem PyEarley.FullTree.clean {t : Tree Val} {g : Gram} (ht : FullTree t) (h : extract t = some g)
    (hd : ∀ a b, a ∈ g.order → b ∈ g.order → (∀ q, q ∈ g.cfg a ↔ q ∈ g.cfg b) → a = b) : Clean g 0 := by
  obtain ⟨hg, hu, ho, _, h0, hf⟩ := extract_good ht.input h
  obtain ⟨hr, _⟩ := C62_rules t g ht.input h
  obtain ⟨_, _, _, hl, _⟩ := C62_sound t g ht.input h
  have hchild : ∀ n ∈ t.pre, ∀ c ∈ n.children, c ∈ t.pre := by
    intro n hn c hc
    refine PyGrammar.pre_trans hn ?_
    cases n with
    | node v cs =>
      simp only [Tree.pre, List.mem_cons]
      exact .inr (mem_preL cs c hc c (mem_pre_self c))
  have hne : ∀ a q, q ∈ g.cfg a → q ≠ [] ∧ .term [] ∉ q := by
    intro a q hq
    obtain ⟨n, hn, hv, _, s, hs, rfl⟩ := (hr a q).1 hq
    refine ⟨combineLoop_ne s [] (.inr ?_), combineLoop_full s [] (by simp) ?_⟩
    · rintro rfl
      have := ht.children n hn hv
      cases hc : n.children with
      | nil => exact this hc
      | cons c cs =>
        rw [hc, childSyms] at hs
        cases hx : childSym c.val with
        | none => rw [hx] at hs; cases hs
        | some y => rw [hx] at hs; simp at hs
    · intro hmem
      obtain ⟨c, hc, hcs⟩ := (childSyms_mem hs).1 hmem
      cases hv' : c.val with
      | start => rw [hv'] at hcs; simp [childSym] at hcs
      | term b =>
        rw [hv'] at hcs
        simp only [childSym, Option.some.injEq, Sym.term.injEq] at hcs
        exact ht.bytes c (hchild n hn c hc) (by rw [hv', hcs])
      | bb k => rw [hv'] at hcs; simp [childSym] at hcs
      | fn k => rw [hv'] at hcs; simp [childSym] at hcs
  refine ⟨hg.sane hu, ho, fun a p hp => (hf a p hp).2.2, ⟨?_, ?_, ?_⟩, (hg.mem_order 0).2 h0, ?_, hne, ?_, hd⟩
  · intro a p hp hc
    rw [(hf a p hp).2.1] at hc; cases hc
  · intro a p hp hc
    rw [(hf a p hp).2.1] at hc; cases hc
  · exact .inl (fun a p hp => (hf a p hp).2.1)
  · intro a q hq hin
    obtain ⟨n, hn, hv, _, s, hs, rfl⟩ := (hr a q).1 hq
    rw [mem_combine] at hin
    obtain ⟨c, hc, hcs⟩ := (childSyms_mem hs).1 hin
    have hcst := ht.input.noStart n hn c hc
    have hct : ∀ b, c.val ≠ .term b := by intro b e; rw [e] at hcs; simp [childSym] at hcs
    rw [childSym_nt hcst hct] at hcs
    simp only [Option.some.injEq, Sym.nt.injEq] at hcs
    exact ht.named c (hchild n hn c hc) hcst hct hcs
  · intro a ha
    obtain ⟨w, hw⟩ := hl a ha
    exact C64_derives g.cfg a w (derives_nonempty hne hw (by simp) (by simp)) hw

/-- For the grammar of a tree in which every node has read something and no two productions have the same
rules, `match` is exact: with enough steps it ends, it answers True for the sentences that the grammar
derives, the input of the tree among them, and for others False or ValueError. Missing for the claim: other
grammars, for which it is false. -/
theorem C65_exact_partial (σ : EIter) (hσ : σ.Ok) (t : Tree Val) (g : Gram) (ht : FullTree t) (h : extract t = some g)
    (hd : ∀ a b, a ∈ g.order → b ∈ g.order → (∀ q, q ∈ g.cfg a ↔ q ∈ g.cfg b) → a = b) (w : List Nat) :
    ∃ N, ∀ fuel, N ≤ fuel →
      (g.cfg.Lang 0 w → matchBytes σ fuel g 0 w = .ok true) ∧
      (¬ g.cfg.Lang 0 w → matchBytes σ fuel g 0 w = .ok false ∨ matchBytes σ fuel g 0 w = .error .value) ∧
      («matches» t = some w → matchBytes σ fuel g 0 w = .ok true) := by
  refine ⟨enough g w, fun fuel hfuel => ?_⟩
  obtain ⟨h1, h2⟩ := match_exact hσ (ht.clean h hd) w hfuel
  refine ⟨h1, h2, fun hm => h1 ?_⟩
  obtain ⟨g', hg', _, hl⟩ := C62_extract t ht.input
  rw [h] at hg'
  cases hg'
  exact hl w hm

/-! ### More steps change nothing -/

theorem PyEarley.loop_mono {σ : EIter} {nq : Nat} {w : List Nat} {k : Nat} : ∀ (f i : Nat) (st : PS) (r : Except Err PS),
    loop σ nq w k f i st = r → r ≠ .error .running → ∀ f', f ≤ f' → loop σ nq w k f' i st = r := by
  intro f
  induction f with
  | zero =>
    intro i st r h hr f' _
    simp only [loop] at h
    split at h
    · next hle =>
      cases f' with
      | zero => simpa [loop, hle] using h
      | succ f' => simpa [loop, List.getElem?_eq_none hle] using h
    · exact absurd h.symm hr
  | succ f ih =>
    intro i st r h hr f' hf
    obtain ⟨f', rfl⟩ : ∃ n, f' = n + 1 := ⟨f' - 1, by omega⟩
    simp only [loop] at h ⊢
    cases hq : (st.q k).queue[i]? with
    | none => rw [hq] at h; exact h
    | some s =>
      rw [hq] at h
      simp only at h ⊢
      cases hs : step σ nq w st k s with
      | error e => rw [hs] at h; exact h
      | ok st' => rw [hs] at h; exact ih _ _ r h hr f' (by omega)

theorem PyEarley.positions_mono {σ : EIter} {nq : Nat} {w : List Nat} {f f' : Nat} (hf : f ≤ f') :
    ∀ (ks : List Nat) (st : PS) (r : Except Err PS), positions σ f nq w ks st = r → r ≠ .error .running →
      positions σ f' nq w ks st = r := by
  intro ks
  induction ks with
  | nil => intro st r h _; exact h
  | cons k ks ih =>
    intro st r h hr
    simp only [positions] at h ⊢
    split
    · next hk =>
      rw [if_pos hk] at h
      cases hl : loop σ nq w k f 0 st with
      | error e =>
        rw [hl] at h
        simp only at h
        rw [loop_mono f 0 st _ hl (by rintro e'; exact hr (h ▸ e')) f' hf]
        exact h
      | ok st' =>
        rw [hl] at h
        rw [loop_mono f 0 st _ hl (by simp) f' hf]
        exact ih st' r h hr
    · next hk => rw [if_neg hk] at h; exact h

theorem PyEarley.matches_mono {σ : EIter} {nq : Nat} {w : List Nat} {f : Nat} {g : Gram} {a : Nat} {r : Except Err Bool}
    (h : matchesWith σ f g a nq w = r) (hr : r ≠ .error .running) : ∀ f', f ≤ f' → matchesWith σ f' g a nq w = r := by
  intro f' hf
  simp only [matchesWith, parse] at h ⊢
  cases hp : g.prod a with
  | none => rw [hp] at h; exact h
  | some p =>
    rw [hp] at h
    simp only at h ⊢
    generalize hst : startStates σ a (σ.rules p.rules) ⟨g, fun _ => EQueue.empty, 0⟩ = st at h ⊢
    cases hl : positions σ f nq w (List.range (w.length + 1)) st with
    | error e =>
      rw [hl] at h
      simp only at h
      rw [positions_mono hf _ _ _ hl (by intro e'; cases e'; exact hr h.symm)]
      exact h
    | ok st' =>
      rw [hl] at h
      rw [positions_mono hf _ _ _ hl (by simp)]
      exact h

/-! ### Where it fails -/

/-- Sets are iterated in the order in which their elements were added. -/
def PyEarley.plain : EIter := { rules := id, names := id, states := id, ints := id }

theorem PyEarley.plain_ok : plain.Ok := ⟨⟨fun _ => .refl _, fun _ => .refl _⟩, fun _ => .refl _, fun _ => .refl _⟩

/-- A block that calls two functions which read the same byte: 1(2("a") "c") 1(3("a") "d"). -/
def PyEarley.twinTree : Tree Val :=
  .node .start [.node (.bb 1) [.node (.fn 2) [.node (.term [97]) []], .node (.term [99]) []],
    .node (.bb 1) [.node (.fn 3) [.node (.term [97]) []], .node (.term [100]) []]]

theorem PyEarley.twinTree_full : FullTree twinTree := by
  refine ⟨⟨rfl, ?_, ?_⟩, ?_, ?_, ?_⟩ <;>
  · intro n hn
    simp only [twinTree, Tree.pre, Tree.preL, List.append_nil, List.mem_cons, List.not_mem_nil,
      or_false, List.cons_append, List.nil_append] at hn
    rcases hn with rfl | rfl | rfl | rfl | rfl | rfl | rfl | rfl | rfl <;> simp [Tree.children, Tree.val, prodName]

/-- States whose productions have the same rules count as equal although the names differ. So the grammar
that was extracted from an input can fail to match this very input: here `match` raises ValueError. -/
theorem C65_own_refuted : ∃ (t : Tree Val) (g : Gram) (σ : EIter) (w : List Nat), σ.Ok ∧ FullTree t ∧
    extract t = some g ∧ «matches» t = some w ∧ g.cfg.Lang 0 w ∧
    ∀ fuel, 100 ≤ fuel → matchBytes σ fuel g 0 w = .error .value := by
  obtain ⟨g, hg, _, hl⟩ := C62_extract twinTree twinTree_full.input
  have hm : «matches» twinTree = some [97, 99, 97, 100] := by decide +kernel
  have hc : (extract twinTree).map (fun g => decide (matchBytes plain 100 g 0 [97, 99, 97, 100] = .error .value)) =
      some true := by decide +kernel
  rw [hg] at hc
  simp only [Option.map_some, Option.some.injEq, decide_eq_true_eq] at hc
  exact ⟨twinTree, g, plain, _, plain_ok, twinTree_full, hg, hm, hl _ hm, matches_mono hc (by simp)⟩

/-- A block that has read nothing, followed by "a". -/
def PyEarley.idleTree : Tree Val := .node .start [.node (.bb 1) [], .node (.term [97]) []]

theorem PyEarley.idleTree_input : InputTree idleTree := by
  refine ⟨rfl, ?_, ?_⟩ <;>
  · intro n hn
    simp only [idleTree, Tree.pre, Tree.preL, List.append_nil, List.mem_cons, List.not_mem_nil,
      or_false, List.cons_append, List.nil_append] at hn
    rcases hn with rfl | rfl | rfl <;> simp [Tree.children, Tree.val]

theorem PyEarley.derives_term {G : Cfg} : ∀ {s w}, Derives G s w → ∀ b, .term b ∈ s → b ≠ [] → w ≠ [] := by
  intro s w h
  induction h with
  | nil => intro b hb; simp at hb
  | @term c s w _ ih =>
    intro b hb hne e
    rw [List.append_eq_nil_iff] at e
    rcases List.mem_cons.1 hb with h | h
    · simp only [Sym.term.injEq] at h; subst h; exact hne e.1
    · exact ih b h hne e.2
  | @nt A r s u w _ _ _ _ ih =>
    intro b hb hne e
    rw [List.append_eq_nil_iff] at e
    rcases List.mem_cons.1 hb with h | h
    · simp at h
    · exact ih b h hne e.2

/-- A production that cannot produce a terminal finishes the production that asked for it instead of
itself: for the input "a" the grammar then matches the empty sentence and not "a". -/
theorem C65_empty_refuted : ∃ (t : Tree Val) (g : Gram) (σ : EIter) (w : List Nat), σ.Ok ∧ InputTree t ∧
    extract t = some g ∧ «matches» t = none ∧ PyGrammar.yield t = w ∧ g.cfg.Lang 0 w ∧
    (∀ fuel, 100 ≤ fuel → matchBytes σ fuel g 0 w = .error .value) ∧
    ¬ g.cfg.Lang 0 [] ∧ ∀ fuel, 100 ≤ fuel → matchBytes σ fuel g 0 [] = .ok true := by
  obtain ⟨g, hg, _, _⟩ := C62_extract idleTree idleTree_input
  have hm : PyGrammar.yield idleTree = [97] := by decide +kernel
  have hc : (extract idleTree).map (fun g => (decide (matchBytes plain 100 g 0 [97] = .error .value),
      decide (matchBytes plain 100 g 0 [] = .ok true), g.cfg 0)) = some (true, true, [[.nt 1, .term [97]]]) := by
    decide +kernel
  rw [hg] at hc
  simp only [Option.map_some, Option.some.injEq, Prod.mk.injEq, decide_eq_true_eq] at hc
  obtain ⟨h1, h2, h3⟩ := hc
  obtain ⟨_, _, hl, _⟩ := C62_sound idleTree g idleTree_input hg
  refine ⟨idleTree, g, plain, [97], plain_ok, idleTree_input, hg, by decide +kernel, hm, ?_, matches_mono h1 (by simp), ?_, matches_mono h2 (by simp)⟩
  · have := hl idleTree (mem_pre_self _) (by simp [idleTree, Tree.val])
    rwa [hm] at this
  · intro h
    rw [Cfg.Lang, Derives.single_iff] at h
    obtain ⟨r, hr, hd⟩ := h
    rw [h3, List.mem_singleton] at hr
    subst hr
    exact derives_term hd [97] (by simp) (by simp) rfl

/-- The same block once without and once with a byte: 1() 1("a"). -/
def PyEarley.mixedTree : Tree Val := .node .start [.node (.bb 1) [], .node (.bb 1) [.node (.term [97]) []]]

theorem PyEarley.mixedTree_input : InputTree mixedTree := by
  refine ⟨rfl, ?_, ?_⟩ <;>
  · intro n hn
    simp only [mixedTree, Tree.pre, Tree.preL, List.append_nil, List.mem_cons, List.not_mem_nil,
      or_false, List.cons_append, List.nil_append] at hn
    rcases hn with rfl | rfl | rfl | rfl <;> simp [Tree.children, Tree.val]

/-- With an empty alternative, the set of waiting states grows while it is iterated: RuntimeError. -/
theorem C65_runtime_refuted : ∃ (t : Tree Val) (g : Gram) (σ : EIter) (w : List Nat), σ.Ok ∧ InputTree t ∧
    extract t = some g ∧ PyGrammar.yield t = w ∧ g.cfg.Lang 0 w ∧
    ∀ fuel, 100 ≤ fuel → matchBytes σ fuel g 0 w = .error .runtime := by
  obtain ⟨g, hg, _, _⟩ := C62_extract mixedTree mixedTree_input
  have hm : PyGrammar.yield mixedTree = [97] := by decide +kernel
  have hc : (extract mixedTree).map (fun g => decide (matchBytes plain 100 g 0 [97] = .error .runtime)) = some true := by
    decide +kernel
  rw [hg] at hc
  simp only [Option.map_some, Option.some.injEq, decide_eq_true_eq] at hc
  obtain ⟨_, _, hl, _⟩ := C62_sound mixedTree g mixedTree_input hg
  refine ⟨mixedTree, g, plain, [97], plain_ok, mixedTree_input, hg, hm, ?_, matches_mono hc (by simp)⟩
  have := hl mixedTree (mem_pre_self _) (by simp [mixedTree, Tree.val])
  rwa [hm] at this

/-- The grammar 0 ::= "(" 0 ")" | "x", made with the constructor of `Production` and `add`. -/
def PyEarley.nestGram : Gram :=
  let g := Gram.empty.newProd 0 (Rule.new [.term [40], .nt 0, .term [41]])
  match g.prod 0 with
  | none => g
  | some p => g.addTo 0 p (Rule.new [.term [120]])

/-- Opening minus closing parentheses in the terminals. -/
def PyEarley.parens : List Sym → Int
  | [] => 0
  | .term b :: s => (b.count 40 : Int) - b.count 41 + parens s
  | .nt _ :: s => parens s

theorem PyEarley.derives_parens {G : Cfg} (h : ∀ a r, r ∈ G a → parens r = 0) : ∀ {s w}, Derives G s w →
    (w.count 40 : Int) - w.count 41 = parens s := by
  intro s w hd
  induction hd with
  | nil => simp [parens]
  | term _ ih => simp only [parens, List.count_append]; omega
  | nt hr _ _ ih1 ih2 =>
    rw [h _ _ hr] at ih1
    simp only [parens, List.count_append]; omega

/-- If rules use the start, `match` accepts when any part that starts further right ends the sentence: the
index of the end states is not checked. Here "(x" is accepted. -/
theorem C65_suffix_refuted : ∃ (g : Gram) (σ : EIter) (w : List Nat), σ.Ok ∧ ¬ g.cfg.Lang 0 w ∧
    ∀ fuel, 100 ≤ fuel → matchBytes σ fuel g 0 w = .ok true := by
  refine ⟨nestGram, plain, [40, 120], plain_ok, fun h => ?_, matches_mono (r := .ok true) (f := 100) (by decide +kernel) (by simp)⟩
  have hr : ∀ a r, r ∈ nestGram.cfg a → parens r = 0 := by
    intro a r hr
    by_cases ha : a = 0
    · subst ha
      have : nestGram.cfg 0 = [[.term [40], .nt 0, .term [41]], [.term [120]]] := by decide +kernel
      rw [this] at hr
      simp only [List.mem_cons, List.not_mem_nil, or_false] at hr
      rcases hr with rfl | rfl <;> decide
    · have : nestGram.cfg a = [] := by
        have hp : nestGram.prod a = none := by
          simp only [nestGram, Gram.newProd, Gram.addTo, Gram.setProd, Gram.empty, if_true]
          split <;> simp [ha]
        simp [Gram.cfg, hp]
      rw [this] at hr
      simp at hr
  have := derives_parens hr h
  revert this
  decide

/-- A sentence of type str gets one queue per character, but is read byte by byte: if it is not ASCII,
`match` can raise IndexError. Here it is the one character "ä", which is two bytes; the grammar is that of
a tree with these bytes. -/
theorem C65_str_refuted : ∃ (t : Tree Val) (g : Gram) (σ : EIter) (w : List Nat), σ.Ok ∧ FullTree t ∧
    extract t = some g ∧ «matches» t = some w ∧ w = [195, 164] ∧
    ∀ fuel, 100 ≤ fuel → matchesWith σ fuel g 0 (1 + 1) w = .error .index := by
  have ht : FullTree (.node .start [.node (.term [195, 164]) []]) := by
    refine ⟨⟨rfl, ?_, ?_⟩, ?_, ?_, ?_⟩ <;>
    · intro n hn
      simp only [Tree.pre, Tree.preL, List.append_nil, List.mem_cons, List.not_mem_nil, or_false] at hn
      rcases hn with rfl | rfl <;> simp [Tree.children, Tree.val, prodName]
  obtain ⟨g, hg, _, _⟩ := C62_extract _ ht.input
  have hc : (extract (.node .start [.node (.term [195, 164]) []])).map
      (fun g => decide (matchesWith plain 100 g 0 2 [195, 164] = .error .index)) = some true := by decide +kernel
  rw [hg] at hc
  simp only [Option.map_some, Option.some.injEq, decide_eq_true_eq] at hc
  exact ⟨_, g, plain, _, plain_ok, ht, hg, by decide +kernel, rfl, matches_mono hc (by simp)⟩

/-- 0 ::= 1 1; 1 ::= 2 "c" | "d"; 2 ::= "a" | 2 "b". -/
def PyEarley.fineTree : Tree Val :=
  .node .start [.node (.bb 1) [.node (.fn 2) [.node (.fn 2) [.node (.term [97]) []], .node (.term [98]) []],
    .node (.term [99]) []], .node (.bb 1) [.node (.term [100]) []]]

theorem PyEarley.fineTree_full : FullTree fineTree := by
  refine ⟨⟨rfl, ?_, ?_⟩, ?_, ?_, ?_⟩ <;>
  · intro n hn
    simp only [fineTree, Tree.pre, Tree.preL, List.append_nil, List.mem_cons, List.not_mem_nil,
      or_false, List.cons_append, List.nil_append] at hn
    rcases hn with rfl | rfl | rfl | rfl | rfl | rfl | rfl | rfl | rfl <;> simp [Tree.children, Tree.val, prodName]

theorem PyEarley.fineTree_distinct {g : Gram} (h : extract fineTree = some g) :
    ∀ a b, a ∈ g.order → b ∈ g.order → (∀ q, q ∈ g.cfg a ↔ q ∈ g.cfg b) → a = b := by
  have hc : (extract fineTree).map (fun g => (g.order, g.cfg 0, g.cfg 1, g.cfg 2)) =
      some ([0, 1, 2], [[.nt 1, .nt 1]], [[.nt 2, .term [99]], [.term [100]]], [[.nt 2, .term [98]], [.term [97]]]) := by
    decide +kernel
  rw [h] at hc
  simp only [Option.map_some, Option.some.injEq, Prod.mk.injEq] at hc
  obtain ⟨h1, h2, h3, h4⟩ := hc
  intro a b ha hb hq
  rw [h1] at ha hb
  simp only [List.mem_cons, List.not_mem_nil, or_false] at ha hb
  have q1 := hq [.nt 1, .nt 1]
  have q2 := hq [.term [100]]
  rcases ha with rfl | rfl | rfl <;> rcases hb with rfl | rfl | rfl <;> first | rfl | (simp [h2, h3, h4] at q1 q2)

example : FullTree fineTree ∧ (∃ g, extract fineTree = some g ∧
      ∀ a b, a ∈ g.order → b ∈ g.order → (∀ q, q ∈ g.cfg a ↔ q ∈ g.cfg b) → a = b) ∧
    «matches» fineTree = some [97, 98, 99, 100] ∧
    (extract fineTree).map (fun g => [[97, 98, 99, 100], [97, 98, 98, 99, 97, 99], [100, 100], [97, 98], [100]].map
      (fun w => match matchBytes plain 100 g 0 w with
        | .ok b => some b
        | .error _ => none)) = some [some true, some true, some true, some false, some false] := by
  refine ⟨fineTree_full, ?_, by decide +kernel, by decide +kernel⟩
  obtain ⟨g, hg, _, _⟩ := C62_extract fineTree fineTree_full.input
  exact ⟨g, hg, fineTree_distinct hg⟩

end Verif
