import Verif.PyGrammarLemmas
import Verif.Props.C61
/- C62: the grammar extracted from a parse tree derives the bytes of the tree. -/
namespace Verif
open Spec PyTree PyGrammar

/-- A parse tree of an input: the root, and no other node, is the start; terminals have no children. -/
structure PyGrammar.InputTree (t : Tree Val) : Prop where
  root : t.val = .start
  noStart : NoStart t
  term : ∀ n ∈ t.pre, ∀ b, n.val = .term b → n.children = []

mutual
/-- The bytes at the terminals of a tree, from left to right. -/
def PyGrammar.yield : Tree Val → List Nat
  | .node (.term b) _ => b
  | .node .start cs => PyGrammar.yieldL cs
  | .node (.bb _) cs => PyGrammar.yieldL cs
  | .node (.fn _) cs => PyGrammar.yieldL cs
def PyGrammar.yieldL : List (Tree Val) → List Nat
  | [] => []
  | t :: ts => PyGrammar.yield t ++ PyGrammar.yieldL ts
end

theorem PyGrammar.yield_nt {v : Val} {cs : List (Tree Val)} (h : ∀ b, v ≠ .term b) :
    PyGrammar.yield (.node v cs) = PyGrammar.yieldL cs := by
  cases v with
  | term b => exact absurd rfl (h b)
  | start => simp [PyGrammar.yield]
  | bb n => simp [PyGrammar.yield]
  | fn n => simp [PyGrammar.yield]

mutual
theorem PyGrammar.yield_fringe : ∀ (t : Tree Val), (∀ n ∈ t.pre, ∀ b, n.val = .term b → n.children = []) →
    ∀ bs : List (List Nat), t.fringe = bs.map Val.term → PyGrammar.yield t = bs.flatten
  | .node v [], h, bs, hb => by
    simp only [Tree.fringe] at hb
    match bs, hb with
    | [b], hb =>
      simp only [List.map_cons, List.map_nil, List.cons.injEq, and_true] at hb
      subst hb
      simp [PyGrammar.yield]
  | .node v (c :: cs), h, bs, hb => by
    have hv : ∀ b, v ≠ .term b := by
      intro b e
      have := h (.node v (c :: cs)) (by simp [Tree.pre]) b (by simpa [Tree.val] using e)
      simp [Tree.children] at this
    rw [PyGrammar.yield_nt hv]
    exact PyGrammar.yieldL_fringe (c :: cs)
      (fun n hn => h n (by simp only [Tree.pre, List.mem_cons]; exact .inr hn)) bs
      (by simpa [Tree.fringe, Tree.fringeL] using hb)
theorem PyGrammar.yieldL_fringe : ∀ (ts : List (Tree Val)),
    (∀ n ∈ Tree.preL ts, ∀ b, n.val = .term b → n.children = []) →
    ∀ bs : List (List Nat), Tree.fringeL ts = bs.map Val.term → PyGrammar.yieldL ts = bs.flatten
  | [], _, bs, hb => by
    cases bs with
    | nil => simp [PyGrammar.yieldL]
    | cons b bs => simp [Tree.fringeL] at hb
  | t :: ts, h, bs, hb => by
    simp only [Tree.fringeL] at hb
    obtain ⟨b1, b2, rfl, h1, h2⟩ := List.append_eq_map_iff.1 hb
    simp only [PyGrammar.yieldL, List.flatten_append]
    rw [PyGrammar.yield_fringe t (fun n hn => h n (by simp [Tree.preL, hn])) b1 h1.symm,
      PyGrammar.yieldL_fringe ts (fun n hn => h n (by simp [Tree.preL, hn])) b2 h2.symm]
end

theorem PyGrammar.InputTree.matches {t : Tree Val} (ht : InputTree t) {w : List Nat} (h : «matches» t = some w) :
    PyGrammar.yield t = w := by
  obtain ⟨bs, hb, rfl⟩ := (C61_matches t w).1 h
  exact PyGrammar.yield_fringe t ht.term bs hb

mutual
theorem PyGrammar.derive_node {ns : List (Tree Val)} {g : Gram} (hb : Built ns g) :
    ∀ (t : Tree Val), (∀ n ∈ t.pre, n ∈ ns) → NoStart t → (∀ b, t.val ≠ .term b) →
      g.cfg.Lang (prodName t.val) (PyGrammar.yield t)
  | .node v cs, hin, hst, hv => by
    have hst' : ∀ c ∈ cs, c.val ≠ .start := hst (.node v cs) (by simp [Tree.pre])
    obtain ⟨s, hs⟩ := childSyms_some hst'
    have hd := PyGrammar.derive_list hb cs
      (fun n hn => hin n (by simp only [Tree.pre, List.mem_cons]; exact .inr hn))
      (fun n hn => hst n (by simp only [Tree.pre, List.mem_cons]; exact .inr hn)) s hs
    unfold Cfg.Lang
    rw [Derives.single_iff, PyGrammar.yield_nt (v := v) hv]
    refine ⟨combine s, (hb.rules _ _).2 ⟨.node v cs, hin _ (by simp [Tree.pre]), hv, rfl, s, hs, rfl⟩, ?_⟩
    exact combine_derives.2 hd
theorem PyGrammar.derive_list {ns : List (Tree Val)} {g : Gram} (hb : Built ns g) :
    ∀ (ts : List (Tree Val)), (∀ n ∈ Tree.preL ts, n ∈ ns) →
      (∀ n ∈ Tree.preL ts, ∀ c ∈ n.children, c.val ≠ .start) →
      ∀ s, childSyms ts = some s → Derives g.cfg s (PyGrammar.yieldL ts)
  | [], _, _, s, hs => by
    simp only [childSyms, Option.some.injEq] at hs
    subst hs
    exact .nil
  | .node v cs :: ts, hin, hst, s, hs => by
    have hrest : ∀ s', childSyms ts = some s' → Derives g.cfg s' (PyGrammar.yieldL ts) :=
      PyGrammar.derive_list hb ts (fun n hn => hin n (by simp [Tree.preL, hn]))
        (fun n hn => hst n (by simp [Tree.preL, hn]))
    have hnode : (∀ b, v ≠ .term b) → g.cfg.Lang (prodName v) (PyGrammar.yield (.node v cs)) :=
      PyGrammar.derive_node hb (.node v cs) (fun n hn => hin n (by simp [Tree.preL, hn]))
        (fun n hn => hst n (by simp [Tree.preL, hn]))
    simp only [PyGrammar.yieldL]
    simp only [childSyms, Tree.val] at hs
    cases v with
    | start => simp [childSym] at hs
    | term b =>
      simp only [childSym, Option.map_eq_some_iff] at hs
      obtain ⟨s', hs', rfl⟩ := hs
      simp only [PyGrammar.yield]
      exact .term (hrest s' hs')
    | bb n =>
      simp only [childSym, Option.map_eq_some_iff] at hs
      obtain ⟨s', hs', rfl⟩ := hs
      exact (hnode (by simp)).append (hrest s' hs')
    | fn n =>
      simp only [childSym, Option.map_eq_some_iff] at hs
      obtain ⟨s', hs', rfl⟩ := hs
      exact (hnode (by simp)).append (hrest s' hs')
end

theorem PyGrammar.childSyms_mem {ts : List (Tree Val)} {s : List Sym} (h : childSyms ts = some s) {x : Sym} :
    x ∈ s ↔ ∃ c ∈ ts, childSym c.val = some x := by
  induction ts generalizing s with
  | nil => simp only [childSyms, Option.some.injEq] at h; subst h; simp
  | cons t ts ih =>
    simp only [childSyms] at h
    cases hc : childSym t.val with
    | none => rw [hc] at h; cases h
    | some y =>
      rw [hc] at h
      simp only [Option.map_eq_some_iff] at h
      obtain ⟨s', hs', rfl⟩ := h
      simp only [List.mem_cons, ih hs']
      constructor
      · rintro (rfl | ⟨c, hc', hx⟩)
        · exact ⟨t, .inl rfl, hc⟩
        · exact ⟨c, .inr hc', hx⟩
      · rintro ⟨c, rfl | hc', hx⟩
        · rw [hc] at hx; cases hx; exact .inl rfl
        · exact .inr ⟨c, hc', hx⟩

theorem PyGrammar.childSym_nt {v : Val} (h0 : v ≠ .start) (h1 : ∀ b, v ≠ .term b) :
    childSym v = some (.nt (prodName v)) := by
  cases v with
  | term b => exact absurd rfl (h1 b)
  | start => exact absurd rfl h0
  | bb n => rfl
  | fn n => rfl

mutual
/-- The names of all nodes below a node whose name is reached are reached. -/
theorem PyGrammar.reach_node {ns : List (Tree Val)} {g : Gram} (hb : Built ns g) (a : Nat) :
    ∀ (t : Tree Val), (∀ n ∈ t.pre, n ∈ ns) → NoStart t →
      ((∀ b, t.val ≠ .term b) → g.cfg.Reaches a (prodName t.val)) →
      (∀ n ∈ t.pre, ∀ b, n.val = .term b → n.children = []) →
      ∀ n ∈ t.pre, (∀ b, n.val ≠ .term b) → g.cfg.Reaches a (prodName n.val)
  | .node v cs, hin, hst, hr, hleaf, n, hn, hnv => by
    simp only [Tree.pre, List.mem_cons] at hn
    rcases hn with rfl | hn
    · exact hr hnv
    · have hv : ∀ b, v ≠ .term b := by
        intro b e
        have := hleaf (.node v cs) (by simp [Tree.pre]) b (by simpa [Tree.val] using e)
        simp only [Tree.children] at this
        subst this
        simp [Tree.preL] at hn
      obtain ⟨s, hs⟩ := childSyms_some (hst (.node v cs) (by simp [Tree.pre]))
      have hrule : combine s ∈ g.cfg (prodName v) :=
        (hb.rules _ _).2 ⟨.node v cs, hin _ (by simp [Tree.pre]), hv, rfl, s, hs, rfl⟩
      refine PyGrammar.reach_list hb a cs
        (fun m hm => hin m (by simp only [Tree.pre, List.mem_cons]; exact .inr hm))
        (fun m hm => hst m (by simp only [Tree.pre, List.mem_cons]; exact .inr hm)) ?_
        (fun m hm => hleaf m (by simp only [Tree.pre, List.mem_cons]; exact .inr hm)) n hn hnv
      intro c hc hcv
      refine .step (hr hv) hrule (mem_combine.2 ?_)
      rw [PyGrammar.childSyms_mem hs]
      exact ⟨c, hc, PyGrammar.childSym_nt (hst (.node v cs) (by simp [Tree.pre]) c hc) hcv⟩
theorem PyGrammar.reach_list {ns : List (Tree Val)} {g : Gram} (hb : Built ns g) (a : Nat) :
    ∀ (ts : List (Tree Val)), (∀ n ∈ Tree.preL ts, n ∈ ns) →
      (∀ n ∈ Tree.preL ts, ∀ c ∈ n.children, c.val ≠ .start) →
      (∀ t ∈ ts, (∀ b, t.val ≠ .term b) → g.cfg.Reaches a (prodName t.val)) →
      (∀ n ∈ Tree.preL ts, ∀ b, n.val = .term b → n.children = []) →
      ∀ n ∈ Tree.preL ts, (∀ b, n.val ≠ .term b) → g.cfg.Reaches a (prodName n.val)
  | [], _, _, _, _, n, hn, _ => by simp [Tree.preL] at hn
  | t :: ts, hin, hst, hr, hleaf, n, hn, hnv => by
    simp only [Tree.preL, List.mem_append] at hn
    rcases hn with hn | hn
    · exact PyGrammar.reach_node hb a t (fun m hm => hin m (by simp [Tree.preL, hm]))
        (fun m hm => hst m (by simp [Tree.preL, hm])) (hr t (by simp))
        (fun m hm => hleaf m (by simp [Tree.preL, hm])) n hn hnv
    · exact PyGrammar.reach_list hb a ts (fun m hm => hin m (by simp [Tree.preL, hm]))
        (fun m hm => hst m (by simp [Tree.preL, hm])) (fun t ht => hr t (by simp [ht]))
        (fun m hm => hleaf m (by simp [Tree.preL, hm])) n hn hnv
end

/-- The subtrees of a subtree are subtrees. -/
theorem PyGrammar.pre_trans : ∀ {t n m : Tree Val}, n ∈ t.pre → m ∈ n.pre → m ∈ t.pre := by
  intro t
  have : ∀ k (t : Tree Val), PyTree.size t ≤ k → ∀ n m : Tree Val, n ∈ t.pre → m ∈ n.pre → m ∈ t.pre := by
    intro k
    induction k with
    | zero => intro t ht; cases t; simp [PyTree.size] at ht
    | succ k ih =>
      intro t ht n m hn hm
      cases t with
      | node v cs =>
        simp only [Tree.pre, List.mem_cons] at hn ⊢
        rcases hn with rfl | hn
        · simpa [Tree.pre] using hm
        · right
          have hlist : ∀ (ts : List (Tree Val)), sizes ts ≤ k → n ∈ Tree.preL ts → m ∈ Tree.preL ts := by
            intro ts
            induction ts with
            | nil => intro _ h; simp [Tree.preL] at h
            | cons u us ihu =>
              intro hk h
              simp only [sizes] at hk
              simp only [Tree.preL, List.mem_append] at h ⊢
              rcases h with h | h
              · exact .inl (ih u (by omega) n m h hm)
              · exact .inr (ihu (by omega) h)
          simp only [PyTree.size] at ht
          exact hlist cs (by omega) hn
  intro n m
  exact this _ t (Nat.le_refl _) n m

/-- `parse_tree_to_grammar` succeeds for every parse tree of an input, and the grammar derives the bytes
that the tree matches. -/
theorem C62_extract (t : Tree Val) (ht : InputTree t) :
    ∃ g, extract t = some g ∧ g.start = some 0 ∧ ∀ w, «matches» t = some w → g.cfg.Lang 0 w := by
  obtain ⟨g, hg, hb, hs⟩ := extract_built ht.root ht.noStart
  refine ⟨g, hg, hs, fun w hw => ?_⟩
  have := PyGrammar.derive_node hb t (fun n hn => hn) ht.noStart (by simp [ht.root])
  rw [ht.matches hw, ht.root] at this
  exact this

/-- What the extracted grammar consists of: for every node that is no terminal the rule that its children
spell, adjacent terminals joined, and nothing else; every rule is there once. -/
theorem C62_rules (t : Tree Val) (g : Gram) (ht : InputTree t) (h : extract t = some g) :
    (∀ a q, q ∈ g.cfg a ↔ ∃ n ∈ t.pre, (∀ b, n.val ≠ .term b) ∧ prodName n.val = a ∧
      ∃ s, childSyms n.children = some s ∧ q = combine s) ∧ ∀ a, (g.cfg a).Nodup := by
  obtain ⟨g', hg, hb, hs⟩ := extract_built ht.root ht.noStart
  rw [h] at hg
  cases hg
  exact ⟨hb.rules, hb.nodup⟩

/-- Joining adjacent terminals does not change what a sequence derives. -/
theorem C62_combine (G : Cfg) (s : List Sym) (w : List Nat) : Derives G (combine s) w ↔ Derives G s w :=
  combine_derives

/-- The extracted grammar is in order: the names in its rules have productions, every production is
reached from the start and derives the bytes of every node it stands for; the table `used_by` says
exactly which production uses which. -/
theorem C62_sound (t : Tree Val) (g : Gram) (ht : InputTree t) (h : extract t = some g) :
    (∀ a q v, q ∈ g.cfg a → .nt v ∈ q → v ∈ g.order) ∧
    (∀ a, a ∈ g.order → g.cfg.Reaches 0 a) ∧
    (∀ n ∈ t.pre, (∀ b, n.val ≠ .term b) → g.cfg.Lang (prodName n.val) (PyGrammar.yield n)) ∧
    (∀ a, a ∈ g.order → ∃ w, g.cfg.Lang a w) ∧
    (∀ a v, a ∈ g.usedBy v ↔ ∃ q ∈ g.cfg a, .nt v ∈ q) := by
  obtain ⟨g', hg, hb, hs⟩ := extract_built ht.root ht.noStart
  rw [h] at hg
  cases hg
  have hlang : ∀ n ∈ t.pre, (∀ b, n.val ≠ .term b) → g.cfg.Lang (prodName n.val) (PyGrammar.yield n) := by
    intro n hn hv
    refine PyGrammar.derive_node hb n ?_ ?_ hv
    · intro m hm; exact PyGrammar.pre_trans hn hm
    · intro m hm; exact ht.noStart m (PyGrammar.pre_trans hn hm)
  have hnode : ∀ a, a ∈ g.order → ∃ n ∈ t.pre, (∀ b, n.val ≠ .term b) ∧ prodName n.val = a := by
    intro a ha
    rw [hb.mem_order, hb.some_iff] at ha
    obtain ⟨q, hq⟩ := ha
    obtain ⟨n, hn, hc⟩ := (hb.rules a q).1 hq
    exact ⟨n, hn, hc.1, hc.2.1⟩
  refine ⟨?_, ?_, hlang, ?_, hb.used⟩
  · intro a q v hq hv
    obtain ⟨n, hn, _, _, s, hs', rfl⟩ := (hb.rules a q).1 hq
    rw [mem_combine, PyGrammar.childSyms_mem hs'] at hv
    obtain ⟨c, hc, hcv⟩ := hv
    have hcin : c ∈ t.pre := by
      refine PyGrammar.pre_trans hn ?_
      cases n with
      | node v cs =>
        simp only [Tree.pre, List.mem_cons]
        exact .inr (mem_preL cs c hc c (mem_pre_self c))
    have hcs := ht.noStart n hn c hc
    have hct : ∀ b, c.val ≠ .term b := by intro b e; rw [e] at hcv; simp [childSym] at hcv
    have hcn : prodName c.val = v := by
      rw [PyGrammar.childSym_nt hcs hct] at hcv
      simpa using hcv
    obtain ⟨s', hs''⟩ := childSyms_some (ht.noStart c hcin)
    rw [hb.mem_order, hb.some_iff]
    exact ⟨combine s', (hb.rules v _).2 ⟨c, hcin, hct, hcn, s', hs'', rfl⟩⟩
  · intro a ha
    obtain ⟨n, hn, hv, rfl⟩ := hnode a ha
    refine PyGrammar.reach_node hb 0 t (fun m hm => hm) ht.noStart (fun _ => ?_) ht.term n hn hv
    rw [ht.root]
    exact .refl
  · intro a ha
    obtain ⟨n, hn, hv, rfl⟩ := hnode a ha
    exact ⟨_, hlang n hn hv⟩

theorem PyGrammar.exInput : InputTree exTree := by
  refine ⟨rfl, ?_, ?_⟩
  · intro n hn
    simp only [exTree, Tree.pre, Tree.preL, List.append_nil, List.mem_cons, List.not_mem_nil,
      or_false, List.cons_append, List.nil_append] at hn
    rcases hn with rfl | rfl | rfl | rfl | rfl | rfl <;> simp [Tree.children, Tree.val]
  · intro n hn
    simp only [exTree, Tree.pre, Tree.preL, List.append_nil, List.mem_cons, List.not_mem_nil,
      or_false, List.cons_append, List.nil_append] at hn
    rcases hn with rfl | rfl | rfl | rfl | rfl | rfl <;> simp [Tree.children, Tree.val]

/-- START ::= 1; 1 ::= 2; 2 ::= 3; 3 ::= "ab". -/
example : InputTree exTree ∧ «matches» exTree = some [97, 98] ∧
    (extract exTree).map (fun g => g.order.map (fun a => (a, g.cfg a))) =
      some [(0, [[.nt 1]]), (1, [[.nt 2]]), (2, [[.nt 3]]), (3, [[.term [97, 98]]])] :=
  ⟨PyGrammar.exInput, by decide +kernel, by decide +kernel⟩

end Verif
