import Verif.PyCfg
import Verif.PyOsetSpec
import Verif.Props.C85
/- Helper lemmas: control-flow graphs and their dominators. -/
namespace Verif.PyCfg
open PyGraph Spec

theorem addEdges_from {b : Nat} : ∀ (cs : List Nat) (g : G), g.Wf →
    (cs.foldl (fun g c => g.addEdge b c) g).Wf ∧
    (∀ x y, (cs.foldl (fun g c => g.addEdge b c) g).E x y ↔ g.E x y ∨ (x = b ∧ y ∈ cs)) ∧
    ∀ x, b ∈ g.nodes → (x ∈ (cs.foldl (fun g c => g.addEdge b c) g).nodes ↔ x ∈ g.nodes ∨ x ∈ cs)
  | [], g, hg => ⟨hg, fun x y => by simp, fun x _ => by simp⟩
  | c :: cs, g, hg => by
    obtain ⟨h1, h2, h3⟩ := addEdges_from (b := b) cs (g.addEdge b c) (hg.addEdge b c)
    refine ⟨h1, fun x y => ?_, fun x hb => ?_⟩
    · rw [List.foldl_cons, h2]
      simp only [G.E, mem_addEdge_edges, Prod.mk.injEq, List.mem_cons]
      constructor
      · rintro ((h | ⟨rfl, rfl⟩) | ⟨rfl, h⟩)
        · exact .inl h
        · exact .inr ⟨rfl, .inl rfl⟩
        · exact .inr ⟨rfl, .inr h⟩
      · rintro (h | ⟨rfl, rfl | h⟩)
        · exact .inl (.inl h)
        · exact .inl (.inr ⟨rfl, rfl⟩)
        · exact .inr ⟨rfl, h⟩
    · rw [List.foldl_cons, h3 x (mem_addEdge_nodes.2 (.inl hb)), mem_addEdge_nodes, List.mem_cons]
      constructor
      · rintro ((h | rfl | rfl) | h)
        · exact .inl h
        · exact .inl hb
        · exact .inr (.inl rfl)
        · exact .inr (.inr h)
      · rintro (h | rfl | h)
        · exact .inl (.inl h)
        · exact .inl (.inr (.inr rfl))
        · exact .inr h

/-- The graph has the blocks and the edges to their children. -/
theorem build_spec (all : List Nat) (ch : Nat → List Nat) : (build all ch).Wf ∧
    (∀ x y, (build all ch).E x y ↔ x ∈ all ∧ y ∈ ch x) ∧
    ∀ x, x ∈ (build all ch).nodes ↔ x ∈ all ∨ ∃ b ∈ all, x ∈ ch b := by
  have key : ∀ (l : List Nat) (g : G), g.Wf →
      let g' := l.foldl (fun g b => (ch b).foldl (fun g c => g.addEdge b c) (g.addNode b)) g
      g'.Wf ∧ (∀ x y, g'.E x y ↔ g.E x y ∨ (x ∈ l ∧ y ∈ ch x)) ∧ ∀ x, x ∈ g'.nodes ↔ x ∈ g.nodes ∨ x ∈ l ∨ ∃ b ∈ l, x ∈ ch b := by
    intro l
    induction l with
    | nil => intro g hg; exact ⟨hg, fun x y => by simp, fun x => by simp⟩
    | cons b l ih =>
      intro g hg
      obtain ⟨h1, h2, h3⟩ := addEdges_from (b := b) (ch b) (g.addNode b) (hg.addNode b)
      obtain ⟨h4, h5, h6⟩ := ih _ h1
      refine ⟨h4, fun x y => ?_, fun x => ?_⟩
      · rw [List.foldl_cons, h5, h2]
        simp only [G.E, addNode_edges, List.mem_cons]
        constructor
        · rintro ((h | ⟨rfl, h⟩) | ⟨h, h'⟩)
          · exact .inl h
          · exact .inr ⟨.inl rfl, h⟩
          · exact .inr ⟨.inr h, h'⟩
        · rintro (h | ⟨rfl | h, h'⟩)
          · exact .inl (.inl h)
          · exact .inl (.inr ⟨rfl, h'⟩)
          · exact .inr ⟨h, h'⟩
      · rw [List.foldl_cons, h6, h3 x (mem_addNode.2 (.inr rfl)), mem_addNode]
        simp only [List.mem_cons, exists_eq_or_imp]
        constructor
        · rintro (((h | h) | h) | h | h)
          · exact .inl h
          · exact .inr (.inl (.inl h))
          · exact .inr (.inr (.inl h))
          · exact .inr (.inl (.inr h))
          · exact .inr (.inr (.inr h))
        · rintro (h | (h | h) | h | h)
          · exact .inl (.inl (.inl h))
          · exact .inl (.inl (.inr h))
          · exact .inr (.inl h)
          · exact .inl (.inr h)
          · exact .inr (.inr h)
  obtain ⟨h1, h2, h3⟩ := key all .empty G.Wf.empty
  exact ⟨h1, fun x y => by rw [build, h2]; simp [G.E, G.empty], fun x => by rw [build, h3]; simp [G.empty]⟩

/-- `r` is the only node without predecessors, and everything can be reached from it. -/
structure Rooted (E : Nat → Nat → Prop) (all : List Nat) (r : Nat) : Prop where
  mem : r ∈ all
  top : ∀ p, ¬ E p r
  reach : ∀ x ∈ all, Linked E r x
  ends : ∀ x y, E x y → x ∈ all ∧ y ∈ all

theorem Rooted.only {E : Nat → Nat → Prop} {all : List Nat} {r : Nat} (h : Rooted E all r) (x : Nat) :
    (x ∈ all ∧ ∀ p, ¬ E p x) ↔ x = r := by
  constructor
  · rintro ⟨hx, hp⟩
    obtain ⟨l, hl⟩ := h.reach x hx
    cases hl with
    | nil => rfl
    | snoc _ he => exact absurd he (hp _)
  · rintro rfl; exact ⟨h.mem, h.top⟩

/-- The forest of a graph with one root. -/
theorem forest_spec {X : Nx} (hX : X.Ok) {g : G} (hg : g.Wf) {r : Nat} (h : Rooted g.E g.nodes r) :
    (forest X g).Wf ∧ (∀ d n, (forest X g).E d n ↔ IDom g.E r d n) ∧
    (∀ n ∈ g.nodes, n ≠ r → n ∈ (forest X g).nodes) ∧ Right g .domForest (.graph (forest X g)) := by
  have hr : ∀ q ∈ g.findRoots, q ∈ g.nodes := fun q hq => (mem_findRoots.1 hq).1
  obtain ⟨h1, h2, h3⟩ := domLoop_spec hX hg hr
  have hE : ∀ d n, (forest X g).E d n ↔ IDom g.E r d n := by
    intro d n
    show (domLoop X g g.findRoots).E d n ↔ _
    rw [h2]
    constructor
    · rintro ⟨q, hq, hi⟩
      have := (h.only q).1 (mem_findRoots.1 hq)
      subst this; exact hi
    · intro hi; exact ⟨r, mem_findRoots.2 ((h.only r).2 rfl), hi⟩
  refine ⟨h1, hE, fun n hn hne => ?_, _, rfl, h1, fun d n => ?_, h3⟩
  · obtain ⟨d, hd⟩ := idom_exists (h.reach n hn) hne
    exact (h3 n).2 ⟨d, .inr ((hE d n).2 hd)⟩
  · rw [hE]
    constructor
    · intro hi; exact ⟨r, h.mem, h.top, hi⟩
    · rintro ⟨q, hq, hp, hi⟩
      have := (h.only q).1 ⟨hq, hp⟩
      subst this; exact hi

theorem not_linked_unless {E : Nat → Nat → Prop} {r a b : Nat} (h : ¬ Dom E r a b) : ∃ l, Walk E r b l ∧ a ∉ l := by
  apply Classical.byContradiction
  intro hn
  apply h
  intro l hl
  exact Classical.byContradiction fun ha => hn ⟨l, hl, ha⟩

/-- The only edge into a block from outside what it dominates comes from its immediate dominator. -/
theorem idom_of_entry {E : Nat → Nat → Prop} {r n p : Nat} (htop : ∀ q, ¬ E q r) (hp : E p n) (hd : ¬ Dom E r n p)
    (ho : ∀ q, E q n → q ≠ p → Dom E r n q) : IDom E r p n := by
  obtain ⟨lp, hlp, hnp⟩ := not_linked_unless hd
  have hpn : p ≠ n := by rintro rfl; exact hd .refl
  have key : ∀ k l, Walk E r n l → l.length = k → p ∈ l := by
    intro k
    induction k using Nat.strongRecOn with
    | ind k ih =>
      intro l hl hk
      cases hl with
      | nil => exact absurd hp (htop p)
      | @snoc b _ l hw he =>
        by_cases hb : b = p
        · subst hb; exact List.mem_cons_of_mem _ hw.mem_end
        · obtain ⟨l', h1, h2⟩ := hw.cut (ho b he hb l hw)
          have := h2.length_le
          exact List.mem_cons_of_mem _ (h2.subset (ih l'.length (by simp at hk; omega) l' h1 rfl))
  refine ⟨⟨⟨_, .snoc hlp hp⟩, hpn, fun l hl => key _ l hl rfl⟩, fun e he l hl => ?_⟩
  rcases List.mem_cons.1 (he.2.2 _ (.snoc hl hp)) with h | h
  · exact absurd h he.2.1
  · exact h

theorem two_le_length {l : List Nat} (h : l.Nodup) : 2 ≤ l.length ↔ ∃ a b, a ∈ l ∧ b ∈ l ∧ a ≠ b := by
  constructor
  · intro hl
    match l, hl with
    | a :: b :: l, _ =>
      refine ⟨a, b, by simp, by simp, ?_⟩
      rintro rfl
      simp at h
  · rintro ⟨a, b, ha, hb, hne⟩
    match l with
    | [] => cases ha
    | [c] => simp at ha hb; exact absurd (ha.trans hb.symm) hne
    | c :: d :: l => simp

/-- No two strict dominators have the same distance in the forest. -/
theorem ancestorsOf_eq {X : Nx} (hX : X.Ok) {g : G} (hg : g.Wf) {r n : Nat} (h : Rooted g.E g.nodes r) (hn : n ∈ g.nodes)
    (hne : n ≠ r) : ∃ l, ancestorsOf X (forest X g) n = some l ∧ l.Nodup ∧ (∀ x, x ∈ l ↔ SDom g.E r x n) ∧
      l.Pairwise (fun x y => SDom g.E r y x) := by
  obtain ⟨h1, h2, h3, h4⟩ := forest_spec hX hg h
  have hf := h3 n hn hne
  obtain ⟨-, h5, h6⟩ := C85_dominators_partial X hX g (forest X g) r n h.only h4
  obtain ⟨h7, h8⟩ := h6 hf
  obtain ⟨t1, t2⟩ := hX.target (forest X g) h1 n hf
  refine ⟨_, if_pos ⟨hf, ?_⟩, (ancestors_spec hX h1 hf).1, h7, h8⟩
  rw [List.nodup_iff_pairwise_ne, List.pairwise_map]
  have hnd : ((X.toTarget (forest X g) n).filter (fun p => decide (p.1 ≠ n))).Pairwise (fun a b => a.1 ≠ b.1) := by
    have := t1
    rw [List.nodup_iff_pairwise_ne, List.pairwise_map] at this
    exact this.filter _
  refine hnd.imp_of_mem ?_
  rintro ⟨x, i⟩ ⟨y, j⟩ hx hy hxy
  simp only [List.mem_filter, decide_eq_true_eq] at hx hy hxy ⊢
  rintro rfl
  have dx := ((t2 x i).1 hx.1).2
  have dy := ((t2 y i).1 hy.1).2
  have sx := (h5 x).1 ⟨dx.linked, hx.2⟩
  have sy := (h5 y).1 ⟨dy.linked, hy.2⟩
  have side : ∀ u v, Dist (forest X g).E u n i → Dist (forest X g).E v n i → SDom g.E r u v → SDom g.E r v n → False := by
    intro u v du dv huv hv
    obtain ⟨⟨l, hl, hli⟩, _⟩ := du
    obtain ⟨m, hm, hlt⟩ := chain_shorter h2 huv hl hv
    have := dv.2 m hm
    omega
  obtain ⟨a, ha⟩ := sx.linked_left.dist
  obtain ⟨b, hb⟩ := sy.linked_left.dist
  rcases Nat.le_total a b with hab | hab
  · exact side x y dx dy ⟨sy.linked_left, hxy, sy.chain sx hb ha hab⟩ sy
  · exact side y x dy dx ⟨sx.linked_left, fun e => hxy e.symm, sx.chain sy ha hb hab⟩ sx

end Verif.PyCfg
