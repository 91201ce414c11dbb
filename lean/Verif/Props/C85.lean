import Verif.PyDigraphMore
/- C85: the graphs of the Python library. -/
namespace Verif
open Spec PyGraph

/-- Methods that change the graph. -/
def PyGraph.Op.edits : Op → Prop
  | .addNode _ | .addEdge _ _ | .removeNode _ | .removeEdge _ _ => True
  | _ => False

/-- Methods that ask. -/
def PyGraph.Op.asks : Op → Prop
  | .addNode _ | .addEdge _ _ | .removeNode _ | .removeEdge _ _ | .setRoots _ => False
  | _ => True

/-- The right answers for a graph: distances, nodes without predecessor, the least distance from one of them, the nodes
from which a node can be reached (nearest first), whether there is one predecessor, and immediate dominators. For
descendants less: every answer can be reached and has a successor, and everything else that can be reached is
a successor of an answer. -/
def PyGraph.Right (g : G) : Op → Ans → Prop
  | .pathLength a b, x => ∃ d, x = .num d ∧ ∀ k, d = some k ↔ a ∈ g.nodes ∧ Dist g.E a b k
  | .roots, x => ∃ l, x = .nodes l ∧ l.Sublist g.nodes ∧ ∀ n, n ∈ l ↔ n ∈ g.nodes ∧ ∀ p, ¬ g.E p n
  | .depth n, x => ((∀ r ∈ g.nodes, ∃ p, g.E p r) ∧ x = .err) ∨ ((∃ r ∈ g.nodes, ∀ p, ¬ g.E p r) ∧ ∃ d, x = .num d ∧ ∀ k, d = some k ↔
      (∃ r ∈ g.nodes, (∀ p, ¬ g.E p r) ∧ Dist g.E r n k) ∧ ∀ r ∈ g.nodes, (∀ p, ¬ g.E p r) → ∀ j, Dist g.E r n j → k ≤ j)
  | .ancestors n, x => (n ∉ g.nodes ∧ x = .err) ∨ (n ∈ g.nodes ∧ ∃ l, x = .nodes l ∧ l.Nodup ∧
      (∀ y, y ∈ l ↔ y ∈ g.nodes ∧ y ≠ n ∧ Linked g.E y n) ∧
      l.Pairwise (fun y z => ∀ i j, Dist g.E y n i → Dist g.E z n j → i < j ∨ (i = j ∧ y < z)))
  | .onePred n, x => (n ∉ g.nodes ∧ x = .err) ∨ (n ∈ g.nodes ∧ ∃ b, x = .bool b ∧ (b = true ↔ ∃ p, g.E p n ∧ ∀ q, g.E q n → q = p))
  | .descendants n, x => (n ∉ g.nodes ∧ x = .err) ∨ (n ∈ g.nodes ∧ ∃ l, x = .nodes l ∧
      (∀ y ∈ l, Linked g.E n y ∧ ∃ z, g.E y z ∧ z ≠ y) ∧ ∀ y, Linked g.E n y → y ≠ n → ∃ z ∈ l, g.E z y)
  | .domForest, x => ∃ f, x = .graph f ∧ f.Wf ∧ (∀ d n, f.E d n ↔ ∃ r ∈ g.nodes, (∀ p, ¬ g.E p r) ∧ IDom g.E r d n) ∧
      ∀ n, n ∈ f.nodes ↔ ∃ y, f.E n y ∨ f.E y n
  | _, _ => True

/-- No cache says anything else than the graph. -/
structure PyGraph.DG.Sure (X : Nx) (g : G) (D : DG) : Prop where
  same : D.g = g
  dist : D.dist = none ∨ D.dist = some (X.dist g)
  roots : D.roots = none ∨ D.roots = some g.findRoots
  dom : D.dom = none ∨ D.dom = some (domLoop X g g.findRoots)

theorem PyGraph.DG.Sure.pathLength {X : Nx} {g : G} {D : DG} (h : D.Sure X g) (a b : Nat) :
    (D.pathLength X a b).1.Sure X g ∧ (D.pathLength X a b).2 = X.dist g a b := by
  obtain ⟨rfl, h2, h3, h4⟩ := h
  unfold DG.pathLength
  rcases h2 with h2 | h2
  · rw [h2]; exact ⟨⟨rfl, .inr rfl, h3, h4⟩, rfl⟩
  · rw [h2]; exact ⟨⟨rfl, .inr h2, h3, h4⟩, rfl⟩

theorem PyGraph.DG.Sure.getRoots {X : Nx} {g : G} {D : DG} (h : D.Sure X g) :
    D.getRoots.1.Sure X g ∧ D.getRoots.2 = g.findRoots := by
  obtain ⟨rfl, h2, h3, h4⟩ := h
  unfold DG.getRoots
  rcases h3 with h3 | h3
  · rw [h3]; exact ⟨⟨rfl, h2, .inr rfl, h4⟩, rfl⟩
  · rw [h3]; exact ⟨⟨rfl, h2, .inr h3, h4⟩, rfl⟩

/-- The least of some lengths. -/
theorem PyGraph.minInf_some {a b : Option Nat} {k : Nat} : minInf a b = some k ↔
    (a = some k ∨ b = some k) ∧ (∀ j, a = some j → k ≤ j) ∧ ∀ j, b = some j → k ≤ j := by
  cases a with
  | none =>
    cases b with
    | none => simp [minInf]
    | some b =>
      simp only [minInf, Option.some.injEq]
      constructor
      · rintro rfl; exact ⟨.inr rfl, by simp, fun j hj => by omega⟩
      · rintro ⟨h | h, _⟩
        · cases h
        · exact h
  | some a =>
    cases b with
    | none =>
      simp only [minInf, Option.some.injEq]
      constructor
      · rintro rfl; exact ⟨.inl rfl, fun j hj => by omega, by simp⟩
      · rintro ⟨h | h, _⟩
        · exact h
        · cases h
    | some b =>
      simp only [minInf, Option.some.injEq]
      constructor
      · intro h; refine ⟨by omega, fun j hj => by omega, fun j hj => by omega⟩
      · rintro ⟨h | h, h1, h2⟩
        · have := h2 b rfl; omega
        · have := h1 a rfl; omega

theorem PyGraph.DG.Sure.fold {X : Nx} {g : G} {n : Nat} : ∀ (rs : List Nat) (D : DG) (d : Option Nat), D.Sure X g →
    let q := rs.foldl (fun (s : DG × Option Nat) r => ((s.1.pathLength X r n).1, minInf s.2 (s.1.pathLength X r n).2)) (D, d)
    q.1.Sure X g ∧ ∀ k, q.2 = some k ↔ (d = some k ∨ ∃ r ∈ rs, X.dist g r n = some k) ∧ (∀ j, d = some j → k ≤ j) ∧
      ∀ r ∈ rs, ∀ j, X.dist g r n = some j → k ≤ j
  | [], D, d, h => by
    refine ⟨h, fun k => ?_⟩
    simp only [List.foldl_nil, List.not_mem_nil, false_and, exists_false, or_false, false_implies, implies_true, and_true]
    constructor
    · intro h; exact ⟨h, fun j hj => by rw [h] at hj; cases hj; exact Nat.le_refl _⟩
    · exact fun h => h.1
  | r :: rs, D, d, h => by
    obtain ⟨h1, h2⟩ := h.pathLength r n
    obtain ⟨h3, h4⟩ := PyGraph.DG.Sure.fold rs (D.pathLength X r n).1 (minInf d (D.pathLength X r n).2) h1
    refine ⟨h3, fun k => ?_⟩
    rw [List.foldl_cons, h4, h2]
    simp only [List.mem_cons, forall_eq_or_imp, exists_eq_or_imp]
    constructor
    · rintro ⟨h5, h6, h7⟩
      have hb : (∀ j, d = some j → k ≤ j) ∧ ∀ j, X.dist g r n = some j → k ≤ j := by
        cases hm : minInf d (X.dist g r n) with
        | none =>
          have h8 : d = none ∧ X.dist g r n = none := by
            cases d <;> cases hx : X.dist g r n <;> simp_all [minInf]
          rw [h8.1, h8.2]; simp
        | some m =>
          have h9 := minInf_some.1 hm
          have h10 := h6 m hm
          exact ⟨fun j hj => Nat.le_trans h10 (h9.2.1 j hj), fun j hj => Nat.le_trans h10 (h9.2.2 j hj)⟩
      refine ⟨?_, hb.1, hb.2, h7⟩
      rcases h5 with h5 | h5
      · rcases (minInf_some.1 h5).1 with h | h
        · exact .inl h
        · exact .inr (.inl h)
      · exact .inr (.inr h5)
    · rintro ⟨h5, h6, h7, h8⟩
      refine ⟨?_, fun j hj => ?_, h8⟩
      · rcases h5 with h5 | h5 | h5
        · exact .inl (minInf_some.2 ⟨.inl h5, h6, h7⟩)
        · exact .inl (minInf_some.2 ⟨.inr h5, h6, h7⟩)
        · exact .inr h5
      · rcases (minInf_some.1 hj).1 with h | h
        · exact h6 j h
        · exact h7 j h

theorem PyGraph.DG.Sure.step {X : Nx} (hX : X.Ok) {g : G} (hg : g.Wf) {D : DG} (h : D.Sure X g) {o : Op} (ho : o.asks) :
    (D.step X o).1.Sure X g ∧ Right g o (D.step X o).2 := by
  cases o with
  | addNode | addEdge | removeNode | removeEdge | setRoots => exact absurd ho id
  | pathLength a b =>
    obtain ⟨h1, h2⟩ := h.pathLength a b
    exact ⟨h1, _, rfl, fun k => by rw [h2]; exact hX.dist g hg a b k⟩
  | roots =>
    obtain ⟨h1, h2⟩ := h.getRoots
    refine ⟨h1, _, rfl, ?_, fun n => ?_⟩
    · rw [h2]; exact List.filter_sublist
    · rw [h2]; exact mem_findRoots
  | depth n =>
    obtain ⟨h1, h2⟩ := h.getRoots
    simp only [DG.step, DG.depth]
    have hm : ∀ r, r ∈ D.getRoots.2 ↔ r ∈ g.nodes ∧ ∀ p, ¬ g.E p r := fun r => by rw [h2]; exact mem_findRoots
    revert hm
    generalize D.getRoots.2 = rs
    intro hm
    match rs, hm with
    | [], hm =>
      refine ⟨h1, .inl ⟨fun r hr => ?_, rfl⟩⟩
      apply Classical.byContradiction
      intro hn
      have := (hm r).2 ⟨hr, fun p hp => hn ⟨p, hp⟩⟩
      simp at this
    | r :: rs, hm =>
      obtain ⟨h3, h4⟩ := h1.pathLength r n
      obtain ⟨h5, h6⟩ := PyGraph.DG.Sure.fold (n := n) rs _ (D.getRoots.1.pathLength X r n).2 h3
      refine ⟨h5, .inr ⟨⟨r, (hm r).1 (by simp)⟩, _, rfl, fun k => ?_⟩⟩
      rw [h6 k, h4]
      have hall : ∀ q, q ∈ g.nodes → (∀ p, ¬ g.E p q) → q = r ∨ q ∈ rs := fun q h7 h8 => by simpa using (hm q).2 ⟨h7, h8⟩
      have hd := fun q j => hX.dist g hg q n j
      constructor
      · rintro ⟨h7, h8, h9⟩
        refine ⟨?_, fun q hq hp j hj => ?_⟩
        · rcases h7 with h7 | ⟨q, hq, h7⟩
          · exact ⟨r, ((hm r).1 (by simp)).1, ((hm r).1 (by simp)).2, ((hd r k).1 h7).2⟩
          · exact ⟨q, ((hm q).1 (by simp [hq])).1, ((hm q).1 (by simp [hq])).2, ((hd q k).1 h7).2⟩
        · rcases hall q hq hp with rfl | hq'
          · exact h8 j ((hd q j).2 ⟨hq, hj⟩)
          · exact h9 q hq' j ((hd q j).2 ⟨hq, hj⟩)
      · rintro ⟨⟨q, h7, h8, h9⟩, h10⟩
        refine ⟨?_, fun j hj => ?_, fun q hq j hj => ?_⟩
        · rcases hall q h7 h8 with rfl | hq'
          · exact .inl ((hd q k).2 ⟨h7, h9⟩)
          · exact .inr ⟨q, hq', (hd q k).2 ⟨h7, h9⟩⟩
        · exact h10 r ((hm r).1 (by simp)).1 ((hm r).1 (by simp)).2 j ((hd r j).1 hj).2
        · exact h10 q ((hm q).1 (by simp [hq])).1 ((hm q).1 (by simp [hq])).2 j ((hd q j).1 hj).2
  | ancestors n =>
    refine ⟨h, ?_⟩
    simp only [DG.step, h.same]
    by_cases hn : n ∈ g.nodes
    · rw [if_pos hn]; exact .inr ⟨hn, _, rfl, ancestors_spec hX hg hn⟩
    · rw [if_neg hn]; exact .inl ⟨hn, rfl⟩
  | onePred n =>
    refine ⟨h, ?_⟩
    simp only [DG.step, h.same]
    by_cases hn : n ∈ g.nodes
    · rw [if_pos hn]; exact .inr ⟨hn, _, rfl, onePred_iff hg n⟩
    · rw [if_neg hn]; exact .inl ⟨hn, rfl⟩
  | descendants n =>
    refine ⟨h, ?_⟩
    simp only [DG.step, h.same]
    by_cases hn : n ∈ g.nodes
    · rw [if_pos hn]
      obtain ⟨h1, h2⟩ := hX.tree g hg n hn
      refine .inr ⟨hn, _, rfl, fun y hy => ?_, fun y hy hne => ?_⟩
      · simp only [G.descendants, List.mem_map] at hy
        obtain ⟨⟨p, cs⟩, hp, rfl⟩ := hy
        obtain ⟨h3, h4⟩ := h1 p cs hp
        obtain ⟨c, hc⟩ := List.exists_mem_of_ne_nil _ h3
        obtain ⟨h5, h6, h7, _⟩ := h4 c hc
        exact ⟨h6, c, h5, h7⟩
      · obtain ⟨p, cs, h3, h4⟩ := h2 y hy hne
        exact ⟨p, List.mem_map.2 ⟨_, h3, rfl⟩, ((h1 p cs h3).2 y h4).1⟩
    · rw [if_neg hn]; exact .inl ⟨hn, rfl⟩
  | domForest =>
    have hr : ∀ r ∈ g.findRoots, r ∈ g.nodes := fun r hr => (mem_findRoots.1 hr).1
    have hright : Right g .domForest (.graph (domLoop X g g.findRoots)) := by
      obtain ⟨h1, h2, h3⟩ := domLoop_spec hX hg hr
      refine ⟨_, rfl, h1, fun d n => ?_, h3⟩
      rw [h2]
      constructor
      · rintro ⟨r, h4, h5⟩; exact ⟨r, (mem_findRoots.1 h4).1, (mem_findRoots.1 h4).2, h5⟩
      · rintro ⟨r, h4, h5, h6⟩; exact ⟨r, mem_findRoots.2 ⟨h4, h5⟩, h6⟩
    obtain ⟨h1, h2⟩ := h.getRoots
    simp only [DG.step, DG.domForest]
    rcases h.dom with hd | hd
    · rw [hd]
      simp only
      have htw : ∀ l : List Nat, (∀ r ∈ l, r ∈ g.nodes) → l.takeWhile (fun r => decide (r ∈ g.nodes)) = l := by
        intro l
        induction l with
        | nil => exact fun _ => rfl
        | cons r l ih =>
          intro hl
          rw [List.takeWhile_cons, if_pos (by simpa using hl r (by simp)), ih fun q hq => hl q (by simp [hq])]
      rw [h2, if_pos (by rw [h.same]; simpa using hr), h.same, htw _ hr]
      exact ⟨⟨h1.same, h1.dist, h1.roots, .inr rfl⟩, hright⟩
    · rw [hd]
      exact ⟨h, hright⟩

theorem PyGraph.run_edits {X : Nx} : ∀ (es : List Op) (D : DG), (∀ e ∈ es, e.edits) → D.g.Wf → D.dist = none → D.roots = none →
    D.dom = none → (D.run X es).1.g.Wf ∧ (D.run X es).1.Sure X (D.run X es).1.g
  | [], _, _, hg, h1, h2, h3 => ⟨hg, rfl, .inl h1, .inl h2, .inl h3⟩
  | e :: es, D, he, hg, h1, h2, h3 => by
    simp only [DG.run]
    refine run_edits es _ (fun x hx => he x (by simp [hx])) ?_ ?_ ?_ ?_ <;>
    · have := he e (by simp)
      cases e with
      | addNode n => simp only [DG.step]; first | exact hg.addNode n | assumption
      | addEdge a b => simp only [DG.step]; first | exact hg.addEdge a b | assumption
      | removeNode n => simp only [DG.step]; split <;> first | exact hg.removeNodes _ | assumption
      | removeEdge a b => simp only [DG.step]; split <;> first | exact hg.removeEdge a b | assumption
      | _ => exact absurd this id

/-- A graph that is first built and then asked gives the right answers, as often as it is asked. Missing: questions
before the graph is complete, and what descendants should be. -/
theorem C85_answers_partial (X : Nx) (hX : X.Ok) (es qs : List Op) (he : ∀ e ∈ es, e.edits) (hq : ∀ q ∈ qs, q.asks) :
    ((DG.new.run X es).1.run X qs).1.g = (DG.new.run X es).1.g ∧
    ∀ (i : Nat) q x, qs[i]? = some q → ((DG.new.run X es).1.run X qs).2[i]? = some x → Right (DG.new.run X es).1.g q x := by
  obtain ⟨hg, ht⟩ := run_edits (X := X) es DG.new he G.Wf.empty rfl rfl rfl
  generalize (DG.new.run X es).1 = D at hg ht
  have key : ∀ (qs : List Op) (D' : DG), D'.Sure X D.g → (∀ q ∈ qs, q.asks) → (D'.run X qs).1.g = D.g ∧
      ∀ (i : Nat) q x, qs[i]? = some q → (D'.run X qs).2[i]? = some x → Right D.g q x := by
    intro qs
    induction qs with
    | nil => intro D' h _; exact ⟨h.same, fun i q x h => by simp at h⟩
    | cons q qs ih =>
      intro D' h hq
      obtain ⟨h1, h2⟩ := h.step hX hg (hq q (by simp))
      obtain ⟨h3, h4⟩ := ih _ h1 fun q' hq' => hq q' (by simp [hq'])
      refine ⟨h3, fun i q' x hi hx => ?_⟩
      cases i with
      | zero =>
        simp only [DG.run, List.getElem?_cons_zero, Option.some.injEq] at hi hx
        subst hi; subst hx; exact h2
      | succ i => exact h4 i q' x (by simpa using hi) (by simpa [DG.run] using hx)
  exact key qs D ht hq

/-- Every change keeps what the graph says about itself, in any order of calls. -/
theorem PyGraph.frozen {X : Nx} {f : Nat → Nat → Option Nat} : ∀ (os : List Op) (D : DG), D.dist = some f →
    (D.run X os).1.dist = some f
  | [], _, h => h
  | o :: os, D, h => by
    simp only [DG.run]
    apply frozen os
    have hp : ∀ (D : DG) a b, D.dist = some f → (D.pathLength X a b).1.dist = some f := by
      intro D a b h; simp only [DG.pathLength, h]
    have hr : D.getRoots.1.dist = some f := by unfold DG.getRoots; split <;> exact h
    cases o with
    | addNode | addEdge | setRoots | ancestors | onePred | descendants => exact h
    | removeNode => simp only [DG.step]; split <;> exact h
    | removeEdge => simp only [DG.step]; split <;> exact h
    | pathLength a b => exact hp D a b h
    | roots => exact hr
    | depth n =>
      simp only [DG.step, DG.depth]
      split
      · exact hr
      · simp only
        have hf : ∀ (rs : List Nat) (s : DG × Option Nat), s.1.dist = some f →
            (rs.foldl (fun (s : DG × Option Nat) r => ((s.1.pathLength X r n).1, minInf s.2 (s.1.pathLength X r n).2)) s).1.dist = some f := by
          intro rs
          induction rs with
          | nil => exact fun _ h => h
          | cons r rs ih => intro s hs; exact ih _ (hp _ _ _ hs)
        exact hf _ _ (hp _ _ _ hr)
    | domForest =>
      simp only [DG.step, DG.domForest]
      split
      · exact h
      · exact hr

/-- Once a length has been asked for, all lengths stay as they are, whatever is added or removed. -/
theorem C85_frozen (X : Nx) (D : DG) (a b : Nat) (os : List Op) (c d : Nat) :
    ((((D.step X (.pathLength a b)).1.run X os).1.step X (.pathLength c d)).2) =
      ((D.step X (.pathLength a b)).1.step X (.pathLength c d)).2 := by
  have h1 : ∃ f, (D.step X (.pathLength a b)).1.dist = some f := by
    simp only [DG.step, DG.pathLength]
    split
    · exact ⟨_, by assumption⟩
    · exact ⟨_, rfl⟩
  obtain ⟨f, hf⟩ := h1
  have h2 := frozen (X := X) os _ hf
  generalize (D.step X (.pathLength a b)).1 = D1 at hf h2
  simp only [DG.step, DG.pathLength, hf, h2]

theorem PyGraph.chain_shorter {E F : Nat → Nat → Prop} {r x y n : Nat} {l : List Nat} (hF : ∀ a b, F a b ↔ IDom E r a b)
    (hxy : SDom E r x y) (hl : Walk F x n l) (hyn : SDom E r y n) : ∃ m, Walk F y n m ∧ m.length < l.length := by
  induction hl with
  | nil => exact absurd rfl (hxy.trans hyn).2.1
  | @snoc b c l hw he ih =>
    have hi := (hF b c).1 he
    by_cases hyb : y = b
    · subst hyb
      refine ⟨_, .snoc .nil he, ?_⟩
      cases hw with
      | nil => exact absurd rfl hxy.2.1
      | snoc hw' _ => have := hw'.pos; simp only [List.length_cons, List.length_nil]; omega
    · obtain ⟨m, hm, hlt⟩ := ih ⟨hi.1.linked_left, hyb, hi.2 y hyn⟩
      exact ⟨_, .snoc hm he, by simp only [List.length_cons]; omega⟩

/-- The dominator forest of a graph with one root: everything below the root has exactly one parent, its immediate
dominator, and asking the forest for the ancestors of a node gives the nodes that strictly dominate it, each before
those that dominate it. -/
theorem C85_dominators_partial (X : Nx) (hX : X.Ok) (g f : G) (r n : Nat) (hr : ∀ x, (x ∈ g.nodes ∧ ∀ p, ¬ g.E p x) ↔ x = r)
    (hf : Right g .domForest (.graph f)) :
    (Linked g.E r n → n ≠ r → ∃ d, IDom g.E r d n ∧ ∀ e, f.E e n ↔ e = d) ∧
    (∀ d, (Linked f.E d n ∧ d ≠ n ↔ SDom g.E r d n)) ∧
    (n ∈ f.nodes → (∀ x, x ∈ f.ancestors X n ↔ SDom g.E r x n) ∧
      (f.ancestors X n).Pairwise (fun x y => SDom g.E r y x)) := by
  obtain ⟨f', hf', hwf, hE, hN⟩ := hf
  cases hf'
  have hF : ∀ a b, f.E a b ↔ IDom g.E r a b := by
    intro a b
    rw [hE]
    constructor
    · rintro ⟨q, h1, h2, h3⟩
      have := (hr q).1 ⟨h1, h2⟩
      subst this; exact h3
    · intro h; exact ⟨r, ((hr r).2 rfl).1, ((hr r).2 rfl).2, h⟩
  have hchain : ∀ d m, (Linked f.E d m ∧ d ≠ m ↔ SDom g.E r d m) := fun d m => sdom_iff_chain hF
  refine ⟨fun hj hn => ?_, fun d => hchain d n, fun hn => ?_⟩
  · obtain ⟨d, hd⟩ := idom_exists hj hn
    refine ⟨d, hd, fun e => ?_⟩
    rw [hF]
    exact ⟨fun he => he.unique hd, fun h => h ▸ hd⟩
  · obtain ⟨h1, h2, h3⟩ := ancestors_spec hX hwf hn
    have hm : ∀ x, x ∈ f.ancestors X n ↔ SDom g.E r x n := by
      intro x
      rw [h2, ← hchain x n]
      constructor
      · rintro ⟨_, h4, h5⟩; exact ⟨h5, h4⟩
      · rintro ⟨h4, h5⟩
        refine ⟨?_, h5, h4⟩
        rw [hN]
        rcases joined_or_above h4 with h | ⟨p, hp, _⟩
        · exact absurd h h5
        · obtain ⟨l, hl⟩ := h4
          have key : ∀ (y : Nat) (l : List Nat), Walk f.E x y l → x ≠ y → ∃ z, f.E x z := by
            intro y l hl
            induction hl with
            | nil => exact fun h => absurd rfl h
            | @snoc b c l _ he ih =>
              intro _
              by_cases hb : x = b
              · subst hb; exact ⟨c, he⟩
              · exact ih hb
          obtain ⟨z, hz⟩ := key n l hl h5
          exact ⟨z, .inl hz⟩
    refine ⟨hm, ?_⟩
    rw [List.nodup_iff_pairwise_ne] at h1
    refine (h3.and h1).imp_of_mem ?_
    rintro x y hx hy ⟨hd, hne⟩
    have hx' := (hm x).1 hx
    have hy' := (hm y).1 hy
    obtain ⟨i, hi⟩ := ((hchain x n).2 hx').1.dist
    obtain ⟨j, hj⟩ := ((hchain y n).2 hy').1.dist
    have hle := hd i j hi hj
    have hnot : ¬ SDom g.E r x y := by
      intro hxy
      obtain ⟨⟨l, hl, hli⟩, _⟩ := hi
      obtain ⟨m, hm', hlt⟩ := chain_shorter hF hxy hl hy'
      have := hj.2 m hm'
      omega
    obtain ⟨a, ha⟩ := hx'.linked_left.dist
    obtain ⟨b, hb⟩ := hy'.linked_left.dist
    rcases Nat.le_total b a with h | h
    · exact ⟨hx'.linked_left, fun e => hne e.symm, hx'.chain hy' ha hb h⟩
    · exact absurd ⟨hy'.linked_left, hne, hy'.chain hx' hb ha h⟩ hnot

/-- `vertex_induced_subgraph` of a forest gives the vertices without a vertex above them, and no edges at all. -/
theorem C85_induced_partial (g : G) (vs : List Nat) (rank : Nat → Nat) (hg : g.Wf) (hone : ∀ a b n, g.E a n → g.E b n → a = b)
    (hrank : ∀ a b, g.E a b → rank a < rank b) (hnd : vs.Nodup) (hvs : ∀ v ∈ vs, v ∈ g.nodes) (k : Nat) (hk : ∀ v ∈ vs, rank v < k) :
    ∃ h, induce g vs k = some h ∧ h.edges = [] ∧ ∀ x, x ∈ h.nodes ↔ x ∈ vs ∧ ∀ u ∈ vs, u ≠ x → ¬ Linked g.E u x :=
  induce_spec hg hone hrank hnd hvs k hk

/-- `contract` does not change the edges of a graph in which no node has exactly one predecessor; nodes without edges
are lost. -/
theorem C85_contract_partial (g : G) (order : List Nat) (hg : g.Wf) (h : ∀ n p, g.E p n → ∃ q, g.E q n ∧ q ≠ p) :
    (∀ a b, (contract g order).E a b ↔ g.E a b) ∧ ∀ x, x ∈ (contract g order).nodes ↔ ∃ y, g.E x y ∨ g.E y x := by
  have hno : ∀ n, g.onePred n = false := by
    intro n
    cases ho : g.onePred n with
    | false => rfl
    | true =>
      obtain ⟨p, hp, hq⟩ := (onePred_iff hg n).1 ho
      obtain ⟨q, h1, h2⟩ := h n p hp
      exact absurd (hq q h1) h2
  have hc : contract g order = G.empty.addEdges g.edges := by
    unfold contract
    generalize G.empty.addEdges g.edges = s
    induction order with
    | nil => rfl
    | cons n l ih => simp only [List.foldl_cons, contractStep, hno n, Bool.false_eq_true, if_false]; exact ih
  obtain ⟨h1, h2⟩ := mem_addEdges (es := g.edges) (g := G.empty)
  rw [hc]
  refine ⟨fun a b => ?_, fun x => ?_⟩
  · simp only [G.E, h1]; simp [G.empty]
  · rw [h2]
    simp only [G.empty, List.not_mem_nil, false_or, G.E]
    constructor
    · rintro ⟨⟨a, b⟩, he, rfl | rfl⟩
      · exact ⟨b, .inl he⟩
      · exact ⟨a, .inr he⟩
    · rintro ⟨y, he | he⟩
      · exact ⟨_, he, .inl rfl⟩
      · exact ⟨_, he, .inr rfl⟩

/-- With a callback that makes new nodes, `contract` raises an exception whenever there is something to merge. -/
theorem C85_contract_raises (g : G) (union : Nat → Nat → Nat) (pick : List Nat → Nat) (hp : ∀ l, l ≠ [] → pick l ∈ l)
    (hu : ∀ p n, union p n ∉ g.nodes) (hg : g.Wf) (h : ∃ n p, g.E p n ∧ ∀ q, g.E q n → q = p) (k : Nat) (hk : g.nodes.length ≤ k) :
    contractU g union pick k g.nodes (G.empty.addEdges g.edges) = none := by
  obtain ⟨n, p, h1, h2⟩ := h
  exact contractU_raises hp hu hg k _ _ hk ⟨n, (hg.ends _ _ h1).2, .inr ((onePred_iff hg n).2 ⟨p, h1, h2⟩)⟩

/-- `non_disjoint_union_all` has the edges of all graphs, and the nodes that have edges. -/
theorem C85_union_partial (gs : List G) (order : List (Nat × Nat)) (ho : ∀ e, e ∈ order ↔ ∃ g ∈ gs, e ∈ g.edges) :
    (∀ a b, (unionAll order).E a b ↔ ∃ g ∈ gs, g.E a b) ∧
    ∀ x, x ∈ (unionAll order).nodes ↔ ∃ g ∈ gs, ∃ y, g.E x y ∨ g.E y x := by
  obtain ⟨h1, h2⟩ := mem_addEdges (es := order) (g := G.empty)
  refine ⟨fun a b => ?_, fun x => ?_⟩
  · simp only [G.E, unionAll, h1]; simp [G.empty, ho]
  · rw [unionAll, h2]
    simp only [G.empty, List.not_mem_nil, false_or, G.E]
    constructor
    · rintro ⟨⟨a, b⟩, he, rfl | rfl⟩ <;> obtain ⟨g, hg, he⟩ := (ho _).1 he
      · exact ⟨g, hg, b, .inl he⟩
      · exact ⟨g, hg, a, .inr he⟩
    · rintro ⟨g, hg, y, he | he⟩
      · exact ⟨_, (ho _).2 ⟨g, hg, he⟩, .inl rfl⟩
      · exact ⟨_, (ho _).2 ⟨g, hg, he⟩, .inr rfl⟩

/-- `to_dot` draws each node that passes the filter once, in order, in one of two places, and exactly the edges
between nodes that pass; the invisible edges are between root nodes. -/
theorem C85_dot (X : Nx) (g : G) (hg : g.Wf) (D : DG) (hD : D.Sure X g) (keep : Nat → Bool) :
    let q := toDot D keep
    (q.1 ++ q.2.2.1).Nodup ∧ q.1.Pairwise (· < ·) ∧ q.2.2.1.Pairwise (· < ·) ∧
    (∀ n, n ∈ q.1 ↔ n ∈ g.nodes ∧ keep n = true ∧ ∀ p, ¬ g.E p n) ∧
    (∀ n, n ∈ q.2.2.1 ↔ n ∈ g.nodes ∧ keep n = true ∧ ∃ p, g.E p n) ∧
    (∀ e ∈ q.2.1, e.1 ∈ q.1 ∧ e.2 ∈ q.1) ∧
    ∀ a b, (a, b) ∈ q.2.2.2 ↔ g.E a b ∧ keep a = true ∧ keep b = true := by
  obtain ⟨_, hr⟩ := hD.getRoots
  have hp := List.mergeSort_perm (g.nodes.filter keep) (fun a b => decide (a ≤ b))
  have hs : ((g.nodes.filter keep).mergeSort (fun a b => decide (a ≤ b))).Pairwise (· < ·) := by
    have h1 : ((g.nodes.filter keep).mergeSort (fun a b => decide (a ≤ b))).Pairwise (fun a b => decide (a ≤ b) = true) := by
      apply List.pairwise_mergeSort
      · intro a b c; simp only [decide_eq_true_eq]; omega
      · intro a b; simp only [Bool.or_eq_true, decide_eq_true_eq]; omega
    have h2 : ((g.nodes.filter keep).mergeSort (fun a b => decide (a ≤ b))).Nodup :=
      hp.nodup_iff.2 (hg.nodes.sublist List.filter_sublist)
    rw [List.nodup_iff_pairwise_ne] at h2
    refine (h1.and h2).imp ?_
    rintro a b ⟨h3, h4⟩
    simp only [decide_eq_true_eq] at h3
    omega
  have hm : ∀ n, n ∈ (g.nodes.filter keep).mergeSort (fun a b => decide (a ≤ b)) ↔ n ∈ g.nodes ∧ keep n = true := by
    intro n; rw [hp.mem_iff, List.mem_filter]
  simp only [toDot, hD.same, hr]
  have hr1 : ∀ n, n ∈ ((g.nodes.filter keep).mergeSort (fun a b => decide (a ≤ b))).filter (fun n => decide (n ∈ g.findRoots)) ↔
      n ∈ g.nodes ∧ keep n = true ∧ ∀ p, ¬ g.E p n := by
    intro n
    simp only [List.mem_filter, hm, decide_eq_true_eq, mem_findRoots]
    exact ⟨fun ⟨⟨h1, h2⟩, _, h3⟩ => ⟨h1, h2, h3⟩, fun ⟨h1, h2, h3⟩ => ⟨⟨h1, h2⟩, h1, h3⟩⟩
  have hr2 : ∀ n, n ∈ ((g.nodes.filter keep).mergeSort (fun a b => decide (a ≤ b))).filter (fun n => decide (n ∉ g.findRoots)) ↔
      n ∈ g.nodes ∧ keep n = true ∧ ∃ p, g.E p n := by
    intro n
    simp only [List.mem_filter, hm, decide_eq_true_eq, mem_findRoots]
    constructor
    · rintro ⟨⟨h1, h2⟩, h3⟩
      refine ⟨h1, h2, Classical.byContradiction fun h => h3 ⟨h1, fun p hp => h ⟨p, hp⟩⟩⟩
    · rintro ⟨h1, h2, p, hp⟩
      exact ⟨⟨h1, h2⟩, fun h => h.2 p hp⟩
  have hlt : ∀ {l : List Nat}, l.Pairwise (· < ·) → l.Nodup := by
    intro l h
    rw [List.nodup_iff_pairwise_ne]
    exact h.imp fun h => Nat.ne_of_lt h
  refine ⟨?_, hs.sublist List.filter_sublist, hs.sublist List.filter_sublist, hr1, hr2, ?_, ?_⟩
  · refine List.nodup_append.2 ⟨hlt (hs.sublist List.filter_sublist), hlt (hs.sublist List.filter_sublist), ?_⟩
    rintro a ha b hb rfl
    obtain ⟨p, hp⟩ := ((hr2 a).1 hb).2.2
    exact ((hr1 a).1 ha).2.2 p hp
  · rintro ⟨a, b⟩ he
    exact ⟨(List.of_mem_zip he).1, List.mem_of_mem_tail (List.of_mem_zip he).2⟩
  · intro a b
    simp [G.E, List.mem_filter]

/-- The graph 0 → 1. -/
def PyGraph.arrow : G := ⟨[0, 1], [(0, 1)]⟩

theorem PyGraph.arrow_wf : arrow.Wf := ⟨by decide, by decide, fun a b h => by
  simp only [G.E, arrow, List.mem_singleton, Prod.mk.injEq] at h
  obtain ⟨rfl, rfl⟩ := h; decide⟩

theorem PyGraph.arrow_dist : Dist arrow.E 0 1 1 := by
  refine ⟨⟨[1, 0], .snoc .nil (by decide), rfl⟩, fun l hl => ?_⟩
  cases hl with
  | snoc hw _ => have := hw.pos; simp only [List.length_cons]; omega

/-- Answers that were given are not forgotten when the graph changes: a length is infinite though there is a walk, a root
has a predecessor, and a node that is dominated has no parent. -/
theorem C85_cache_refuted (X : Nx) (hX : X.Ok) :
    let D := (DG.new.run X [.addNode 0, .addNode 1, .pathLength 0 1, .roots, .domForest, .addEdge 0 1]).1
    D.g = arrow ∧ Dist D.g.E 0 1 1 ∧ (D.step X (.pathLength 0 1)).2 = .num none ∧
    (D.step X .roots).2 = .nodes [0, 1] ∧ D.g.E 0 1 ∧ ¬ Right D.g .roots (D.step X .roots).2 ∧
    ¬ Right D.g .domForest (D.step X .domForest).2 := by
  have hw : (⟨[0, 1], []⟩ : G).Wf := ⟨by decide, by decide, fun a b h => by simp [G.E] at h⟩
  have h1 : X.dist ⟨[0, 1], []⟩ 0 1 = none := by
    cases h : X.dist ⟨[0, 1], []⟩ 0 1 with
    | none => rfl
    | some d =>
      obtain ⟨l, hl⟩ := ((hX.dist _ hw 0 1 d).1 h).2.linked
      cases hl with
      | snoc _ he => simp [G.E] at he
  have h01 : arrow.E 0 1 := by decide
  have hdom : ∀ d n, ¬ (domLoop X ⟨[0, 1], []⟩ [0, 1]).E d n := by
    intro d n h
    obtain ⟨r, _, h⟩ := ((domLoop_spec hX hw (rs := [0, 1]) (by decide)).2.1 d n).1 h
    obtain ⟨l, hl⟩ := h.1.1
    cases hl with
    | nil => exact not_sdom_root h.1
    | snoc _ he => simp [G.E] at he
  have hD : (DG.new.run X [.addNode 0, .addNode 1, .pathLength 0 1, .roots, .domForest, .addEdge 0 1]).1 =
      ⟨arrow, some (X.dist ⟨[0, 1], []⟩), some [0, 1], some (domLoop X ⟨[0, 1], []⟩ [0, 1])⟩ := by
    simp only [DG.run, DG.step, DG.new, G.empty, G.addNode, DG.pathLength, DG.getRoots, DG.domForest]
    rfl
  rw [hD]
  refine ⟨rfl, arrow_dist, by simp only [DG.step, DG.pathLength, h1], rfl, h01, ?_, ?_⟩
  · rintro ⟨l, h, _, h'⟩
    cases h
    exact ((h' 1).1 (by simp [DG.getRoots])).2 0 h01
  · rintro ⟨f, h, _, h', _⟩
    cases h
    refine hdom 0 1 ((h' 0 1).2 ⟨0, (by decide : 0 ∈ arrow.nodes), fun p hp => ?_, ⟨⟨_, .snoc .nil h01⟩, by decide, root_dom⟩, fun e he => ?_⟩)
    · simp [G.E, arrow] at hp
    · have := he.2.2 [1, 0] (.snoc .nil h01)
      simp only [List.mem_cons, List.not_mem_nil, or_false] at this
      rcases this with rfl | rfl
      · exact absurd rfl he.2.1
      · exact Dom.refl

/-- If dominator_forest raises an exception, because of a root that is not a node, the next call does not, and gives what
had been made before. -/
theorem C85_again_refuted (X : Nx) :
    let D := (DG.new.run X [.addEdge 0 1, .setRoots [2, 0], .domForest]).1
    (DG.new.run X [.addEdge 0 1, .setRoots [2, 0], .domForest]).2.getLast? = some .err ∧
    (D.step X .domForest).2 = .graph .empty ∧ ∃ f, (D.step X .domForest).2 = .graph f ∧ D.g.E 0 1 ∧ ¬ f.E 0 1 :=
  ⟨rfl, rfl, .empty, rfl, (by decide : arrow.E 0 1), by decide⟩

/-- `descendants` has the node itself and lacks the ends. -/
theorem C85_descendants_refuted (X : Nx) (hX : X.Ok) :
    Linked arrow.E 0 1 ∧ 1 ∉ arrow.descendants X 0 ∧ 0 ∈ arrow.descendants X 0 ∧ ∀ p, ¬ arrow.E p 0 := by
  obtain ⟨h1, h2⟩ := hX.tree arrow arrow_wf 0 (by decide)
  have hj : Linked arrow.E 0 1 := arrow_dist.linked
  refine ⟨hj, fun h => ?_, ?_, fun p hp => by simp [G.E, arrow] at hp⟩
  · simp only [G.descendants, List.mem_map] at h
    obtain ⟨⟨p, cs⟩, hp, rfl⟩ := h
    obtain ⟨h3, h4⟩ := h1 _ cs hp
    obtain ⟨c, hc⟩ := List.exists_mem_of_ne_nil _ h3
    have := (h4 c hc).1
    simp [G.E, arrow] at this
  · obtain ⟨p, cs, h3, h4⟩ := h2 1 hj (by decide)
    have := ((h1 p cs h3).2 1 h4).1
    simp only [G.E, arrow, List.mem_singleton, Prod.mk.injEq, and_true] at this
    subst this
    exact List.mem_map.2 ⟨_, h3, rfl⟩

/-- `contract` loses everything of 0 → 1, in any order, the second child of a node, and a node that was merged comes back. -/
theorem C85_contract_refuted :
    (∀ order ∈ [[0, 1], [1, 0]], contract arrow order = ⟨[], []⟩) ∧
    contract ⟨[0, 1, 2], [(0, 1), (0, 2)]⟩ [0, 1, 2] = ⟨[], []⟩ ∧
    contract ⟨[0, 1, 2], [(0, 1), (1, 2)]⟩ [0, 1, 2] = ⟨[0, 1], [(0, 1)]⟩ := by
  decide +kernel

/-- An edge between two of the vertices is lost, and so is one of them. -/
theorem C85_induced_refuted : ∃ (g : G) (vs : List Nat) (h : G), g.Wf ∧ (∀ v ∈ vs, v ∈ g.nodes) ∧ induce g vs 5 = some h ∧
    ∃ a b, a ∈ vs ∧ b ∈ vs ∧ g.E a b ∧ ¬ h.E a b ∧ b ∉ h.nodes :=
  ⟨arrow, [0, 1], ⟨[0], []⟩, arrow_wf, by decide, by decide +kernel, 0, 1, by decide, by decide, by decide, by decide, by decide⟩

/-- The union lacks nodes without edges. -/
theorem C85_union_refuted : ∃ (gs : List G) (order : List (Nat × Nat)), (∀ e, e ∈ order ↔ ∃ g ∈ gs, e ∈ g.edges) ∧
    ∃ g ∈ gs, ∃ n ∈ g.nodes, n ∉ (unionAll order).nodes := by
  refine ⟨[arrow, ⟨[2], []⟩], [(0, 1)], fun e => ?_, ⟨[2], []⟩, by simp, 2, by simp, by decide +kernel⟩
  simp [arrow]

/-- With two roots the dominator forest is no forest: a node has two parents, and neither dominates it from the other root. -/
theorem C85_forest_refuted (X : Nx) (hX : X.Ok) : ∃ (es : List Op) (f : G), (∀ e ∈ es, e.edits) ∧
    ((DG.new.run X es).1.step X .domForest).2 = .graph f ∧ f.E 0 2 ∧ f.E 1 2 ∧
    ¬ SDom (DG.new.run X es).1.g.E 0 1 2 ∧ ¬ SDom (DG.new.run X es).1.g.E 1 0 2 := by
  have hes : ∀ e ∈ [Op.addEdge 0 2, .addEdge 1 2], e.edits := by
    intro e he
    simp only [List.mem_cons, List.not_mem_nil, or_false] at he
    rcases he with rfl | rfl <;> exact trivial
  obtain ⟨hg, ht⟩ := run_edits (X := X) _ DG.new hes G.Wf.empty rfl rfl rfl
  have hgg : (DG.new.run X [Op.addEdge 0 2, .addEdge 1 2]).1.g = ⟨[0, 2, 1], [(0, 2), (1, 2)]⟩ := by
    simp only [DG.run, DG.step]; decide
  obtain ⟨_, f, h1, h2, h3, _⟩ := ht.step hX hg (o := .domForest) trivial
  rw [hgg] at h3
  have hE : ∀ r, r = 0 ∨ r = 1 → ∀ l, Walk (⟨[0, 2, 1], [(0, 2), (1, 2)]⟩ : G).E r 2 l → l = [2, r] := by
    intro r hr l hl
    cases hl with
    | nil => omega
    | @snoc b _ l hw he =>
      cases hw with
      | nil => rfl
      | snoc _ he' =>
        simp only [G.E, List.mem_cons, Prod.mk.injEq, List.not_mem_nil, or_false] at he he'
        omega
  have hI : ∀ r, r = 0 ∨ r = 1 → IDom (⟨[0, 2, 1], [(0, 2), (1, 2)]⟩ : G).E r r 2 := by
    intro r hr
    have he : (⟨[0, 2, 1], [(0, 2), (1, 2)]⟩ : G).E r 2 := by rcases hr with rfl | rfl <;> decide
    refine ⟨⟨⟨_, .snoc .nil he⟩, by omega, root_dom⟩, fun e h => ?_⟩
    have := h.2.2 [2, r] (.snoc .nil he)
    simp only [List.mem_cons, List.not_mem_nil, or_false] at this
    rcases this with rfl | rfl
    · exact absurd rfl h.2.1
    · exact Dom.refl
  refine ⟨_, f, hes, h1, (h3 0 2).2 ⟨0, by decide, fun p hp => ?_, hI 0 (.inl rfl)⟩, (h3 1 2).2 ⟨1, by decide, fun p hp => ?_, hI 1 (.inr rfl)⟩, ?_, ?_⟩
  · simp [G.E] at hp
  · simp [G.E] at hp
  · rw [hgg]
    intro h
    have := h.2.2 [2, 0] (.snoc .nil (by decide))
    simp at this
  · rw [hgg]
    intro h
    have := h.2.2 [2, 1] (.snoc .nil (by decide))
    simp at this

/-- The hypotheses can be met: a graph is built and asked, and has one root. -/
example : ∃ (X : Nx) (es : List Op) (f : G), X.Ok ∧ (∀ e ∈ es, e.edits) ∧ (DG.new.run X es).1.g = ⟨[0, 1, 2], [(0, 1), (1, 2)]⟩ ∧
    (∀ x, (x ∈ (DG.new.run X es).1.g.nodes ∧ ∀ p, ¬ (DG.new.run X es).1.g.E p x) ↔ x = 0) ∧
    Right (DG.new.run X es).1.g .domForest (.graph f) := by
  obtain ⟨X, hX⟩ := nx_exists
  have hes : ∀ e ∈ [Op.addEdge 0 1, .addEdge 1 2], e.edits := by
    intro e he
    simp only [List.mem_cons, List.not_mem_nil, or_false] at he
    rcases he with rfl | rfl <;> exact trivial
  obtain ⟨hg, ht⟩ := run_edits (X := X) _ DG.new hes G.Wf.empty rfl rfl rfl
  have hgg : (DG.new.run X [Op.addEdge 0 1, .addEdge 1 2]).1.g = ⟨[0, 1, 2], [(0, 1), (1, 2)]⟩ := by
    simp only [DG.run, DG.step]; decide
  obtain ⟨_, h⟩ := ht.step hX hg (o := .domForest) trivial
  have h' := h
  obtain ⟨f, h1, _⟩ := h
  refine ⟨X, _, f, hX, hes, hgg, fun x => ?_, h1 ▸ h'⟩
  rw [hgg]
  simp only [G.E, List.mem_cons, List.not_mem_nil, or_false, Prod.mk.injEq]
  constructor
  · rintro ⟨rfl | rfl | rfl, h⟩
    · rfl
    · exact absurd (.inl ⟨rfl, rfl⟩) (h 0)
    · exact absurd (.inr ⟨rfl, rfl⟩) (h 1)
  · rintro rfl
    exact ⟨.inl rfl, fun p hp => by omega⟩

end Verif
