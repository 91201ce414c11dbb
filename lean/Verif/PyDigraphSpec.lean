import Verif.PyDigraph
/- What the operations on graphs do. -/
namespace Verif.PyGraph
open Verif.Spec

theorem mem_addNode {g : G} {n x : Nat} : x ∈ (g.addNode n).nodes ↔ x ∈ g.nodes ∨ x = n := by
  unfold G.addNode
  split
  · rename_i h
    refine ⟨.inl, ?_⟩
    rintro (h' | rfl)
    · exact h'
    · exact h
  · simp

theorem addNode_edges {g : G} {n : Nat} : (g.addNode n).edges = g.edges := by
  unfold G.addNode; split <;> rfl

theorem mem_addEdge_nodes {g : G} {a b x : Nat} : x ∈ (g.addEdge a b).nodes ↔ x ∈ g.nodes ∨ x = a ∨ x = b := by
  unfold G.addEdge
  simp only
  split <;> simp only [mem_addNode, or_assoc]

theorem mem_addEdge_edges {g : G} {a b : Nat} {e : Nat × Nat} : e ∈ (g.addEdge a b).edges ↔ e ∈ g.edges ∨ e = (a, b) := by
  unfold G.addEdge
  simp only
  split
  · rename_i h
    rw [addNode_edges, addNode_edges] at h ⊢
    refine ⟨.inl, ?_⟩
    rintro (h' | rfl)
    · exact h'
    · exact h
  · simp [addNode_edges]

theorem G.Wf.addNode {g : G} (h : g.Wf) (n : Nat) : (g.addNode n).Wf := by
  refine ⟨?_, by rw [addNode_edges]; exact h.edges, fun a b he => ?_⟩
  · unfold G.addNode
    split
    · exact h.nodes
    · rename_i hn
      exact List.nodup_append.2 ⟨h.nodes, by simp, by rintro a ha b hb rfl; simp at hb; subst hb; exact hn ha⟩
  · have := h.ends a b (by simpa [G.E, addNode_edges] using he)
    exact ⟨mem_addNode.2 (.inl this.1), mem_addNode.2 (.inl this.2)⟩

theorem G.Wf.addEdge {g : G} (h : g.Wf) (a b : Nat) : (g.addEdge a b).Wf := by
  have h2 := (h.addNode a).addNode b
  refine ⟨?_, ?_, fun x y he => ?_⟩
  · unfold G.addEdge
    simp only
    split <;> exact h2.nodes
  · unfold G.addEdge
    simp only
    split
    · exact h2.edges
    · rename_i hn
      exact List.nodup_append.2 ⟨h2.edges, by simp, by rintro e he f hf rfl; simp at hf; subst hf; exact hn he⟩
  · rcases mem_addEdge_edges.1 he with he | he
    · have := h.ends x y he
      exact ⟨mem_addEdge_nodes.2 (.inl this.1), mem_addEdge_nodes.2 (.inl this.2)⟩
    · cases he
      exact ⟨mem_addEdge_nodes.2 (.inr (.inl rfl)), mem_addEdge_nodes.2 (.inr (.inr rfl))⟩

theorem G.Wf.removeNodes {g : G} (h : g.Wf) (ns : List Nat) : (g.removeNodes ns).Wf := by
  refine ⟨h.nodes.sublist List.filter_sublist, h.edges.sublist List.filter_sublist, fun a b he => ?_⟩
  simp only [G.E, G.removeNodes, List.mem_filter, decide_eq_true_eq] at he ⊢
  have := h.ends a b he.1
  exact ⟨⟨this.1, he.2.1⟩, this.2, he.2.2⟩

theorem G.Wf.removeEdge {g : G} (h : g.Wf) (a b : Nat) : (g.removeEdge a b).Wf := by
  refine ⟨h.nodes, h.edges.sublist List.filter_sublist, fun x y he => ?_⟩
  simp only [G.E, G.removeEdge, List.mem_filter] at he
  exact h.ends x y he.1

theorem G.Wf.empty : G.empty.Wf := ⟨by simp [G.empty], by simp [G.empty], fun a b h => by simp [G.E, G.empty] at h⟩

theorem mem_addEdges {es : List (Nat × Nat)} {g : G} :
    (∀ e, e ∈ (g.addEdges es).edges ↔ e ∈ g.edges ∨ e ∈ es) ∧
    (∀ x, x ∈ (g.addEdges es).nodes ↔ x ∈ g.nodes ∨ ∃ e ∈ es, x = e.1 ∨ x = e.2) := by
  induction es generalizing g with
  | nil => simp [G.addEdges]
  | cons p es ih =>
    have : g.addEdges (p :: es) = (g.addEdge p.1 p.2).addEdges es := rfl
    rw [this]
    obtain ⟨h1, h2⟩ := @ih (g.addEdge p.1 p.2)
    refine ⟨fun e => ?_, fun x => ?_⟩
    · rw [h1, mem_addEdge_edges]
      simp only [List.mem_cons, or_assoc]
    · rw [h2, mem_addEdge_nodes]
      simp only [List.mem_cons, exists_eq_or_imp, or_assoc]

theorem mem_preds {g : G} {n p : Nat} : p ∈ g.preds n ↔ g.E p n := by
  simp only [G.preds, List.mem_map, List.mem_filter, decide_eq_true_eq]
  constructor
  · rintro ⟨⟨a, b⟩, ⟨h, rfl⟩, rfl⟩; exact h
  · intro h; exact ⟨(p, n), ⟨h, rfl⟩, rfl⟩

theorem preds_nodup {g : G} (h : g.Wf) (n : Nat) : (g.preds n).Nodup := by
  unfold G.preds
  refine List.Nodup.map_on ?_ (h.edges.sublist List.filter_sublist)
  rintro ⟨a, b⟩ ha ⟨c, d⟩ hc hac
  simp only [List.mem_filter, decide_eq_true_eq] at ha hc
  simp_all

theorem onePred_iff {g : G} (h : g.Wf) (n : Nat) : g.onePred n = true ↔ ∃ p, g.E p n ∧ ∀ q, g.E q n → q = p := by
  have hn := preds_nodup h n
  have hm : ∀ p, p ∈ g.preds n ↔ g.E p n := fun p => mem_preds
  unfold G.onePred
  revert hn hm
  generalize g.preds n = l
  intro hn hm
  match l, hn, hm with
  | [], _, hm =>
    simp only [Bool.false_eq_true, false_iff]
    rintro ⟨p, hp, _⟩
    exact absurd ((hm p).2 hp) (by simp)
  | [a], _, hm =>
    simp only [true_iff]
    exact ⟨a, (hm a).1 (by simp), fun q hq => by simpa using (hm q).2 hq⟩
  | a :: b :: l, hn, hm =>
    simp only [Bool.false_eq_true, false_iff]
    rintro ⟨p, _, hp⟩
    have h1 := hp a ((hm a).1 (by simp))
    have h2 := hp b ((hm b).1 (by simp))
    subst h1; subst h2
    simp at hn

theorem mem_findRoots {g : G} {n : Nat} : n ∈ g.findRoots ↔ n ∈ g.nodes ∧ ∀ p, ¬ g.E p n := by
  simp only [G.findRoots, List.mem_filter, decide_eq_true_eq, and_congr_right_iff]
  intro _
  rw [List.eq_nil_iff_forall_not_mem]
  exact forall_congr' fun p => not_congr mem_preds

/-- The nodes from which a node can be reached, nearest first. -/
theorem ancestors_spec {X : Nx} (hX : X.Ok) {g : G} (hg : g.Wf) {n : Nat} (hn : n ∈ g.nodes) :
    (g.ancestors X n).Nodup ∧ (∀ x, x ∈ g.ancestors X n ↔ x ∈ g.nodes ∧ x ≠ n ∧ Linked g.E x n) ∧
    (g.ancestors X n).Pairwise (fun x y => ∀ i j, Dist g.E x n i → Dist g.E y n j → i < j ∨ (i = j ∧ x < y)) := by
  obtain ⟨h1, h2⟩ := hX.target g hg n hn
  have hp := List.mergeSort_perm (((X.toTarget g n).filter (fun p => decide (p.1 ≠ n))).map (fun p => (p.2, p.1))) before
  have hs : (((((X.toTarget g n).filter (fun p => decide (p.1 ≠ n))).map (fun p => (p.2, p.1))).mergeSort before)).Pairwise
      (fun a b => before a b = true) := by
    apply List.pairwise_mergeSort
    · intro a b c; simp only [before, decide_eq_true_eq]; omega
    · intro a b; simp only [before, Bool.or_eq_true, decide_eq_true_eq]; omega
  have hmem : ∀ d x, (d, x) ∈ ((((X.toTarget g n).filter (fun p => decide (p.1 ≠ n))).map (fun p => (p.2, p.1))).mergeSort before) ↔
      x ≠ n ∧ x ∈ g.nodes ∧ Dist g.E x n d := by
    intro d x
    rw [hp.mem_iff]
    simp only [List.mem_map, List.mem_filter, decide_eq_true_eq]
    constructor
    · rintro ⟨⟨y, e⟩, ⟨hy, hne⟩, he⟩
      cases he
      exact ⟨hne, (h2 _ _).1 hy⟩
    · rintro ⟨h3, h4⟩
      exact ⟨(x, d), ⟨(h2 _ _).2 h4, h3⟩, rfl⟩
  have hnd : (g.ancestors X n).Nodup := by
    unfold G.ancestors
    refine ((hp.map Prod.snd).nodup_iff).2 ?_
    rw [List.map_map]
    exact h1.sublist (List.Sublist.map _ List.filter_sublist)
  refine ⟨hnd, fun x => ?_, ?_⟩
  · unfold G.ancestors
    simp only [List.mem_map]
    constructor
    · rintro ⟨⟨d, y⟩, hy, rfl⟩
      obtain ⟨h3, h4, h5⟩ := (hmem d y).1 hy
      exact ⟨h4, h3, h5.linked⟩
    · rintro ⟨h3, h4, h5⟩
      obtain ⟨d, hd⟩ := h5.dist
      exact ⟨(d, x), (hmem d x).2 ⟨h4, h3, hd⟩, rfl⟩
  · have hnd' := hnd
    unfold G.ancestors at hnd' ⊢
    rw [List.nodup_iff_pairwise_ne, List.pairwise_map] at hnd'
    rw [List.pairwise_map]
    have := (hs.and hnd').imp_of_mem (S := fun a b => ∀ i j, Dist g.E a.2 n i → Dist g.E b.2 n j → i < j ∨ (i = j ∧ a.2 < b.2)) ?_
    · exact this
    · rintro ⟨d, x⟩ ⟨e, y⟩ hx hy ⟨hb, hne⟩ i j hi hj
      have h3 := (hmem d x).1 hx
      have h4 := (hmem e y).1 hy
      have h5 := h3.2.2.unique hi
      have h6 := h4.2.2.unique hj
      subst h5; subst h6
      simp only [before, decide_eq_true_eq] at hb hne ⊢
      omega

/-- The edges that dominator_forest makes. -/
theorem domLoop_spec {X : Nx} (hX : X.Ok) {g : G} (hg : g.Wf) {rs : List Nat} (hr : ∀ r ∈ rs, r ∈ g.nodes) :
    (domLoop X g rs).Wf ∧ (∀ d n, (domLoop X g rs).E d n ↔ ∃ r ∈ rs, IDom g.E r d n) ∧
    ∀ x, x ∈ (domLoop X g rs).nodes ↔ ∃ y, (domLoop X g rs).E x y ∨ (domLoop X g rs).E y x := by
  have inner : ∀ (l : List (Nat × Nat)) (f : G), f.Wf → (∀ x, x ∈ f.nodes ↔ ∃ y, f.E x y ∨ f.E y x) →
      let f' := l.foldl (fun f p => if p.1 ≠ p.2 then f.addEdge p.2 p.1 else f) f
      f'.Wf ∧ (∀ d n, f'.E d n ↔ f.E d n ∨ ((n, d) ∈ l ∧ n ≠ d)) ∧ ∀ x, x ∈ f'.nodes ↔ ∃ y, f'.E x y ∨ f'.E y x := by
    intro l
    induction l with
    | nil => intro f hf hn; exact ⟨hf, by simp, hn⟩
    | cons p l ih =>
      intro f hf hn
      simp only [List.foldl_cons]
      by_cases hp : p.1 ≠ p.2
      · rw [if_pos hp]
        have hn' : ∀ x, x ∈ (f.addEdge p.2 p.1).nodes ↔ ∃ y, (f.addEdge p.2 p.1).E x y ∨ (f.addEdge p.2 p.1).E y x := by
          intro x
          simp only [mem_addEdge_nodes, G.E, mem_addEdge_edges, hn]
          constructor
          · rintro (⟨y, h | h⟩ | rfl | rfl)
            · exact ⟨y, .inl (.inl h)⟩
            · exact ⟨y, .inr (.inl h)⟩
            · exact ⟨p.1, .inl (.inr rfl)⟩
            · exact ⟨p.2, .inr (.inr rfl)⟩
          · rintro ⟨y, (h | h) | (h | h)⟩
            · exact .inl ⟨y, .inl h⟩
            · cases h; exact .inr (.inl rfl)
            · exact .inl ⟨y, .inr h⟩
            · cases h; exact .inr (.inr rfl)
        obtain ⟨h1, h2, h3⟩ := ih _ (hf.addEdge _ _) hn'
        refine ⟨h1, fun d n => ?_, h3⟩
        rw [h2]
        simp only [G.E, mem_addEdge_edges, List.mem_cons, or_assoc]
        constructor
        · rintro (h | h | ⟨h, h'⟩)
          · exact .inl h
          · cases h; exact .inr ⟨.inl rfl, hp⟩
          · exact .inr ⟨.inr h, h'⟩
        · rintro (h | ⟨h | h, h'⟩)
          · exact .inl h
          · subst h; exact .inr (.inl rfl)
          · exact .inr (.inr ⟨h, h'⟩)
      · rw [if_neg hp]
        obtain ⟨h1, h2, h3⟩ := ih f hf hn
        refine ⟨h1, fun d n => ?_, h3⟩
        rw [h2]
        simp only [List.mem_cons]
        constructor
        · rintro (h | ⟨h, h'⟩)
          · exact .inl h
          · exact .inr ⟨.inr h, h'⟩
        · rintro (h | ⟨h | h, h'⟩)
          · exact .inl h
          · subst h; exact absurd h' hp
          · exact .inr ⟨h, h'⟩
  have outer : ∀ (rs : List Nat) (f : G), (∀ r ∈ rs, r ∈ g.nodes) → f.Wf → (∀ x, x ∈ f.nodes ↔ ∃ y, f.E x y ∨ f.E y x) →
      let f' := rs.foldl (fun f r => (X.idom g r).foldl (fun f p => if p.1 ≠ p.2 then f.addEdge p.2 p.1 else f) f) f
      f'.Wf ∧ (∀ d n, f'.E d n ↔ f.E d n ∨ ∃ r ∈ rs, IDom g.E r d n) ∧ ∀ x, x ∈ f'.nodes ↔ ∃ y, f'.E x y ∨ f'.E y x := by
    intro rs
    induction rs with
    | nil => intro f _ hf hn; exact ⟨hf, by simp, hn⟩
    | cons r rs ih =>
      intro f hr hf hn
      obtain ⟨h1, h2, h3⟩ := inner (X.idom g r) f hf hn
      obtain ⟨h4, h5, h6⟩ := ih _ (fun r' hr' => hr r' (by simp [hr'])) h1 h3
      refine ⟨h4, fun d n => ?_, h6⟩
      rw [List.foldl_cons, h5, h2]
      have : ((n, d) ∈ X.idom g r ∧ n ≠ d) ↔ IDom g.E r d n := by
        rw [hX.idom g hg r (hr r (by simp))]
        constructor
        · rintro ⟨⟨rfl, rfl⟩ | h, hne⟩
          · exact absurd rfl hne
          · exact h
        · intro h; exact ⟨.inr h, fun e => h.1.2.1 e.symm⟩
      rw [this]
      simp only [List.mem_cons, exists_eq_or_imp, or_assoc]
  obtain ⟨h1, h2, h3⟩ := outer rs .empty hr .empty (by simp [G.empty, G.E])
  refine ⟨h1, fun d n => ?_, h3⟩
  have := h2 d n
  simp only [G.E, G.empty, List.not_mem_nil, false_or] at this
  exact this

end Verif.PyGraph
