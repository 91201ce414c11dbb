import Verif.ForestGraphLemmas
/- The loop of `to_graph`. -/
namespace Verif
open Spec Py File Tracker
namespace Py.Forest

theorem Later.trans {F : TDFile} {a b c : Forest} (h : Later F a b) (h' : Later F b c) : Later F a c := by
  induction h' with
  | refl => exact h
  | query _ e ih => exact .query ih e

theorem addParent_spec {F : TDFile} {g : Graph} {n : Nat} (hF : F.Shows g n) {st : Forest} (hi : Inv F g n st)
    (G : Dg) (p label : Int) (hp : st.cnt < p ∧ p < n) :
    ∃ st1, addParent F st G p label = some (G.addEdge p label, st1) ∧ Inv F g n st1 ∧ Later F st st1 ∧
      ((∃ nd, st.cache.get p = some (some nd)) → st1 = st) := by
  obtain ⟨nd, st1, h1, h2, h3, h4⟩ := get_spec hF hi p hp
  have h5 : st1.get F p = some (nd, st1) := by rw [Forest.get, h4]
  refine ⟨st1, ?_, h2, .query (.refl _) h1, ?_⟩
  · simp only [addParent, h1, h5, Option.bind_eq_bind, Option.bind_some, h2.label h4]
    rfl
  · rintro ⟨nd', hn⟩
    rw [Forest.get, hn] at h1
    cases h1
    rfl

/-- The body of the loop adds the node and the edges from its parents. -/
theorem addNodeParents_spec {F : TDFile} {g : Graph} {n : Nat} (hF : F.Shows g n) {st : Forest} (hi : Inv F g n st)
    (G : Dg) {label : Int} {nd : FNode} (hn : st.cache.get label = some (some nd)) :
    ∃ G1 st1, addNodeParents F st G nd = some (G1, st1) ∧ Inv F g n st1 ∧ Later F st st1 ∧
      (∀ z, z ∈ G1.nodes ↔ z ∈ G.nodes ∨ z = label ∨ Parent st z label) ∧
      (∀ e, e ∈ G1.edges ↔ e ∈ G.edges ∨ e.2 = label ∧ Parent st e.1 label) ∧
      (G.nodes.Nodup → G.edges.Nodup → G1.nodes.Nodup ∧ G1.edges.Nodup) ∧
      ((∀ p, Parent st p label → ∃ m, st.cache.get p = some (some m)) → st1 = st) := by
  have hlab := hi.label hn
  cases hp : nd.parents with
  | none =>
    have hno : ∀ z, ¬ Parent st z label := by
      rintro z ⟨nd', a, b, h1, h2, -⟩
      rw [hn] at h1; cases h1; rw [hp] at h2; cases h2
    refine ⟨G.addNode label, st, ?_, hi, .refl _, ?_, ?_, ?_, fun _ => rfl⟩
    · simp only [addNodeParents, hp, hlab]
    · intro z; rw [Dg.addNode_nodes]; simp [hno]
    · intro e; rw [Dg.addNode_edges]; simp [hno]
    · intro a b; exact ⟨Dg.addNode_nodup _ _ a, by rw [Dg.addNode_edges]; exact b⟩
  | some pq =>
    obtain ⟨p, q⟩ := pq
    have hpar : ∀ z, Parent st z label ↔ z = p ∨ z = q := by
      intro z
      constructor
      · rintro ⟨nd', a, b, h1, h2, h3⟩
        rw [hn] at h1; cases h1; rw [hp] at h2; cases h2; exact h3
      · intro h; exact ⟨nd, p, q, hn, hp, h⟩
    obtain ⟨hpb, hqb⟩ := hi.parents hF hn hp
    obtain ⟨st1, h1, h2, h3, h4⟩ := addParent_spec hF hi (G.addNode label) p label hpb
    have hcnt : st1.cnt < q ∧ q < n := by
      have hext := (h3.inv hF hi).2
      exact (h2.parents hF (hext _ _ hn) hp).2
    obtain ⟨st2, k1, k2, k3, k4⟩ := addParent_spec hF h2 ((G.addNode label).addEdge p label) q label hcnt
    refine ⟨((G.addNode label).addEdge p label).addEdge q label, st2, ?_, k2, h3.trans k3, ?_, ?_, ?_, ?_⟩
    · simp only [addNodeParents, hp, hlab, h1, Option.bind_eq_bind, Option.bind_some, k1]
    · intro z
      rw [Dg.addEdge_nodes, Dg.addEdge_nodes, Dg.addNode_nodes, hpar]
      tauto
    · rintro ⟨x, y⟩
      rw [Dg.addEdge_edges, Dg.addEdge_edges, Dg.addNode_edges, hpar]
      simp only [Prod.mk.injEq]
      tauto
    · intro a b
      obtain ⟨a1, b1⟩ := Dg.addEdge_nodup (G.addNode label) p label (Dg.addNode_nodup _ _ a)
        (by rw [Dg.addNode_edges]; exact b)
      exact Dg.addEdge_nodup _ q label a1 b1
    · intro hall
      have e1 := h4 (hall p ((hpar p).2 (Or.inl rfl)))
      subst e1
      exact k4 (hall q ((hpar q).2 (Or.inr rfl)))

/-- Invariant of the loop: the nodes above `label` have been handled. -/
structure LoopInv (F : TDFile) (g : Graph) (n : Nat) (st : Forest) (label : Int) (G : Dg) : Prop where
  inv : Inv F g n st
  done : ∀ x, label < x → st.cache.get x ≠ some none
  edges : ∀ p l, (p, l) ∈ G.edges ↔ label < l ∧ Parent st p l
  nodes : ∀ x, x ∈ G.nodes ↔ (label < x ∧ ∃ v, st.cache.get x = some v) ∨ ∃ l, (x, l) ∈ G.edges
  nodupN : G.nodes.Nodup
  nodupE : G.edges.Nodup

theorem step_spec {F : TDFile} {g : Graph} {n : Nat} (hF : F.Shows g n) {st : Forest} {G : Dg} {label : Int}
    (hL : LoopInv F g n st label G) (hk : st.cnt < label ∧ label < n) :
    ∃ nd st0 G1 st1, st.get F label = some (nd, st0) ∧ addNodeParents F st0 G nd = some (G1, st1) ∧
      LoopInv F g n st1 (label - 1) G1 ∧ Later F st st1 ∧ (label < 0 → st1 = st) := by
  have hi := hL.inv
  obtain ⟨nd, st0, h1, h2, h3, h4⟩ := get_spec hF hi label hk
  obtain ⟨G1, st1, k1, k2, k3, k4, k5, k6, k7⟩ := addNodeParents_spec hF h2 G h4
  have hlater : Later F st st1 := (Later.query (.refl _) h1).trans k3
  have hext := (hlater.inv hF hi).2
  have hext0 := (k3.inv hF h2).2
  have hneg : label < 0 → st1 = st := by
    intro hl
    have e0 : st0 = st := by
      obtain ⟨v, hv⟩ := (hi.key label).2 hk
      cases v with
      | none => have := hi.empty label hv; omega
      | some nd' => rw [Forest.get, hv] at h1; cases h1; rfl
    subst e0
    apply k7
    rintro p ⟨nd', a, b, g1, g2, g3⟩
    obtain ⟨ha, hb⟩ := hi.parents hF g1 g2
    have hp : st0.cnt < p ∧ p < n := by rcases g3 with rfl | rfl <;> assumption
    obtain ⟨v, hv⟩ := (hi.key p).2 hp
    cases v with
    | some m => exact ⟨m, hv⟩
    | none =>
      have h0 := hi.empty p hv
      exact absurd hv (hL.done p (by omega))
  have hpar : ∀ p, Parent st1 p label ↔ Parent st0 p label := by
    intro p
    constructor
    · rintro ⟨nd', a, b, g1, g2, g3⟩
      rw [hext0 _ _ h4] at g1; cases g1
      exact ⟨nd, a, b, h4, g2, g3⟩
    · rintro ⟨nd', a, b, g1, g2, g3⟩
      exact ⟨nd', a, b, hext0 _ _ g1, g2, g3⟩
  -- nodes above the current one stay as they are
  have hold : ∀ x v, label < x → st1.cache.get x = some v → st.cache.get x = some v ∧ v ≠ none := by
    intro x v hx hv
    have hkey : ∃ w, st.cache.get x = some w := by
      by_cases hl : label < 0
      · rw [hneg hl] at hv; exact ⟨v, hv⟩
      · have := (k2.key x).1 ⟨v, hv⟩
        have hc := hi.cnt
        exact (hi.key x).2 (by omega)
    obtain ⟨w, hw⟩ := hkey
    cases w with
    | none => exact absurd hw (hL.done x hx)
    | some m =>
      have := hext _ _ hw
      rw [hv] at this; cases this
      exact ⟨hw, by simp⟩
  have hparup : ∀ p l, label < l → (Parent st1 p l ↔ Parent st p l) := by
    intro p l hl
    constructor
    · rintro ⟨nd', a, b, g1, g2, g3⟩
      exact ⟨nd', a, b, (hold l _ hl g1).1, g2, g3⟩
    · rintro ⟨nd', a, b, g1, g2, g3⟩
      exact ⟨nd', a, b, hext _ _ g1, g2, g3⟩
  have hedge : ∀ p l, (p, l) ∈ G1.edges ↔ label - 1 < l ∧ Parent st1 p l := by
    intro p l
    rw [k5, hL.edges]
    constructor
    · rintro (⟨a, b⟩ | ⟨a, b⟩)
      · exact ⟨by omega, (hparup p l a).2 b⟩
      · simp only at a b
        subst a
        exact ⟨by omega, (hpar p).2 b⟩
    · rintro ⟨a, b⟩
      by_cases hl : l = label
      · subst hl; exact Or.inr ⟨rfl, (hpar p).1 b⟩
      · exact Or.inl ⟨by omega, (hparup p l (by omega)).1 b⟩
  refine ⟨nd, st0, G1, st1, h1, k1, ?_, hlater, hneg⟩
  refine ⟨k2, ?_, hedge, ?_, (k6 hL.nodupN hL.nodupE).1, (k6 hL.nodupN hL.nodupE).2⟩
  · intro x hx hn
    by_cases hxl : x = label
    · subst hxl; rw [hext0 _ _ h4] at hn; cases hn
    · exact (hold x none (by omega) hn).2 rfl
  · intro x
    rw [k4, hL.nodes]
    constructor
    · rintro ((⟨a, v, hv⟩ | ⟨l, hl⟩) | rfl | hp)
      · cases v with
        | none => exact absurd hv (hL.done x a)
        | some m => exact Or.inl ⟨by omega, _, hext _ _ hv⟩
      · exact Or.inr ⟨l, (k5 _).2 (Or.inl hl)⟩
      · exact Or.inl ⟨by omega, _, hext0 _ _ h4⟩
      · exact Or.inr ⟨label, (k5 _).2 (Or.inr ⟨rfl, hp⟩)⟩
    · rintro (⟨a, v, hv⟩ | ⟨l, hl⟩)
      · by_cases hxl : x = label
        · exact Or.inr (Or.inl hxl)
        · exact Or.inl (Or.inl ⟨by omega, v, (hold x v (by omega) hv).1⟩)
      · rcases (k5 _).1 hl with hl | ⟨_, hp⟩
        · exact Or.inl (Or.inr ⟨l, hl⟩)
        · exact Or.inr (Or.inr hp)

/-- The iterations below label 0. -/
theorem graphFrom_neg {F : TDFile} {g : Graph} {n : Nat} (hF : F.Shows g n) {st : Forest} :
    ∀ (k : Nat) (G : Dg) (label : Int), LoopInv F g n st label G → label < 0 → label = st.cnt + k →
      ∃ G', (∀ fuel, k + 1 ≤ fuel → graphFrom F fuel st G label = some (G', st)) ∧ LoopInv F g n st st.cnt G' := by
  intro k
  induction k with
  | zero =>
    intro G label hL hneg hl
    have hlab : label = st.cnt := by omega
    refine ⟨G, ?_, hlab ▸ hL⟩
    intro fuel hf
    match fuel, hf with
    | fuel + 1, _ =>
      have : st.cache.get label = none := by
        cases h : st.cache.get label with
        | none => rfl
        | some v => have := (hL.inv.key label).1 ⟨v, h⟩; omega
      rw [graphFrom, this]
  | succ k ih =>
    intro G label hL hneg hl
    have hpos := hF.pos
    obtain ⟨nd, st0, G1, st1, h1, h2, h3, -, h5⟩ := step_spec hF hL (by omega)
    have e := h5 hneg
    subst e
    obtain ⟨G', k1, k2⟩ := ih G1 (label - 1) h3 (by omega) (by omega)
    refine ⟨G', ?_, k2⟩
    intro fuel hf
    match fuel, hf with
    | fuel + 1, hf =>
      obtain ⟨v, hv⟩ := (hL.inv.key label).2 (by omega)
      rw [graphFrom, hv]
      simp only [h1, h2, Option.bind_eq_bind, Option.bind_some, k1 fuel (by omega)]

theorem graphFrom_spec {F : TDFile} {g : Graph} {n : Nat} (hF : F.Shows g n) : ∀ (k : Nat) (st : Forest) (G : Dg),
    LoopInv F g n st ((k : Int) - 1) G → k ≤ n →
    ∃ N G' st', (∀ fuel, N ≤ fuel → graphFrom F fuel st G ((k : Int) - 1) = some (G', st')) ∧
      Later F st st' ∧ LoopInv F g n st' st'.cnt G' := by
  intro k
  induction k with
  | zero =>
    intro st G hL _
    have hneg := hL.inv.cnt
    obtain ⟨G', h1, h2⟩ := graphFrom_neg hF (-1 - st.cnt).toNat G _ hL (by omega) (by omega)
    exact ⟨_, G', st, h1, .refl _, h2⟩
  | succ k ih =>
    intro st G hL hk
    have hneg := hL.inv.cnt
    have hlab : (((k + 1 : Nat) : Int) - 1) = (k : Int) := by omega
    rw [hlab] at hL ⊢
    obtain ⟨nd, st0, G1, st1, h1, h2, h3, h4, -⟩ := step_spec hF hL (by omega)
    obtain ⟨N, G', st', k1, k2, k3⟩ := ih st1 G1 h3 (by omega)
    refine ⟨N + 1, G', st', ?_, h4.trans k2, k3⟩
    intro fuel hf
    match fuel, hf with
    | fuel + 1, hf =>
      obtain ⟨v, hv⟩ := (hL.inv.key (k : Int)).2 (by omega)
      rw [graphFrom, hv]
      simp only [h1, h2, Option.bind_eq_bind, Option.bind_some, k1 fuel (by omega)]

theorem toGraph_spec {F : TDFile} {g : Graph} {n : Nat} (hF : F.Shows g n) {st : Forest} (hi : Inv F g n st) :
    ∃ N G st', (∀ fuel, N ≤ fuel → toGraph F fuel st = some (G, st')) ∧ Later F st st' ∧
      LoopInv F g n st' st'.cnt G := by
  have hL : LoopInv F g n st ((n : Int) - 1) .empty := by
    refine ⟨hi, ?_, ?_, ?_, List.nodup_nil, List.nodup_nil⟩
    · intro x hx hn
      have := (hi.key x).1 ⟨_, hn⟩
      omega
    · intro p l
      constructor
      · intro h; cases h
      · rintro ⟨a, nd, _, _, b, -⟩
        have := (hi.key l).1 ⟨_, b⟩
        omega
    · intro x
      constructor
      · intro h; cases h
      · rintro (⟨a, v, b⟩ | ⟨l, b⟩)
        · have := (hi.key x).1 ⟨v, b⟩
          omega
        · cases b
  obtain ⟨N, G, st', h1, h2, h3⟩ := graphFrom_spec hF n st .empty hL (Nat.le_refl _)
  refine ⟨N, G, st', ?_, h2, h3⟩
  intro fuel hf
  rw [toGraph, maxKey_eq hF hi]
  exact h1 fuel hf

/-- What the loop invariant says at the end. -/
theorem LoopInv.final {F : TDFile} {g : Graph} {n : Nat} (hF : F.Shows g n) {st : Forest} {G : Dg}
    (h : LoopInv F g n st st.cnt G) :
    (∀ x, st.cnt < x → x < n → ∃ nd, st.cache.get x = some (some nd)) ∧
    (∀ p l, (p, l) ∈ G.edges ↔ Parent st p l) ∧ (∀ x, x ∈ G.nodes ↔ st.cnt < x ∧ x < n) := by
  have hi := h.inv
  have hedge : ∀ p l, (p, l) ∈ G.edges ↔ Parent st p l := by
    intro p l
    rw [h.edges]
    constructor
    · exact And.right
    · rintro ⟨nd, a, b, h1, h2⟩
      exact ⟨((hi.key l).1 ⟨_, h1⟩).1, nd, a, b, h1, h2⟩
  refine ⟨?_, hedge, ?_⟩
  · intro x h1 h2
    obtain ⟨v, hv⟩ := (hi.key x).2 ⟨h1, h2⟩
    cases v with
    | none => exact absurd hv (h.done x h1)
    | some nd => exact ⟨nd, hv⟩
  · intro x
    rw [h.nodes]
    constructor
    · rintro (⟨_, hv⟩ | ⟨l, hl⟩)
      · exact (hi.key x).1 hv
      · obtain ⟨nd, a, b, h1, h2, h3⟩ := (hedge _ _).1 hl
        obtain ⟨ha, hb⟩ := hi.parents hF h1 h2
        rcases h3 with rfl | rfl <;> assumption
    · intro hx
      exact Or.inl ⟨hx.1, (hi.key x).2 hx⟩

end Py.Forest
end Verif
