import Verif.ForestGraphLoop
import Mathlib.Data.Int.Interval
/- C70: the exported graph of the taint forest. -/
namespace Verif
open Spec Py File Tracker Py.Forest
namespace C70

/-- Whether there is a path in a graph. -/
abbrev Path (G : Dg) : Int → Int → Prop := Relation.ReflTransGen fun p l => (p, l) ∈ G.edges

/-- `G` is what `to_graph` returns in state `st`, for every sufficient number of iterations; `st'` is the
state it leaves. -/
def Exports (F : TDFile) (st : Forest) (G : Dg) (st' : Forest) : Prop :=
  ∃ N, ∀ fuel, N ≤ fuel → st.toGraph F fuel = some (G, st')

theorem Exports.spec {F : TDFile} {g : Graph} {n : Nat} (hF : F.Shows g n) {st : Forest} (hr : Reachable F st)
    {G : Dg} {st' : Forest} (h : Exports F st G st') : Later F st st' ∧ LoopInv F g n st' st'.cnt G := by
  obtain ⟨N, h⟩ := h
  obtain ⟨N', G1, st1, h1, h2, h3⟩ := toGraph_spec hF (hr.inv hF)
  have := h1 (max N N') (by omega)
  rw [h (max N N') (by omega)] at this
  cases this
  exact ⟨h2, h3⟩

/-- Paths end with an edge. -/
theorem Path.last {G : Dg} {k l : Int} (h : Path G k l) : k = l ∨ ∃ p, Path G k p ∧ (p, l) ∈ G.edges := by
  cases h with
  | refl => exact Or.inl rfl
  | tail a b => exact Or.inr ⟨_, a, b⟩

theorem chain_path {F : TDFile} {g : Graph} {n : Nat} {st : Forest} (hi : Inv F g n st) {G : Dg}
    (hE : ∀ p l, (p, l) ∈ G.edges ↔ Parent st p l) {cf : Bool} {f m : Nat} {c : Int} (hc : Chain st cf f c m)
    (k : Nat) : Path G k c ↔ ∃ j, f ≤ j ∧ j ≤ m ∧ Path G k (j : Nat) := by
  induction hc with
  | base =>
    constructor
    · intro h; exact ⟨f, Nat.le_refl _, Nat.le_refl _, h⟩
    · rintro ⟨j, h1, h2, h3⟩
      obtain rfl : j = f := by omega
      exact h3
  | @step s c m h1 h2 h3 ih =>
    have hle := h3.le
    have hpar : ∀ p, (p, s) ∈ G.edges ↔ p = c ∨ p = ((m + 1 : Nat) : Int) := by
      intro p
      rw [hE]
      constructor
      · rintro ⟨nd, a, b, k1, k2, k3⟩
        rw [h2] at k1; cases k1; cases k2; exact k3
      · intro h; exact ⟨_, _, _, h2, rfl, h⟩
    constructor
    · intro h
      rcases h.last with rfl | ⟨p, g1, g2⟩
      · omega
      · rcases (hpar p).1 g2 with rfl | rfl
        · obtain ⟨j, j1, j2, j3⟩ := ih.1 g1
          exact ⟨j, j1, by omega, j3⟩
        · exact ⟨m + 1, by omega, Nat.le_refl _, g1⟩
    · rintro ⟨j, j1, j2, j3⟩
      by_cases hj : j = m + 1
      · subst hj
        exact j3.tail ((hpar _).2 (Or.inr rfl))
      · exact (ih.2 ⟨j, j1, by omega, j3⟩).tail ((hpar _).2 (Or.inl rfl))

/-- Paths into the node of a label. -/
theorem path_iff {F : TDFile} {g : Graph} {n : Nat} (hF : F.Shows g n) {st : Forest} {G : Dg}
    (h : LoopInv F g n st st.cnt G) {l : Nat} {t : Taint} (hg : g l = some t) (k : Nat) :
    Path G k l ↔ k = l ∨ ∃ m, Ref t m ∧ Path G k (m : Nat) := by
  have hi := h.inv
  have hcnt := hi.cnt
  obtain ⟨h1, hE, -⟩ := h.final hF
  have hl : 0 < l ∧ l < n := by
    by_cases hL : l = 0 ∨ n ≤ l
    · rw [hF.wf.none l hL] at hg; cases hg
    · omega
  obtain ⟨nd, hnd⟩ := h1 l (by omega) (by omega)
  obtain ⟨t', ht', hN⟩ := hi.real l nd hl.1 hnd
  rw [hg] at ht'; cases ht'
  obtain ⟨t'', e1, e2, e3⟩ := hF.wf.legal l hl.1 hl.2
  rw [hg] at e1; cases e1
  have hpar : ∀ p, (p, (l : Int)) ∈ G.edges ↔ ∃ a b, nd.parents = some (a, b) ∧ (p = a ∨ p = b) := by
    intro p
    rw [hE]
    constructor
    · rintro ⟨nd', a, b, k1, k2, k3⟩
      rw [hnd] at k1; cases k1; exact ⟨a, b, k2, k3⟩
    · rintro ⟨a, b, k2, k3⟩; exact ⟨_, _, _, hnd, k2, k3⟩
  have hlast : Path G k l ↔ k = l ∨ ∃ p, Path G k p ∧ (p, (l : Int)) ∈ G.edges := by
    constructor
    · intro hp
      rcases hp.last with e | e
      · exact Or.inl (by omega)
      · exact Or.inr e
    · rintro (rfl | ⟨p, a, b⟩)
      · exact .refl
      · exact a.tail b
  rw [hlast]
  refine or_congr_right ?_
  cases t with
  | source cf i o =>
    obtain ⟨_, -, rfl⟩ := hN
    constructor
    · rintro ⟨p, a, b⟩
      obtain ⟨_, _, e, -⟩ := (hpar p).1 b
      cases e
    · rintro ⟨m, a, -⟩; exact a.elim
  | union cf lo hi' =>
    obtain rfl := hN
    constructor
    · rintro ⟨p, a, b⟩
      obtain ⟨_, _, e, e'⟩ := (hpar p).1 b
      cases e
      rcases e' with rfl | rfl
      · exact ⟨hi', Or.inr rfl, a⟩
      · exact ⟨lo, Or.inl rfl, a⟩
    · rintro ⟨m, rfl | rfl, b⟩
      · exact ⟨_, b, (hpar _).2 ⟨_, _, rfl, Or.inr rfl⟩⟩
      · exact ⟨_, b, (hpar _).2 ⟨_, _, rfl, Or.inl rfl⟩⟩
  | range cf f t =>
    obtain ⟨c, rfl, hch⟩ := hN
    have hft := e2.1
    have hp := chain_path hi hE hch k
    constructor
    · rintro ⟨p, a, b⟩
      obtain ⟨_, _, e, e'⟩ := (hpar p).1 b
      cases e
      rcases e' with rfl | rfl
      · obtain ⟨j, j1, j2, j3⟩ := hp.1 a
        exact ⟨j, ⟨j1, by omega⟩, j3⟩
      · exact ⟨t, ⟨by omega, Nat.le_refl _⟩, a⟩
    · rintro ⟨m, ⟨m1, m2⟩, b⟩
      by_cases hm : m = t
      · subst hm
        exact ⟨_, b, (hpar _).2 ⟨_, _, rfl, Or.inr rfl⟩⟩
      · exact ⟨_, hp.2 ⟨m, m1, by omega, b⟩, (hpar _).2 ⟨_, _, rfl, Or.inl rfl⟩⟩

end C70
open C70

/-- Whatever was asked before, `to_graph` ends and returns a graph. Its nodes are those the forest then
has, each once; among them is every label. Its edges lead from the parents of each node to the node, each
once. -/
theorem C70_graph (F : TDFile) (g : Graph) (n : Nat) (hF : F.Shows g n) (st : Forest) (hr : Reachable F st) :
    ∃ G st', Exports F st G st' ∧ Later F st st' ∧ G.nodes.Nodup ∧ G.edges.Nodup ∧
      (∀ x, x ∈ G.nodes ↔ (st'.get F x).isSome = true) ∧ (∀ l : Nat, l < n → (l : Int) ∈ G.nodes) ∧
      ∀ p x, (p, x) ∈ G.edges ↔ ∃ nd a b, st'.get F x = some (nd, st') ∧ nd.parents = some (a, b) ∧
        (p = a ∨ p = b) := by
  obtain ⟨N, G, st', h1, h2, h3⟩ := toGraph_spec hF (hr.inv hF)
  have hi := h3.inv
  have hc := hi.cnt
  obtain ⟨k1, k2, k3⟩ := h3.final hF
  refine ⟨G, st', ⟨N, h1⟩, h2, h3.nodupN, h3.nodupE, ?_, ?_, ?_⟩
  · intro x
    rw [k3]
    constructor
    · intro hx
      obtain ⟨_, _, e, -⟩ := get_spec hF hi x hx
      rw [e]; rfl
    · intro hx
      by_contra hn
      rw [get_none hi x hn] at hx
      cases hx
  · intro l hl
    exact (k3 _).2 (by omega)
  · intro p x
    rw [k2]
    constructor
    · rintro ⟨nd, a, b, e1, e2, e3⟩
      exact ⟨nd, a, b, by rw [Forest.get, e1], e2, e3⟩
    · rintro ⟨nd, a, b, e1, e2, e3⟩
      exact ⟨nd, a, b, (get_some hF hi e1).2.2.2, e2, e3⟩

/-- There is a path from one label to another exactly if the second is built from the first. -/
theorem C70_paths (F : TDFile) (g : Graph) (n : Nat) (hF : F.Shows g n) (st : Forest) (hr : Reachable F st)
    (G : Dg) (st' : Forest) (h : Exports F st G st') (k l : Nat) (hl : l < n) :
    Path G k l ↔ BuiltFrom g l k := by
  obtain ⟨-, h3⟩ := h.spec hF hr
  constructor
  · induction l using Nat.strongRecOn with
    | _ l ih =>
      intro hp
      by_cases h0 : l = 0
      · subst h0
        rcases hp.last with e | ⟨p, -, e⟩
        · obtain rfl : k = 0 := by omega
          exact .refl _
        · obtain ⟨_, hE, -⟩ := h3.final hF
          obtain ⟨nd, a, b, e1, e2, -⟩ := (hE _ _).1 e
          rw [show ((0 : Nat) : Int) = 0 from rfl, h3.inv.zero] at e1
          cases e1; cases e2
      · obtain ⟨t, hg, -, href⟩ := hF.wf.legal l (by omega) hl
        rcases (path_iff hF h3 hg k).1 hp with rfl | ⟨m, m1, m2⟩
        · exact .refl _
        · have := href m m1
          exact .step hg m1 (ih m this.2 (by omega) m2)
  · intro hb
    induction hb with
    | refl => exact .refl
    | @step l t m k hg hm _ ih =>
      have : m < n := by
        obtain ⟨t', e1, -, e3⟩ := hF.wf.legal l (by
          by_contra h0
          rw [hF.wf.none l (Or.inl (by omega))] at hg; cases hg) hl
        rw [hg] at e1; cases e1
        have := e3 m hm
        omega
      exact (path_iff hF h3 hg k).2 (Or.inr ⟨m, hm, ih this⟩)

/-- The roots are label 0 and the labels of input bytes. -/
theorem C70_roots (F : TDFile) (g : Graph) (n : Nat) (hF : F.Shows g n) (st : Forest) (hr : Reachable F st)
    (G : Dg) (st' : Forest) (h : Exports F st G st') (x : Int) :
    x ∈ G.roots ↔ x = 0 ∨ ∃ (k : Nat) (cf : Bool) (i o : Nat), x = k ∧ g k = some (.source cf i o) := by
  obtain ⟨-, h3⟩ := h.spec hF hr
  have hi := h3.inv
  have hc := hi.cnt
  have hpos := hF.pos
  obtain ⟨h1, hE, hN⟩ := h3.final hF
  rw [Dg.mem_roots, hN]
  constructor
  · rintro ⟨hx, hno⟩
    obtain ⟨nd, hnd⟩ := h1 x hx.1 hx.2
    have hnone : nd.parents = none := by
      cases hp : nd.parents with
      | none => rfl
      | some ab => exact absurd ((hE _ _).2 ⟨nd, ab.1, ab.2, hnd, hp, Or.inl rfl⟩) (hno ab.1)
    by_cases hneg : x < 0
    · obtain ⟨_, _, _, _, _, _, -, rfl, -⟩ := hi.synth x nd hneg hnd
      cases hnone
    · by_cases h0 : x = 0
      · exact Or.inl h0
      · obtain ⟨k, rfl⟩ : ∃ k : Nat, x = (k : Int) := ⟨x.toNat, by omega⟩
        obtain ⟨t, hg, ht⟩ := hi.real k nd (by omega) hnd
        cases t with
        | source cf i o => exact Or.inr ⟨k, cf, i, o, rfl, hg⟩
        | union cf lo hi' => obtain rfl := ht; cases hnone
        | range cf f t => obtain ⟨c, rfl, -⟩ := ht; cases hnone
  · rintro (rfl | ⟨k, cf, i, o, rfl, hg⟩)
    · refine ⟨by omega, ?_⟩
      intro p hp
      obtain ⟨nd, a, b, e1, e2, -⟩ := (hE _ _).1 hp
      rw [hi.zero] at e1; cases e1; cases e2
    · have hk : 0 < k ∧ k < n := by
        by_cases hL : k = 0 ∨ n ≤ k
        · rw [hF.wf.none k hL] at hg; cases hg
        · omega
      refine ⟨by omega, ?_⟩
      intro p hp
      obtain ⟨nd, a, b, e1, e2, -⟩ := (hE _ _).1 hp
      obtain ⟨t, hg', ht⟩ := hi.real k nd hk.1 e1
      rw [hg] at hg'; cases hg'
      obtain ⟨_, -, rfl⟩ := ht
      cases e2

/-- A label denotes exactly the input bytes of the roots from which there is a path to it. -/
theorem C70_bytes (F : TDFile) (g : Graph) (n : Nat) (hF : F.Shows g n) (st : Forest) (hr : Reachable F st)
    (G : Dg) (st' : Forest) (h : Exports F st G st') (l : Nat) (hl : l < n) (i o : Nat) :
    Denotes g l (i, o) ↔ ∃ (k : Nat) (cf : Bool), (k : Int) ∈ G.roots ∧ g k = some (.source cf i o) ∧ Path G k l := by
  have key : ∀ k cf, g k = some (.source cf i o) → BuiltFrom g l k → Denotes g l (i, o) := by
    intro k cf hk hb
    induction hb with
    | refl => exact .source hk
    | @step l t m k hg hm _ ih =>
      have hmn : m < n := by
        obtain ⟨t', e1, -, e3⟩ := hF.wf.legal l (by
          by_contra h0
          rw [hF.wf.none l (Or.inl (by omega))] at hg; cases hg) hl
        rw [hg] at e1; cases e1
        have := e3 m hm
        omega
      have := ih hmn hk
      cases t with
      | source => exact hm.elim
      | union cf lo hi' =>
        rcases hm with rfl | rfl
        · exact .lower hg this
        · exact .higher hg this
      | range cf f t => exact .range hg hm.1 hm.2 this
  constructor
  · intro hd
    have : ∀ x, Denotes g l x → ∃ k cf, g k = some (.source cf x.1 x.2) ∧ BuiltFrom g l k := by
      intro x hdx
      clear key hl hd
      induction hdx with
      | source hg => exact ⟨_, _, hg, .refl _⟩
      | range hg h1 h2 _ ih =>
        obtain ⟨k, cf, e1, e2⟩ := ih
        exact ⟨k, cf, e1, .step hg ⟨h1, h2⟩ e2⟩
      | lower hg _ ih =>
        obtain ⟨k, cf, e1, e2⟩ := ih
        exact ⟨k, cf, e1, .step hg (Or.inl rfl) e2⟩
      | higher hg _ ih =>
        obtain ⟨k, cf, e1, e2⟩ := ih
        exact ⟨k, cf, e1, .step hg (Or.inr rfl) e2⟩
    obtain ⟨k, cf, e1, e2⟩ := this _ hd
    exact ⟨k, cf, (C70_roots F g n hF st hr G st' h k).2 (Or.inr ⟨k, cf, i, o, rfl, e1⟩), e1,
      (C70_paths F g n hF st hr G st' h k l hl).2 e2⟩
  · rintro ⟨k, cf, -, e1, e2⟩
    exact key k cf e1 ((C70_paths F g n hF st hr G st' h k l hl).1 e2)

/-- The graph has no cycles. -/
theorem C70_acyclic (F : TDFile) (g : Graph) (n : Nat) (hF : F.Shows g n) (st : Forest) (hr : Reachable F st)
    (G : Dg) (st' : Forest) (h : Exports F st G st') (x : Int) :
    ¬ Relation.TransGen (fun p l => (p, l) ∈ G.edges) x x := by
  obtain ⟨h2, h3⟩ := h.spec hF hr
  obtain ⟨-, hE, -⟩ := h3.final hF
  have hac := C27_acyclic F g n hF st' (h2.reach hr) x
  intro hx
  exact hac (Relation.TransGen.mono (fun a b hab => (hE a b).1 hab) _ _ hx)

/-- The number of nodes: one for each label, and one for each element but the first and the last one of
each range. In particular nothing is unfolded twice, whatever was asked before. -/
theorem C70_size (F : TDFile) (g : Graph) (n : Nat) (hF : F.Shows g n) (st : Forest) (hr : Reachable F st)
    (G : Dg) (st' : Forest) (h : Exports F st G st') :
    G.nodes.length = n + ∑ l ∈ Finset.range n, (match g l with
      | some (.range _ f t) => t - f - 1
      | _ => 0) := by
  obtain ⟨h2, h3⟩ := h.spec hF hr
  have hi := h3.inv
  have hc := hi.cnt
  obtain ⟨h1, hE, hN⟩ := h3.final hF
  have hcount := (h2.reach hr).counted hF
  unfold Counted at hcount
  have hsum : ∑ l ∈ Finset.range n, shown g st' l = ∑ l ∈ Finset.range n, extra g l := by
    apply Finset.sum_congr rfl
    intro l hl
    rw [Finset.mem_range] at hl
    obtain ⟨nd, hnd⟩ := h1 l (by omega) (by omega)
    rw [shown, hnd]
  rw [hsum] at hcount
  have hlen : G.nodes.length = ((n : Int) - 1 - st'.cnt).toNat := by
    have hperm : G.nodes.toFinset = (Finset.Ioo st'.cnt (n : Int)) := by
      ext x
      rw [List.mem_toFinset, hN, Finset.mem_Ioo]
    have := List.toFinset_card_of_nodup h3.nodupN
    rw [← this, hperm, Int.card_Ioo]
    omega
  rw [hlen]
  show _ = n + ∑ l ∈ Finset.range n, extra g l
  omega

/-- The drawing of the graph: it has the nodes of the graph that pass the filter, each once and in
increasing order, the roots apart from the others, chained by invisible edges, and the edges between
nodes that pass, each once. -/
theorem C70_dot (F : TDFile) (g : Graph) (n : Nat) (hF : F.Shows g n) (st : Forest) (hr : Reachable F st)
    (G : Dg) (st' : Forest) (h : Exports F st G st') (keep : Int → Bool) :
    (G.toDot keep).roots.Pairwise (· < ·) ∧ (G.toDot keep).inner.Pairwise (· < ·) ∧
    (∀ x, x ∈ (G.toDot keep).roots ↔ x ∈ G.nodes ∧ keep x = true ∧ ∀ p, (p, x) ∉ G.edges) ∧
    (∀ x, x ∈ (G.toDot keep).inner ↔ x ∈ G.nodes ∧ keep x = true ∧ ∃ p, (p, x) ∈ G.edges) ∧
    (∀ i : Nat, ∀ a b : Int, (G.toDot keep).invisible[i]? = some (a, b) ↔
      (G.toDot keep).roots[i]? = some a ∧ (G.toDot keep).roots[i + 1]? = some b) ∧
    (G.toDot keep).edges.Nodup ∧
    ∀ a b, (a, b) ∈ (G.toDot keep).edges ↔ (a, b) ∈ G.edges ∧ keep a = true ∧ keep b = true := by
  obtain ⟨-, h3⟩ := h.spec hF hr
  have hsort := Dg.sorted_pairwise (G.nodes.filter keep) (h3.nodupN.filter _)
  have hroot : ∀ x, x ∈ G.nodes → (x ∉ G.roots ↔ ∃ p, (p, x) ∈ G.edges) := by
    intro x hx
    rw [Dg.mem_roots]
    constructor
    · intro hn
      by_contra hno
      exact hn ⟨hx, fun p hp => hno ⟨p, hp⟩⟩
    · rintro ⟨p, hp⟩ ⟨-, hno⟩
      exact hno p hp
  refine ⟨hsort.filter _, hsort.filter _, ?_, ?_, ?_, ?_, ?_⟩
  · intro x
    simp only [Dg.toDot, List.mem_filter, Dg.mem_sorted, decide_eq_true_eq, Dg.mem_roots]
    tauto
  · intro x
    simp only [Dg.toDot, List.mem_filter, Dg.mem_sorted, decide_eq_true_eq]
    constructor
    · rintro ⟨⟨a, b⟩, c⟩; exact ⟨a, b, (hroot x a).1 c⟩
    · rintro ⟨a, b, c⟩; exact ⟨⟨a, b⟩, (hroot x a).2 c⟩
  · intro i a b
    show (List.zip (G.toDot keep).roots (G.toDot keep).roots.tail)[i]? = _ ↔ _
    rw [List.getElem?_zip_eq_some, List.getElem?_tail]
  · exact (Dg.edgeView_nodup G h3.nodupN h3.nodupE).filter _
  · intro a b
    have hN : ∀ p x, (p, x) ∈ G.edges → p ∈ G.nodes := fun p x hp => (h3.nodes p).2 (Or.inr ⟨x, hp⟩)
    simp only [Dg.toDot, List.mem_filter, Dg.mem_edgeView G hN, Bool.and_eq_true]

/-- All this applies to the file left by every run that ends in an orderly way: the exported graph has
a path from one label to another exactly if the run built the second from the first. -/
theorem C70_run (c : Config) (base : Nat) (hc : c.Ok base) (h : Trace) (T : Tracker)
    (hr : Tracker.Reach c base h T) (hroom : T.labels.words.length + 64 ≤ c.indexCap)
    (hu : ∀ n ∈ names h, utf8 n = true) (pads : Pads) :
    ∃ F st G st', parse (closed pads c base T) = some F ∧ Forest.new F = some st ∧ Exports F st G st' ∧
      (∀ l < T.labels.words.length, (l : Int) ∈ G.nodes ∧ (∀ k : Nat, Path G k l ↔ BuiltFrom T.labels.graph l k) ∧
        ∀ i o, Denotes T.labels.graph l (i, o) ↔ ∃ (k : Nat) (cf : Bool), (k : Int) ∈ G.roots ∧
          T.labels.graph k = some (.source cf i o) ∧ Path G k l) := by
  obtain ⟨F, hF, hs, -⟩ := shows_reach c base hc h T hr hroom hu pads
  obtain ⟨st, h1, -⟩ := new_inv hs
  obtain ⟨G, st', h2, -, -, -, -, h3, -⟩ := C70_graph F _ _ hs st (.new h1)
  refine ⟨F, st, G, st', hF, h1, h2, ?_⟩
  intro l hl
  exact ⟨h3 l hl, fun k => C70_paths F _ _ hs st (.new h1) G st' h2 k l hl,
    fun i o => C70_bytes F _ _ hs st (.new h1) G st' h2 l hl i o⟩

/-- The hypotheses hold of a run with a range over four labels and a union of labels that are not
adjacent. -/
example : ∃ h T F G st st', Tracker.Reach exCfg 4096 h T ∧ parse (closed zeroPads exCfg 4096 T) = some F ∧
    F.Shows T.labels.graph T.labels.words.length ∧ Reachable F st ∧ Exports F st G st' := by
  have hrun : (run exCfg 4096 forestCalls).isSome = true := by decide +kernel
  obtain ⟨⟨T, h⟩, hx⟩ := Option.isSome_iff_exists.1 hrun
  have key : (match run exCfg 4096 forestCalls with
      | none => false
      | some (T, h) => decide (T.labels.words.length + 64 ≤ exCfg.indexCap ∧
          ∀ n ∈ names h, utf8 n = true)) = true := by decide +kernel
  rw [hx] at key
  simp only [decide_eq_true_eq] at key
  obtain ⟨F, h1, h2, -⟩ := shows_reach exCfg 4096 exCfg_ok h T (run_reach hx) key.1 key.2 zeroPads
  obtain ⟨st, h3, -⟩ := new_inv h2
  obtain ⟨G, st', h4, -⟩ := C70_graph F _ _ h2 st (.new h3)
  exact ⟨h, T, F, G, st, st', run_reach hx, h1, h2, .new h3, h4⟩

/-- Label 9 is the range 1..4, label 8 the range 1..3 and label 10 the union of 9 with 6; three synthetic
nodes appear. -/
example : (forestFile.bind fun F => (Forest.new F).bind fun st => (st.toGraph F 40).map fun p =>
    (p.1.nodes, p.1.edges.filter fun e => e.2 = 10 || e.2 = 9 || e.2 < 0)) =
    some ([10, 9, 6, -2, 4, 8, -3, 3, 7, 1, 2, 5, 0, -1],
      [(9, 10), (6, 10), (-2, 9), (4, 9), (1, -1), (2, -1), (-1, -2), (3, -2), (1, -3), (2, -3)]) := by
  decide +kernel

example : (forestFile.bind fun F => (Forest.new F).bind fun st => (st.toGraph F 40).map fun p =>
    ((p.1.toDot fun _ => true).roots, (p.1.toDot fun _ => true).inner)) =
    some ([0, 1, 2, 3, 4, 5, 6], [-3, -2, -1, 7, 8, 9, 10]) := by
  decide +kernel

end Verif
