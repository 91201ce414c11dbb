import Verif.PyIntervalsSound
/- Lemmas for C69: bytes read in order. -/
namespace Verif.PyIntervals
open Verif.Spec Verif.PyTree PyGrammar

/-- Every offset of `a` is before every offset of `b`. -/
def Before (a b : Ivs) : Prop := ∀ i j, In a i → In b j → i < j

theorem before_bounds {a b : Ivs} (h : Before a b) (ha : ∃ i, In a i) (hb : ∃ i, In b i) : end_ a ≤ begin_ b := by
  obtain ⟨i, hi⟩ := ha
  obtain ⟨j, hj⟩ := hb
  have h1 := end_spec hi
  have h2 := begin_spec hj
  have := h _ _ h1.2.2 h2.1
  omega

theorem deconflictFrom_self : ∀ (ts : List NTree) (v : Val) (a : Ivs) (as : List NTree),
    (∃ i, In a i) → (∀ t ∈ ts, ∃ i, In (ivs t) i) → (∀ t ∈ ts, Before a (ivs t)) →
    ts.Pairwise (fun s t => Before (ivs s) (ivs t)) → deconflictFrom v a as ts = .node (v, a) as :: ts
  | [], v, a, as, _, _, _, _ => rfl
  | .node (w, b) bs :: ts, v, a, as, ha, hne, hb, hp => by
    have hs : deconflictSibling a b = (a, b) := by
      have h := before_bounds (hb (.node (w, b) bs) (by simp)) ha (hne (.node (w, b) bs) (by simp))
      simp only [ivs, Tree.val] at h
      simp only [deconflictSibling, h, if_true]
    rw [List.pairwise_cons] at hp
    simp only [deconflictFrom, hs]
    rw [deconflictFrom_self ts w b bs (hne (.node (w, b) bs) (by simp)) (fun t ht => hne t (by simp [ht])) hp.1 hp.2]

theorem deconflicts_self (ts : List NTree) (hne : ∀ t ∈ ts, ∃ i, In (ivs t) i)
    (hp : ts.Pairwise (fun s t => Before (ivs s) (ivs t))) : deconflicts ts = ts := by
  match ts, hne, hp with
  | [], _, _ => rfl
  | .node (v, a) as :: ts, hne, hp =>
    rw [List.pairwise_cons] at hp
    exact deconflictFrom_self ts v a as (hne (.node (v, a) as) (by simp)) (fun t ht => hne t (by simp [ht])) hp.1 hp.2

theorem cover_before : ∀ (ts : List NTree) (c : Ivs), (∀ t ∈ ts, ∃ i, In (ivs t) i) →
    ts.Pairwise (fun s t => Before (ivs s) (ivs t)) → (∀ t ∈ ts, ∀ i, In c i → i < begin_ (ivs t)) →
    ∃ c', coverLoop true ts c = some c'
  | [], c, _, _, _ => ⟨c, rfl⟩
  | t :: ts, c, hne, hp, hc => by
    rw [List.pairwise_cons] at hp
    have ho : ¬ overlaps c (begin_ (ivs t)) (end_ (ivs t)) = true := by
      rw [overlaps_iff]
      rintro ⟨i, h1, h2, h3⟩
      have := hc t (by simp) i h3
      omega
    have hlt := nonempty_iff.2 (hne t (by simp))
    simp only [coverLoop, Bool.true_and, ho, hlt, if_true, if_false, Bool.false_eq_true]
    refine cover_before ts _ (fun u hu => hne u (by simp [hu])) hp.2 ?_
    intro u hu i hi
    rcases in_join.1 hi with hi | hi
    · exact hc u (by simp [hu]) i hi
    · have := in_span.1 hi
      have := before_bounds (hp.1 u hu) (hne t (by simp)) (hne u (by simp [hu]))
      omega

/-- A block that used bytes. -/
def isLive (m : NTree) : Bool := m.val.1.isBB && decide (begin_ (ivs m) < end_ (ivs m))

/-- What the bottom up pass makes of nodes that are in order. -/
structure NeatNode (n : NTree) : Prop where
  uids : Uids (ivs n)
  leaf : n.val.1.isBB = true → n.children = []
  nonempty : ∀ c ∈ n.children, ∃ i, In (ivs c) i
  ordered : n.children.Pairwise (fun s t => Before (ivs s) (ivs t))
  within : ∀ c ∈ n.children, ∀ i, In (ivs c) i → In (ivs n) i

/-- A tree in order. -/
def Neat (t : NTree) : Prop := ∀ n ∈ t.pre, NeatNode n

theorem Neat.child {v : Val × Ivs} {cs : List NTree} (h : Neat (.node v cs)) {c : NTree} (hc : c ∈ cs) : Neat c :=
  fun n hn => h n (mem_pre_iff.2 (.inr ⟨c, hc, hn⟩))

theorem pass_inorder (dbg : Bool) (v : Val) (iv : Ivs) (cs : List NTree) (hu : Uids iv)
    (hl : v.isBB = true → cs = []) (hn : ∀ c ∈ cs, Neat c)
    (hp : cs.Pairwise (fun s t => Before (ivs s) (ivs t))) :
    ∃ t, bottomUpPass dbg v iv cs = some t ∧ Neat t ∧ t.val.1 = v ∧
      (∀ i, In (ivs t) i ↔ In iv i ∨ ∃ c ∈ cs, In (ivs c) i) ∧
      t.children = cs.filter (fun c => begin_ (ivs c) < end_ (ivs c)) ∧ (cs = [] → t = .node (v, iv) []) := by
  have hf : ∀ c ∈ cs.filter (fun c => begin_ (ivs c) < end_ (ivs c)), ∃ i, In (ivs c) i := by
    intro c hc
    exact nonempty_iff.1 (by simpa using (List.mem_filter.1 hc).2)
  have hpf := hp.filter (fun c => begin_ (ivs c) < end_ (ivs c))
  have hd := deconflicts_self _ hf hpf
  obtain ⟨c', hc'⟩ := cover_before _ [] hf hpf (fun t _ i hi => absurd hi (not_in_nil i))
  have hin : ∀ i, In ((cs.filter (fun c => begin_ (ivs c) < end_ (ivs c))).foldl (fun iv c => join iv (ivs c)) iv) i ↔
      In iv i ∨ ∃ c ∈ cs, In (ivs c) i := by
    intro i
    rw [foldl_join]
    constructor
    · rintro (h | ⟨c, hc, h⟩)
      · exact .inl h
      · exact .inr ⟨c, (List.mem_filter.1 hc).1, h⟩
    · rintro (h | ⟨c, hc, h⟩)
      · exact .inl h
      · exact .inr ⟨c, List.mem_filter.2 ⟨hc, by simpa using nonempty_iff.2 ⟨i, h⟩⟩, h⟩
  refine ⟨.node (v, (cs.filter (fun c => begin_ (ivs c) < end_ (ivs c))).foldl (fun iv c => join iv (ivs c)) iv)
    (cs.filter (fun c => begin_ (ivs c) < end_ (ivs c))), ?_, ?_, rfl, hin, rfl, ?_⟩
  · unfold bottomUpPass
    simp only [hd]
    rw [if_neg]
    simp [verifyBounds, Tree.children, hc']
  · intro n hmem
    rcases mem_pre_iff.1 hmem with rfl | ⟨c, hc, h2⟩
    · refine ⟨uids_foldl hu (fun c hc => ?_), fun hb => by simp [hl hb, Tree.children], hf, hpf, ?_⟩
      · exact (hn c (List.mem_filter.1 hc).1 c (self_pre c)).uids
      · intro c hc i hi
        exact (hin i).2 (.inr ⟨c, (List.mem_filter.1 hc).1, hi⟩)
    · exact hn c (List.mem_filter.1 hc).1 n h2
  · rintro rfl
    rfl

mutual
/-- The intervals of the leaves, from left to right. -/
def leafIvs : NTree → List Ivs
  | .node (_, iv) [] => [iv]
  | .node (_, _) (c :: cs) => leafIvsL (c :: cs)
def leafIvsL : List NTree → List Ivs
  | [] => []
  | t :: ts => leafIvs t ++ leafIvsL ts
end

/-- A node of a trace: nodes with children have no intervals, and no node is the start. -/
structure RawNode (n : NTree) : Prop where
  uids : Uids (ivs n)
  inner : n.children ≠ [] → ∀ i, ¬ In (ivs n) i
  noStart : n.val.1 ≠ .start
  leaf : n.val.1.isBB = true → n.children = []

mutual
theorem in_of_pre : ∀ {t : NTree}, Neat t → ∀ {m : NTree}, m ∈ t.pre → ∀ {i : Nat}, In (ivs m) i → In (ivs t) i
  | .node v cs, hn, m, hm, i, hi => by
    simp only [Tree.pre, List.mem_cons] at hm
    rcases hm with rfl | hm
    · exact hi
    · exact in_of_preL cs (fun c hc => hn.child hc) (.node v cs) (hn _ (self_pre _)).within m hm i hi
theorem in_of_preL : ∀ (ts : List NTree), (∀ c ∈ ts, Neat c) → ∀ (p : NTree),
    (∀ c ∈ ts, ∀ i, In (ivs c) i → In (ivs p) i) → ∀ m ∈ Tree.preL ts, ∀ i, In (ivs m) i → In (ivs p) i
  | [], _, _, _, m, hm, i, hi => by simp [Tree.preL] at hm
  | t :: ts, hn, p, hp, m, hm, i, hi => by
    simp only [Tree.preL, List.mem_append] at hm
    rcases hm with hm | hm
    · exact hp t (by simp) i (in_of_pre (hn t (by simp)) hm hi)
    · exact in_of_preL ts (fun c hc => hn c (by simp [hc])) p (fun c hc => hp c (by simp [hc])) m hm i hi
end

/-- Dropping the nodes without bytes drops no block that used bytes. -/
theorem live_filter : ∀ (cs : List NTree), (∀ c ∈ cs, Neat c) →
    (Tree.preL (cs.filter fun c => begin_ (ivs c) < end_ (ivs c))).filter isLive = (Tree.preL cs).filter isLive
  | [], _ => rfl
  | c :: cs, hn => by
    have ih := live_filter cs (fun u hu => hn u (by simp [hu]))
    rw [List.filter_cons]
    split
    · simp only [Tree.preL, List.filter_append, ih]
    · rename_i hc
      rw [ih]
      simp only [Tree.preL, List.filter_append]
      have : c.pre.filter isLive = [] := by
        rw [List.filter_eq_nil_iff]
        intro m hm hl
        unfold isLive at hl
        simp only [Bool.and_eq_true, decide_eq_true_eq] at hl
        obtain ⟨i, hi⟩ := nonempty_iff.1 hl.2
        exact hc (by simpa using nonempty_iff.2 ⟨i, in_of_pre (hn c (by simp)) hm hi⟩)
      simp [this]

mutual
theorem bottomUp_inorder (dbg : Bool) (n : Nat) : ∀ t : NTree, (∀ m ∈ t.pre, RawNode m) →
    (leafIvs t).Pairwise Before →
    ∃ t', bottomUp dbg n t = some t' ∧ Neat t' ∧ t'.val.1 = t.val.1 ∧
      (∀ i, In (ivs t') i ↔ ∃ l ∈ leafIvs t, In l i) ∧
      t'.pre.filter isLive = t.pre.filter isLive
  | .node (v, iv) [], hr, hp => by
    have h0 := hr _ (self_pre _)
    obtain ⟨t', h1, h2, h3, h4, h5, h6⟩ := pass_inorder dbg v iv [] h0.uids (fun _ => rfl) (by simp) .nil
    have h6 := h6 rfl
    subst h6
    refine ⟨_, ?_, h2, rfl, ?_, ?_⟩
    · have hs : v ≠ .start := h0.noStart
      simp only [bottomUp, bottomUps, hs, if_false, h1]
    · intro i
      simp [leafIvs, ivs, Tree.val]
    · rfl
  | .node (v, iv) (c :: cs), hr, hp => by
    have h0 := hr _ (self_pre _)
    obtain ⟨cs', g1, g2, g3, g4, g5⟩ := bottomUps_inorder dbg n (c :: cs)
      (fun u hu m hm => hr m (mem_pre_iff.2 (.inr ⟨u, hu, hm⟩))) (by simpa [leafIvs] using hp)
    obtain ⟨t', h1, h2, h3, h4, h5, h6⟩ := pass_inorder dbg v iv cs' h0.uids
      (fun hb => by have := h0.leaf hb; simp [Tree.children] at this) g2 g3
    refine ⟨t', ?_, h2, h3, ?_, ?_⟩
    · have hs : v ≠ .start := h0.noStart
      simp only [bottomUp, g1, hs, if_false, h1]
    · intro i
      rw [h4 i, g4 i]
      have := h0.inner (by simp [Tree.children]) i
      simp only [ivs, Tree.val] at this
      simp [this, leafIvs]
    · have hb : v.isBB = false := by
        cases hb : v.isBB with
        | false => rfl
        | true => have := h0.leaf hb; simp [Tree.children] at this
      cases t' with
      | node tv ts =>
        simp only [Tree.children, Tree.val] at h5 h3
        subst h5
        simp only [Tree.pre]
        rw [List.filter_cons_of_neg, List.filter_cons_of_neg, live_filter cs' g2, g5]
        · simp [isLive, Tree.val, hb]
        · simp [isLive, Tree.val, h3, hb]
theorem bottomUps_inorder (dbg : Bool) (n : Nat) : ∀ ts : List NTree, (∀ t ∈ ts, ∀ m ∈ t.pre, RawNode m) →
    (leafIvsL ts).Pairwise Before →
    ∃ ts', bottomUps dbg n ts = some ts' ∧ (∀ t ∈ ts', Neat t) ∧ ts'.Pairwise (fun s t => Before (ivs s) (ivs t)) ∧
      (∀ i, (∃ t ∈ ts', In (ivs t) i) ↔ ∃ l ∈ leafIvsL ts, In l i) ∧
      (Tree.preL ts').filter isLive = (Tree.preL ts).filter isLive
  | [], _, _ => ⟨[], rfl, by simp, .nil, by simp [leafIvsL], by simp [Tree.preL]⟩
  | t :: ts, hr, hp => by
    simp only [leafIvsL, List.pairwise_append] at hp
    obtain ⟨t', h1, h2, -, h4, h5⟩ := bottomUp_inorder dbg n t (hr t (by simp)) hp.1
    obtain ⟨ts', g1, g2, g3, g4, g5⟩ := bottomUps_inorder dbg n ts (fun u hu => hr u (by simp [hu])) hp.2.1
    refine ⟨t' :: ts', by simp [bottomUps, h1, g1], ?_, ?_, ?_, ?_⟩
    · intro u hu
      rcases List.mem_cons.1 hu with rfl | hu
      · exact h2
      · exact g2 u hu
    · rw [List.pairwise_cons]
      refine ⟨?_, g3⟩
      intro u hu i j hi hj
      obtain ⟨l, hl, hli⟩ := (h4 i).1 hi
      obtain ⟨k, hk, hkj⟩ := (g4 j).1 ⟨u, hu, hj⟩
      exact hp.2.2 l hl k hk i j hli hkj
    · intro i
      simp only [List.mem_cons, leafIvsL, List.mem_append, or_and_right, exists_or, g4 i, ← h4 i]
      simp
    · simp only [Tree.preL, List.filter_append, h5, g5]
end

/-- The nodes lie next to each other from `x` to `y`. -/
def Tiles : Nat → Nat → List NTree → Prop
  | x, y, [] => x = y
  | x, y, t :: ts => begin_ (ivs t) = x ∧ x < end_ (ivs t) ∧ Tiles (end_ (ivs t)) y ts

theorem tiles_le : ∀ {ts : List NTree} {x y : Nat}, Tiles x y ts → x ≤ y
  | [], x, y, h => by simp only [Tiles] at h; omega
  | t :: ts, x, y, h => by
    have := tiles_le h.2.2
    have := h.2.1
    omega

theorem cover_tiles {b : Nat} : ∀ (ts : List NTree) (x y : Nat) (c : Ivs), Tiles x y ts → b ≤ x →
    (∀ i, In c i ↔ b ≤ i ∧ i < x) → ∃ c', coverLoop true ts c = some c' ∧ ∀ i, In c' i ↔ b ≤ i ∧ i < y
  | [], x, y, c, h, _, hc => by
    simp only [Tiles] at h
    subst h
    exact ⟨c, rfl, hc⟩
  | t :: ts, x, y, c, h, hb, hc => by
    obtain ⟨h1, h2, h3⟩ := h
    have ho : ¬ overlaps c (begin_ (ivs t)) (end_ (ivs t)) = true := by
      rw [overlaps_iff]
      rintro ⟨i, h4, h5, h6⟩
      have := (hc i).1 h6
      omega
    have hlt : begin_ (ivs t) < end_ (ivs t) := by omega
    simp only [coverLoop, Bool.true_and, ho, hlt, if_true, if_false, Bool.false_eq_true]
    refine cover_tiles ts _ y _ h3 (by omega) ?_
    intro i
    rw [in_join, in_span, hc i]
    omega

theorem verifyBounds_tiles {v : Val} {b e : Nat} {ts : List NTree} (hbe : b < e) (h : Tiles b e ts) :
    verifyBounds true true true (.node (v, span b e (-1)) ts) = true := by
  obtain ⟨c, h1, h2⟩ := cover_tiles ts b e [] h (Nat.le_refl b) (fun i => by simp [not_in_nil])
  have hb := bounds_eq (fun i hi => (h2 i).1 hi) ((h2 b).2 ⟨Nat.le_refl _, hbe⟩) ((h2 (e - 1)).2 (by omega)) hbe
  have hs := span_bounds (d := -1) hbe
  simp only [verifyBounds, Tree.children, h1, ivs, Tree.val, hb.1, hb.2, hs.1, hs.2]
  have hg : gapless c = true := gapless_iff.2 fun i h3 h4 => (h2 i).2 (by omega)
  simp [hg]

theorem verifyBounds_leaf {v : Val × Ivs} : verifyBounds true true true (.node v []) = true := by
  simp [verifyBounds, Tree.children, coverLoop]

/-- All nodes of a finished tree pass `verify_bounds`, and the tree reads its part of the input. -/
structure Done (input : List Nat) (r : NTree) : Prop where
  bounds : ∀ n ∈ r.pre, verifyBounds true true true n = true
  reads : yield (plain r) = slice input (begin_ (ivs r)) (end_ (ivs r))

theorem done_terminal {input : List Nat} {x y : Nat} (h : x < y) : Done input (terminal input x y) := by
  have := span_bounds (d := -1) h
  refine ⟨?_, by simp only [terminal, plain, plainL, yield, ivs, Tree.val, this.1, this.2]⟩
  intro n hn
  simp only [terminal, Tree.pre, Tree.preL, List.mem_cons, List.not_mem_nil, or_false] at hn
  subst hn
  exact verifyBounds_leaf

theorem slice_append {input : List Nat} {x y z : Nat} (h1 : x ≤ y) (h2 : y ≤ z) :
    slice input x y ++ slice input y z = slice input x z := by
  unfold slice
  apply List.ext_getElem?
  intro i
  rw [List.getElem?_append]
  simp only [List.length_drop, List.length_take, List.getElem?_drop, List.getElem?_take]
  by_cases hx : x + i < y
  · by_cases hl : x + i < input.length
    · rw [if_pos (by omega), if_pos hx, if_pos (by omega)]
    · rw [if_neg (by omega), List.getElem?_eq_none (by omega), List.getElem?_eq_none (by omega)]
      simp
  · rw [if_neg (by omega)]
    by_cases hl : y ≤ input.length
    · rw [show y + (i - (min y input.length - x)) = x + i by omega]
    · rw [List.getElem?_eq_none (by omega), List.getElem?_eq_none (by omega)]
      simp

theorem slice_self (input : List Nat) (x : Nat) : slice input x x = [] := by
  simp [slice]

theorem yield_tiles (input : List Nat) : ∀ (ts : List NTree) (x y : Nat), Tiles x y ts → (∀ t ∈ ts, Done input t) →
    yieldL (plainL ts) = slice input x y
  | [], x, y, h, _ => by
    simp only [Tiles] at h
    subst h
    simp [plainL, yieldL, slice_self]
  | t :: ts, x, y, h, hd => by
    obtain ⟨h1, h2, h3⟩ := h
    simp only [plainL, yieldL]
    rw [(hd t (by simp)).reads, yield_tiles input ts _ y h3 (fun u hu => hd u (by simp [hu])), h1]
    exact slice_append (by omega) (tiles_le h3)

theorem tiles_cons_terminal {input : List Nat} {x y z : Nat} {ts : List NTree} (h : Tiles y z ts) (hle : x ≤ y) :
    Tiles x z ((if x < y then [terminal input x y] else []) ++ ts) := by
  by_cases hlt : x < y
  · have hs := span_bounds (d := -1) hlt
    simp only [hlt, if_true, List.singleton_append, Tiles, terminal, ivs, Tree.val, hs.1, hs.2, true_and]
    exact h
  · have : x = y := by omega
    subst this
    simpa using h

/-- A block that read the bytes of its intervals. -/
def fin (input : List Nat) (m : NTree) : Tree Val :=
  .node m.val.1 [.node (.term (slice input (begin_ (ivs m)) (end_ (ivs m)))) []]

/-- The blocks of the finished tree. -/
def found (ts : List NTree) : List (Tree Val) := (ts.filter (·.val.1.isBB)).map plain

theorem found_append (a b : List NTree) : found (a ++ b) = found a ++ found b := by simp [found]

theorem found_terminal (input : List Nat) (x y : Nat) : found (terminal input x y).pre = [] := by
  simp [found, terminal, Tree.pre, Tree.preL, Tree.val, Val.isBB]

mutual
theorem topDown_inorder (dbg : Bool) (input : List Nat) : ∀ (t : NTree), Neat t → (∀ n ∈ t.pre, ∀ b, n.val.1 ≠ .term b) →
    (∃ i, In (ivs t) i) →
    ∃ r, topDown dbg input t (ivs t) = some r ∧ Done input r ∧ r.val.1 = t.val.1 ∧ begin_ (ivs r) = begin_ (ivs t) ∧
      end_ (ivs r) = end_ (ivs t) ∧
      found r.pre = (t.pre.filter isLive).map (fin input)
  | .node (v, iv) cs, hn, ht, hne => by
    have h0 := hn _ (self_pre _)
    have hlt : begin_ iv < end_ iv := nonempty_iff.2 hne
    obtain ⟨rs, h1, h2, h3, h4⟩ := topDowns_inorder dbg input (begin_ iv) (end_ iv) cs (begin_ iv)
      (fun c hc => hn.child hc) (fun n hm => ht n (by simp [Tree.pre, hm])) h0.nonempty h0.ordered
      (fun c hc i hi => in_range (h0.within c hc i hi))
      (fun c hc => by
        obtain ⟨i, hi⟩ := h0.nonempty c hc
        exact (in_range (h0.within c hc _ (begin_spec hi).1)).1) (by omega)
    have hs := span_bounds (d := -1) hlt
    refine ⟨.node (v, span (begin_ iv) (end_ iv) (-1)) rs, ?_, ⟨?_, ?_⟩, rfl, hs.1, hs.2, ?_⟩
    · simp only [topDown, ivs, Tree.val, h1, Option.map_some]
      rw [if_neg (by omega)]
    · intro n hm
      rcases mem_pre_iff.1 hm with rfl | ⟨c, hc, hm⟩
      · exact verifyBounds_tiles hlt h2
      · exact (h3 c hc).bounds n hm
    · have hv : ∀ b, v ≠ .term b := fun b => ht (.node (v, iv) cs) (self_pre _) b
      simp only [plain]
      rw [yield_nt hv, yield_tiles input rs _ _ h2 h3]
      simp only [ivs, Tree.val, hs.1, hs.2]
    · cases hb : v.isBB with
      | true =>
        have hc := h0.leaf hb
        simp only [Tree.children] at hc
        subst hc
        simp only [topDowns, hlt, if_true, Option.some.injEq] at h1
        subst h1
        have hl : isLive (.node (v, iv) []) = true := by simp [isLive, ivs, Tree.val, hb, hlt]
        rw [show (Tree.node (v, iv) []).pre = [.node (v, iv) []] from rfl, List.filter_cons_of_pos hl]
        cases v with
        | bb name => rfl
        | start => cases hb
        | term b => cases hb
        | fn name => cases hb
      | false =>
        rw [show found (Tree.node (v, span (begin_ iv) (end_ iv) (-1)) rs).pre = found (Tree.preL rs) by
          simp [found, Tree.pre, Tree.val, hb], h4]
        simp [Tree.pre, isLive, Tree.val, hb]
theorem topDowns_inorder (dbg : Bool) (input : List Nat) (b e : Nat) : ∀ (ts : List NTree) (last : Nat),
    (∀ t ∈ ts, Neat t) → (∀ n ∈ Tree.preL ts, ∀ b, n.val.1 ≠ .term b) → (∀ t ∈ ts, ∃ i, In (ivs t) i) →
    ts.Pairwise (fun s t => Before (ivs s) (ivs t)) → (∀ t ∈ ts, ∀ i, In (ivs t) i → b ≤ i ∧ i < e) →
    (∀ t ∈ ts, last ≤ begin_ (ivs t)) → last ≤ e →
    ∃ rs, topDowns dbg input b e ts last = some rs ∧ Tiles last e rs ∧ (∀ t ∈ rs, Done input t) ∧
      found (Tree.preL rs) = ((Tree.preL ts).filter isLive).map (fin input)
  | [], last, _, _, _, _, _, _, hle => by
    refine ⟨_, rfl, ?_, ?_, ?_⟩
    · have := tiles_cons_terminal (input := input) (x := last) (y := e) (z := e) (ts := []) rfl hle
      simpa using this
    · intro t ht
      split at ht
      · rename_i hlt
        rw [List.mem_singleton] at ht
        subst ht
        exact done_terminal hlt
      · simp at ht
    · split
      · simp only [Tree.preL, List.append_nil, found_terminal, List.filter_nil, List.map_nil]
      · rfl
  | .node (v, iv) cs :: ts, last, hn, ht, hne, hp, hin, hl, hle => by
    have hn1 := hn (.node (v, iv) cs) (by simp)
    have hne1 : ∃ i, In iv i := hne (.node (v, iv) cs) (by simp)
    have hin1 : ∀ i, In iv i → b ≤ i ∧ i < e := hin (.node (v, iv) cs) (by simp)
    have hu : Uids iv := (hn1 _ (self_pre _)).uids
    have hs := shrink_self hu hin1 hne1
    have hlt := nonempty_iff.2 hne1
    have hl1 : last ≤ begin_ iv := hl (.node (v, iv) cs) (by simp)
    rw [List.pairwise_cons] at hp
    obtain ⟨r, h1, h2, h3, h4, h5, h6⟩ := topDown_inorder dbg input (.node (v, iv) cs) hn1
      (fun n hm => ht n (by simp [Tree.preL, hm])) hne1
    obtain ⟨i0, hi0⟩ := hne1
    have he := (end_spec hi0).2.2
    have hee := hin1 _ he
    obtain ⟨rs, g1, g2, g3, g4⟩ := topDowns_inorder dbg input b e ts (end_ iv) (fun t h => hn t (by simp [h]))
      (fun n hm => ht n (by simp [Tree.preL, hm])) (fun t h => hne t (by simp [h])) hp.2 (fun t h => hin t (by simp [h]))
      (fun t h => before_bounds (hp.1 t h) ⟨i0, hi0⟩ (hne t (by simp [h]))) (by omega)
    have hb' : begin_ (ivs r) = begin_ iv := h4
    have he' : end_ (ivs r) = end_ iv := h5
    refine ⟨(if last < begin_ iv then [terminal input last (begin_ iv)] else []) ++ r :: rs, ?_, ?_, ?_, ?_⟩
    · have h1' : topDown dbg input (.node (v, iv) cs) iv = some r := h1
      simp only [topDowns, hs, h1', g1]
      rw [if_neg (by omega)]
    · refine tiles_cons_terminal ?_ hl1
      refine ⟨hb', by omega, ?_⟩
      rw [he']
      exact g2
    · intro t hm
      simp only [List.mem_append, List.mem_cons] at hm
      rcases hm with hm | rfl | hm
      · split at hm
        · rename_i hlt
          rw [List.mem_singleton] at hm
          subst hm
          exact done_terminal hlt
        · simp at hm
      · exact h2
      · exact g3 t hm
    · rw [preL_append, found_append, Tree.preL, found_append, h6, g4]
      have : found (Tree.preL (if last < begin_ iv then [terminal input last (begin_ iv)] else [])) = [] := by
        split
        · simp only [Tree.preL, List.append_nil, found_terminal]
        · rfl
      rw [this]
      simp [Tree.preL]
end

end Verif.PyIntervals
