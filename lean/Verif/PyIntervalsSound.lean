import Verif.PyIntervalsLemmas
import Verif.Props.C62
/- Lemmas for C69: a tree that passes the checks reads the input. -/
namespace Verif.PyIntervals
open Verif.Spec Verif.PyTree PyGrammar

theorem plainL_eq : ∀ ts : List NTree, plainL ts = ts.map plain
  | [] => by simp [plainL]
  | t :: ts => by simp [plainL, plainL_eq ts]

theorem plain_val (t : NTree) : (plain t).val = t.val.1 := by cases t; simp [plain, Tree.val]

theorem plain_children (t : NTree) : (plain t).children = t.children.map plain := by
  cases t; simp [plain, Tree.children, plainL_eq]

mutual
theorem plain_pre : ∀ t : NTree, (plain t).pre = t.pre.map plain
  | .node v cs => by simp [plain, Tree.pre, plain_preL cs]
theorem plain_preL : ∀ ts : List NTree, Tree.preL (plainL ts) = (Tree.preL ts).map plain
  | [] => by simp [plainL, Tree.preL]
  | t :: ts => by simp [plainL, Tree.preL, plain_pre t, plain_preL ts]
end

theorem mem_preL_iff {V : Type} {ts : List (Tree V)} {n : Tree V} : n ∈ Tree.preL ts ↔ ∃ t ∈ ts, n ∈ t.pre := by
  induction ts with
  | nil => simp [Tree.preL]
  | cons t ts ih => simp [Tree.preL, ih]

theorem mem_pre_iff {V : Type} {v : V} {cs : List (Tree V)} {n : Tree V} :
    n ∈ (Tree.node v cs).pre ↔ n = .node v cs ∨ ∃ t ∈ cs, n ∈ t.pre := by
  simp [Tree.pre, mem_preL_iff]

theorem self_pre {V : Type} (t : Tree V) : t ∈ t.pre := by cases t; simp [Tree.pre]

mutual
theorem pre_child {V : Type} : ∀ {t m c : Tree V}, m ∈ t.pre → c ∈ m.children → c ∈ t.pre
  | .node v cs, m, c, hm, hc => by
    simp only [Tree.pre, List.mem_cons] at hm ⊢
    rcases hm with rfl | hm
    · exact .inr (mem_preL_iff.2 ⟨c, hc, self_pre c⟩)
    · exact .inr (preL_child hm hc)
theorem preL_child {V : Type} : ∀ {ts : List (Tree V)} {m c : Tree V}, m ∈ Tree.preL ts → c ∈ m.children → c ∈ Tree.preL ts
  | [], m, c, hm, _ => by simp [Tree.preL] at hm
  | t :: ts, m, c, hm, hc => by
    simp only [Tree.preL, List.mem_append] at hm ⊢
    rcases hm with hm | hm
    · exact .inl (pre_child hm hc)
    · exact .inr (preL_child hm hc)
end

/-- A node of a finished tree: terminals, and only they, have no children, and hold the bytes of their interval. -/
def GoodNode (input : List Nat) (n : NTree) : Prop :=
  (n.children = [] ↔ ∃ b, n.val.1 = .term b) ∧
  ∀ b, n.val.1 = .term b → ∃ x y, x < y ∧ n = terminal input x y

theorem good_terminal {input : List Nat} {x y : Nat} (h : x < y) : ∀ n ∈ (terminal input x y).pre, GoodNode input n := by
  intro n hn
  simp only [terminal, Tree.pre, Tree.preL, List.mem_cons, List.not_mem_nil, or_false] at hn
  subst hn
  exact ⟨by simp [Tree.children, Tree.val], fun b _ => ⟨x, y, h, rfl⟩⟩

mutual
theorem topDown_good (input : List Nat) : ∀ (t : NTree) (iv : Ivs) (r : NTree), (∀ n ∈ t.pre, ∀ b, n.val.1 ≠ .term b) →
    topDown true input t iv = some r →
    (∀ n ∈ r.pre, GoodNode input n) ∧ r.val.1 = t.val.1 ∧ begin_ (ivs r) = begin_ iv ∧ end_ (ivs r) = end_ iv
  | .node (v, jv) cs, iv, r, ht, h => by
    unfold topDown at h
    by_cases hb : end_ iv ≤ begin_ iv
    · simp [hb] at h
    · simp only [hb, if_false, Option.map_eq_some_iff] at h
      obtain ⟨ts, h1, rfl⟩ := h
      have hl := topDowns_good input _ _ cs _ ts (fun n hn => ht n (by simp [Tree.pre, hn])) h1
      have hs := span_bounds (d := -1) (by omega : begin_ iv < end_ iv)
      refine ⟨?_, rfl, hs.1, hs.2⟩
      intro n hn
      rcases mem_pre_iff.1 hn with rfl | ⟨t, h2, h3⟩
      · have hv : ∀ b, v ≠ .term b := fun b => ht (.node (v, jv) cs) (self_pre _) b
        refine ⟨⟨fun h => absurd h (hl.2 (by omega)), ?_⟩, fun b hb => absurd hb (hv b)⟩
        rintro ⟨b, hb⟩
        exact absurd hb (hv b)
      · exact hl.1 t h2 n h3
theorem topDowns_good (input : List Nat) (b e : Nat) : ∀ (ts : List NTree) (last : Nat) (rs : List NTree),
    (∀ n ∈ Tree.preL ts, ∀ b, n.val.1 ≠ .term b) → topDowns true input b e ts last = some rs →
    (∀ t ∈ rs, ∀ n ∈ t.pre, GoodNode input n) ∧ (last < e → rs ≠ [])
  | [], last, rs, _, h => by
    simp only [topDowns, Option.some.injEq] at h
    subst h
    split
    · rename_i hlt
      refine ⟨?_, by simp⟩
      intro t ht
      rw [List.mem_singleton] at ht
      subst ht
      exact good_terminal hlt
    · simp_all
  | .node (v, iv) cs :: ts, last, rs, ht, h => by
    have ht1 : ∀ n ∈ (Tree.node (v, iv) cs).pre, ∀ b, n.val.1 ≠ .term b := fun n hn => ht n (by simp [Tree.preL, hn])
    have ht2 : ∀ n ∈ Tree.preL ts, ∀ b, n.val.1 ≠ .term b := fun n hn => ht n (by simp [Tree.preL, hn])
    unfold topDowns at h
    cases hs : shrink b e (span b e (-1)) iv with
    | none => simp [hs] at h
    | some iv' =>
      simp only [hs] at h
      by_cases hb : end_ iv' ≤ begin_ iv'
      · simp only [hb, if_true] at h
        exact topDowns_good input b e ts last rs ht2 h
      · simp only [hb, if_false] at h
        cases h1 : topDown true input (.node (v, iv) cs) iv' with
        | none => simp [h1] at h
        | some t =>
          cases h2 : topDowns true input b e ts (end_ iv') with
          | none => simp [h1, h2] at h
          | some us =>
            simp only [h1, h2, Option.some.injEq] at h
            subst h
            refine ⟨?_, by simp⟩
            intro u hu
            simp only [List.mem_append, List.mem_cons] at hu
            rcases hu with hu | rfl | hu
            · split at hu
              · rename_i hlt
                rw [List.mem_singleton] at hu
                subst hu
                exact good_terminal hlt
              · simp at hu
            · exact (topDown_good input _ _ _ ht1 h1).1
            · exact (topDowns_good input b e ts _ us ht2 h2).1 u hu
end

/-- The offsets below `L` in the tree. -/
def cnt (L : Nat) (c : Ivs) : Nat := ((Finset.range L).filter (fun i => In c i)).card

theorem cnt_span {L b e : Nat} {c : Ivs} (h : ∀ i, In c i ↔ b ≤ i ∧ i < e) : cnt L c = min e L - min b L := by
  have : (Finset.range L).filter (fun i => In c i) = Finset.Ico (min b L) (min e L) := by
    ext i
    simp only [Finset.mem_filter, Finset.mem_range, h, Finset.mem_Ico]
    omega
  unfold cnt
  rw [this, Nat.card_Ico]

theorem cnt_join {L : Nat} {c d : Ivs} (h : ∀ i, In c i → ¬ In d i) : cnt L (join c d) = cnt L c + cnt L d := by
  have : (Finset.range L).filter (fun i => In (join c d) i) =
      (Finset.range L).filter (fun i => In c i) ∪ (Finset.range L).filter (fun i => In d i) := by
    ext i
    simp only [Finset.mem_filter, Finset.mem_range, Finset.mem_union, in_join]
    tauto
  unfold cnt
  rw [this, Finset.card_union_of_disjoint]
  rw [Finset.disjoint_left]
  intro i h1 h2
  simp only [Finset.mem_filter] at h1 h2
  exact h i h1.2 h2.2

mutual
theorem yield_len (input : List Nat) : ∀ t : NTree, (∀ n ∈ t.pre, GoodNode input n) →
    (∀ n ∈ t.pre, verifyBounds true true true n = true) →
    (yield (plain t)).length = min (end_ (ivs t)) input.length - min (begin_ (ivs t)) input.length
  | .node (v, iv) cs, hg, hv => by
    have h0 := hg _ (self_pre _)
    by_cases hc : cs = []
    · subst hc
      obtain ⟨b, hb⟩ := h0.1.1 rfl
      obtain ⟨x, y, hxy, e⟩ := h0.2 b hb
      rw [e]
      have := span_bounds (d := -1) hxy
      simp only [terminal, plain, plainL, yield, ivs, Tree.val, slice, this.1, this.2]
      simp only [List.length_drop, List.length_take]
      omega
    · have hnt : ∀ b, v ≠ .term b := by
        intro b hb
        exact hc (h0.1.2 ⟨b, hb⟩)
      have h1 := hv _ (self_pre _)
      unfold verifyBounds at h1
      cases hl : coverLoop true cs [] with
      | none => simp [Tree.children, hl] at h1
      | some c =>
        simp only [Tree.children, hl, Bool.not_true, Bool.false_or, Bool.and_eq_true, Bool.or_eq_true,
          List.isEmpty_iff, hc, false_or, beq_iff_eq] at h1
        obtain ⟨⟨e1, e2⟩, e3⟩ := h1
        have hlen := yields_len input cs [] c (fun t ht n hn => hg n (mem_pre_iff.2 (.inr ⟨t, ht, hn⟩)))
          (fun t ht n hn => hv n (mem_pre_iff.2 (.inr ⟨t, ht, hn⟩))) hl
        simp only [plain]
        rw [yield_nt hnt]
        have h00 : cnt input.length [] = 0 := by simp [cnt, not_in_nil]
        have hin : ∀ i, In c i ↔ begin_ c ≤ i ∧ i < end_ c :=
          fun i => ⟨in_range, fun h => gapless_iff.1 e3 i h.1 h.2⟩
        rw [cnt_span hin, h00, e1, e2] at hlen
        simpa using hlen
theorem yields_len (input : List Nat) : ∀ (ts : List NTree) (c c' : Ivs), (∀ t ∈ ts, ∀ n ∈ t.pre, GoodNode input n) →
    (∀ t ∈ ts, ∀ n ∈ t.pre, verifyBounds true true true n = true) → coverLoop true ts c = some c' →
    (yieldL (plainL ts)).length + cnt input.length c = cnt input.length c'
  | [], c, c', _, _, h => by
    simp only [coverLoop, Option.some.injEq] at h
    subst h
    simp [plainL, yieldL]
  | t :: ts, c, c', hg, hv, h => by
    simp only [coverLoop, Bool.true_and] at h
    split at h
    · cases h
    · rename_i ho
      have ih := yields_len input ts _ c' (fun u hu => hg u (by simp [hu])) (fun u hu => hv u (by simp [hu])) h
      have h1 := yield_len input t (hg t (by simp)) (hv t (by simp))
      simp only [plainL, yieldL, List.length_append]
      rw [h1]
      split at ih
      · rename_i hlt
        rw [cnt_join, cnt_span (c := span _ _ _) (fun _ => in_span)] at ih
        · omega
        · intro i hi hs
          have := in_span.1 hs
          exact ho (overlaps_iff.2 ⟨i, this.1, this.2, hi⟩)
      · omega
end

/-- The bottom up pass keeps the values, in their order, and adds none. -/
theorem deconflictFrom_vals : ∀ (ts : List NTree) (v : Val) (a : Ivs) (as : List NTree),
    (deconflictFrom v a as ts).map (fun t => (t.val.1, t.children)) =
      (v, as) :: ts.map (fun t => (t.val.1, t.children))
  | [], v, a, as => by simp [deconflictFrom, Tree.val, Tree.children]
  | .node (w, b) bs :: ts, v, a, as => by
    simp only [deconflictFrom, List.map_cons, deconflictFrom_vals ts]
    rfl

theorem deconflicts_vals (ts : List NTree) :
    (deconflicts ts).map (fun t => (t.val.1, t.children)) = ts.map (fun t => (t.val.1, t.children)) := by
  match ts with
  | [] => rfl
  | .node (v, a) as :: ts => simp only [deconflicts, List.map_cons, deconflictFrom_vals]; rfl

theorem pass_some {dbg : Bool} {v : Val} {iv : Ivs} {cs : List NTree} {t : NTree}
    (h : bottomUpPass dbg v iv cs = some t) :
    t = .node (v, (deconflicts (cs.filter fun c => begin_ (ivs c) < end_ (ivs c))).foldl (fun iv c => join iv (ivs c)) iv)
      (deconflicts (cs.filter fun c => begin_ (ivs c) < end_ (ivs c))) := by
  unfold bottomUpPass at h
  simp only at h
  split at h
  · cases h
  · exact (Option.some.inj h).symm

/-- A property of the values of all nodes that the bottom up pass keeps. -/
theorem pass_vals {P : Val → Prop} {dbg : Bool} {v : Val} {iv : Ivs} {cs : List NTree} {t : NTree}
    (h : bottomUpPass dbg v iv cs = some t) (hc : ∀ n ∈ Tree.preL cs, P n.val.1) :
    t.val.1 = v ∧ ∀ n ∈ Tree.preL t.children, P n.val.1 := by
  rw [pass_some h]
  refine ⟨rfl, ?_⟩
  intro n hn
  simp only [Tree.children] at hn
  obtain ⟨u, hu, hn⟩ := mem_preL_iff.1 hn
  have h1 : (u.val.1, u.children) ∈ (deconflicts (cs.filter fun c => begin_ (ivs c) < end_ (ivs c))).map
      (fun t => (t.val.1, t.children)) := List.mem_map.2 ⟨u, hu, rfl⟩
  rw [deconflicts_vals] at h1
  obtain ⟨w, hw, e⟩ := List.mem_map.1 h1
  have hw' := (List.mem_filter.1 hw).1
  simp only [Prod.mk.injEq] at e
  cases u with
  | node uv us =>
    cases w with
    | node wv ws =>
      simp only [Tree.val, Tree.children] at e
      obtain ⟨e1, rfl⟩ := e
      rcases mem_pre_iff.1 hn with rfl | ⟨t, h2, h3⟩
      · have := hc _ (mem_preL_iff.2 ⟨_, hw', self_pre _⟩)
        simp only [Tree.val] at this ⊢
        rw [← e1]; exact this
      · exact hc n (mem_preL_iff.2 ⟨_, hw', mem_pre_iff.2 (.inr ⟨t, h2, h3⟩)⟩)

mutual
theorem bottomUp_vals (P : Val → Prop) (dbg : Bool) (n : Nat) : ∀ (t t' : NTree), bottomUp dbg n t = some t' →
    (∀ m ∈ Tree.preL t.children, P m.val.1) → t'.val.1 = t.val.1 ∧ ∀ m ∈ Tree.preL t'.children, P m.val.1
  | .node (v, iv) cs, t', h, hp => by
    unfold bottomUp at h
    cases hb : bottomUps dbg n cs with
    | none => simp [hb] at h
    | some cs' =>
      simp only [hb] at h
      have h2 := bottomUps_vals P dbg n cs cs' hb (by simpa [Tree.children] using hp)
      split at h
      · split at h
        · cases h
        · exact pass_vals h h2
      · exact pass_vals h h2
theorem bottomUps_vals (P : Val → Prop) (dbg : Bool) (n : Nat) : ∀ (ts ts' : List NTree), bottomUps dbg n ts = some ts' →
    (∀ m ∈ Tree.preL ts, P m.val.1) → ∀ m ∈ Tree.preL ts', P m.val.1
  | [], ts', h, hp => by
    simp only [bottomUps, Option.some.injEq] at h
    subst h
    exact hp
  | t :: ts, ts', h, hp => by
    unfold bottomUps at h
    cases hb : bottomUp dbg n t with
    | none => simp [hb] at h
    | some t1 =>
      simp only [hb, Option.map_eq_some_iff] at h
      obtain ⟨ts1, h1, rfl⟩ := h
      have ht : ∀ m ∈ t.pre, P m.val.1 := fun m hm => hp m (by simp [Tree.preL, hm])
      have hv := bottomUp_vals P dbg n t t1 hb (fun m hm => ht m (by cases t; simp_all [Tree.pre, Tree.children]))
      have h2 := bottomUps_vals P dbg n ts ts1 h1 (fun m hm => hp m (by simp [Tree.preL, hm]))
      intro m hm
      simp only [Tree.preL, List.mem_append] at hm
      rcases hm with hm | hm
      · cases t1 with
        | node v1 cs1 =>
          simp only [Tree.pre, List.mem_cons] at hm
          rcases hm with rfl | hm
          · have := ht t (self_pre t)
            rw [← hv.1] at this
            exact this
          · exact hv.2 m (by simpa [Tree.children] using hm)
      · exact h2 m hm
end

mutual
theorem blocks_vals : ∀ (bs : List (Tree TEv)), ∀ m ∈ Tree.preL (blocks bs), m.val.1 ≠ .start ∧ ∀ b, m.val.1 ≠ .term b
  | [] => by simp [blocks, Tree.preL]
  | .node (.bb name uid offs) fs :: ts => by
    intro m hm
    simp only [blocks, Tree.preL, Tree.pre, preL_append, List.mem_append, List.mem_cons, List.not_mem_nil, or_false] at hm
    rcases hm with rfl | hm | hm
    · simp [Tree.val]
    · exact called_vals fs m hm
    · exact blocks_vals ts m hm
  | .node (.fn a b) fs :: ts => by
    intro m hm
    simp only [blocks] at hm
    exact blocks_vals ts m hm
theorem called_vals : ∀ (bs : List (Tree TEv)), ∀ m ∈ Tree.preL (called bs), m.val.1 ≠ .start ∧ ∀ b, m.val.1 ≠ .term b
  | [] => by simp [called, Tree.preL]
  | .node (.bb name uid offs) fs :: ts => by simp [called, Tree.preL]
  | .node (.fn a b) fs :: ts => by
    intro m hm
    simp only [called] at hm
    split at hm
    · simp only [Tree.preL, Tree.pre, List.append_nil, List.mem_cons] at hm
      rcases hm with rfl | hm
      · simp [Tree.val]
      · exact blocks_vals fs m hm
    · simp [Tree.preL] at hm
end

theorem traceTree_vals (entry : Nat) (bs : List (Tree TEv)) :
    ∀ m ∈ Tree.preL (traceTree entry bs).children, m.val.1 ≠ .start ∧ ∀ b, m.val.1 ≠ .term b := by
  intro m hm
  simp only [traceTree, Tree.children, Tree.preL, Tree.pre, List.append_nil, List.mem_cons] at hm
  rcases hm with rfl | hm
  · simp [Tree.val]
  · exact blocks_vals bs m hm

mutual
/-- Only the root of the finished tree is a start, whatever the pass makes of the intervals. -/
theorem topDown_noStart (dbg : Bool) (input : List Nat) : ∀ (t : NTree) (iv : Ivs) (r : NTree),
    (∀ m ∈ Tree.preL t.children, m.val.1 ≠ .start) →
    topDown dbg input t iv = some r → r.val.1 = t.val.1 ∧ ∀ m ∈ Tree.preL r.children, m.val.1 ≠ .start
  | .node (v, jv) cs, iv, r, ht, h => by
    unfold topDown at h
    split at h
    · split at h
      · cases h
      · cases h; simp [Tree.val, Tree.children, Tree.preL]
    · simp only [Option.map_eq_some_iff] at h
      obtain ⟨ts, h1, rfl⟩ := h
      exact ⟨rfl, topDowns_noStart dbg input _ _ cs _ ts (by simpa [Tree.children] using ht) h1⟩
theorem topDowns_noStart (dbg : Bool) (input : List Nat) (b e : Nat) : ∀ (ts : List NTree) (last : Nat) (rs : List NTree),
    (∀ m ∈ Tree.preL ts, m.val.1 ≠ .start) → topDowns dbg input b e ts last = some rs →
    ∀ m ∈ Tree.preL rs, m.val.1 ≠ .start
  | [], last, rs, _, h => by
    simp only [topDowns, Option.some.injEq] at h
    subst h
    split <;> simp [terminal, Tree.preL, Tree.pre, Tree.val]
  | .node (v, iv) cs :: ts, last, rs, ht, h => by
    have ht1 : v ≠ .start := ht (.node (v, iv) cs) (by simp [Tree.preL, self_pre])
    have ht3 : ∀ m ∈ Tree.preL cs, m.val.1 ≠ .start := fun n hn => ht n (by simp [Tree.preL, Tree.pre, hn])
    have ht2 : ∀ n ∈ Tree.preL ts, n.val.1 ≠ .start := fun n hn => ht n (by simp [Tree.preL, hn])
    unfold topDowns at h
    cases hs : shrink b e (span b e (-1)) iv with
    | none => simp [hs] at h
    | some iv' =>
      simp only [hs] at h
      by_cases hb : end_ iv' ≤ begin_ iv'
      · simp only [hb, if_true] at h
        exact topDowns_noStart dbg input b e ts last rs ht2 h
      · simp only [hb, if_false] at h
        cases h1 : topDown dbg input (.node (v, iv) cs) iv' with
        | none => simp [h1] at h
        | some t =>
          cases h2 : topDowns dbg input b e ts (end_ iv') with
          | none => simp [h1, h2] at h
          | some us =>
            simp only [h1, h2, Option.some.injEq] at h
            subst h
            have i1 := topDown_noStart dbg input (.node (v, iv) cs) iv' t (by simpa [Tree.children] using ht3) h1
            have i2 := topDowns_noStart dbg input b e ts _ us ht2 h2
            intro m hm
            simp only [preL_append, Tree.preL, List.mem_append] at hm
            rcases hm with hm | hm | hm
            · split at hm
              · simp only [terminal, Tree.preL, Tree.pre, List.append_nil, List.mem_singleton] at hm
                subst hm
                simp [Tree.val]
              · simp [Tree.preL] at hm
            · cases t with
              | node tv tc =>
                simp only [Tree.pre, List.mem_cons] at hm
                rcases hm with rfl | hm
                · rw [i1.1]; exact ht1
                · exact i1.2 m (by simpa [Tree.children] using hm)
            · exact i2 m hm
end

mutual
/-- With assertions the pass gives the same tree, or none. -/
theorem topDown_any (dbg : Bool) (input : List Nat) : ∀ (t : NTree) (iv : Ivs) (r r' : NTree),
    topDown dbg input t iv = some r → topDown true input t iv = some r' → r = r'
  | .node (v, jv) cs, iv, r, r', h, h' => by
    unfold topDown at h h'
    split at h
    · rename_i hb
      simp [hb] at h'
    · rename_i hb
      simp only [hb, if_false, Option.map_eq_some_iff] at h h'
      obtain ⟨a, ha, rfl⟩ := h
      obtain ⟨b, hb, rfl⟩ := h'
      rw [topDowns_any dbg input _ _ cs _ a b ha hb]
theorem topDowns_any (dbg : Bool) (input : List Nat) (b e : Nat) : ∀ (ts : List NTree) (last : Nat) (rs rs' : List NTree),
    topDowns dbg input b e ts last = some rs → topDowns true input b e ts last = some rs' → rs = rs'
  | [], last, rs, rs', h, h' => by
    simp only [topDowns, Option.some.injEq] at h h'
    rw [← h, h']
  | .node (v, iv) cs :: ts, last, rs, rs', h, h' => by
    unfold topDowns at h h'
    cases hs : shrink b e (span b e (-1)) iv with
    | none => simp [hs] at h
    | some iv' =>
      simp only [hs] at h h'
      by_cases hb : end_ iv' ≤ begin_ iv'
      · simp only [hb, if_true] at h h'
        exact topDowns_any dbg input b e ts last rs rs' h h'
      · simp only [hb, if_false] at h h'
        cases h1 : topDown dbg input (.node (v, iv) cs) iv' with
        | none => simp [h1] at h
        | some t =>
          cases h2 : topDowns dbg input b e ts (end_ iv') with
          | none => simp [h1, h2] at h
          | some us =>
            cases h3 : topDown true input (.node (v, iv) cs) iv' with
            | none => simp [h3] at h'
            | some t' =>
              cases h4 : topDowns true input b e ts (end_ iv') with
              | none => simp [h3, h4] at h'
              | some us' =>
                simp only [h1, h2, h3, h4, Option.some.injEq] at h h'
                rw [← h, ← h', topDown_any dbg input _ _ t t' h1 h3, topDowns_any dbg input b e ts _ us us' h2 h4]
end

end Verif.PyIntervals
