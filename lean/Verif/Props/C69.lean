import Verif.PyIntervalsBlocks
/- C69: the parse tree of a trace by byte intervals. -/
namespace Verif
namespace C69
open Spec PyTree PyGrammar PyIntervals

mutual
/-- The blocks a trace entered, in order of entry, by name and with the offsets of the bytes they used; what a function that
touched no taint entered is not counted. -/
def executed : List (Tree TEv) → List (Nat × List Nat)
  | [] => []
  | .node (.bb name _ offs) fs :: ts => (name, offs) :: (executedIn fs ++ executed ts)
  | .node (.fn _ _) _ :: ts => executed ts
def executedIn : List (Tree TEv) → List (Nat × List Nat)
  | [] => []
  | .node (.fn _ touched) bs :: _ => if touched then executed bs else []
  | .node (.bb _ _ _) _ :: _ => []
end

/-- The bytes of the input from the first to the last offset. -/
def hull (input offs : List Nat) : List Nat :=
  (input.take (offs.foldr max 0 + 1)).drop (offs.foldr min input.length)

/-- The bytes were used in the order of the input: every byte a block used is before all bytes that later blocks used. -/
def InOrder (bs : List (Tree TEv)) : Prop :=
  (executed bs).Pairwise fun a b => ∀ i ∈ a.2, ∀ j ∈ b.2, i < j

theorem in_consumed {uid : Nat} {offs : List Nat} {i : Nat} : In (consumed uid offs) i ↔ i ∈ offs := by
  have hle : ∀ l : List Nat, i ∈ l → i ≤ l.foldr max 0 := by
    intro l
    induction l with
    | nil => simp
    | cons a l ih =>
      intro h
      simp only [List.foldr_cons]
      rcases List.mem_cons.1 h with rfl | h
      · omega
      · have := ih h; omega
  unfold In consumed
  rw [get_map_range]
  constructor
  · intro h
    split at h
    · split at h
      · assumption
      · cases h
    · cases h
  · intro h
    have := hle offs h
    rw [if_pos (by omega), if_pos h]
    rfl

theorem uids_consumed (uid : Nat) (offs : List Nat) : Uids (consumed uid offs) := by
  intro i d h
  unfold consumed at h
  rw [get_map_range] at h
  split at h
  · split at h
    · cases h; omega
    · cases h
  · cases h

theorem foldr_min {l : List Nat} {n : Nat} (h : ∀ i ∈ l, i < n) (hne : l ≠ []) :
    l.foldr min n ∈ l ∧ ∀ i ∈ l, l.foldr min n ≤ i := by
  induction l with
  | nil => exact absurd rfl hne
  | cons a l ih =>
    simp only [List.foldr_cons]
    have ha := h a (by simp)
    by_cases hl : l = []
    · subst hl
      simp only [List.foldr_nil, List.mem_singleton, forall_eq]
      omega
    · have := ih (fun i hi => h i (by simp [hi])) hl
      rcases Nat.le_total a (l.foldr min n) with hle | hle
      · rw [Nat.min_eq_left hle]
        refine ⟨by simp, fun i hi => ?_⟩
        rcases List.mem_cons.1 hi with rfl | hi
        · omega
        · have := this.2 i hi; omega
      · rw [Nat.min_eq_right hle]
        refine ⟨by simp [this.1], fun i hi => ?_⟩
        rcases List.mem_cons.1 hi with rfl | hi
        · omega
        · exact this.2 i hi

theorem foldr_max {l : List Nat} (hne : l ≠ []) : l.foldr max 0 ∈ l ∧ ∀ i ∈ l, i ≤ l.foldr max 0 := by
  induction l with
  | nil => exact absurd rfl hne
  | cons a l ih =>
    simp only [List.foldr_cons]
    by_cases hl : l = []
    · subst hl
      simp
    · have := ih hl
      rcases Nat.le_total a (l.foldr max 0) with hle | hle
      · rw [Nat.max_eq_right hle]
        refine ⟨by simp [this.1], fun i hi => ?_⟩
        rcases List.mem_cons.1 hi with rfl | hi
        · omega
        · exact this.2 i hi
      · rw [Nat.max_eq_left hle]
        refine ⟨by simp, fun i hi => ?_⟩
        rcases List.mem_cons.1 hi with rfl | hi
        · omega
        · have := this.2 i hi; omega

theorem consumed_bounds {uid n : Nat} {offs : List Nat} (h : ∀ i ∈ offs, i < n) (hne : offs ≠ []) :
    begin_ (consumed uid offs) = offs.foldr min n ∧ end_ (consumed uid offs) = offs.foldr max 0 + 1 := by
  have h1 := foldr_min h hne
  have h2 := foldr_max hne
  refine bounds_eq (fun i hi => ?_) (in_consumed.2 h1.1) (by rw [Nat.add_sub_cancel]; exact in_consumed.2 h2.1) ?_
  · have := in_consumed.1 hi
    have := h1.2 i this
    have := h2.2 i (in_consumed.1 hi)
    omega
  · have := h2.2 _ h1.1
    omega

/-- The part of a parse tree for a block that used bytes: the block over the bytes from its first to its last. -/
def block (input : List Nat) (e : Nat × List Nat) : Tree Val := .node (.bb e.1) [.node (.term (hull input e.2)) []]

/-- What is known of the nodes of a trace. -/
structure Raw (input : List Nat) (ts : List NTree) (ex : List (Nat × List Nat)) : Prop where
  raw : ∀ m ∈ Tree.preL ts, RawNode m
  leaves : ∀ l ∈ leafIvsL ts, ∀ i, In l i → ∃ e ∈ ex, i ∈ e.2
  ordered : ex.Pairwise (fun a b => ∀ i ∈ a.2, ∀ j ∈ b.2, i < j) → (leafIvsL ts).Pairwise Before
  live : (∀ e ∈ ex, ∀ i ∈ e.2, i < input.length) →
    ((Tree.preL ts).filter isLive).map (fin input) = (ex.filter (fun e => !e.2.isEmpty)).map (block input)

theorem raw_nil (input : List Nat) : Raw input [] [] :=
  ⟨by simp [Tree.preL], by simp [leafIvsL], fun _ => .nil, by simp [Tree.preL]⟩

theorem leafIvsL_append (a b : List NTree) : leafIvsL (a ++ b) = leafIvsL a ++ leafIvsL b := by
  induction a with
  | nil => rfl
  | cons t a ih => simp [leafIvsL, ih]

theorem raw_append {input : List Nat} {a b : List NTree} {x y : List (Nat × List Nat)} (ha : Raw input a x) (hb : Raw input b y) :
    Raw input (a ++ b) (x ++ y) := by
  refine ⟨?_, ?_, ?_, ?_⟩
  · intro m hm
    rw [preL_append, List.mem_append] at hm
    exact hm.elim (ha.raw m) (hb.raw m)
  · intro l hl i hi
    rw [leafIvsL_append, List.mem_append] at hl
    rcases hl with hl | hl
    · obtain ⟨e, h1, h2⟩ := ha.leaves l hl i hi
      exact ⟨e, by simp [h1], h2⟩
    · obtain ⟨e, h1, h2⟩ := hb.leaves l hl i hi
      exact ⟨e, by simp [h1], h2⟩
  · intro h
    rw [List.pairwise_append] at h
    rw [leafIvsL_append, List.pairwise_append]
    refine ⟨ha.ordered h.1, hb.ordered h.2.1, ?_⟩
    intro l hl k hk i j hi hj
    obtain ⟨e, h1, h2⟩ := ha.leaves l hl i hi
    obtain ⟨f, h3, h4⟩ := hb.leaves k hk j hj
    exact h.2.2 e h1 f h3 i h2 j h4
  · intro h
    rw [preL_append, List.filter_append, List.map_append, List.filter_append, List.map_append,
      ha.live (fun e he => h e (by simp [he])), hb.live (fun e he => h e (by simp [he]))]

theorem raw_block (input : List Nat) (name uid : Nat) (offs : List Nat) :
    Raw input [.node (.bb name, consumed uid offs) []] [(name, offs)] := by
  refine ⟨?_, ?_, ?_, ?_⟩
  · intro m hm
    simp only [Tree.preL, Tree.pre, List.append_nil, List.mem_singleton] at hm
    subst hm
    exact ⟨uids_consumed uid offs, by simp [Tree.children], by simp [Tree.val], by simp [Tree.children]⟩
  · intro l hl i hi
    simp only [leafIvsL, leafIvs, List.append_nil, List.mem_singleton] at hl
    subst hl
    exact ⟨(name, offs), by simp, in_consumed.1 hi⟩
  · intro _
    simp [leafIvsL, leafIvs]
  · intro h
    have h := h (name, offs) (by simp)
    by_cases hne : offs = []
    · subst hne
      have : isLive (.node (.bb name, consumed uid []) []) = false := by
        have := empty_spec (iv := consumed uid []) (fun i hi => by simpa using in_consumed.1 hi)
        simp [isLive, ivs, Tree.val, this]
      simp [Tree.preL, Tree.pre, this]
    · have hb := consumed_bounds (uid := uid) h hne
      have hlt : begin_ (consumed uid offs) < end_ (consumed uid offs) :=
        nonempty_iff.2 ⟨_, in_consumed.2 (foldr_max hne).1⟩
      have hl : isLive (.node (.bb name, consumed uid offs) []) = true := by
        simp [isLive, ivs, Tree.val, hlt, Val.isBB]
      rw [show Tree.preL [Tree.node (Val.bb name, consumed uid offs) []] = [.node (.bb name, consumed uid offs) []] from rfl,
        List.filter_cons_of_pos hl, List.filter_cons_of_pos (by simpa using hne)]
      simp [fin, block, hull, slice, ivs, Tree.val, hb.1, hb.2]

theorem raw_fn {input : List Nat} {ts : List NTree} {ex : List (Nat × List Nat)} (h : Raw input ts ex) (name : Nat) :
    Raw input [.node (.fn name, []) ts] ex := by
  have hleaf : ∀ l ∈ leafIvsL [.node (.fn name, []) ts], l = [] ∨ l ∈ leafIvsL ts := by
    intro l hl
    cases ts with
    | nil => simp [leafIvsL, leafIvs] at hl; exact .inl hl
    | cons t ts => exact .inr (by simpa [leafIvsL, leafIvs] using hl)
  refine ⟨?_, ?_, ?_, ?_⟩
  · intro m hm
    simp only [Tree.preL, Tree.pre, List.append_nil, List.mem_cons] at hm
    rcases hm with rfl | hm
    · exact ⟨fun i d hd => by simp [ivs, Tree.val, get_nil] at hd, fun _ => not_in_nil, by simp [Tree.val], by simp [Tree.val, Val.isBB]⟩
    · exact h.raw m hm
  · intro l hl i hi
    rcases hleaf l hl with rfl | hl
    · exact absurd hi (not_in_nil i)
    · exact h.leaves l hl i hi
  · intro ho
    cases ts with
    | nil => simp [leafIvsL, leafIvs]
    | cons t ts => simpa [leafIvsL, leafIvs] using h.ordered ho
  · intro hl
    rw [← h.live hl]
    have : isLive (.node (.fn name, []) ts) = false := by simp [isLive, Tree.val, Val.isBB]
    simp [Tree.preL, Tree.pre, this]

mutual
theorem raw_blocks (input : List Nat) : ∀ bs : List (Tree TEv), Raw input (blocks bs) (executed bs)
  | [] => by simp only [blocks, executed]; exact raw_nil input
  | .node (.bb name uid offs) fs :: ts => by
    simp only [blocks, executed]
    exact raw_append (raw_block input name uid offs) (raw_append (raw_called input fs) (raw_blocks input ts))
  | .node (.fn _ _) _ :: ts => by
    simp only [blocks, executed]
    exact raw_blocks input ts
theorem raw_called (input : List Nat) : ∀ bs : List (Tree TEv), Raw input (called bs) (executedIn bs)
  | [] => by simp only [called, executedIn]; exact raw_nil input
  | .node (.fn name touched) bs :: _ => by
    simp only [called, executedIn]
    cases touched with
    | true => exact raw_fn (raw_blocks input bs) name
    | false => exact raw_nil input
  | .node (.bb _ _ _) _ :: _ => by simp only [called, executedIn]; exact raw_nil input
end

mutual
theorem blocks_from : ∀ (bs : List (Tree TEv)), ∀ m ∈ Tree.preL (blocks bs), FromTrace (executed bs) m
  | [] => by simp [blocks, Tree.preL]
  | .node (.bb name uid offs) fs :: ts => by
    intro m hm
    simp only [blocks, Tree.preL, Tree.pre, preL_append, List.mem_append, List.mem_cons, List.not_mem_nil, or_false] at hm
    rcases hm with rfl | hm | hm
    · intro n hn
      simp only [Tree.val, Val.bb.injEq] at hn
      subst hn
      exact ⟨rfl, offs, by simp [executed], fun i hi => in_consumed.1 hi⟩
    · intro n hn
      obtain ⟨e1, o, e2, e3⟩ := called_from fs m hm n hn
      exact ⟨e1, o, by simp [executed, e2], e3⟩
    · intro n hn
      obtain ⟨e1, o, e2, e3⟩ := blocks_from ts m hm n hn
      exact ⟨e1, o, by simp [executed, e2], e3⟩
  | .node (.fn a b) fs :: ts => by
    intro m hm
    simp only [blocks] at hm
    simp only [executed]
    exact blocks_from ts m hm
theorem called_from : ∀ (bs : List (Tree TEv)), ∀ m ∈ Tree.preL (called bs), FromTrace (executedIn bs) m
  | [] => by simp [called, Tree.preL]
  | .node (.bb name uid offs) fs :: ts => by simp [called, Tree.preL]
  | .node (.fn a b) fs :: ts => by
    intro m hm
    simp only [called] at hm
    split at hm
    · rename_i hb
      simp only [executedIn, hb, if_true]
      simp only [Tree.preL, Tree.pre, List.append_nil, List.mem_cons] at hm
      rcases hm with rfl | hm
      · intro n hn
        cases hn
      · exact blocks_from fs m hm
    · simp [Tree.preL] at hm
end

/-- Whatever the trace, and with or without assertions: a block in the tree was executed, and stands over the bytes from one
that it used to one that it used. -/
theorem C69_blocks (dbg : Bool) (input : List Nat) (entry : Nat) (bs : List (Tree TEv)) (r : NTree)
    (h : nonGeneralized dbg [input] entry bs = some r) (name : Nat) (cs : List (Tree Val))
    (hm : .node (.bb name) cs ∈ (PyIntervals.plain r).pre) :
    ∃ offs lo hi, (name, offs) ∈ executed bs ∧ lo ∈ offs ∧ hi ∈ offs ∧ lo ≤ hi ∧
      cs = [.node (.term ((input.take (hi + 1)).drop lo)) []] := by
  simp only [nonGeneralized] at h
  cases hb : bottomUp dbg input.length (traceTree entry bs) with
  | none => simp [hb] at h
  | some t =>
    simp only [hb] at h
    cases ht : topDown dbg input t (ivs t) with
    | none => simp [ht] at h
    | some r' =>
      simp only [ht] at h
      split at h
      · cases h
      · cases h
        have hfrom : ∀ m ∈ (traceTree entry bs).pre, FromTrace (executed bs) m := by
          intro m hm
          simp only [traceTree, Tree.preL, Tree.pre, List.append_nil, List.mem_cons] at hm
          rcases hm with rfl | rfl | hm
          · intro n hn; cases hn
          · intro n hn; cases hn
          · exact blocks_from bs m hm
        have h0 : In (ivs t) 0 := by
          simp only [bottomUp, traceTree] at hb
          split at hb
          · cases hb
          · simp only [if_true] at hb
            split at hb
            · cases hb
            · rename_i hne
              rw [pass_some hb]
              exact foldl_join.2 (.inl (in_join.2 (.inr (in_span.2 ⟨Nat.zero_le _, by omega⟩))))
        have hk := topDown_kept (executed bs) dbg input t (ivs t) r
          (bottomUp_from (executed bs) dbg _ _ _ hb hfrom) (fun _ hi => hi) (nonempty_iff.2 ⟨0, h0⟩) ht
        rw [plain_pre] at hm
        obtain ⟨n, hn, e⟩ := List.mem_map.1 hm
        have hv : n.val.1 = .bb name := by rw [← plain_val, e]; rfl
        obtain ⟨offs, lo, hi, h1, h2, h3, h4, h5⟩ := hk n hn name hv
        refine ⟨offs, lo, hi, h1, h2, h3, h4, ?_⟩
        have : cs = (PyIntervals.plain n).children := by rw [e]; rfl
        rw [this, plain_children, h5]
        rfl

/-- If Python runs with assertions and the tree is returned, then it is a parse tree of the input: its terminals, from
left to right, are the whole input, and the grammar extracted from it derives the input. -/
theorem C69_reads (inputs : List (List Nat)) (entry : Nat) (bs : List (Tree TEv)) (r : NTree)
    (h : nonGeneralized true inputs entry bs = some r) :
    ∃ input, inputs = [input] ∧ InputTree (plain r) ∧ «matches» (plain r) = some input ∧
      ∃ g, extract (plain r) = some g ∧ g.cfg.Lang 0 input := by
  unfold nonGeneralized at h
  match inputs, h with
  | [input], h =>
    refine ⟨input, rfl, ?_⟩
    simp only at h
    cases hb : bottomUp true input.length (traceTree entry bs) with
    | none => simp [hb] at h
    | some t =>
      simp only [hb] at h
      cases ht : topDown true input t (ivs t) with
      | none => simp [ht] at h
      | some r' =>
        simp only [ht, Bool.true_and] at h
        split at h
        · cases h
        · rename_i hv
          simp only [Option.some.injEq] at h
          subst h
          simp only [Bool.not_eq_true', Bool.not_eq_false] at hv
          unfold PyIntervals.verify at hv
          rw [Bool.and_eq_true, List.all_eq_true] at hv
          have hvals := bottomUp_vals (fun v => v ≠ .start ∧ ∀ b, v ≠ .term b) true _ _ _ hb (traceTree_vals entry bs)
          have hroot : t.val.1 = .start := hvals.1
          have hnt : ∀ n ∈ t.pre, ∀ b, n.val.1 ≠ .term b := by
            intro n hn b
            cases t with
            | node tv tc =>
              simp only [Tree.pre, List.mem_cons] at hn
              rcases hn with rfl | hn
              · rw [hroot]; simp
              · exact (hvals.2 n (by simpa [Tree.children] using hn)).2 b
          have hgood := topDown_good input t (ivs t) r' hnt ht
          have hns := topDown_noStart true input t (ivs t) r' (fun m hm => (hvals.2 m hm).1) ht
          have hterm : Terminated (plain r') := by
            intro n hn
            rw [plain_pre] at hn
            obtain ⟨m, hm, rfl⟩ := List.mem_map.1 hn
            rw [plain_children, plain_val, List.map_eq_nil_iff]
            exact (hgood.1 m hm).1
          have hin : InputTree (plain r') := by
            refine ⟨by rw [plain_val, hns.1, hroot], ?_, ?_⟩
            · intro n hn c hc
              rw [plain_pre] at hn
              obtain ⟨m, hm, rfl⟩ := List.mem_map.1 hn
              rw [plain_children] at hc
              obtain ⟨d, hd, rfl⟩ := List.mem_map.1 hc
              rw [plain_val]
              refine hns.2 d ?_
              have hdm : d ∈ Tree.preL m.children := mem_preL_iff.2 ⟨d, hd, self_pre d⟩
              cases r' with
              | node rv rc =>
                simp only [Tree.pre, List.mem_cons] at hm
                simp only [Tree.children]
                rcases hm with rfl | hm
                · exact hdm
                · obtain ⟨u, hu, hmu⟩ := mem_preL_iff.1 hm
                  exact mem_preL_iff.2 ⟨u, hu, pre_child hmu hd⟩
            · intro n hn b hb
              exact (hterm n hn).2 ⟨b, hb⟩
          obtain ⟨w, rest, hw, hs⟩ := (C61_verify_partial (plain r') hterm input).1 hv.2
          have hlen := yield_len input r' hgood.1 hv.1
          have hb0 : In (ivs t) 0 ∧ In (ivs t) (input.length - 1) ∧ 0 < input.length := by
            simp only [bottomUp, traceTree] at hb
            split at hb
            · cases hb
            · simp only [if_true] at hb
              split at hb
              · cases hb
              · rename_i hne
                rw [pass_some hb]
                have : ∀ i, i < input.length → In (join [] (span 0 input.length 0)) i :=
                  fun i hi => in_join.2 (.inr (in_span.2 ⟨Nat.zero_le _, hi⟩))
                exact ⟨foldl_join.2 (.inl (this _ (by omega))), foldl_join.2 (.inl (this _ (by omega))), by omega⟩
          have h1 := begin_spec hb0.1
          have h2 := end_spec hb0.2.1
          rw [hgood.2.2.1, hgood.2.2.2, hin.matches hw] at hlen
          have hwl : w.length = input.length := by omega
          have hr : rest = [] := by
            have := congrArg List.length hs
            simp only [List.length_append] at this
            exact List.length_eq_zero_iff.1 (by omega)
          subst hr
          rw [List.append_nil] at hs
          subst hs
          refine ⟨hin, hw, ?_⟩
          obtain ⟨g, e1, -, e2⟩ := C62_extract (plain r') hin
          exact ⟨g, e1, e2 _ hw⟩

/-- Partial: what is missing is that the bytes may be used in any order. If every byte that a block used is before all bytes
that later blocks used, the tree is returned, with or without assertions; it is a parse tree of the input, and its blocks
are, in order, the executed blocks that used bytes, each over the bytes from its first to its last. -/
theorem C69_inorder_partial (dbg : Bool) (input : List Nat) (entry : Nat) (bs : List (Tree TEv)) (hne : input ≠ [])
    (ho : InOrder bs) (hlt : ∀ e ∈ executed bs, ∀ i ∈ e.2, i < input.length) :
    ∃ r, nonGeneralized dbg [input] entry bs = some r ∧ «matches» (plain r) = some input ∧
      (plain r).pre.filter (·.val.isBB) = ((executed bs).filter (fun e => !e.2.isEmpty)).map (block input) := by
  have hraw := raw_fn (raw_blocks input bs) entry
  have hL : 0 < input.length := List.length_pos_iff.2 hne
  obtain ⟨cs', g1, g2, g3, g4, g5⟩ := bottomUps_inorder dbg input.length [.node (.fn entry, []) (blocks bs)]
    (fun t ht m hm => hraw.raw m (mem_preL_iff.2 ⟨t, ht, hm⟩)) (hraw.ordered ho)
  have hu : Uids (join [] (span 0 input.length 0)) :=
    uids_join (fun i d hd => by simp [get_nil] at hd) (uids_span _ _)
  obtain ⟨t, h1, h2, h3, h4, h5, -⟩ := pass_inorder dbg .start (join [] (span 0 input.length 0)) cs' hu
    (fun hb => by cases hb) g2 g3
  have hin : ∀ i, In (ivs t) i ↔ i < input.length := by
    intro i
    rw [h4 i, g4 i, in_join, in_span]
    constructor
    · rintro ((hi | hi) | ⟨l, hl, hi⟩)
      · exact absurd hi (not_in_nil i)
      · exact hi.2
      · obtain ⟨e, he, hie⟩ := hraw.leaves l hl i hi
        exact hlt e he i hie
    · intro hi
      exact .inl (.inr ⟨Nat.zero_le _, hi⟩)
  have hbot : bottomUp dbg input.length (traceTree entry bs) = some t := by
    simp only [bottomUp, traceTree, g1, if_true, h1]
    rw [if_neg (by omega)]
  have hvals := bottomUp_vals (fun v => v ≠ .start ∧ ∀ b, v ≠ .term b) dbg _ _ _ hbot (traceTree_vals entry bs)
  have hnt : ∀ n ∈ t.pre, ∀ b, n.val.1 ≠ .term b := by
    intro n hn b
    cases t with
    | node tv tc =>
      simp only [Tree.pre, List.mem_cons] at hn
      rcases hn with rfl | hn
      · rw [h3]; simp
      · exact (hvals.2 n (by simpa [Tree.children] using hn)).2 b
  have hlive : (t.pre.filter isLive).map (fin input) = ((executed bs).filter (fun e => !e.2.isEmpty)).map (block input) := by
    rw [← hraw.live hlt, ← g5, ← live_filter cs' g2, ← h5]
    cases t with
    | node tv tc =>
      have h3' : tv.1 = .start := h3
      simp only [Tree.pre, Tree.children]
      rw [List.filter_cons_of_neg]
      simp [isLive, Tree.val, h3', Val.isBB]
  obtain ⟨r, k1, k2, k3, k4, k5, k6⟩ := topDown_inorder dbg input t h2 hnt ⟨0, (hin 0).2 hL⟩
  have hb := bounds_eq (iv := ivs t) (b := 0) (e := input.length) (fun i hi => ⟨Nat.zero_le _, (hin i).1 hi⟩)
    ((hin 0).2 hL) ((hin _).2 (by omega)) hL
  have hy := k2.reads
  rw [k4, k5, hb.1, hb.2] at hy
  simp only [slice, List.take_length, List.drop_zero] at hy
  have hp : (plain r).pre.filter (·.val.isBB) = ((executed bs).filter (fun e => !e.2.isEmpty)).map (block input) := by
    rw [← hlive, ← k6, plain_pre, found, List.filter_map]
    congr 1
    apply List.filter_congr
    intro n _
    simp [plain_val]
  -- the terminals
  obtain ⟨rd, kd1, -⟩ := topDown_inorder true input t h2 hnt ⟨0, (hin 0).2 hL⟩
  have hterm : Terminated (plain r) := by
    have hg := topDown_any dbg input t (ivs t) r rd k1 kd1
    subst hg
    have hgood := topDown_good input t (ivs t) r hnt kd1
    intro n hn
    rw [plain_pre] at hn
    obtain ⟨m, hm, rfl⟩ := List.mem_map.1 hn
    rw [plain_children, plain_val, List.map_eq_nil_iff]
    exact (hgood.1 m hm).1
  have hw : «matches» (plain r) = some input := by
    obtain ⟨w, hw, -⟩ := verify_node (plain r) hterm
    have hm : «matches» (plain r) = some w.flatten := by
      unfold «matches»
      rw [terminals_eq, hw]
      rfl
    rw [hm]
    have := yield_fringe (plain r) (fun n hn b hb => (hterm n hn).2 ⟨b, hb⟩) w (bytesOf_eq_some.1 hw)
    rw [← this, hy]
  refine ⟨r, ?_, hw, hp⟩
  simp only [nonGeneralized, hbot, k1]
  rw [if_neg]
  simp only [PyIntervals.verify, Bool.and_eq_true, Bool.not_eq_true', not_and, Bool.not_eq_false]
  intro _
  exact ⟨List.all_eq_true.2 k2.bounds, (C61_verify_partial (plain r) hterm input).2 ⟨input, [], hw, by simp⟩⟩

/-- The trace of a program that reads the byte 2, the byte 4 and then the first four bytes. -/
def backTrace : List (Tree TEv) := [.node (.bb 2 0 [2]) [], .node (.bb 3 1 [4]) [], .node (.bb 4 2 [0, 1, 2, 3]) []]

/-- A parse tree need not exist for a program that goes back in its input: the function raises ValueError. -/
theorem C69_order_refuted : nonGeneralized true [List.range 7] 1 backTrace = none := by decide +kernel

/-- Without assertions (`python -O`) a tree is returned in that case that does not read the input. -/
theorem C69_debug_refuted : ∃ r, nonGeneralized false [List.range 7] 1 backTrace = some r ∧
    «matches» (PyIntervals.plain r) ≠ some (List.range 7) := by
  cases h : nonGeneralized false [List.range 7] 1 backTrace with
  | none => exact absurd h (by decide +kernel)
  | some r =>
    refine ⟨r, rfl, ?_⟩
    have : (nonGeneralized false [List.range 7] 1 backTrace).map (fun r => «matches» (PyIntervals.plain r)) ≠ some (some (List.range 7)) := by
      decide +kernel
    rw [h] at this
    simpa using this

/-- A byte that only one block used can be lost to that block if the program went back in its input: the byte 3 was used by
the first block alone, and the tree does not have the block. -/
theorem C69_lost_refuted : ∃ r, nonGeneralized true [List.range 7] 1 [.node (.bb 2 0 [3]) [], .node (.bb 3 1 [0]) []] = some r ∧
    ∀ n ∈ (PyIntervals.plain r).pre, n.val ≠ .bb 2 := by
  cases h : nonGeneralized true [List.range 7] 1 [.node (.bb 2 0 [3]) [], .node (.bb 3 1 [0]) []] with
  | none => exact absurd h (by decide +kernel)
  | some r =>
    refine ⟨r, rfl, ?_⟩
    have : ((nonGeneralized true [List.range 7] 1 [.node (.bb 2 0 [3]) [], .node (.bb 3 1 [0]) []]).map
        (fun r => (PyIntervals.plain r).pre.all (fun n => decide (n.val ≠ .bb 2)))) = some true := by
      decide +kernel
    rw [h] at this
    simpa using this

/-- A node never gives bytes back to the node above it, however recently that used them: what is left of a node
after its parent looked for bytes to take is all of it. -/
theorem C69_rob_refuted (b e uid : Nat) (offs : List Nat) (hne : offs ≠ []) (h : ∀ i ∈ offs, b ≤ i ∧ i < e) :
    deconflictParent (span b e (-1)) (consumed uid offs) = some (consumed uid offs) :=
  deconflictParent_self (uids_consumed uid offs) (fun i hi => h i (in_consumed.1 hi))
    ⟨_, in_consumed.2 (foldr_max hne).1⟩

/-- A trace with a call: a block, a function it called with two blocks, one of which used no bytes, and another block. -/
def exTrace : List (Tree TEv) :=
  [.node (.bb 2 0 [0, 1]) [.node (.fn 5 true) [.node (.bb 6 1 []) [], .node (.bb 7 2 [3, 2]) []]], .node (.bb 4 3 [5]) []]

example : InOrder exTrace ∧ (∀ e ∈ executed exTrace, ∀ i ∈ e.2, i < (List.range 7).length) ∧
    executed exTrace = [(2, [0, 1]), (6, []), (7, [3, 2]), (4, [5])] := by
  unfold InOrder
  decide +kernel

/-- The tree of the example: its blocks, and the bytes they stand over. -/
example : ∃ r, nonGeneralized true [List.range 7] 1 exTrace = some r ∧
    (PyIntervals.plain r).pre.filter (·.val.isBB) =
      [.node (.bb 2) [.node (.term [0, 1]) []], .node (.bb 7) [.node (.term [2, 3]) []], .node (.bb 4) [.node (.term [5]) []]] := by
  obtain ⟨r, h1, -, h2⟩ := C69_inorder_partial true (List.range 7) 1 exTrace (by decide) (by unfold InOrder; decide +kernel)
    (by decide +kernel)
  have he : executed exTrace = [(2, [0, 1]), (6, []), (7, [3, 2]), (4, [5])] := by decide +kernel
  rw [he] at h2
  exact ⟨r, h1, h2⟩

end C69
end Verif
