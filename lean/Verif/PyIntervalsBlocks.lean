import Verif.PyIntervalsInorder
/- Lemmas for C69: the blocks of the tree are blocks of the trace. -/
namespace Verif.PyIntervals
open Verif.Spec Verif.PyTree PyGrammar

/-- `a` has no offsets that `b` does not have. -/
def Sub (a b : Ivs) : Prop := ∀ i, In a i → In b i

theorem sub_chop (b e : Int) (iv : Ivs) : Sub (chop b e iv) iv := by
  intro i h
  unfold In at h ⊢
  rw [get_chop] at h
  split at h
  · cases h
  · exact h

theorem sub_sibling (a b : Ivs) : Sub (deconflictSibling a b).1 a ∧ Sub (deconflictSibling a b).2 b := by
  unfold deconflictSibling
  split
  · exact ⟨fun _ h => h, fun _ h => h⟩
  · exact ⟨sub_chop _ _ _, sub_chop _ _ _⟩

theorem sub_parent {p iv iv' : Ivs} (h : deconflictParent p iv = some iv') : Sub iv' iv := by
  unfold deconflictParent at h
  simp only at h
  split at h
  · cases h
  · split at h
    · cases h
    · cases h; exact sub_chop _ _ _

theorem sub_shrink {b e : Nat} {p iv iv' : Ivs} (h : shrink b e p iv = some iv') : Sub iv' iv := by
  unfold shrink at h
  simp only at h
  have h1 : Sub (if end_ (chop 0 b iv) > e then chop e (end_ (chop 0 b iv)) (chop 0 b iv) else chop 0 b iv) iv := by
    split
    · exact fun i hi => sub_chop _ _ _ i (sub_chop _ _ _ i hi)
    · exact sub_chop _ _ _
  generalize (if end_ (chop 0 b iv) > e then chop e (end_ (chop 0 b iv)) (chop 0 b iv) else chop 0 b iv) = jv at h h1
  split at h
  · exact fun i hi => h1 i (sub_parent h i hi)
  · cases h; exact h1

theorem deconflictFrom_mem : ∀ (ts : List NTree) (v : Val) (a : Ivs) (as : List NTree), ∀ t ∈ deconflictFrom v a as ts,
    ∃ w iv jv cs, t = .node (w, iv) cs ∧ Sub iv jv ∧ Tree.node (w, jv) cs ∈ Tree.node (v, a) as :: ts
  | [], v, a, as, t, ht => by
    simp only [deconflictFrom, List.mem_singleton] at ht
    subst ht
    exact ⟨v, a, a, as, rfl, fun _ h => h, by simp⟩
  | .node (w, b) bs :: ts, v, a, as, t, ht => by
    simp only [deconflictFrom, List.mem_cons] at ht
    rcases ht with rfl | ht
    · exact ⟨v, _, a, as, rfl, (sub_sibling a b).1, by simp⟩
    · obtain ⟨x, iv, jv, cs, h1, h2, h3⟩ := deconflictFrom_mem ts w _ bs t ht
      rcases List.mem_cons.1 h3 with h3 | h3
      · injection h3 with h4 h5
        injection h4 with h4 h6
        subst h4 h5 h6
        exact ⟨x, iv, b, cs, h1, fun i hi => (sub_sibling a b).2 i (h2 i hi), by simp⟩
      · exact ⟨x, iv, jv, cs, h1, h2, by simp [h3]⟩

theorem deconflicts_mem (ts : List NTree) : ∀ t ∈ deconflicts ts,
    ∃ w iv jv cs, t = .node (w, iv) cs ∧ Sub iv jv ∧ Tree.node (w, jv) cs ∈ ts := by
  match ts with
  | [] => intro t ht; simp [deconflicts] at ht
  | .node (v, a) as :: ts => exact deconflictFrom_mem ts v a as

/-- A block among `ex` that has no offsets it did not use. -/
def FromTrace (ex : List (Nat × List Nat)) (n : NTree) : Prop :=
  ∀ name, n.val.1 = .bb name → n.children = [] ∧ ∃ offs, (name, offs) ∈ ex ∧ ∀ i, In (ivs n) i → i ∈ offs

theorem pass_from {ex : List (Nat × List Nat)} {dbg : Bool} {v : Val} {iv : Ivs} {cs : List NTree} {t : NTree}
    (h : bottomUpPass dbg v iv cs = some t) (h0 : ∀ name, v = .bb name → cs = [] ∧ FromTrace ex (.node (v, iv) []))
    (hc : ∀ n ∈ Tree.preL cs, FromTrace ex n) : ∀ n ∈ t.pre, FromTrace ex n := by
  rw [pass_some h]
  intro n hn
  rcases mem_pre_iff.1 hn with rfl | ⟨u, hu, hn⟩
  · intro name hv
    simp only [Tree.val] at hv
    obtain ⟨rfl, h2⟩ := h0 name hv
    exact h2 name hv
  · obtain ⟨w, iv, jv, us, rfl, hs, hm⟩ := deconflicts_mem _ u hu
    have hm := (List.mem_filter.1 hm).1
    rcases mem_pre_iff.1 hn with rfl | ⟨t, h2, h3⟩
    · intro name hv
      obtain ⟨e1, offs, e2, e3⟩ := hc _ (mem_preL_iff.2 ⟨_, hm, self_pre _⟩) name hv
      exact ⟨e1, offs, e2, fun i hi => e3 i (hs i hi)⟩
    · exact hc n (mem_preL_iff.2 ⟨_, hm, mem_pre_iff.2 (.inr ⟨t, h2, h3⟩)⟩)

mutual
theorem bottomUp_from (ex : List (Nat × List Nat)) (dbg : Bool) (n : Nat) : ∀ (t t' : NTree), bottomUp dbg n t = some t' →
    (∀ m ∈ t.pre, FromTrace ex m) → ∀ m ∈ t'.pre, FromTrace ex m
  | .node (v, iv) cs, t', h, hp => by
    unfold bottomUp at h
    cases hb : bottomUps dbg n cs with
    | none => simp [hb] at h
    | some cs' =>
      simp only [hb] at h
      have h2 := bottomUps_from ex dbg n cs cs' hb (fun m hm => hp m (by simp [Tree.pre, hm]))
      split at h
      · rename_i hs
        split at h
        · cases h
        · exact pass_from h (fun name hv => by rw [hs] at hv; cases hv) h2
      · refine pass_from h (fun name hv => ?_) h2
        have h0 := hp _ (self_pre _)
        have hc : cs = [] := (h0 name hv).1
        subst hc
        simp only [bottomUps, Option.some.injEq] at hb
        exact ⟨hb.symm, h0⟩
theorem bottomUps_from (ex : List (Nat × List Nat)) (dbg : Bool) (n : Nat) : ∀ (ts ts' : List NTree),
    bottomUps dbg n ts = some ts' → (∀ m ∈ Tree.preL ts, FromTrace ex m) → ∀ m ∈ Tree.preL ts', FromTrace ex m
  | [], ts', h, hp => by
    simp only [bottomUps, Option.some.injEq] at h
    subst h
    exact hp
  | t :: ts, ts', h, hp => by
    unfold bottomUps at h
    cases hb : bottomUp dbg n t with
    | none => simp [hb] at h
    | some t1 =>
      simp only [hb, Option.map_eq_some_iff] at h
      obtain ⟨ts1, h1, rfl⟩ := h
      have hv := bottomUp_from ex dbg n t t1 hb (fun m hm => hp m (by simp [Tree.preL, hm]))
      have h2 := bottomUps_from ex dbg n ts ts1 h1 (fun m hm => hp m (by simp [Tree.preL, hm]))
      intro m hm
      simp only [Tree.preL, List.mem_append] at hm
      exact hm.elim (hv m) (h2 m)
end

/-- A block among `ex` over bytes from one it used to one it used. -/
def Kept (ex : List (Nat × List Nat)) (input : List Nat) (n : NTree) : Prop :=
  ∀ name, n.val.1 = .bb name → ∃ offs lo hi, (name, offs) ∈ ex ∧ lo ∈ offs ∧ hi ∈ offs ∧ lo ≤ hi ∧
    n.children = [terminal input lo (hi + 1)]

theorem kept_terminal {ex : List (Nat × List Nat)} {input : List Nat} {x y : Nat} :
    ∀ n ∈ (terminal input x y).pre, Kept ex input n := by
  intro n hn
  simp only [terminal, Tree.pre, Tree.preL, List.mem_cons, List.not_mem_nil, or_false] at hn
  subst hn
  intro name h
  cases h

mutual
theorem topDown_kept (ex : List (Nat × List Nat)) (dbg : Bool) (input : List Nat) : ∀ (t : NTree) (iv : Ivs) (r : NTree),
    (∀ n ∈ t.pre, FromTrace ex n) → Sub iv (ivs t) → begin_ iv < end_ iv →
    topDown dbg input t iv = some r → ∀ n ∈ r.pre, Kept ex input n
  | .node (v, jv) cs, iv, r, ht, hs, hlt, h => by
    unfold topDown at h
    rw [if_neg (by omega), Option.map_eq_some_iff] at h
    obtain ⟨ts, h1, rfl⟩ := h
    have hl := topDowns_kept ex dbg input _ _ cs _ ts (fun n hn => ht n (by simp [Tree.pre, hn])) h1
    intro n hn
    rcases mem_pre_iff.1 hn with rfl | ⟨t, h2, h3⟩
    · intro name hv
      obtain ⟨e1, offs, e2, e3⟩ := ht _ (self_pre _) name hv
      simp only [Tree.children] at e1
      subst e1
      simp only [topDowns, hlt, if_true, Option.some.injEq] at h1
      subst h1
      obtain ⟨i, hi⟩ := nonempty_iff.1 hlt
      have h4 := begin_spec hi
      have h5 := end_spec hi
      refine ⟨offs, begin_ iv, end_ iv - 1, e2, e3 _ (hs _ h4.1), e3 _ (hs _ h5.2.2), by omega, ?_⟩
      rw [Nat.sub_add_cancel (by omega)]
      rfl
    · exact hl t h2 n h3
theorem topDowns_kept (ex : List (Nat × List Nat)) (dbg : Bool) (input : List Nat) (b e : Nat) :
    ∀ (ts : List NTree) (last : Nat) (rs : List NTree),
    (∀ n ∈ Tree.preL ts, FromTrace ex n) → topDowns dbg input b e ts last = some rs →
    ∀ t ∈ rs, ∀ n ∈ t.pre, Kept ex input n
  | [], last, rs, _, h => by
    simp only [topDowns, Option.some.injEq] at h
    subst h
    intro t ht
    split at ht
    · rw [List.mem_singleton] at ht
      subst ht
      exact kept_terminal
    · simp at ht
  | .node (v, iv) cs :: ts, last, rs, ht, h => by
    have ht1 : ∀ n ∈ (Tree.node (v, iv) cs).pre, FromTrace ex n := fun n hn => ht n (by simp [Tree.preL, hn])
    have ht2 : ∀ n ∈ Tree.preL ts, FromTrace ex n := fun n hn => ht n (by simp [Tree.preL, hn])
    unfold topDowns at h
    cases hs : shrink b e (span b e (-1)) iv with
    | none => simp [hs] at h
    | some iv' =>
      simp only [hs] at h
      by_cases hb : end_ iv' ≤ begin_ iv'
      · simp only [hb, if_true] at h
        exact topDowns_kept ex dbg input b e ts last rs ht2 h
      · simp only [hb, if_false] at h
        cases h1 : topDown dbg input (.node (v, iv) cs) iv' with
        | none => simp [h1] at h
        | some t =>
          cases h2 : topDowns dbg input b e ts (end_ iv') with
          | none => simp [h1, h2] at h
          | some us =>
            simp only [h1, h2, Option.some.injEq] at h
            subst h
            intro u hu
            simp only [List.mem_append, List.mem_cons] at hu
            rcases hu with hu | rfl | hu
            · split at hu
              · rw [List.mem_singleton] at hu
                subst hu
                exact kept_terminal
              · simp at hu
            · exact topDown_kept ex dbg input _ _ _ ht1 (sub_shrink hs) (by omega) h1
            · exact topDowns_kept ex dbg input b e ts _ us ht2 h2 u hu
end

end Verif.PyIntervals
