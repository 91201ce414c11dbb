import Verif.PassIr
/- Helper lemmas about paths and dominance in the language of `Verif.Spec.Ir`, and about the order in which
the pass visits blocks. -/
namespace Verif
namespace Ir
namespace Func

variable {F : Func}

theorem avail_edge {d p q : Pt} (h : F.Avail d q) (e : F.Edge p q) : d = p ∨ F.Avail d p := by
  by_cases c : d = p
  · exact Or.inl c
  · exact Or.inr (fun ha => h (.step ha (fun e => c e.symm) e))

theorem avail_entry {d : Pt} (h : F.Avail d (0, 0)) : False := h .entry

theorem avail_trans {a b c : Pt} (h1 : F.Avail a b) (h2 : F.Avail b c) : F.Avail a c := by
  intro h
  apply h1
  induction h with
  | entry => exact absurd .entry h2
  | step hp hne he ih =>
    rcases avail_edge h2 he with rfl | h
    · exact hp
    · exact ih h

/-- Paths with their length. -/
inductive ReachN (F : Func) : Nat → Pt → Prop where
  | entry : ReachN F 0 (0, 0)
  | step {n p q} : ReachN F n p → F.Edge p q → ReachN F (n + 1) q

theorem Reach.len {p : Pt} (h : F.Reach p) : ∃ n, F.ReachN n p := by
  induction h with
  | entry => exact ⟨0, .entry⟩
  | step _ e ih => obtain ⟨n, hn⟩ := ih; exact ⟨n + 1, .step hn e⟩

theorem ReachN.shorter {n : Nat} {p d : Pt} (h : F.ReachN n p) (ha : F.Avail d p) :
    ∃ m, m < n ∧ F.ReachN m d := by
  induction h with
  | entry => exact absurd .entry ha
  | step hp e ih =>
    rcases avail_edge ha e with rfl | h
    · exact ⟨_, Nat.lt_succ_self _, hp⟩
    · obtain ⟨m, h1, h2⟩ := ih h
      exact ⟨m, by omega, h2⟩

theorem avail_antisymm {p d : Pt} (hr : F.Reach p) (h1 : F.Avail d p) (h2 : F.Avail p d) : False := by
  obtain ⟨n, hn⟩ := hr.len
  induction n using Nat.strongRecOn with
  | _ n ih =>
    obtain ⟨m, hm, hd⟩ := hn.shorter h1
    obtain ⟨k, hk, hp⟩ := hd.shorter h2
    exact ih k (by omega) hp

theorem avail_irrefl {p : Pt} (hr : F.Reach p) (h : F.Avail p p) : False := avail_antisymm hr h h

theorem reach_of_avail {d p : Pt} (hr : F.Reach p) (h : F.Avail d p) : F.Reach d := by
  induction hr with
  | entry => exact absurd .entry h
  | step hp e ih =>
    rcases avail_edge h e with rfl | h
    · exact hp
    · exact ih h

theorem avoid_block {a k : Nat} {B : Block} (hB : F.blocks[a]? = some B) (hk : k ≤ B.body.length + 1)
    {q : Pt} (h : F.Avoid (a, k) q) : (q.1 ≠ a → F.BAvoid a q.1) ∧ (q.1 = a → q.2 ≤ k) := by
  induction h with
  | entry => exact ⟨fun h => .entry (fun e => h e.symm), fun _ => Nat.zero_le _⟩
  | step hp hne he ih =>
    cases he with
    | @seq b B' j hb hj =>
      refine ⟨ih.1, fun e => ?_⟩
      have h1 := ih.2 e
      simp only at e h1 hne
      subst e
      have : j ≠ k := fun e => hne (by rw [e])
      simp only
      omega
    | @jump b B' t hb ht =>
      simp only at ih hne ⊢
      refine ⟨fun hta => ?_, fun _ => Nat.zero_le _⟩
      by_cases c : b = a
      · subst c
        have h1 := ih.2 rfl
        rw [hB, Option.some.injEq] at hb
        subst hb
        exact absurd (by rw [show k = B.body.length + 1 by omega]) hne
      · exact .step (ih.1 c) hb ht hta

theorem avail_same {b k k' : Nat} {B : Block} (hB : F.blocks[b]? = some B)
    (hk : k ≤ B.body.length + 1) (h : k < k') : F.Avail (b, k) (b, k') := by
  intro ha
  have := (avoid_block hB hk ha).2 rfl
  simp only at this
  omega

theorem avail_dom {a b k j : Nat} {B : Block} (hB : F.blocks[a]? = some B)
    (hk : k ≤ B.body.length + 1) (hab : a ≠ b) (hd : ¬ F.BAvoid a b) : F.Avail (a, k) (b, j) :=
  fun ha => hd ((avoid_block hB hk ha).1 (fun e => hab e.symm))

/-- A path to `p` inside `S`. -/
inductive PathIn (F : Func) (S : Pt → Prop) : Pt → Prop where
  | entry : PathIn F S (0, 0)
  | step {p q} : PathIn F S p → S p → F.Edge p q → PathIn F S q

theorem PathIn.avail {S : Pt → Prop} {p d : Pt} (h : F.PathIn S p) (ha : F.Avail d p) : S d := by
  induction h with
  | entry => exact absurd .entry ha
  | step hp hs e ih =>
    rcases avail_edge ha e with rfl | h
    · exact hs
    · exact ih h

theorem PathIn.reach {S : Pt → Prop} {p : Pt} (h : F.PathIn S p) : F.Reach p := by
  induction h with
  | entry => exact .entry
  | step _ _ e ih => exact .step ih e

theorem PathIn.mono {S T : Pt → Prop} (hST : ∀ q, S q → T q) {p : Pt} (h : F.PathIn S p) :
    F.PathIn T p := by
  induction h with
  | entry => exact .entry
  | step _ hs e ih => exact .step ih (hST _ hs) e

end Func
end Ir

namespace PassIr
open Ir

/-! ### Depth-first order -/

/-- What holds of the list of visited blocks and the stack during the search. -/
structure DfsInv (succ : Nat → List Nat) (N : Nat) (st : List (List Nat)) (out : List Nat) : Prop where
  nodup : out.Nodup
  lt : ∀ x ∈ out, x < N
  slt : ∀ cs ∈ st, ∀ x ∈ cs, x < N
  head : ∃ r, out = 0 :: r
  tree : ∀ pre x post, out = pre ++ x :: post → pre ≠ [] → ∃ y ∈ pre, x ∈ succ y
  pend : ∀ cs ∈ st, ∀ x ∈ cs, ∃ y ∈ out, x ∈ succ y
  closed : ∀ x ∈ out, ∀ y ∈ succ x, y ∈ out ∨ ∃ cs ∈ st, y ∈ cs

/-- Work left: pops and children. -/
def dfsWork (succ : Nat → List Nat) (N : Nat) (st : List (List Nat)) (out : List Nat) : Nat :=
  (((List.range N).filter (· ∉ out)).map (fun b => (succ b).length + 1)).sum +
    (st.map (fun cs => cs.length + 1)).sum

theorem filter_sum_push {f : Nat → Nat} : ∀ (l : List Nat) (out : List Nat) (c : Nat), l.Nodup → c ∈ l →
    c ∉ out →
    ((l.filter (· ∉ out)).map f).sum = ((l.filter (· ∉ out ++ [c])).map f).sum + f c := by
  intro l
  induction l with
  | nil => intro _ _ _ h; cases h
  | cons x l ih =>
    intro out c hn hc ho
    obtain ⟨h1, h2⟩ := List.nodup_cons.1 hn
    by_cases e : x = c
    · subst e
      have hl : l.filter (fun y => decide (y ∉ out)) = l.filter (fun y => decide (y ∉ out ++ [x])) := by
        apply List.filter_congr
        intro y hy
        have : y ≠ x := fun e => h1 (e ▸ hy)
        simp [this]
      rw [List.filter_cons_of_pos (by simpa using ho), List.filter_cons_of_neg (by simp), hl]
      simp [Nat.add_comm]
    · have hc' : c ∈ l := by
        rcases List.mem_cons.1 hc with h | h
        · exact absurd h.symm e
        · exact h
      by_cases hx : x ∈ out
      · rw [List.filter_cons_of_neg (by simpa using hx), List.filter_cons_of_neg (by simp [hx])]
        exact ih out c h2 hc' ho
      · rw [List.filter_cons_of_pos (by simpa using hx),
          List.filter_cons_of_pos (by simp [hx, e])]
        simp only [List.map_cons, List.sum_cons]
        rw [ih out c h2 hc' ho]
        omega

theorem dfsGo_spec {succ : Nat → List Nat} {N : Nat} (hs : ∀ b, b < N → ∀ x ∈ succ b, x < N) :
    ∀ (fuel : Nat) (st : List (List Nat)) (out : List Nat), DfsInv succ N st out →
      dfsWork succ N st out < fuel → DfsInv succ N [] (dfsGo succ fuel st out) := by
  intro fuel
  induction fuel with
  | zero => intro _ _ _ h; omega
  | succ fuel ih =>
    intro st out hi hw
    match st with
    | [] => exact hi
    | [] :: st =>
      refine ih st out ⟨hi.nodup, hi.lt, fun cs h => hi.slt cs (by simp [h]), hi.head, hi.tree,
        fun cs h => hi.pend cs (by simp [h]), fun x hx y hy => ?_⟩ ?_
      · rcases hi.closed x hx y hy with h | ⟨cs, h1, h2⟩
        · exact Or.inl h
        · rcases List.mem_cons.1 h1 with rfl | h1
          · cases h2
          · exact Or.inr ⟨cs, h1, h2⟩
      · simp only [dfsWork, List.map_cons, List.sum_cons, List.length_nil] at hw ⊢
        omega
    | (c :: cs) :: st =>
      unfold dfsGo
      split
      · rename_i hc
        refine ih (cs :: st) out ⟨hi.nodup, hi.lt, ?_, hi.head, hi.tree, ?_, ?_⟩ ?_
        · intro ds hd x hx
          rcases List.mem_cons.1 hd with rfl | hd
          · exact hi.slt (c :: ds) (by simp) x (by simp [hx])
          · exact hi.slt ds (by simp [hd]) x hx
        · intro ds hd x hx
          rcases List.mem_cons.1 hd with rfl | hd
          · exact hi.pend (c :: ds) (by simp) x (by simp [hx])
          · exact hi.pend ds (by simp [hd]) x hx
        · intro x hx y hy
          rcases hi.closed x hx y hy with h | ⟨ds, h1, h2⟩
          · exact Or.inl h
          · rcases List.mem_cons.1 h1 with rfl | h1
            · rcases List.mem_cons.1 h2 with rfl | h2
              · exact Or.inl hc
              · exact Or.inr ⟨cs, by simp, h2⟩
            · exact Or.inr ⟨ds, by simp [h1], h2⟩
        · simp only [dfsWork, List.map_cons, List.sum_cons, List.length_cons] at hw ⊢
          omega
      · rename_i hc
        have hcN : c < N := hi.slt (c :: cs) (by simp) c (by simp)
        refine ih (succ c :: cs :: st) (out ++ [c]) ⟨?_, ?_, ?_, ?_, ?_, ?_, ?_⟩ ?_
        · rw [List.nodup_append]
          refine ⟨hi.nodup, by simp, fun x hx y hy => ?_⟩
          simp only [List.mem_singleton] at hy
          subst hy
          exact fun e => hc (e ▸ hx)
        · intro x hx
          rcases List.mem_append.1 hx with h | h
          · exact hi.lt x h
          · simp only [List.mem_singleton] at h; subst h; exact hcN
        · intro ds hd x hx
          rcases List.mem_cons.1 hd with rfl | hd
          · exact hs c hcN x hx
          rcases List.mem_cons.1 hd with rfl | hd
          · exact hi.slt (c :: ds) (by simp) x (by simp [hx])
          · exact hi.slt ds (by simp [hd]) x hx
        · obtain ⟨r, hr⟩ := hi.head
          exact ⟨r ++ [c], by rw [hr]; rfl⟩
        · intro pre x post he hpre
          rcases List.eq_nil_or_concat post with rfl | ⟨post', z, rfl⟩
          · obtain ⟨e1, e2⟩ := List.append_inj' he (by simp)
            simp only [List.cons.injEq, and_true] at e2
            subst e1; subst e2
            exact hi.pend (c :: cs) (by simp) c (by simp)
          · have he' : out ++ [c] = (pre ++ x :: post') ++ [z] := by rw [he]; simp
            obtain ⟨e1, -⟩ := List.append_inj' he' (by simp)
            exact hi.tree pre x post' e1 hpre
        · intro ds hd x hx
          rcases List.mem_cons.1 hd with rfl | hd
          · exact ⟨c, by simp, hx⟩
          have : ∃ y ∈ out, x ∈ succ y := by
            rcases List.mem_cons.1 hd with rfl | hd
            · exact hi.pend (c :: ds) (by simp) x (by simp [hx])
            · exact hi.pend ds (by simp [hd]) x hx
          obtain ⟨y, h1, h2⟩ := this
          exact ⟨y, by simp [h1], h2⟩
        · intro x hx y hy
          rcases List.mem_append.1 hx with h | h
          · rcases hi.closed x h y hy with h | ⟨ds, h1, h2⟩
            · exact Or.inl (by simp [h])
            · rcases List.mem_cons.1 h1 with rfl | h1
              · rcases List.mem_cons.1 h2 with rfl | h2
                · exact Or.inl (by simp)
                · exact Or.inr ⟨cs, by simp, h2⟩
              · exact Or.inr ⟨ds, by simp [h1], h2⟩
          · simp only [List.mem_singleton] at h; subst h
            exact Or.inr ⟨succ x, by simp, hy⟩
        · have hsum := filter_sum_push (f := fun b => (succ b).length + 1) (List.range N) out c
            List.nodup_range (List.mem_range.2 hcN) hc
          simp only [dfsWork, List.map_cons, List.sum_cons, List.length_cons] at hw ⊢
          omega

/-- The order visits the entry first, every other block after one of its predecessors, and all
successors of visited blocks. -/
theorem order_spec {F : Func} (hv : F.Valid) (h0 : F.blocks ≠ []) :
    DfsInv (succOf F) F.blocks.length [] (order F) := by
  have hN : 0 < F.blocks.length := List.length_pos_iff.2 h0
  have hs : ∀ b, b < F.blocks.length → ∀ x ∈ succOf F b, x < F.blocks.length := by
    intro b hb x hx
    unfold succOf at hx
    rw [List.getElem?_eq_getElem hb] at hx
    exact hv.target b _ x (List.getElem?_eq_getElem hb) hx
  apply dfsGo_spec hs
  · refine ⟨by simp, ?_, ?_, ⟨[], rfl⟩, ?_, ?_, ?_⟩
    · intro x hx; simp only [List.mem_singleton] at hx; omega
    · intro cs hc x hx
      simp only [List.mem_singleton] at hc
      subst hc
      exact hs 0 hN x hx
    · intro pre x post he hp
      match pre with
      | [] => exact absurd rfl hp
      | y :: pre => simp at he
    · intro cs hc x hx
      simp only [List.mem_singleton] at hc
      subst hc
      exact ⟨0, by simp, hx⟩
    · intro x hx y hy
      simp only [List.mem_singleton] at hx
      subst hx
      exact Or.inr ⟨_, by simp, hy⟩
  · have := filter_sum_push (f := fun b => (succOf F b).length + 1) (List.range F.blocks.length) [] 0
      List.nodup_range (List.mem_range.2 hN) (by simp)
    have hall : (List.range F.blocks.length).filter (fun x => decide (x ∉ ([] : List Nat))) =
      List.range F.blocks.length := by
      rw [List.filter_eq_self]; simp
    rw [hall] at this
    simp only [dfsWork, List.map_cons, List.map_nil, List.sum_cons, List.sum_nil]
    simp only [List.nil_append] at this
    omega

end PassIr
end Verif
