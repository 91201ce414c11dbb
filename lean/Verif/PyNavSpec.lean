import Verif.PyNav
/- Frames of a trace, and the contract of `function_entry` and `function_return`. -/
namespace Verif.PyNav

/-- What an event at position `i` does to the open functions. -/
def push (i : Nat) : Ev → List Nat → List Nat
  | .enter, s => i :: s
  | .block _, s => s
  | .ret, s => s.tail
  | .other, s => s

/-- The functions (positions of their entries) that are open before the event at position `i`, innermost first. -/
def stackAt (evs : List Ev) : Nat → List Nat
  | 0 => []
  | i + 1 =>
    match evs[i]? with
    | none => stackAt evs i
    | some e => push i e (stackAt evs i)

/-- The function in which the event at position `i` takes place. -/
def frame (evs : List Ev) (i : Nat) : Option Nat := (stackAt evs i).head?

/-- Blocks and returns know their function; entries know the return that ends them. -/
structure Tr.Ok (T : Tr) : Prop where
  block : ∀ (i b : Nat), T.evs[i]? = some (.block b) → T.entry i = frame T.evs i
  back : ∀ i : Nat, T.evs[i]? = some .ret → T.entry i = frame T.evs i
  ret : ∀ i j : Nat, T.evs[i]? = some .enter → (T.ret i = some j ↔ T.evs[j]? = some .ret ∧ frame T.evs j = some i)

variable {evs : List Ev}

theorem stackAt_succ {i : Nat} {e : Ev} (h : evs[i]? = some e) : stackAt evs (i + 1) = push i e (stackAt evs i) := by
  simp [stackAt, h]

theorem stackAt_none {i : Nat} (h : evs[i]? = none) : stackAt evs (i + 1) = stackAt evs i := by
  simp [stackAt, h]

theorem stackAt_sorted (i : Nat) : (stackAt evs i).Pairwise (· > ·) ∧ (∀ x ∈ stackAt evs i, x < i) ∧
    ∀ x ∈ stackAt evs i, evs[x]? = some .enter := by
  induction i with
  | zero => simp [stackAt]
  | succ i ih =>
    obtain ⟨h1, h2, h3⟩ := ih
    unfold stackAt
    cases h : evs[i]? with
    | none => exact ⟨h1, fun x hx => Nat.lt_succ_of_lt (h2 x hx), h3⟩
    | some e =>
      cases e with
      | enter =>
        refine ⟨List.pairwise_cons.2 ⟨fun x hx => h2 x hx, h1⟩, fun x hx => ?_, fun x hx => ?_⟩
        · rcases List.mem_cons.1 hx with rfl | hx
          · omega
          · have := h2 x hx; omega
        · rcases List.mem_cons.1 hx with rfl | hx
          · exact h
          · exact h3 x hx
      | block b => exact ⟨h1, fun x hx => Nat.lt_succ_of_lt (h2 x hx), h3⟩
      | other => exact ⟨h1, fun x hx => Nat.lt_succ_of_lt (h2 x hx), h3⟩
      | ret =>
        refine ⟨h1.sublist (List.tail_sublist _), fun x hx => ?_, fun x hx => h3 x (List.mem_of_mem_tail hx)⟩
        have := h2 x (List.mem_of_mem_tail hx); omega

/-- A function that is closed stays closed. -/
theorem stackAt_gone {j m : Nat} (hj : j < m) (h : j ∉ stackAt evs m) : ∀ k, m ≤ k → j ∉ stackAt evs k := by
  intro k hk
  induction hk with
  | refl => exact h
  | @step k hk ih =>
    unfold stackAt
    cases he : evs[k]? with
    | none => exact ih
    | some e =>
      cases e with
      | enter =>
        intro hx
        rcases List.mem_cons.1 hx with rfl | hx
        · have : m ≤ j := hk
          omega
        · exact ih hx
      | block b => exact ih
      | other => exact ih
      | ret => exact fun hx => ih (List.mem_of_mem_tail hx)

/-- While a function is open, the functions around it are too. -/
theorem stackAt_suffix {j : Nat} (hj : evs[j]? = some .enter) : ∀ k, j < k → j ∈ stackAt evs k →
    (j :: stackAt evs j) <:+ stackAt evs k := by
  intro k hk
  induction hk with
  | refl => intro _; rw [stackAt_succ hj]; exact List.suffix_rfl
  | @step k hk ih =>
    intro hin
    have hk' : j < k := hk
    by_cases hm : j ∈ stackAt evs k
    · have hs := ih hm
      cases he : evs[k]? with
      | none => rw [stackAt_none he]; exact hs
      | some e =>
        rw [stackAt_succ he] at hin ⊢
        cases e with
        | enter => exact hs.trans (List.suffix_cons _ _)
        | block b => exact hs
        | other => exact hs
        | ret =>
          obtain ⟨t, ht⟩ := hs
          simp only [push] at hin ⊢
          rw [← ht] at hin ⊢
          cases t with
          | nil =>
            simp only [List.nil_append, List.tail_cons] at hin
            have := (stackAt_sorted (evs := evs) j).2.1 j hin
            omega
          | cons x t => exact ⟨t, rfl⟩
    · exact absurd hin (stackAt_gone hk' hm (k + 1) (by omega))

theorem frame_stack {k j : Nat} (h : frame evs k = some j) : stackAt evs k = j :: stackAt evs j ∧ j < k ∧ evs[j]? = some .enter := by
  unfold frame at h
  have hm : j ∈ stackAt evs k := List.mem_of_mem_head? h
  obtain ⟨h1, h2, h3⟩ := stackAt_sorted (evs := evs) k
  have hlt := h2 j hm
  have he := h3 j hm
  obtain ⟨t, ht⟩ := stackAt_suffix he k hlt hm
  refine ⟨?_, hlt, he⟩
  cases t with
  | nil => exact ht.symm
  | cons x t =>
    rw [← ht] at h h1
    simp only [List.cons_append, List.head?_cons, Option.some.injEq] at h
    subst h
    have := (List.pairwise_cons.1 h1).1 x (by simp)
    omega

/-- In a frame the innermost open function is the latest. -/
theorem le_frame {k j e : Nat} (h : frame evs k = some e) (hj : j ∈ stackAt evs k) : j ≤ e := by
  have hs := (frame_stack h).1
  have h1 := (stackAt_sorted (evs := evs) k).1
  rw [hs] at hj h1
  rcases List.mem_cons.1 hj with rfl | hj
  · exact Nat.le_refl _
  · exact Nat.le_of_lt ((List.pairwise_cons.1 h1).1 j hj)

/-- A function that is not open any more has returned. -/
theorem returned {j m : Nat} (hj : evs[j]? = some .enter) (hm : j < m) (h : j ∉ stackAt evs m) :
    ∃ k, j < k ∧ k < m ∧ evs[k]? = some .ret ∧ frame evs k = some j := by
  induction m with
  | zero => omega
  | succ m ih =>
    by_cases hjm : j = m
    · subst hjm
      rw [stackAt_succ hj] at h
      exact absurd List.mem_cons_self h
    · have hlt : j < m := by omega
      by_cases hin : j ∈ stackAt evs m
      · unfold stackAt at h
        cases he : evs[m]? with
        | none => rw [he] at h; exact absurd hin h
        | some e =>
          rw [he] at h
          cases e with
          | enter => exact absurd (List.mem_cons_of_mem _ hin) h
          | block b => exact absurd hin h
          | other => exact absurd hin h
          | ret =>
            refine ⟨m, hlt, by omega, he, ?_⟩
            simp only [push] at h
            unfold frame
            cases hs : stackAt evs m with
            | nil => rw [hs] at hin; cases hin
            | cons x s =>
              rw [hs] at hin h
              rcases List.mem_cons.1 hin with rfl | hin
              · rfl
              · exact absurd hin h
      · obtain ⟨k, h1, h2, h3⟩ := ih hlt hin
        exact ⟨k, h1, by omega, h3⟩

/-- Between the entry and the return of a function there is nothing of the frames around it. -/
theorem inside {j k m e : Nat} (hk : frame evs k = some j) (h1 : j < m) (h2 : m ≤ k) (he : e < j) : frame evs m ≠ some e := by
  intro h
  by_cases hin : j ∈ stackAt evs m
  · have := le_frame h hin; omega
  · refine stackAt_gone h1 hin k h2 ?_
    rw [(frame_stack hk).1]; exact List.mem_cons_self

/-- After its return there is nothing of a frame. -/
theorem closed {e j m : Nat} (hr : evs[j]? = some .ret) (h : frame evs j = some e) (hm : j < m) : frame evs m ≠ some e := by
  intro h'
  obtain ⟨hs, hlt, -⟩ := frame_stack h
  have hgone : e ∉ stackAt evs (j + 1) := by
    rw [stackAt_succ hr, push, hs, List.tail_cons]
    intro hx
    have := (stackAt_sorted (evs := evs) e).2.1 e hx
    omega
  refine stackAt_gone (by omega) hgone m hm ?_
  rw [(frame_stack h').1]; exact List.mem_cons_self

theorem frame_enter {j : Nat} (hj : evs[j]? = some .enter) : frame evs (j + 1) = some j := by
  unfold frame; rw [stackAt_succ hj]; rfl

theorem frame_block {j b : Nat} (hj : evs[j]? = some (.block b)) : frame evs (j + 1) = frame evs j := by
  unfold frame; rw [stackAt_succ hj]; rfl

theorem frame_other {j : Nat} (hj : evs[j]? = some .other) : frame evs (j + 1) = frame evs j := by
  unfold frame; rw [stackAt_succ hj]; rfl

/-- After a call the frame is the one before it. -/
theorem frame_after {j k : Nat} (hr : evs[k]? = some .ret) (hk : frame evs k = some j) : frame evs (k + 1) = frame evs j := by
  unfold frame; rw [stackAt_succ hr, push, (frame_stack hk).1]; rfl

/-- In a frame that goes on after a call, the call has returned. -/
theorem must_return {j m e : Nat} (hj : evs[j]? = some .enter) (hm : j < m) (h : frame evs m = some e) (he : e < j) :
    ∃ k, j < k ∧ k < m ∧ evs[k]? = some .ret ∧ frame evs k = some j :=
  returned hj hm fun hin => by have := le_frame h hin; omega

end Verif.PyNav
