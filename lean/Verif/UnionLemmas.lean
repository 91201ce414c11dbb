import Verif.Union
import Verif.GraphLemmas
/- Helper lemmas: the union computation preserves meaning and legality. -/
namespace Verif
open Spec

theorem unionLabels_den (D : Nat → Nat × Nat → Prop) (left right : Nat) (b : Nat × Nat) :
    DenT D (unionLabels left right) b ↔ D left b ∨ D right b := by
  unfold unionLabels
  split
  · rename_i h
    simp only [DenT]
    constructor
    · rintro ⟨k, h1, h2, h3⟩
      have : k = left ∨ k = right := by omega
      rcases this with rfl | rfl
      · exact Or.inl h3
      · exact Or.inr h3
    · rintro (h1 | h1)
      · exact ⟨left, by omega, by omega, h1⟩
      · exact ⟨right, by omega, by omega, h1⟩
  · split
    · simp only [DenT]
      constructor
      · rintro ⟨k, h1, h2, h3⟩
        have : k = left ∨ k = right := by omega
        rcases this with rfl | rfl
        · exact Or.inl h3
        · exact Or.inr h3
      · rintro (h1 | h1)
        · exact ⟨left, by omega, by omega, h1⟩
        · exact ⟨right, by omega, by omega, h1⟩
    · unfold mkUnion
      split
      · simp [DenT]
      · simp [DenT, or_comm]

theorem unionLabels_legal {left right n : Nat} (hne : left ≠ right) (hl0 : 0 < left)
    (hr0 : 0 < right) (hl : left < n) (hr : right < n) (hn : n ≤ 2 ^ 31) :
    LegalTaint (unionLabels left right) ∧ ∀ k, Ref (unionLabels left right) k → 0 < k ∧ k < n := by
  unfold unionLabels mkUnion
  repeat' split
  all_goals simp only [LegalTaint, Ref]
  all_goals refine ⟨by omega, ?_⟩
  all_goals intro k hk
  all_goals omega

/-- Outcome of `compute` is right with respect to the meaning `D` of labels. -/
def GoodResult (D : Nat → Nat × Nat → Prop) (left right : Nat) : UnionResult → Prop
  | .label u => (u = left ∨ u = right) ∧ ∀ b, D u b ↔ D left b ∨ D right b
  | .taint t => ∀ b, DenT D t b ↔ D left b ∨ D right b

theorem good_left {D : Nat → Nat × Nat → Prop} {left right : Nat}
    (h : ∀ b, D right b → D left b) : GoodResult D left right (.label left) :=
  ⟨Or.inl rfl, fun b => ⟨Or.inl, fun h' => h'.elim id (h b)⟩⟩
theorem good_right {D : Nat → Nat × Nat → Prop} {left right : Nat}
    (h : ∀ b, D left b → D right b) : GoodResult D left right (.label right) :=
  ⟨Or.inr rfl, fun b => ⟨Or.inr, fun h' => h'.elim (h b) id⟩⟩
theorem good_swap {D : Nat → Nat × Nat → Prop} {left right : Nat} {x : UnionResult}
    (h : GoodResult D left right x) : GoodResult D right left x := by
  cases x with
  | label u => exact ⟨h.1.symm, fun b => (h.2 b).trans or_comm⟩
  | taint t => exact fun b => (h b).trans or_comm
theorem good_unionLabels (D : Nat → Nat × Nat → Prop) (left right : Nat) :
    GoodResult D left right (.taint (unionLabels left right)) := unionLabels_den D left right

theorem rangeSource_good {D : Nat → Nat × Nat → Prop} {rl sl f t left right : Nat} (hft : f ≤ t)
    (hlr : (left = rl ∧ right = sl) ∨ (left = sl ∧ right = rl))
    (hr : ∀ b, D rl b ↔ ∃ k, f ≤ k ∧ k ≤ t ∧ D k b) :
    GoodResult D rl sl (rangeSource left right f t rl sl) := by
  unfold rangeSource
  split
  · rename_i h
    simp [enclosesRL] at h
    exact good_left fun b hb => (hr b).2 ⟨sl, by omega, by omega, hb⟩
  · split
    · intro b
      simp only [DenT]
      rw [hr]
      constructor
      · rintro ⟨k, h1, h2, h3⟩
        by_cases hk : k = sl
        · subst hk; exact Or.inr h3
        · exact Or.inl ⟨k, by omega, h2, h3⟩
      · rintro (⟨k, h1, h2, h3⟩ | h3)
        · exact ⟨k, by omega, h2, h3⟩
        · exact ⟨sl, by omega, by omega, h3⟩
    · split
      · intro b
        simp only [DenT]
        rw [hr]
        constructor
        · rintro ⟨k, h1, h2, h3⟩
          by_cases hk : k = sl
          · subst hk; exact Or.inr h3
          · exact Or.inl ⟨k, h1, by omega, h3⟩
        · rintro (⟨k, h1, h2, h3⟩ | h3)
          · exact ⟨k, by omega, by omega, h3⟩
          · exact ⟨sl, by omega, by omega, h3⟩
      · rcases hlr with ⟨rfl, rfl⟩ | ⟨rfl, rfl⟩
        · exact good_unionLabels _ _ _
        · exact good_swap (good_unionLabels _ _ _)

theorem unionSource_good {D : Nat → Nat × Nat → Prop} {ul sl lo hi left right : Nat}
    (hlr : (left = ul ∧ right = sl) ∨ (left = sl ∧ right = ul))
    (hu : ∀ b, D ul b ↔ D lo b ∨ D hi b) :
    GoodResult D ul sl (unionSource left right lo hi ul sl) := by
  unfold unionSource
  split
  · rename_i h
    simp [enclosesUL] at h
    refine good_left fun b hb => (hu b).2 ?_
    rcases h with rfl | rfl
    · exact Or.inr hb
    · exact Or.inl hb
  · rcases hlr with ⟨rfl, rfl⟩ | ⟨rfl, rfl⟩
    · exact good_unionLabels _ _ _
    · exact good_swap (good_unionLabels _ _ _)

theorem unionRangeTail_good {D : Nat → Nat × Nat → Prop} {ul rl f t left right : Nat} (hft : f ≤ t)
    (hlr : (left = ul ∧ right = rl) ∨ (left = rl ∧ right = ul))
    (hr : ∀ b, D rl b ↔ ∃ k, f ≤ k ∧ k ≤ t ∧ D k b) :
    GoodResult D ul rl (unionRangeTail left right ul f t) := by
  unfold unionRangeTail
  split
  · intro b
    simp only [DenT]
    rw [hr]
    constructor
    · rintro ⟨k, h1, h2, h3⟩
      by_cases hk : k = ul
      · subst hk; exact Or.inl h3
      · exact Or.inr ⟨k, by omega, h2, h3⟩
    · rintro (h3 | ⟨k, h1, h2, h3⟩)
      · exact ⟨ul, by omega, by omega, h3⟩
      · exact ⟨k, by omega, h2, h3⟩
  · split
    · intro b
      simp only [DenT]
      rw [hr]
      constructor
      · rintro ⟨k, h1, h2, h3⟩
        by_cases hk : k = ul
        · subst hk; exact Or.inl h3
        · exact Or.inr ⟨k, by omega, by omega, h3⟩
      · rintro (h3 | ⟨k, h1, h2, h3⟩)
        · exact ⟨ul, by omega, by omega, h3⟩
        · exact ⟨k, by omega, by omega, h3⟩
    · rcases hlr with ⟨rfl, rfl⟩ | ⟨rfl, rfl⟩
      · exact good_unionLabels _ _ _
      · exact good_swap (good_unionLabels _ _ _)

theorem unionRange_good {D : Nat → Nat × Nat → Prop} {ul rl lo hi f t left right : Nat}
    (hft : f ≤ t) (hlr : (left = ul ∧ right = rl) ∨ (left = rl ∧ right = ul))
    (hlh : lo < hi)
    (hu : ∀ b, D ul b ↔ D lo b ∨ D hi b)
    (hr : ∀ b, D rl b ↔ ∃ k, f ≤ k ∧ k ≤ t ∧ D k b) :
    GoodResult D ul rl (unionRange left right lo hi ul f t rl) := by
  have tail := unionRangeTail_good (ul := ul) hft hlr hr
  unfold unionRange
  split
  · rename_i h
    simp [enclosesRL] at h
    exact good_right fun b hb => (hr b).2 ⟨ul, by omega, by omega, hb⟩
  split
  · rename_i h
    simp [enclosesRU] at h
    refine good_right fun b hb => (hr b).2 ?_
    rcases (hu b).1 hb with h' | h'
    · exact ⟨lo, by omega, by omega, h'⟩
    · exact ⟨hi, by omega, by omega, h'⟩
  split
  · rename_i h
    simp [enclosesUL] at h
    refine good_left fun b hb => (hu b).2 ?_
    rcases h with rfl | rfl
    · exact Or.inr hb
    · exact Or.inl hb
  split
  · split
    · rename_i h
      simp [enclosesRL] at h
      intro b
      simp only [DenT]
      rw [hu, hr]
      constructor
      · rintro ⟨k, h1, h2, h3⟩
        by_cases hk : k = lo
        · subst hk; exact Or.inl (Or.inl h3)
        · exact Or.inr ⟨k, by omega, h2, h3⟩
      · rintro ((h3 | h3) | ⟨k, h1, h2, h3⟩)
        · exact ⟨lo, by omega, by omega, h3⟩
        · exact ⟨hi, by omega, by omega, h3⟩
        · exact ⟨k, by omega, h2, h3⟩
    · split
      · intro b
        simp only [DenT]
        rw [hu, hr]
        constructor
        · rintro ⟨k, h1, h2, h3⟩
          by_cases hk : k = lo
          · subst hk; exact Or.inl (Or.inl h3)
          · by_cases hk2 : k = hi
            · subst hk2; exact Or.inl (Or.inr h3)
            · exact Or.inr ⟨k, by omega, by omega, h3⟩
        · rintro ((h3 | h3) | ⟨k, h1, h2, h3⟩)
          · exact ⟨lo, by omega, by omega, h3⟩
          · exact ⟨hi, by omega, by omega, h3⟩
          · exact ⟨k, by omega, by omega, h3⟩
      · exact tail
  · split
    · split
      · rename_i h
        simp [enclosesRL] at h
        intro b
        simp only [DenT]
        rw [hu, hr]
        constructor
        · rintro ⟨k, h1, h2, h3⟩
          by_cases hk2 : k = hi
          · subst hk2; exact Or.inl (Or.inr h3)
          · exact Or.inr ⟨k, by omega, by omega, h3⟩
        · rintro ((h3 | h3) | ⟨k, h1, h2, h3⟩)
          · exact ⟨lo, by omega, by omega, h3⟩
          · exact ⟨hi, by omega, by omega, h3⟩
          · exact ⟨k, by omega, by omega, h3⟩
      · exact tail
    · exact tail

/-- The result of `compute` means exactly the union of the two operands. -/
theorem compute_good {D : Nat → Nat × Nat → Prop} {left right : Nat} {l r : Taint}
    (hl : ∀ b, D left b ↔ DenT D l b) (hr : ∀ b, D right b ↔ DenT D r b)
    (Ll : LegalTaint l) (Lr : LegalTaint r) :
    GoodResult D left right (compute left l right r) := by
  cases l with
  | source cl il ol =>
    cases r with
    | source cr ir or' =>
      simp only [compute]
      split
      · rename_i h
        obtain ⟨rfl, rfl⟩ := h
        exact good_left fun b hb => (hl b).2 ((hr b).1 hb)
      · exact good_unionLabels _ _ _
    | range cr f t => exact good_swap (rangeSource_good (Nat.le_of_lt Lr.1) (Or.inr ⟨rfl, rfl⟩) hr)
    | union cr lo hi => exact good_swap (unionSource_good (Or.inr ⟨rfl, rfl⟩) hr)
  | range cl fl tl =>
    cases r with
    | source cr ir or' => exact rangeSource_good (Nat.le_of_lt Ll.1) (Or.inl ⟨rfl, rfl⟩) hl
    | range cr fr tr =>
      have h1 := Ll.1
      have h2 := Lr.1
      simp only [DenT] at hl hr
      simp only [compute]
      split
      · rename_i h
        simp [enclosesRL] at h
        exact good_left fun b hb => (hl b).2 ⟨right, by omega, by omega, hb⟩
      split
      · rename_i h
        simp [enclosesRL] at h
        exact good_right fun b hb => (hr b).2 ⟨left, by omega, by omega, hb⟩
      split
      · rename_i h
        simp [enclosesRR] at h
        refine good_left fun b hb => (hl b).2 ?_
        obtain ⟨k, h1, h2, h3⟩ := (hr b).1 hb
        exact ⟨k, by omega, by omega, h3⟩
      split
      · rename_i h
        simp [enclosesRR] at h
        refine good_right fun b hb => (hr b).2 ?_
        obtain ⟨k, h1, h2, h3⟩ := (hl b).1 hb
        exact ⟨k, by omega, by omega, h3⟩
      split
      · intro b
        simp only [DenT]
        rw [hl, hr]
        constructor
        · rintro ⟨k, h1, h2, h3⟩
          by_cases hk : k ≤ tl
          · exact Or.inl ⟨k, h1, hk, h3⟩
          · exact Or.inr ⟨k, by omega, h2, h3⟩
        · rintro (⟨k, h1, h2, h3⟩ | ⟨k, h1, h2, h3⟩)
          · exact ⟨k, by omega, by omega, h3⟩
          · exact ⟨k, by omega, by omega, h3⟩
      split
      · intro b
        simp only [DenT]
        rw [hl, hr]
        constructor
        · rintro ⟨k, h1, h2, h3⟩
          by_cases hk : k ≤ tr
          · exact Or.inr ⟨k, h1, hk, h3⟩
          · exact Or.inl ⟨k, by omega, h2, h3⟩
        · rintro (⟨k, h1, h2, h3⟩ | ⟨k, h1, h2, h3⟩)
          · exact ⟨k, by omega, by omega, h3⟩
          · exact ⟨k, by omega, by omega, h3⟩
      · exact good_unionLabels _ _ _
    | union cr lo hi =>
      exact good_swap (unionRange_good (Nat.le_of_lt Ll.1) (Or.inr ⟨rfl, rfl⟩)
        (Nat.lt_trans (Nat.lt_succ_self lo) Lr.1) hr hl)
  | union cl lo hi =>
    cases r with
    | source cr ir or' => exact unionSource_good (Or.inl ⟨rfl, rfl⟩) hl
    | range cr f t =>
      exact unionRange_good (Nat.le_of_lt Lr.1) (Or.inl ⟨rfl, rfl⟩)
        (Nat.lt_trans (Nat.lt_succ_self lo) Ll.1) hl hr
    | union cr rlo rhi =>
      simp only [DenT] at hl hr
      simp only [compute]
      split
      · rename_i h
        simp [enclosesUL] at h
        refine good_left fun b hb => (hl b).2 ?_
        rcases h with rfl | rfl
        · exact Or.inr hb
        · exact Or.inl hb
      split
      · rename_i h
        simp [enclosesUL] at h
        refine good_right fun b hb => (hr b).2 ?_
        rcases h with rfl | rfl
        · exact Or.inr hb
        · exact Or.inl hb
      split
      · rename_i h
        obtain ⟨rfl, rfl⟩ := h
        exact good_left fun b hb => (hl b).2 ((hr b).1 hb)
      · exact good_unionLabels _ _ _

/-- A taint value that may be stored at label `n`. -/
def OkAt (n : Nat) (t : Taint) : Prop :=
  LegalTaint t ∧ (∀ k, Ref t k → 0 < k ∧ k < n) ∧ flagOf t = false

/-- The result, if it is a new taint, may be stored at label `n`. -/
def OkRes (n : Nat) : UnionResult → Prop
  | .label _ => True
  | .taint t => OkAt n t

theorem okAt_range {n f t : Nat} (h0 : 0 < f) (h1 : f < t) (h2 : t < n) (hn : n ≤ 2 ^ 31) :
    OkAt n (.range false f t) :=
  ⟨⟨h1, by omega⟩, fun k hk => by simp only [Ref] at hk; omega, rfl⟩

theorem okAt_unionLabels {left right n : Nat} (hne : left ≠ right) (hl0 : 0 < left)
    (hr0 : 0 < right) (hl : left < n) (hr : right < n) (hn : n ≤ 2 ^ 31) :
    OkAt n (unionLabels left right) := by
  have h := unionLabels_legal hne hl0 hr0 hl hr hn
  refine ⟨h.1, h.2, ?_⟩
  unfold unionLabels mkUnion
  repeat' split
  all_goals rfl

theorem rangeSource_ok {rl sl f t left right n : Nat} (hul : OkAt n (unionLabels left right))
    (hf : 0 < f) (hft : f < t) (ht : t < rl) (hs0 : 0 < sl) (hs : sl < n) (hr : rl < n)
    (hn : n ≤ 2 ^ 31) : OkRes n (rangeSource left right f t rl sl) := by
  unfold rangeSource
  split
  · trivial
  split
  · exact okAt_range hs0 (by omega) (by omega) hn
  split
  · exact okAt_range hf (by omega) (by omega) hn
  · exact hul

theorem unionSource_ok {ul sl lo hi left right n : Nat} (hul : OkAt n (unionLabels left right)) :
    OkRes n (unionSource left right lo hi ul sl) := by
  unfold unionSource
  split
  · trivial
  · exact hul

theorem unionRangeTail_ok {ul f t left right n : Nat} (hul : OkAt n (unionLabels left right))
    (hf : 0 < f) (hft : f < t) (ht : t < n) (hu0 : 0 < ul) (hu : ul < n)
    (hn : n ≤ 2 ^ 31) : OkRes n (unionRangeTail left right ul f t) := by
  unfold unionRangeTail
  split
  · exact okAt_range hu0 (by omega) (by omega) hn
  split
  · exact okAt_range hf (by omega) (by omega) hn
  · exact hul

theorem unionRange_ok {ul rl lo hi f t left right n : Nat} (hul : OkAt n (unionLabels left right))
    (hf : 0 < f) (hft : f < t) (ht : t < rl) (hr : rl < n) (hu : ul < n)
    (hlo : 0 < lo) (hlh : lo < hi) (hhi : hi < ul)
    (hn : n ≤ 2 ^ 31) : OkRes n (unionRange left right lo hi ul f t rl) := by
  have tail := unionRangeTail_ok (ul := ul) hul hf hft (by omega) (by omega) hu hn
  unfold unionRange
  split
  · trivial
  split
  · trivial
  split
  · trivial
  split
  · split
    · exact okAt_range hlo (by omega) (by omega) hn
    · split
      · exact okAt_range hlo (by omega) (by omega) hn
      · exact tail
  · split
    · split
      · exact okAt_range hf (by omega) (by omega) hn
      · exact tail
    · exact tail

theorem ref_range {f t n : Nat} {c : Bool} (hft : f < t) (h : ∀ k, Ref (.range c f t) k → 0 < k ∧ k < n) :
    0 < f ∧ t < n := ⟨(h f ⟨Nat.le_refl _, Nat.le_of_lt hft⟩).1, (h t ⟨Nat.le_of_lt hft, Nat.le_refl _⟩).2⟩
theorem ref_union {lo hi n : Nat} {c : Bool} (h : ∀ k, Ref (.union c lo hi) k → 0 < k ∧ k < n) :
    0 < lo ∧ hi < n := ⟨(h lo (Or.inl rfl)).1, (h hi (Or.inr rfl)).2⟩

/-- A new taint produced by `compute` is legal, refers only to smaller non-zero labels, and is not
flagged. -/
theorem compute_ok {left right : Nat} {l r : Taint} {n : Nat} (hne : left ≠ right)
    (hl0 : 0 < left) (hr0 : 0 < right) (hl : left < n) (hr : right < n) (hn : n ≤ 2 ^ 31)
    (Ll : LegalTaint l) (Lr : LegalTaint r)
    (rl : ∀ k, Ref l k → 0 < k ∧ k < left) (rr : ∀ k, Ref r k → 0 < k ∧ k < right) :
    OkRes n (compute left l right r) := by
  have hul : OkAt n (unionLabels left right) := okAt_unionLabels hne hl0 hr0 hl hr hn
  cases l with
  | source cl il ol =>
    cases r with
    | source cr ir or' =>
      simp only [compute]
      split
      · trivial
      · exact hul
    | range cr f t =>
      have := ref_range Lr.1 rr
      exact rangeSource_ok hul this.1 Lr.1 this.2 hl0 hl hr hn
    | union cr lo hi => exact unionSource_ok hul
  | range cl fl tl =>
    have h1 := ref_range Ll.1 rl
    have h1' := Ll.1
    cases r with
    | source cr ir or' => exact rangeSource_ok hul h1.1 Ll.1 h1.2 hr0 hr hl hn
    | range cr fr tr =>
      have h2 := ref_range Lr.1 rr
      have h2' := Lr.1
      simp only [compute]
      split
      · trivial
      split
      · trivial
      split
      · trivial
      split
      · trivial
      split
      · exact okAt_range h1.1 (by omega) (by omega) hn
      split
      · exact okAt_range h2.1 (by omega) (by omega) hn
      · exact hul
    | union cr lo hi =>
      have h2 := ref_union rr
      have h2' := Lr.1
      exact unionRange_ok hul h1.1 Ll.1 h1.2 hl hr h2.1 (by omega) h2.2 hn
  | union cl lo hi =>
    have h1 := ref_union rl
    have h1' := Ll.1
    cases r with
    | source cr ir or' => exact unionSource_ok hul
    | range cr f t =>
      have h2 := ref_range Lr.1 rr
      exact unionRange_ok hul h2.1 Lr.1 h2.2 hr hl h1.1 (by omega) h1.2 hn
    | union cr rlo rhi =>
      simp only [compute]
      repeat' split
      all_goals first | trivial | exact hul

end Verif
