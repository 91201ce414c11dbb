import Verif.PyDiff
import Verif.Spec.Diff
import Verif.Props.C39
import Mathlib.Tactic.SplitIfs
/- Lemmas about the differences of traces. -/
namespace Verif.Py
open Verif.Spec

/-! ### print_file_context -/

/-- The width of a rendering. -/
def shownWidth (l : List Nat) : Nat := (l.flatMap shownByte).length

theorem shownByte_pos (b : Nat) : 0 < (shownByte b).length := by
  unfold shownByte
  split_ifs <;> simp

theorem shownWidth_cons (b : Nat) (l : List Nat) : shownWidth (b :: l) = (shownByte b).length + shownWidth l := by
  simp [shownWidth]

theorem shownWidth_append (a b : List Nat) : shownWidth (a ++ b) = shownWidth a + shownWidth b := by
  simp [shownWidth]

theorem shownWidth_pos {l : List Nat} (h : l ≠ []) : 0 < shownWidth l := by
  cases l with
  | nil => exact absurd rfl h
  | cons b l =>
    rw [shownWidth_cons]
    have := shownByte_pos b
    omega

/-- What the loop computes. -/
theorem ctxLoop_eq (before length : Nat) : ∀ (data : List Nat) (i : Nat) (s : CtxState),
    ctxLoop before length i data s =
      { start := if i ≤ before ∧ before < i + data.length then (s.written + shownWidth (data.take (before - i)) : Nat)
                 else s.start
        len := if i ≤ before + length ∧ before + length < i + data.length then
            ((s.written + shownWidth (data.take (before + length - i)) : Nat) : Int) -
              (if i ≤ before then ((s.written + shownWidth (data.take (before - i)) : Nat) : Int) else s.start)
          else s.len
        written := s.written + shownWidth data
        out := s.out ++ data.flatMap shownByte } := by
  intro data
  induction data with
  | nil =>
    intro i s
    have h1 : ¬ (i ≤ before ∧ before < i + ([] : List Nat).length) := by simp
    have h2 : ¬ (i ≤ before + length ∧ before + length < i + ([] : List Nat).length) := by simp
    rw [if_neg h1, if_neg h2]
    simp [ctxLoop, shownWidth]
  | cons b bs ih =>
    intro i s
    rw [ctxLoop, ih]
    have htake : ∀ m, i < m → (b :: bs).take (m - i) = b :: bs.take (m - (i + 1)) := by
      intro m hm
      rw [show m - i = (m - (i + 1)) + 1 by omega, List.take_succ_cons]
    have hlen : (b :: bs).length = bs.length + 1 := rfl
    rcases Nat.lt_trichotomy i before with hb | hb | hb
    · have e1 : ¬ i = before := by omega
      have e2 : ¬ i = before + length := by omega
      simp only [e1, e2, if_false, htake _ hb, htake (before + length) (by omega), shownWidth_cons, hlen,
        List.flatMap_cons, List.append_assoc]
      congr 1
      · split_ifs <;> first | rfl | omega | (push_cast; omega)
      · split_ifs <;> first | rfl | omega | (push_cast; omega)
      · omega
    · subst hb
      rcases Nat.eq_zero_or_pos length with hl | hl
      · subst hl
        simp only [if_true, Nat.add_zero, Nat.sub_self, List.take_zero, hlen, List.flatMap_cons, List.append_assoc,
          shownWidth_cons]
        congr 1
        · split_ifs <;> first | rfl | omega | (simp [shownWidth])
        · split_ifs <;> first | rfl | omega | (simp [shownWidth])
        · omega
      · have e2 : ¬ i = i + length := by omega
        simp only [e2, if_true, if_false, Nat.sub_self, List.take_zero, htake (i + length) (by omega), hlen,
          List.flatMap_cons, List.append_assoc, shownWidth_cons]
        congr 1
        · split_ifs <;> first | rfl | omega | (simp [shownWidth])
        · split_ifs <;> first | rfl | omega | (simp [shownWidth]; omega)
        · omega
    · have e1 : ¬ i = before := by omega
      rcases Nat.lt_trichotomy i (before + length) with hl | hl | hl
      · have e2 : ¬ i = before + length := by omega
        simp only [e1, e2, if_false, htake (before + length) hl, hlen, List.flatMap_cons, List.append_assoc, shownWidth_cons]
        congr 1
        · split_ifs <;> first | rfl | omega
        · split_ifs <;> first | rfl | omega | (push_cast; omega)
        · omega
      · have e1' : ¬ before + length = before := by omega
        simp only [e1', hl, if_true, if_false, Nat.sub_self, List.take_zero, hlen, List.flatMap_cons,
          List.append_assoc, shownWidth_cons]
        congr 1
        · split_ifs <;> first | rfl | omega
        · split_ifs <;> first | rfl | omega | (simp [shownWidth])
        · omega
      · have e2 : ¬ i = before + length := by omega
        simp only [e1, e2, if_false, hlen, List.flatMap_cons, List.append_assoc, shownWidth_cons]
        congr 1
        · split_ifs <;> first | rfl | omega
        · split_ifs <;> first | rfl | omega
        · omega

theorem columns_append (w : Nat → Nat) : ∀ (a : List Nat) (k : Nat) (b : List Nat),
    columns w k (a ++ b) = columns w k a ++ columns w (k + a.length) b := by
  intro a
  induction a with
  | nil => intro k b; simp [columns]
  | cons x a ih =>
    intro k b
    rw [List.cons_append, columns, ih, columns, List.append_assoc, List.length_cons, Nat.add_assoc, Nat.add_comm 1]

theorem columns_mem (w : Nat → Nat) : ∀ (a : List Nat) (k j : Nat), j ∈ columns w k a → k ≤ j ∧ j < k + a.length := by
  intro a
  induction a with
  | nil => intro k j h; simp [columns] at h
  | cons x a ih =>
    intro k j h
    rw [columns, List.mem_append] at h
    rcases h with h | h
    · have := (List.mem_replicate.1 h).2
      simp only [List.length_cons]
      omega
    · have := ih _ _ h
      simp only [List.length_cons]
      omega

theorem columns_length : ∀ (a : List Nat) (k : Nat),
    (columns (fun b => (shownByte b).length) k a).length = shownWidth a := by
  intro a
  induction a with
  | nil => intro k; simp [columns, shownWidth]
  | cons x a ih => intro k; rw [columns, List.length_append, ih, shownWidth_cons, List.length_replicate]

/-- Spaces below the first part, carets below the second. -/
theorem marks_parts (cA cB cC : List Nat) (a b : Nat) (hA : ∀ k ∈ cA, k < a) (hB : ∀ k ∈ cB, a ≤ k ∧ k < b)
    (hC : ∀ k ∈ cC, b ≤ k) :
    Marks (List.replicate cA.length ' ' ++ List.replicate cB.length '^') (cA ++ cB ++ cC) a b := by
  refine ⟨?_, ?_⟩
  · intro c hc
    rcases List.mem_append.1 hc with h | h
    · exact .inl (List.mem_replicate.1 h).2
    · exact .inr (List.mem_replicate.1 h).2
  · intro j
    rcases Nat.lt_or_ge j cA.length with h1 | h1
    · rw [List.getElem?_append_left (by simpa using h1), List.append_assoc, List.getElem?_append_left h1]
      rw [List.getElem?_replicate, if_pos h1]
      constructor
      · intro h; exact absurd (Option.some.inj h) (by decide)
      · rintro ⟨k, hk, h, -⟩
        have := hA k (List.mem_of_getElem? hk)
        omega
    · rw [List.getElem?_append_right (by simpa using h1), List.append_assoc, List.getElem?_append_right h1]
      rw [List.getElem?_replicate, List.length_replicate]
      rcases Nat.lt_or_ge (j - cA.length) cB.length with h2 | h2
      · rw [if_pos h2, List.getElem?_append_left h2]
        refine ⟨fun _ => ⟨_, List.getElem?_eq_getElem h2, hB _ (List.getElem_mem h2)⟩, fun _ => rfl⟩
      · rw [if_neg (by omega), List.getElem?_append_right h2]
        constructor
        · intro h; cases h
        · rintro ⟨k, hk, -, h⟩
          have := hC k (List.mem_of_getElem? hk)
          omega

theorem hexValue_digit : ∀ d : Fin 16, hexValue (Nat.digitChar d) = some d.val := by decide +kernel

theorem char_ofNat_toNat {b : Nat} (h : b < 256) : (Char.ofNat b).toNat = b := by
  have : ∀ b : Fin 256, (Char.ofNat b).toNat = b.val := by decide +kernel
  exact this ⟨b, h⟩

/-- One byte is read back. -/
theorem unescape_byte (b : Nat) (hb : b < 256) (rest : List Char) :
    unescape (shownByte b ++ rest) = (unescape rest).map (b :: ·) := by
  unfold shownByte
  split_ifs with h1 h2 h3 h4 h5
  · subst h1; simp [unescape]
  · subst h2; simp [unescape]
  · subst h3; simp [unescape]
  · subst h4; simp [unescape]
  · have hc := char_ofNat_toNat hb
    have hne : Char.ofNat b ≠ '\\' := by
      intro e
      rw [e] at hc
      exact h3 hc.symm
    rw [List.singleton_append, unescape.eq_7 _ _ (by intro r h; exact absurd h hne) (by intro r h; exact absurd h hne)
      (by intro r h; exact absurd h hne) (by intro r h; exact absurd h hne) (by intro a b r h; exact absurd h hne),
      if_neg hne, hc]
  · have e1 := hexValue_digit ⟨b / 16, by omega⟩
    have e2 := hexValue_digit ⟨b % 16, by omega⟩
    simp only at e1 e2
    simp only [List.cons_append, List.nil_append, unescape, e1, e2]
    rw [Nat.div_add_mod]

/-- The bytes are read back. -/
theorem unescape_shown : ∀ l : List Nat, (∀ b ∈ l, b < 256) → unescape (l.flatMap shownByte) = some l := by
  intro l
  induction l with
  | nil => intro _; rfl
  | cons b l ih =>
    intro h
    rw [List.flatMap_cons, unescape_byte b (h b List.mem_cons_self), ih fun x hx => h x (List.mem_cons_of_mem _ hx)]
    rfl

theorem shown_printable : ∀ b : Fin 256, (shownByte b).all (fun c => decide (' ' ≤ c) && decide (c ≤ '~')) = true := by
  decide +kernel

/-! ### Intervals of a trace -/

/-- Offset `x` of input `s` was touched by one of the functions. -/
def Touched (fs : List TFunc) (s : InputRef) (x : Nat) : Prop := ∃ f ∈ fs, (⟨s, x⟩ : ByteOffset) ∈ f.offsets

theorem mem_foldl_addNew {α : Type} [DecidableEq α] : ∀ (l s : List α) (y : α),
    y ∈ l.foldl addNew s ↔ y ∈ s ∨ y ∈ l := by
  intro l
  induction l with
  | nil => intro s y; simp
  | cons x l ih =>
    intro s y
    rw [List.foldl_cons, ih, mem_addNew, List.mem_cons]
    constructor
    · rintro ((h | h) | h)
      · exact .inl h
      · exact .inr (.inl h)
      · exact .inr (.inr h)
    · rintro (h | h | h)
      · exact .inl (.inl h)
      · exact .inl (.inr h)
      · exact .inr h

theorem foldl_addNew_nodup {α : Type} [DecidableEq α] : ∀ (l s : List α), s.Nodup → (l.foldl addNew s).Nodup := by
  intro l
  induction l with
  | nil => intro s h; exact h
  | cons x l ih => intro s h; exact ih _ (addNew_nodup h x)

theorem func_region {f : TFunc} {r : Region} (h : r ∈ f.regions) : 0 < r.length := by
  have := (C39_covers f.offsets).nonempty _ (List.mem_map_of_mem (f := Region.bounds) h)
  simp only [Region.bounds] at this
  omega

theorem func_covers (f : TFunc) (s : InputRef) (x : Nat) :
    (∃ r ∈ f.regions, r.source = s ∧ r.offset ≤ x ∧ x < r.offset + r.length) ↔ (⟨s, x⟩ : ByteOffset) ∈ f.offsets := by
  rw [← (C39_covers f.offsets).covers s x]
  constructor
  · rintro ⟨r, hr, h1, h2, h3⟩
    exact ⟨_, List.mem_map_of_mem hr, h1, h2, h3⟩
  · rintro ⟨_, hr, h1, h2, h3⟩
    obtain ⟨r, hr', rfl⟩ := List.mem_map.1 hr
    exact ⟨r, hr', h1, h2, h3⟩

theorem mem_addedIvals {fs : List TFunc} {s : InputRef} {iv : Ival} : iv ∈ addedIvals fs s ↔
    ∃ f ∈ fs, ∃ r ∈ f.regions, r.source = s ∧ (r.offset, r.offset + r.length) = iv := by
  rw [addedIvals, mem_foldl_addNew]
  simp only [List.not_mem_nil, false_or, List.mem_map, List.mem_filter, List.mem_flatMap, decide_eq_true_eq]
  constructor
  · rintro ⟨r, ⟨⟨f, hf, hr⟩, h1⟩, h2⟩
    exact ⟨f, hf, r, hr, h1, h2⟩
  · rintro ⟨f, hf, r, hr, h1, h2⟩
    exact ⟨r, ⟨⟨f, hf, hr⟩, h1⟩, h2⟩

/-- How far apart merged intervals are. -/
def Apart2 (strict : Bool) (a b : Ival) : Prop := if strict then a.2 ≤ b.1 else a.2 < b.1

theorem mergeLoop_spec (strict : Bool) : ∀ (l : List Ival) (last : Ival), last.1 < last.2 → (∀ j ∈ l, j.1 < j.2) →
    (last :: l).Pairwise (fun a b => a.1 ≤ b.1) →
    (∀ j ∈ mergeLoop strict last l, j.1 < j.2) ∧
    (mergeLoop strict last l).Pairwise (Apart2 strict) ∧
    (∀ j ∈ mergeLoop strict last l, last.1 ≤ j.1) ∧
    ∀ x, (∃ j ∈ mergeLoop strict last l, j.1 ≤ x ∧ x < j.2) ↔ ∃ j ∈ last :: l, j.1 ≤ x ∧ x < j.2 := by
  intro l
  induction l with
  | nil => intro last h _ _; simp [mergeLoop, h]
  | cons iv l ih =>
    intro last h hl hp
    have hle : last.1 ≤ iv.1 := (List.pairwise_cons.1 hp).1 iv List.mem_cons_self
    have hiv := hl iv List.mem_cons_self
    have hp2 := (List.pairwise_cons.1 hp).2
    rw [mergeLoop]
    by_cases hc : (if strict = true then iv.1 < last.2 else iv.1 ≤ last.2)
    · rw [if_pos hc]
      have hc' : iv.1 ≤ last.2 := by split_ifs at hc <;> omega
      obtain ⟨h1, h2, h3, h4⟩ := ih (last.1, max last.2 iv.2) (by show last.1 < max last.2 iv.2; omega)
        (fun j hj => hl j (List.mem_cons_of_mem _ hj))
        (List.pairwise_cons.2 ⟨fun j hj => (List.pairwise_cons.1 hp).1 j (List.mem_cons_of_mem _ hj),
          (List.pairwise_cons.1 hp2).2⟩)
      refine ⟨h1, h2, h3, fun x => ?_⟩
      rw [h4]
      constructor
      · rintro ⟨j, hj, hx1, hx2⟩
        rcases List.mem_cons.1 hj with rfl | hj
        · simp only at hx1 hx2
          rcases Nat.lt_or_ge x last.2 with hx | hx
          · exact ⟨last, List.mem_cons_self, hx1, hx⟩
          · exact ⟨iv, List.mem_cons_of_mem _ List.mem_cons_self, by omega, by omega⟩
        · exact ⟨j, List.mem_cons_of_mem _ (List.mem_cons_of_mem _ hj), hx1, hx2⟩
      · rintro ⟨j, hj, hx1, hx2⟩
        rcases List.mem_cons.1 hj with rfl | hj
        · exact ⟨_, List.mem_cons_self, hx1, by show x < max _ _; omega⟩
        · rcases List.mem_cons.1 hj with rfl | hj
          · exact ⟨_, List.mem_cons_self, by show _ ≤ x; omega, by show x < max _ _; omega⟩
          · exact ⟨j, List.mem_cons_of_mem _ hj, hx1, hx2⟩
    · rw [if_neg hc]
      obtain ⟨h1, h2, h3, h4⟩ := ih iv hiv (fun j hj => hl j (List.mem_cons_of_mem _ hj)) hp2
      refine ⟨?_, ?_, ?_, fun x => ?_⟩
      · intro j hj
        rcases List.mem_cons.1 hj with rfl | hj
        · exact h
        · exact h1 j hj
      · refine List.pairwise_cons.2 ⟨fun j hj => ?_, h2⟩
        have := h3 j hj
        unfold Apart2
        split_ifs at hc ⊢ <;> omega
      · intro j hj
        rcases List.mem_cons.1 hj with rfl | hj
        · exact Nat.le_refl _
        · exact Nat.le_trans hle (h3 j hj)
      · constructor
        · rintro ⟨j, hj, hx⟩
          rcases List.mem_cons.1 hj with rfl | hj
          · exact ⟨_, List.mem_cons_self, hx⟩
          · obtain ⟨k, hk, hx⟩ := (h4 x).1 ⟨j, hj, hx⟩
            exact ⟨k, List.mem_cons_of_mem _ hk, hx⟩
        · rintro ⟨j, hj, hx⟩
          rcases List.mem_cons.1 hj with rfl | hj
          · exact ⟨_, List.mem_cons_self, hx⟩
          · obtain ⟨k, hk, hx⟩ := (h4 x).2 ⟨j, hj, hx⟩
            exact ⟨k, List.mem_cons_of_mem _ hk, hx⟩

theorem ival_sorted (l : List Ival) : (l.mergeSort Ival.le).Pairwise (fun a b => a.1 ≤ b.1) := by
  refine (List.pairwise_mergeSort ?_ ?_ l).imp ?_
  · intro a b c h1 h2
    simp only [Ival.le, Bool.or_eq_true, Bool.and_eq_true, decide_eq_true_eq, beq_iff_eq] at *
    omega
  · intro a b
    simp only [Ival.le, Bool.or_eq_true, Bool.and_eq_true, decide_eq_true_eq, beq_iff_eq]
    omega
  · intro a b h
    simp only [Ival.le, Bool.or_eq_true, Bool.and_eq_true, decide_eq_true_eq, beq_iff_eq] at h
    omega

/-- The merged intervals of a trace: not empty, apart from each other, exactly the touched offsets. -/
theorem traceIvals_spec (strict : Bool) (fs : List TFunc) (s : InputRef) :
    (∀ j ∈ traceIvals strict fs s, j.1 < j.2) ∧ (traceIvals strict fs s).Pairwise (Apart2 strict) ∧
    ∀ x, (∃ j ∈ traceIvals strict fs s, j.1 ≤ x ∧ x < j.2) ↔ Touched fs s x := by
  have hcov : ∀ x, (∃ j ∈ addedIvals fs s, j.1 ≤ x ∧ x < j.2) ↔ Touched fs s x := by
    intro x
    constructor
    · rintro ⟨j, hj, h1, h2⟩
      obtain ⟨f, hf, r, hr, e, rfl⟩ := mem_addedIvals.1 hj
      exact ⟨f, hf, (func_covers f s x).1 ⟨r, hr, e, h1, h2⟩⟩
    · rintro ⟨f, hf, h⟩
      obtain ⟨r, hr, e, h1, h2⟩ := (func_covers f s x).2 h
      exact ⟨_, mem_addedIvals.2 ⟨f, hf, r, hr, e, rfl⟩, h1, h2⟩
  have hne : ∀ j ∈ addedIvals fs s, j.1 < j.2 := by
    intro j hj
    obtain ⟨f, hf, r, hr, e, rfl⟩ := mem_addedIvals.1 hj
    have := func_region hr
    show r.offset < r.offset + r.length
    omega
  have hsort := ival_sorted (addedIvals fs s)
  have hperm := List.mergeSort_perm (addedIvals fs s) Ival.le
  rw [traceIvals, mergeOverlaps]
  cases hm : (addedIvals fs s).mergeSort Ival.le with
  | nil =>
    rw [hm] at hperm
    have e := hperm.symm.eq_nil
    rw [e] at hcov
    refine ⟨by simp, List.Pairwise.nil, fun x => ?_⟩
    rw [← hcov]
  | cons iv l =>
    rw [hm] at hperm hsort
    have hmem : ∀ j, j ∈ iv :: l ↔ j ∈ addedIvals fs s := fun j => hperm.mem_iff
    obtain ⟨h1, h2, -, h4⟩ := mergeLoop_spec strict l iv (hne _ ((hmem _).1 List.mem_cons_self))
      (fun j hj => hne _ ((hmem _).1 (List.mem_cons_of_mem _ hj))) hsort
    refine ⟨h1, h2, fun x => ?_⟩
    rw [← hcov]
    show (∃ j ∈ mergeLoop strict iv l, _) ↔ _
    rw [h4]
    simp only [hmem]

theorem removeOverlap_foldl : ∀ (l t : List Ival) (j : Ival),
    j ∈ l.foldl removeOverlap t ↔ j ∈ t ∧ ∀ iv ∈ l, ¬ (j.1 < iv.2 ∧ iv.1 < j.2) := by
  intro l
  induction l with
  | nil => intro t j; simp
  | cons iv l ih =>
    intro t j
    rw [List.foldl_cons, ih, removeOverlap, List.mem_filter]
    simp only [List.mem_cons, forall_eq_or_imp, Bool.not_eq_true', Bool.and_eq_false_iff, decide_eq_false_iff_not, and_assoc]
    refine and_congr_right fun _ => and_congr_left fun _ => ?_
    omega

theorem removeOverlap_sublist : ∀ (l t : List Ival), (l.foldl removeOverlap t).Sublist t := by
  intro l
  induction l with
  | nil => intro t; exact List.Sublist.refl _
  | cons iv l ih => intro t; exact (ih _).trans List.filter_sublist

theorem hasSource_iff (fs : List TFunc) (s : InputRef) : hasSource fs s = true ↔ ∃ x, Touched fs s x := by
  rw [hasSource, List.any_eq_true]
  constructor
  · rintro ⟨r, hr, e⟩
    obtain ⟨f, hf, hr⟩ := List.mem_flatMap.1 hr
    have := func_region hr
    exact ⟨r.offset, f, hf, (func_covers f s _).1 ⟨r, hr, of_decide_eq_true e, Nat.le_refl _, by omega⟩⟩
  · rintro ⟨x, f, hf, h⟩
    obtain ⟨r, hr, e, -, -⟩ := (func_covers f s x).2 h
    exact ⟨r, List.mem_flatMap.2 ⟨f, hf, hr⟩, decide_eq_true e⟩

/-- The intervals that are kept: those of the first trace without a byte of the second. -/
theorem mem_onlyInFirst (strict : Bool) (fs1 fs2 : List TFunc) (s : InputRef) (j : Ival) :
    j ∈ bytesOnlyInFirst strict fs1 fs2 s ↔
      j ∈ traceIvals strict fs1 s ∧ ∀ x, j.1 ≤ x → x < j.2 → ¬ Touched fs2 s x := by
  obtain ⟨n1, -, c1⟩ := traceIvals_spec strict fs1 s
  obtain ⟨n2, -, c2⟩ := traceIvals_spec strict fs2 s
  unfold bytesOnlyInFirst
  by_cases h1 : hasSource fs1 s = true
  · rw [if_pos h1]
    by_cases h2 : hasSource fs2 s = true
    · rw [if_pos h2, removeOverlap_foldl]
      refine and_congr_right fun hj => ?_
      constructor
      · intro h x hx1 hx2 ht
        obtain ⟨iv, hiv, hy1, hy2⟩ := (c2 x).2 ht
        exact h iv hiv ⟨by omega, by omega⟩
      · intro h iv hiv hx
        have hn1 := n1 j hj
        have hn2 := n2 iv hiv
        refine h (max j.1 iv.1) (by omega) (by omega) ((c2 _).1 ⟨iv, hiv, by omega, by omega⟩)
    · rw [if_neg h2]
      refine ⟨fun h => ⟨h, fun x _ _ ht => h2 ((hasSource_iff fs2 s).2 ⟨x, ht⟩)⟩, fun h => h.1⟩
  · rw [if_neg h1]
    refine ⟨fun h => absurd h (by simp), fun h => absurd ((hasSource_iff fs1 s).2 ⟨j.1, (c1 _).1 ⟨j, h.1, Nat.le_refl _, n1 j h.1⟩⟩) h1⟩

theorem onlyInFirst_sublist (strict : Bool) (fs1 fs2 : List TFunc) (s : InputRef) :
    (bytesOnlyInFirst strict fs1 fs2 s).Sublist (traceIvals strict fs1 s) := by
  unfold bytesOnlyInFirst
  split_ifs
  · exact removeOverlap_sublist _ _
  · exact List.Sublist.refl _
  · exact List.nil_sublist _

theorem mem_sourcesOf (fs : List TFunc) (s : InputRef) : s ∈ sourcesOf fs ↔ ∃ x, Touched fs s x := by
  rw [← hasSource_iff, sourcesOf, mem_foldl_addNew, hasSource, List.any_eq_true]
  simp only [List.not_mem_nil, false_or, List.mem_map, decide_eq_true_eq]

/-- The chunks: intervals of the first trace without a byte of the second. -/
theorem mem_chunks (strict : Bool) (fs1 fs2 : List TFunc) (r : Region) :
    r ∈ chunksOnlyInFirst strict fs1 fs2 ↔
      0 < r.length ∧ (r.offset, r.offset + r.length) ∈ traceIvals strict fs1 r.source ∧
      ∀ x, r.offset ≤ x → x < r.offset + r.length → ¬ Touched fs2 r.source x := by
  rw [chunksOnlyInFirst, List.mem_flatMap]
  constructor
  · rintro ⟨s, hs, hr⟩
    obtain ⟨j, hj, rfl⟩ := List.mem_map.1 hr
    have hj := (mem_onlyInFirst strict fs1 fs2 s j).1 ((List.mergeSort_perm _ _).mem_iff.1 hj)
    have hn := (traceIvals_spec strict fs1 s).1 j hj.1
    have e : j.1 + (j.2 - j.1) = j.2 := by omega
    show 0 < j.2 - j.1 ∧ (j.1, j.1 + (j.2 - j.1)) ∈ _ ∧ ∀ x, j.1 ≤ x → x < j.1 + (j.2 - j.1) → _
    rw [e]
    exact ⟨by omega, hj.1, hj.2⟩
  · rintro ⟨h0, h1, h2⟩
    refine ⟨r.source, (mem_sourcesOf fs1 _).2 ⟨r.offset, ((traceIvals_spec strict fs1 r.source).2.2 _).1
      ⟨_, h1, Nat.le_refl _, by show r.offset < r.offset + r.length; omega⟩⟩, ?_⟩
    refine List.mem_map.2 ⟨(r.offset, r.offset + r.length),
      (List.mergeSort_perm _ _).mem_iff.2 ((mem_onlyInFirst strict fs1 fs2 _ _).2 ⟨h1, h2⟩), ?_⟩
    simp

/-- Chunks have no byte in common. -/
theorem chunks_disjoint (strict : Bool) (fs1 fs2 : List TFunc) :
    (chunksOnlyInFirst strict fs1 fs2).Pairwise fun a b =>
      a.source = b.source → a.offset + a.length ≤ b.offset ∨ b.offset + b.length ≤ a.offset := by
  rw [chunksOnlyInFirst, List.pairwise_flatMap]
  constructor
  · intro s _
    rw [List.pairwise_map]
    have h := (traceIvals_spec strict fs1 s).2.1.sublist (onlyInFirst_sublist strict fs1 fs2 s)
    have h' : (bytesOnlyInFirst strict fs1 fs2 s).Pairwise fun a b => a.2 ≤ b.1 ∨ b.2 ≤ a.1 := by
      refine h.imp ?_
      intro a b hab
      unfold Apart2 at hab
      split_ifs at hab <;> omega
    have hs := (List.Perm.pairwise_iff (fun {a b} h => h.symm) (List.mergeSort_perm (bytesOnlyInFirst strict fs1 fs2 s) Ival.le)).2 h'
    refine List.Pairwise.imp_of_mem ?_ hs
    intro a b ha hb hab _
    have := (traceIvals_spec strict fs1 s).1 a ((mem_onlyInFirst _ _ _ _ _).1 ((List.mergeSort_perm _ _).mem_iff.1 ha)).1
    have := (traceIvals_spec strict fs1 s).1 b ((mem_onlyInFirst _ _ _ _ _).1 ((List.mergeSort_perm _ _).mem_iff.1 hb)).1
    show a.1 + (a.2 - a.1) ≤ b.1 ∨ b.1 + (b.2 - b.1) ≤ a.1
    omega
  · have hn : (sourcesOf fs1).Nodup := foldl_addNew_nodup _ _ List.nodup_nil
    refine hn.imp ?_
    intro a b hab x hx y hy e
    obtain ⟨_, _, rfl⟩ := List.mem_map.1 hx
    obtain ⟨_, _, rfl⟩ := List.mem_map.1 hy
    exact absurd e hab

/-! ### The picture -/

theorem growHeight_enough (n w h : Nat) (hw : 0 < w) : n ≤ w * growHeight n w h ∧ h ≤ growHeight n w h := by
  fun_induction growHeight n w h with
  | case1 h hc ih => exact ⟨ih.1, by omega⟩
  | case2 h hc => exact ⟨by omega, Nat.le_refl _⟩

/-- The colour of a byte. -/
def shade (a b : Bool) : Colour := match a, b with
  | true, true => .white
  | true, false => .blue
  | false, true => .red
  | false, false => .black

/-- The picture after the first `m` bytes. -/
def drawn (m w h : Nat) (inFirst inSecond : Nat → Bool) : Image :=
  ⟨w, h, fun x y => if x < w ∧ y * w + x < m then shade (inFirst (y * w + x)) (inSecond (y * w + x)) else .white⟩

theorem fold_drawn (w h : Nat) (hw : 0 < w) (inFirst inSecond : Nat → Bool) : ∀ m, m ≤ w * h →
    (List.range m).foldlM (putByte inFirst inSecond) ⟨w, h, fun _ _ => .white⟩ = some (drawn m w h inFirst inSecond) := by
  intro m
  induction m with
  | zero =>
    intro _
    simp [drawn]
  | succ m ih =>
    intro hm
    rw [List.range_succ, List.foldlM_append, ih (by omega)]
    show (putByte inFirst inSecond (drawn m w h inFirst inSecond) m >>= fun s => some s) = _
    have hx : m % w < w := Nat.mod_lt _ hw
    have hy : m / w < h := Nat.div_lt_of_lt_mul (by omega)
    have hdm : m / w * w + m % w = m := by rw [Nat.mul_comm]; exact Nat.div_add_mod m w
    have huniq : ∀ x y, x < w → y * w + x = m → x = m % w ∧ y = m / w := by
      intro x y hx' e
      rw [← e, Nat.add_comm]
      refine ⟨by rw [Nat.add_mul_mod_self_right, Nat.mod_eq_of_lt hx'], ?_⟩
      rw [Nat.add_mul_div_right _ _ hw, Nat.div_eq_of_lt hx', Nat.zero_add]
    unfold putByte
    by_cases hb : (inFirst m && inSecond m) = true
    · rw [if_pos hb]
      simp only [Bool.and_eq_true] at hb
      show some (drawn m w h inFirst inSecond) = some (drawn (m + 1) w h inFirst inSecond)
      congr 1
      unfold drawn
      congr 1
      funext x y
      by_cases hxw : x < w
      · by_cases hlt : y * w + x < m
        · rw [if_pos ⟨hxw, hlt⟩, if_pos ⟨hxw, by omega⟩]
        · rw [if_neg (fun h => hlt h.2)]
          by_cases he : y * w + x = m
          · rw [if_pos ⟨hxw, by omega⟩, he, hb.1, hb.2]; rfl
          · rw [if_neg (fun h => by omega)]
      · rw [if_neg (fun h => hxw h.1), if_neg (fun h => hxw h.1)]
    · rw [if_neg hb]
      unfold Image.put
      rw [if_pos (by exact ⟨hx, hy⟩)]
      show some _ = some (drawn (m + 1) w h inFirst inSecond)
      congr 1
      unfold drawn
      congr 1
      funext x y
      simp only
      by_cases hp : x = m % w ∧ y = m / w
      · rw [if_pos hp]
        obtain ⟨rfl, rfl⟩ := hp
        rw [hdm, if_pos (c := m % w < w ∧ m < m + 1) ⟨hx, by omega⟩]
        cases h1 : inFirst m <;> cases h2 : inSecond m <;> first | rfl | (rw [h1, h2] at hb; exact absurd rfl hb)
      · rw [if_neg hp]
        by_cases hxw : x < w
        · have hne : y * w + x ≠ m := fun e => hp (huniq x y hxw e)
          by_cases hlt : y * w + x < m
          · rw [if_pos ⟨hxw, hlt⟩, if_pos ⟨hxw, by omega⟩]
          · rw [if_neg (fun h => hlt h.2), if_neg (fun h => by omega)]
        · rw [if_neg (fun h => hxw h.1), if_neg (fun h => hxw h.1)]

end Verif.Py
