import Verif.PyIntervals
import Verif.PyTreeLemmas
import Mathlib.Data.Finset.Card
import Mathlib.Order.Interval.Finset.Nat
/- Lemmas on the model of interval trees. -/
namespace Verif.PyIntervals
open Verif.Spec Verif.PyTree

/-- The offset is in the tree. -/
def In (iv : Ivs) (i : Nat) : Prop := (get iv i).isSome = true

instance (iv : Ivs) (i : Nat) : Decidable (In iv i) := by unfold In; infer_instance

theorem get_map_range (n : Nat) (f : Nat → Option Int) (i : Nat) :
    get ((List.range n).map f) i = if i < n then f i else none := by
  unfold get
  by_cases h : i < n
  · simp [List.getD_eq_getElem?_getD, h]
  · simp [List.getD_eq_getElem?_getD, h]

theorem get_ge {iv : Ivs} {i : Nat} (h : iv.length ≤ i) : get iv i = none := by
  unfold get
  simp [List.getD_eq_getElem?_getD, List.getElem?_eq_none h]

theorem get_nil (i : Nat) : get [] i = none := rfl

theorem In.lt {iv : Ivs} {i : Nat} (h : In iv i) : i < iv.length := by
  by_contra hc
  unfold In at h
  rw [get_ge (by omega)] at h
  cases h

theorem get_chop (b e : Int) (iv : Ivs) (i : Nat) :
    get (chop b e iv) i = if b ≤ (i : Int) ∧ (i : Int) < e then none else get iv i := by
  unfold chop
  rw [get_map_range]
  split
  · rfl
  · rw [get_ge (by omega)]; simp

theorem get_join (a b : Ivs) (i : Nat) : get (join a b) i = maxData (get a i) (get b i) := by
  unfold join
  rw [get_map_range]
  split
  · rfl
  · rw [get_ge (by omega), get_ge (by omega)]; rfl

theorem get_span (b e : Nat) (d : Int) (i : Nat) : get (span b e d) i = if b ≤ i ∧ i < e then some d else none := by
  unfold span
  rw [get_map_range]
  by_cases h1 : i < e <;> by_cases h2 : b ≤ i <;> simp [h1, h2]

theorem in_join {a b : Ivs} {i : Nat} : In (join a b) i ↔ In a i ∨ In b i := by
  unfold In
  rw [get_join]
  cases get a i <;> cases get b i <;> simp [maxData]

theorem in_span {b e : Nat} {d : Int} {i : Nat} : In (span b e d) i ↔ b ≤ i ∧ i < e := by
  unfold In
  rw [get_span]
  split <;> simp_all

theorem not_in_nil (i : Nat) : ¬ In [] i := by simp [In, get_nil]

theorem chop_self {b e : Int} {iv : Ivs} (h : ∀ i : Nat, b ≤ (i : Int) → (i : Int) < e → ¬ In iv i) : chop b e iv = iv := by
  apply List.ext_getElem?
  intro i
  unfold chop
  rw [List.getElem?_map]
  by_cases hi : i < iv.length
  · rw [List.getElem?_range hi, List.getElem?_eq_getElem hi]
    have hg : get iv i = iv[i] := by simp [get, List.getD_eq_getElem?_getD, hi]
    simp only [Option.map_some, Option.some.injEq]
    split
    · rename_i hc
      have := h i hc.1 hc.2
      unfold In at this
      rw [hg] at this
      cases hv : iv[i] with
      | none => rfl
      | some d => rw [hv] at this; simp at this
    · exact hg
  · rw [List.getElem?_eq_none (by simpa using hi), List.getElem?_eq_none (by omega)]
    rfl

theorem begin_spec {iv : Ivs} {i : Nat} (h : In iv i) : In iv (begin_ iv) ∧ begin_ iv ≤ i := by
  unfold begin_
  have hex : ∃ x ∈ List.range iv.length, (get iv x).isSome = true := ⟨i, by simpa using h.lt, h⟩
  cases hf : (List.range iv.length).find? fun i => (get iv i).isSome with
  | none =>
    obtain ⟨x, hx1, hx2⟩ := hex
    have := List.find?_eq_none.1 hf x hx1
    exact absurd hx2 this
  | some k =>
    refine ⟨by have := List.find?_some hf; exact this, ?_⟩
    simp only [Option.getD_some]
    by_contra hc
    obtain ⟨l1, l2, e1, e2⟩ := (List.find?_eq_some_iff_append.1 hf).2
    have hm : i ∈ l1 := by
      have hlen : l1.length = k := by
        have h1 : (List.range iv.length)[l1.length]? = some k := by rw [e1]; simp
        have h2 := (List.getElem?_eq_some_iff.1 h1)
        obtain ⟨h3, h4⟩ := h2
        simpa using h4
      have h5 : (List.range iv.length)[i]? = l1[i]? := by rw [e1, List.getElem?_append_left (by omega)]
      rw [List.getElem?_range h.lt] at h5
      exact List.mem_of_getElem? h5.symm
    have := e2 i hm
    unfold In at h
    simp [h] at this

theorem end_spec {iv : Ivs} {i : Nat} (h : In iv i) : i < end_ iv ∧ 0 < end_ iv ∧ In iv (end_ iv - 1) := by
  unfold end_
  have hex : ∃ x ∈ (List.range iv.length).reverse, (get iv x).isSome = true := ⟨i, by simpa using h.lt, h⟩
  cases hf : (List.range iv.length).reverse.find? fun i => (get iv i).isSome with
  | none =>
    obtain ⟨x, hx1, hx2⟩ := hex
    have := List.find?_eq_none.1 hf x hx1
    exact absurd hx2 this
  | some k =>
    simp only [Option.map_some, Option.getD_some]
    refine ⟨?_, by omega, by have := List.find?_some hf; exact this⟩
    by_contra hc
    obtain ⟨l1, l2, e1, e2⟩ := (List.find?_eq_some_iff_append.1 hf).2
    have hm : i ∈ l1 := by
      have e3 : List.range iv.length = l2.reverse ++ k :: l1.reverse := by
        have := congrArg List.reverse e1
        simpa using this
      have hlen : l2.reverse.length = k := by
        have h1 : (List.range iv.length)[l2.reverse.length]? = some k := by rw [e3]; simp
        have h2 := (List.getElem?_eq_some_iff.1 h1)
        obtain ⟨h3, h4⟩ := h2
        simpa using h4
      have h5 : (List.range iv.length)[i]? = (l1.reverse)[i - (k + 1)]? := by
        rw [e3, List.getElem?_append_right (by omega), hlen]
        rw [show i - k = (i - (k + 1)) + 1 by omega, List.getElem?_cons_succ]
      rw [List.getElem?_range h.lt] at h5
      exact List.mem_reverse.1 (List.mem_of_getElem? h5.symm)
    have := e2 i hm
    unfold In at h
    simp [h] at this

theorem empty_spec {iv : Ivs} (h : ∀ i, ¬ In iv i) : begin_ iv = 0 ∧ end_ iv = 0 := by
  have hn : ∀ l : List Nat, l.find? (fun i => (get iv i).isSome) = none := by
    intro l
    refine List.find?_eq_none.2 fun x _ => ?_
    exact h x
  unfold begin_ end_
  rw [hn, hn]
  exact ⟨rfl, rfl⟩

theorem in_range {iv : Ivs} {i : Nat} (h : In iv i) : begin_ iv ≤ i ∧ i < end_ iv :=
  ⟨(begin_spec h).2, (end_spec h).1⟩

theorem nonempty_iff {iv : Ivs} : begin_ iv < end_ iv ↔ ∃ i, In iv i := by
  constructor
  · intro h
    by_contra hc
    have := empty_spec (iv := iv) (fun i hi => hc ⟨i, hi⟩)
    omega
  · rintro ⟨i, hi⟩
    have := in_range hi
    omega

/-- Bounds from the content. -/
theorem bounds_eq {iv : Ivs} {b e : Nat} (h : ∀ i, In iv i → b ≤ i ∧ i < e) (hb : In iv b) (he : In iv (e - 1))
    (hlt : b < e) : begin_ iv = b ∧ end_ iv = e := by
  have h1 := begin_spec hb
  have h2 := end_spec he
  have h3 := h _ h1.1
  have h4 := h _ h2.2.2
  have h5 := end_spec hb
  omega

theorem span_bounds {b e : Nat} {d : Int} (h : b < e) : begin_ (span b e d) = b ∧ end_ (span b e d) = e :=
  bounds_eq (fun _ hi => in_span.1 hi) (in_span.2 ⟨Nat.le_refl _, h⟩) (in_span.2 (by omega)) h

theorem overlaps_iff {c : Ivs} {b e : Nat} : overlaps c b e = true ↔ ∃ i, b ≤ i ∧ i < e ∧ In c i := by
  unfold overlaps In
  simp only [List.any_eq_true, List.mem_range, Bool.and_eq_true, decide_eq_true_eq]
  constructor
  · rintro ⟨i, h1, h2, h3⟩; exact ⟨i, h2, h1, h3⟩
  · rintro ⟨i, h1, h2, h3⟩; exact ⟨i, h2, h1, h3⟩

theorem gapless_iff {c : Ivs} : gapless c = true ↔ ∀ i, begin_ c ≤ i → i < end_ c → In c i := by
  unfold gapless In
  simp only [List.all_eq_true, List.mem_range, Bool.or_eq_true, decide_eq_true_eq]
  constructor
  · intro h i h1 h2
    rcases h i h2 with h | h
    · omega
    · exact h
  · intro h i h2
    by_cases h1 : i < begin_ c
    · exact Or.inl h1
    · exact Or.inr (h i (by omega) h2)

theorem foldl_join {cs : List NTree} : ∀ {iv : Ivs} {i : Nat},
    In (cs.foldl (fun iv c => join iv (ivs c)) iv) i ↔ In iv i ∨ ∃ c ∈ cs, In (ivs c) i := by
  induction cs with
  | nil => intro iv i; simp
  | cons c cs ih =>
    intro iv i
    rw [List.foldl_cons, ih, in_join]
    simp [or_assoc]

/-- All data is a uid. -/
def Uids (iv : Ivs) : Prop := ∀ i d, get iv i = some d → 0 ≤ d

theorem uids_join {a b : Ivs} (ha : Uids a) (hb : Uids b) : Uids (join a b) := by
  intro i d h
  rw [get_join] at h
  cases h1 : get a i with
  | none => rw [h1] at h; exact hb i d h
  | some x =>
    cases h2 : get b i with
    | none => rw [h1, h2] at h; simp only [maxData, Option.some.injEq] at h; subst h; exact ha i _ h1
    | some y =>
      rw [h1, h2] at h
      simp only [maxData, Option.some.injEq] at h
      have := ha i x h1
      omega

theorem uids_span (b e : Nat) : Uids (span b e 0) := by
  intro i d h
  rw [get_span] at h
  split at h
  · cases h; omega
  · cases h

theorem uids_foldl {cs : List NTree} : ∀ {iv : Ivs}, Uids iv → (∀ c ∈ cs, Uids (ivs c)) →
    Uids (cs.foldl (fun iv c => join iv (ivs c)) iv) := by
  induction cs with
  | nil => intro iv h _; exact h
  | cons c cs ih =>
    intro iv h hc
    exact ih (uids_join h (hc c (by simp))) (fun c' h' => hc c' (by simp [h']))

/-- A child is never robbed by its parent: nothing changes. -/
theorem deconflictParent_self {b e : Nat} {iv : Ivs} (hu : Uids iv) (hin : ∀ i, In iv i → b ≤ i ∧ i < e)
    (hne : ∃ i, In iv i) : deconflictParent (span b e (-1)) iv = some iv := by
  obtain ⟨i0, hi0⟩ := hne
  have hbi := begin_spec hi0
  have hei := end_spec hi0
  have hb1 := hin _ hbi.1
  have hbe : b < e := by omega
  obtain ⟨hs1, hs2⟩ := span_bounds (d := -1) hbe
  unfold deconflictParent
  rw [hs1, if_neg (by omega)]
  have hw : ∀ w ∈ winners iv (span b e (-1)), ¬ w < 0 := by
    intro w hw
    unfold winners at hw
    simp only [List.mem_map, List.mem_range] at hw
    obtain ⟨k, -, rfl⟩ := hw
    have h1 : (get (span b e (-1)) (begin_ (span b e (-1)) + k)).getD (-1) = -1 := by
      rw [get_span]; split <;> rfl
    rw [h1]
    cases h2 : get iv (begin_ (span b e (-1)) + k) with
    | none => simp
    | some d =>
      have := hu _ _ h2
      simp only [Option.getD_some]
      omega
  have ht : ∀ l : List Int, (∀ w ∈ l, ¬ w < 0) → l.takeWhile (decide <| · < 0) = [] := by
    intro l hl
    cases l with
    | nil => rfl
    | cons a l => simp [List.takeWhile, hl a (by simp)]
  have hlen : (winners iv (span b e (-1))).length = end_ iv + 1 - b := by
    unfold winners; rw [List.length_map, List.length_range, hs1]
  simp only
  rw [ht _ hw, ht _ (fun w hx => hw w (List.mem_reverse.1 hx)), hlen]
  simp only [List.length_nil]
  rw [if_neg (by omega)]
  congr 1
  apply chop_self
  intro i h1 h2
  omega

theorem shrink_self {b e : Nat} {iv : Ivs} (hu : Uids iv) (hin : ∀ i, In iv i → b ≤ i ∧ i < e)
    (hne : ∃ i, In iv i) : shrink b e (span b e (-1)) iv = some iv := by
  have h1 : chop 0 b iv = iv := chop_self fun i _ h2 hi => by have := hin i hi; omega
  unfold shrink
  simp only [h1]
  obtain ⟨i0, hi0⟩ := hne
  have hei := end_spec hi0
  have := hin _ hei.2.2
  rw [if_neg (show ¬ end_ iv > e by omega), if_pos (nonempty_iff.2 ⟨i0, hi0⟩)]
  exact deconflictParent_self hu hin ⟨i0, hi0⟩

end Verif.PyIntervals
