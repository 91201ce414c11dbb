import Verif.PyFind
import Verif.Props.C39
/- C44: searching tainted bytes finds the tainted occurrences of a sequence. -/
namespace Verif
open Spec Py

/-- The sequence occurs in input `s` at offset `o`, and all its bytes are in the collection. -/
def Spec.TaintedAt (content : InputRef → List Nat) (l : List ByteOffset) (sub : List Nat) (s : InputRef) (o : Nat) : Prop :=
  (∀ k, k < sub.length → ⟨s, o + k⟩ ∈ l) ∧ ∀ k, k < sub.length → (content s)[o + k]? = sub[k]?

/-- The offsets of a region. -/
def Py.Region.offsets (r : Region) : List Nat := (List.range r.length).map (r.offset + ·)

/-- Python's slicing of a list with both bounds given. -/
def Spec.pySlice {α : Type} (l : List α) (start stop : Int) : List α :=
  let norm (i : Int) : Nat := if i < 0 then (l.length + i).toNat else min i.toNat l.length
  (l.take (norm stop)).drop (norm start)

theorem bytesFind_some {s sub : List Nat} {start i : Nat} (h : bytesFind s sub start = some i) :
    start ≤ i ∧ i ≤ s.length ∧ (s.drop i).take sub.length = sub := by
  unfold bytesFind at h
  have h1 := List.find?_some h
  have h2 := List.mem_of_find?_eq_some h
  simp only [Bool.and_eq_true, decide_eq_true_eq, List.mem_range] at h1 h2
  exact ⟨h1.1, by omega, h1.2⟩

theorem bytesFind_none {s sub : List Nat} {start i : Nat} (h : bytesFind s sub start = none) (h1 : start ≤ i)
    (h2 : i ≤ s.length) : (s.drop i).take sub.length ≠ sub := by
  unfold bytesFind at h
  rw [List.find?_eq_none] at h
  have := h i (List.mem_range.2 (by omega))
  simp only [Bool.and_eq_true, decide_eq_true_eq, not_and] at this
  exact this h1

/-- Finding again from a place where the sequence was found finds the same place. -/
theorem bytesFind_again {s sub : List Nat} {start i : Nat} (h : bytesFind s sub start = some i) :
    bytesFind s sub i = some i := by
  obtain ⟨h1, h2, h3⟩ := bytesFind_some h
  cases hb : bytesFind s sub i with
  | none => exact absurd h3 (bytesFind_none hb (Nat.le_refl _) h2)
  | some j =>
    obtain ⟨j1, j2, j3⟩ := bytesFind_some hb
    congr 1
    unfold bytesFind at hb
    rw [List.find?_range_eq_some] at hb
    by_cases hij : i = j
    · exact hij.symm
    · have := hb.2.2 i (by omega)
      simp [h3] at this

theorem findRest_some {content : InputRef → List Nat} {sub : List Nat} : ∀ {rs : List Region} {r : Region} {st : FindState},
    findRest content sub rs = some (r, st) →
    ∃ q ∈ rs, ∃ i, bytesFind (q.value content) sub 0 = some i ∧ r = q.slice i (i + sub.length) ∧ st.cur = some (q, i) := by
  intro rs
  induction rs with
  | nil => intro r st h; cases h
  | cons q rs ih =>
    intro r st h
    simp only [findRest] at h
    split at h
    · rename_i i hi
      cases h
      exact ⟨q, List.mem_cons_self, i, hi, rfl, rfl⟩
    · obtain ⟨q', hq, h'⟩ := ih h
      exact ⟨q', List.mem_cons_of_mem _ hq, h'⟩

theorem findRest_none {content : InputRef → List Nat} {sub : List Nat} : ∀ {rs : List Region},
    findRest content sub rs = none → ∀ q ∈ rs, bytesFind (q.value content) sub 0 = none := by
  intro rs
  induction rs with
  | nil => intro _ q h; cases h
  | cons q rs ih =>
    intro h q' hq'
    simp only [findRest] at h
    split at h
    · cases h
    · rename_i hn
      rcases List.mem_cons.1 hq' with rfl | h'
      · exact hn
      · exact ih h q' h'

theorem value_get (content : InputRef → List Nat) (r : Region) (k : Nat) :
    (r.value content)[k]? = if k < r.length then (content r.source)[r.offset + k]? else none := by
  unfold Region.value
  rw [List.getElem?_take, List.getElem?_drop]

/-- An occurrence in the bytes of a region. -/
theorem value_occurs {content : InputRef → List Nat} {r : Region} {sub : List Nat} {i : Nat} (hs : sub ≠ [])
    (h : ((r.value content).drop i).take sub.length = sub) :
    i + sub.length ≤ r.length ∧ ∀ k, k < sub.length → (content r.source)[r.offset + i + k]? = sub[k]? := by
  have hlen := congrArg List.length h
  have hv : (r.value content).length ≤ r.length := by
    unfold Region.value; simp only [List.length_take, List.length_drop]; omega
  simp only [List.length_take, List.length_drop] at hlen
  have hpos : 0 < sub.length := List.length_pos_iff.2 hs
  refine ⟨by omega, fun k hk => ?_⟩
  have h2 := congrArg (·[k]?) h
  simp only [List.getElem?_take, List.getElem?_drop, hk, if_true] at h2
  rw [value_get, if_pos (by omega), ← Nat.add_assoc] at h2
  exact h2

/-- The first value of the generator is right: it lies in a region, its bytes are the sequence. -/
theorem first_sound {content : InputRef → List Nat} {sub : List Nat} (hs : sub ≠ []) {rs : List Region} {r : Region}
    {st : FindState} (h : findNext content sub ⟨none, rs⟩ = some (r, st)) :
    ∃ q ∈ rs, r.source = q.source ∧ q.offset ≤ r.offset ∧ r.offset + r.length ≤ q.offset + q.length ∧
      r.length = sub.length ∧ r.value content = sub := by
  simp only [findNext] at h
  obtain ⟨q, hq, i, hi, rfl, -⟩ := findRest_some h
  obtain ⟨-, -, h3⟩ := bytesFind_some hi
  obtain ⟨h4, h5⟩ := value_occurs hs h3
  have hpos : 0 < sub.length := List.length_pos_iff.2 hs
  have hsl : q.slice i (i + sub.length) = ⟨q.source, q.offset + i, sub.length⟩ := by
    unfold Region.slice
    simp only
    rw [if_neg (by omega), if_neg (by omega), if_neg (by omega)]
    congr 1
    omega
  rw [hsl]
  refine ⟨q, hq, rfl, by simp only; omega, by simp only; omega, rfl, ?_⟩
  apply List.ext_getElem?
  intro k
  rw [value_get]
  simp only
  split
  · rename_i hk; exact h5 k hk
  · rename_i hk; rw [List.getElem?_eq_none (by omega)]

/-- Soundness: the first match reported is an occurrence of the sequence all of whose bytes are tainted.
(Later values repeat it: `C44_repeats_refuted`.) -/
theorem C44_first_partial (content : InputRef → List Nat) (l : List ByteOffset) (sub : List Nat) (hs : sub ≠ [])
    (r : Region) (st : FindState) (h : findNext content sub (Taints.find (Taints.mk l)) = some (r, st)) :
    TaintedAt content l sub r.source r.offset ∧ r.length = sub.length ∧ r.value content = sub := by
  obtain ⟨q, hq, h1, h2, h3, h4, h5⟩ := first_sound hs h
  refine ⟨⟨fun k hk => ?_, fun k hk => ?_⟩, h4, h5⟩
  · refine ((C39_covers l).covers r.source (r.offset + k)).1 ⟨q.bounds, List.mem_map.2 ⟨q, hq, rfl⟩, h1.symm, ?_, ?_⟩
    · simp only [Region.bounds]; omega
    · simp only [Region.bounds]; omega
  · have := congrArg (·[k]?) h5
    simp only [value_get] at this
    rw [if_pos (by omega)] at this
    exact this

/-- Membership is never reported wrongly. -/
theorem C44_contains_sound (content : InputRef → List Nat) (l : List ByteOffset) (sub : List Nat) (hs : sub ≠ [])
    (h : Taints.contains content (Taints.mk l) sub = true) : ∃ s o, TaintedAt content l sub s o := by
  unfold Taints.contains at h
  obtain ⟨⟨r, st⟩, h'⟩ := Option.isSome_iff_exists.1 h
  exact ⟨_, _, (C44_first_partial content l sub hs r st h').1⟩

/-- An occurrence inside one region is found. -/
theorem contains_of_region {content : InputRef → List Nat} {t : Dict InputRef (List ByteOffset)} {sub : List Nat} {q : Region}
    (hq : q ∈ Taints.regions t) {o : Nat} (h1 : q.offset ≤ o) (h2 : o + sub.length ≤ q.offset + q.length)
    (h3 : ∀ k, k < sub.length → (content q.source)[o + k]? = sub[k]?) (hs : sub ≠ []) :
    Taints.contains content t sub = true := by
  unfold Taints.contains
  cases h : findNext content sub (Taints.find t) with
  | some _ => rfl
  | none =>
    exfalso
    simp only [findNext, Taints.find] at h
    have hn := findRest_none h q hq
    have hpos : 0 < sub.length := List.length_pos_iff.2 hs
    have hocc : ((q.value content).drop (o - q.offset)).take sub.length = sub := by
      apply List.ext_getElem?
      intro k
      rw [List.getElem?_take, List.getElem?_drop, value_get]
      split
      · rename_i hk
        rw [if_pos (by omega), ← h3 k hk]
        congr 1
        omega
      · rename_i hk; rw [List.getElem?_eq_none (by omega)]
    refine bytesFind_none hn (Nat.zero_le _) ?_ hocc
    have := congrArg List.length hocc
    simp only [List.length_take, List.length_drop] at this
    omega

/-- Consecutive bytes lie in one maximal run. -/
theorem run_contains {rs : List (Nat × Nat)} {P : Nat → Prop} (h : MaximalRuns rs P) (o : Nat) : ∀ n, (∀ k, k < n + 1 → P (o + k)) →
    ∃ r ∈ rs, r.1 ≤ o ∧ o + n < r.2 := by
  intro n
  induction n with
  | zero =>
    intro hP
    obtain ⟨r, hr, h1, h2⟩ := (h.covers o).2 (hP 0 (by omega))
    exact ⟨r, hr, h1, h2⟩
  | succ n ih =>
    intro hP
    obtain ⟨r, hr, h1, h2⟩ := ih (fun k hk => hP k (by omega))
    refine ⟨r, hr, h1, ?_⟩
    by_cases hlt : o + (n + 1) < r.2
    · exact hlt
    · exfalso
      apply (h.maximal r hr).1
      rw [show r.2 = o + (n + 1) by omega]
      exact hP (n + 1) (by omega)

/-- Membership in a collection restricted to one input: true exactly if the sequence occurs there with all
its bytes tainted. -/
theorem C44_contains_from_source (content : InputRef → List Nat) (l : List ByteOffset) (s : InputRef) (sub : List Nat)
    (hs : sub ≠ []) :
    Taints.contains content (Taints.fromSource (Taints.mk l) s) sub = true ↔ ∃ o, TaintedAt content l sub s o := by
  have hpos : 0 < sub.length := List.length_pos_iff.2 hs
  obtain ⟨hm, hsrc⟩ := C39_from_source l s
  constructor
  · intro h
    unfold Taints.contains at h
    obtain ⟨⟨r, st⟩, h'⟩ := Option.isSome_iff_exists.1 h
    obtain ⟨q, hq, h1, h2, h3, h4, h5⟩ := first_sound hs h'
    have hqs := hsrc q hq
    refine ⟨r.offset, fun k hk => ?_, fun k hk => ?_⟩
    · refine (hm.covers (r.offset + k)).1 ⟨(q.offset, q.offset + q.length), ?_, ?_, ?_⟩
      · exact List.mem_map.2 ⟨q.bounds, List.mem_filter.2 ⟨List.mem_map.2 ⟨q, hq, rfl⟩, decide_eq_true hqs⟩, rfl⟩
      · simp only; omega
      · simp only; omega
    · have := congrArg (·[k]?) h5
      simp only [value_get] at this
      rw [if_pos (by omega), h1, hqs] at this
      exact this
  · rintro ⟨o, h1, h2⟩
    obtain ⟨r, hr, h3, h4⟩ := run_contains hm o (sub.length - 1) (fun k hk => h1 k (by omega))
    obtain ⟨b, hb, rfl⟩ := List.mem_map.1 hr
    obtain ⟨hb, hbs⟩ := List.mem_filter.1 hb
    obtain ⟨q, hq, rfl⟩ := List.mem_map.1 hb
    have hbs : q.source = s := of_decide_eq_true hbs
    simp only [Region.bounds] at h3 h4
    exact contains_of_region hq h3 (by omega) (by rw [hbs]; exact h2) hs

/-- Membership of a single byte is decided correctly for every collection. -/
theorem C44_contains_byte (content : InputRef → List Nat) (l : List ByteOffset) (b : Nat) :
    Taints.contains content (Taints.mk l) [b] = true ↔ ∃ o ∈ l, (content o.source)[o.offset]? = some b := by
  constructor
  · intro h
    obtain ⟨s, o, h1, h2⟩ := C44_contains_sound content l [b] (by simp) h
    exact ⟨⟨s, o⟩, by simpa using h1 0 (by simp), by simpa using h2 0 (by simp)⟩
  · rintro ⟨o, ho, hb⟩
    obtain ⟨c, hc, h1, h2, h3⟩ := ((C39_covers l).covers o.source o.offset).2 ho
    obtain ⟨q, hq, rfl⟩ := List.mem_map.1 hc
    simp only [Region.bounds] at h1 h2 h3
    refine contains_of_region hq h2 (by simp; omega) ?_ (by simp)
    intro k hk
    have hk0 : k = 0 := by simpa using hk
    subst hk0
    rw [h1]
    simpa using hb

/-! ### Slices of regions -/

/-- Slicing a region, with a bound that does not exceed its length, selects the offsets Python's slicing
of the list of its offsets would. Missing for the full claim: bounds beyond the end (`C44_slice_refuted`). -/
theorem C44_slice_partial (r : Region) (start stop : Int) (h : stop ≤ r.length) :
    (r.slice start stop).offsets = pySlice r.offsets start stop ∧ (r.slice start stop).source = r.source := by
  have hl : r.offsets.length = r.length := by simp [Region.offsets]
  have key : ∀ (A B : Int) (a b : Nat), A.toNat = a → (B ≤ r.length) → (0 ≤ A) → B.toNat = b →
      (if A ≥ B ∨ A ≥ r.length ∨ B ≤ 0 then (⟨r.source, r.offset, 0⟩ : Region)
        else ⟨r.source, r.offset + A.toNat, (B - A).toNat⟩).offsets = (r.offsets.take b).drop a := by
    rintro A B a b rfl h1 h2 rfl
    apply List.ext_getElem?
    intro k
    rw [List.getElem?_drop, List.getElem?_take]
    split
    · rename_i hc
      simp only [Region.offsets, List.range_zero, List.map_nil, List.getElem?_nil]
      split
      · rw [List.getElem?_eq_none]
        simp only [List.length_map, List.length_range]
        omega
      · rfl
    · rename_i hc
      simp only [Region.offsets, List.getElem?_map]
      split
      · rw [List.getElem?_range (by omega), List.getElem?_range (by omega)]
        simp only [Option.map_some, Option.some.injEq]
        omega
      · rw [List.getElem?_eq_none]
        · rfl
        · simp only [List.length_range]
          omega
  constructor
  · unfold Region.slice pySlice
    simp only [hl]
    by_cases h1 : start < 0
    · by_cases h2 : stop < 0
      · simp only [if_pos h1, if_pos h2]
        exact key _ _ _ _ (by omega) (by omega) (by omega) rfl
      · simp only [if_pos h1, if_neg h2]
        exact key _ _ _ _ (by omega) h (by omega) (by omega)
    · have e : ∀ b, b ≤ r.length → (r.offsets.take b).drop (min start.toNat r.length) = (r.offsets.take b).drop start.toNat := by
        intro b hb
        by_cases h3 : start.toNat ≤ r.length
        · rw [Nat.min_eq_left h3]
        · rw [Nat.min_eq_right (by omega), List.drop_eq_nil_of_le, List.drop_eq_nil_of_le] <;>
            simp only [List.length_take] <;> omega
      by_cases h2 : stop < 0
      · simp only [if_neg h1, if_pos h2]
        rw [e _ (by omega)]
        exact key _ _ _ _ rfl (by omega) (by omega) rfl
      · simp only [if_neg h1, if_neg h2]
        rw [e _ (by omega)]
        exact key _ _ _ _ rfl h (by omega) (by omega)
  · unfold Region.slice
    simp only
    split <;> split <;> split <;> rfl

/-- A bound beyond the end is not cut off: the slice runs past the region into bytes that are not
tainted. -/
theorem C44_slice_refuted (r : Region) (n : Nat) (hr : 0 < r.length) :
    (r.slice 0 (r.length + n)).offsets = r.offsets ++ (List.range n).map (r.offset + r.length + ·) ∧
    pySlice r.offsets 0 (r.length + n) = r.offsets := by
  have hl : r.offsets.length = r.length := by simp [Region.offsets]
  constructor
  · unfold Region.slice
    simp only
    rw [if_neg (by omega), if_neg (by omega), if_neg (by omega)]
    simp only [Region.offsets]
    rw [show ((r.length : Int) + n - 0).toNat = r.length + n by omega, List.range_add, List.map_append, List.map_map]
    simp [Function.comp_def, Nat.add_assoc]
  · unfold pySlice
    simp only [hl]
    rw [if_neg (by omega), if_neg (by omega), show min ((r.length : Int) + n).toNat r.length = r.length by omega]
    rw [List.take_of_length_le (by omega)]
    simp

/-! ### Where the claim fails -/

/-- After its first match the search never gets further: every value it yields is the same, forever. So
enumerating the matches never ends, and other occurrences are never reported. -/
theorem C44_repeats_refuted (content : InputRef → List Nat) (sub : List Nat) (st st' : FindState) (r : Region)
    (h : findNext content sub st = some (r, st')) (n : Nat) : findTake content sub n st' = List.replicate n r := by
  have key : findNext content sub st' = some (r, st') := by
    have hc : ∃ q i, st'.cur = some (q, i) ∧ bytesFind (q.value content) sub i = some i ∧ r = q.slice i (i + sub.length) := by
      unfold findNext at h
      split at h
      · obtain ⟨q, hq, i, hi, hr, hcur⟩ := findRest_some h
        exact ⟨q, i, hcur, bytesFind_again hi, hr⟩
      · split at h
        · rename_i q off _ _ i hi
          cases h
          exact ⟨q, i, rfl, bytesFind_again hi, rfl⟩
        · obtain ⟨q, hq, i, hi, hr, hcur⟩ := findRest_some h
          exact ⟨q, i, hcur, bytesFind_again hi, hr⟩
    obtain ⟨q, i, h1, h2, h3⟩ := hc
    obtain ⟨cur, rest⟩ := st'
    simp only at h1
    subst h1
    simp only [findNext, h2, h3]
  induction n with
  | zero => rfl
  | succ n ih => simp only [findTake, key, ih, List.replicate_succ]

/-- A file "aba" that is tainted completely: the search for "a" has a first value, which it then keeps
yielding. -/
example : ∃ r st, findNext (fun _ => [97, 98, 97]) [97] (Taints.find (Taints.mk
    [⟨⟨3, [120]⟩, 0⟩, ⟨⟨3, [120]⟩, 1⟩, ⟨⟨3, [120]⟩, 2⟩])) = some (r, st) := by
  have := (C44_contains_byte (fun _ => [97, 98, 97]) [⟨⟨3, [120]⟩, 0⟩, ⟨⟨3, [120]⟩, 1⟩, ⟨⟨3, [120]⟩, 2⟩] 97).2 (by decide)
  obtain ⟨⟨r, st⟩, h⟩ := Option.isSome_iff_exists.1 this
  exact ⟨r, st, h⟩

/-- Membership of a sequence of two or more bytes takes only the input of the collection's first byte
into account. -/
theorem C44_contains_exact (content : InputRef → List Nat) (o : ByteOffset) (l : List ByteOffset) (sub : List Nat)
    (hs : 2 ≤ sub.length) :
    Taints.contains content (Taints.mk (o :: l)) sub = true ↔ ∃ p, TaintedAt content (o :: l) sub o.source p := by
  have hne : sub ≠ [] := by intro h; rw [h] at hs; simp at hs
  constructor
  · intro h
    unfold Taints.contains at h
    obtain ⟨⟨r, st⟩, h'⟩ := Option.isSome_iff_exists.1 h
    have h1 := C44_first_partial content (o :: l) sub hne r st h'
    obtain ⟨q, hq, h2, h3, h4, h5, -⟩ := first_sound hne h'
    by_cases hqs : q.source = o.source
    · rw [h2, hqs] at h1
      exact ⟨_, h1.1⟩
    · have := C39_others_split o l q hq hqs
      omega
  · rintro ⟨p, h1, h2⟩
    have hm := C39_first_partial o l
    obtain ⟨r, hr, h3, h4⟩ := run_contains hm p (sub.length - 1) (fun k hk => h1 k (by omega))
    obtain ⟨b, hb, rfl⟩ := List.mem_map.1 hr
    obtain ⟨hb, hbs⟩ := List.mem_filter.1 hb
    obtain ⟨q, hq, rfl⟩ := List.mem_map.1 hb
    have hbs : q.source = o.source := of_decide_eq_true hbs
    simp only [Region.bounds] at h3 h4
    exact contains_of_region hq h3 (by omega) (by rw [hbs]; exact h2) hne

/-- Two inputs: the second is tainted completely and contains the sequence, but membership is denied. -/
theorem C44_contains_refuted : ∃ (content : InputRef → List Nat) (l : List ByteOffset) (sub : List Nat) (s : InputRef),
    TaintedAt content l sub s 0 ∧ Taints.contains content (Taints.mk l) sub = false ∧
    Taints.contains content (Taints.fromSource (Taints.mk l) s) sub = true := by
  have ht : TaintedAt (fun s => if s.uid = 4 then [104, 105] else [97])
      [⟨⟨3, [120]⟩, 0⟩, ⟨⟨4, [121]⟩, 0⟩, ⟨⟨4, [121]⟩, 1⟩] [104, 105] ⟨4, [121]⟩ 0 := by
    constructor <;> decide
  refine ⟨_, _, _, _, ht, ?_, (C44_contains_from_source _ _ _ _ (by simp)).2 ⟨0, ht⟩⟩
  rw [Bool.eq_false_iff]
  intro h
  obtain ⟨p, h1, h2⟩ := (C44_contains_exact _ _ _ _ (by simp)).1 h
  have a := h1 0 (by simp)
  have b := h1 1 (by simp)
  simp at a b

/-- Hypotheses are met. -/
example : Taints.contains (fun _ => [97, 98, 97]) (Taints.mk [⟨⟨3, [120]⟩, 1⟩, ⟨⟨3, [120]⟩, 2⟩]) [98, 97] = true :=
  (C44_contains_exact _ _ _ _ (by simp)).2 ⟨1, by constructor <;> decide⟩

example : (Region.slice ⟨⟨3, [120]⟩, 10, 6⟩ (-4) (-1)).offsets = [12, 13, 14] := by decide

end Verif
