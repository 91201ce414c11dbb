import Verif.PyMutate
import Mathlib.Data.Nat.Digits.Lemmas
/-
Helper lemmas for C73.
-/
namespace Verif
namespace Py
namespace Mutate

theorem foldl_digits (l : List Nat) (a : Nat) :
    (l.reverse.map (· + 48)).foldl (fun a c => a * 10 + (c - 48)) a = a * 10 ^ l.length + Nat.ofDigits 10 l := by
  induction l generalizing a with
  | nil => simp [Nat.ofDigits]
  | cons d l ih =>
    simp only [List.reverse_cons, List.map_append, List.foldl_append, ih, List.map_cons, List.map_nil, List.foldl_cons,
      List.foldl_nil, Nat.ofDigits_cons, List.length_cons, Nat.add_sub_cancel, pow_succ]
    ring

theorem dec_digit {n c : Nat} (h : c ∈ dec n) : 48 ≤ c ∧ c ≤ 57 := by
  unfold dec at h
  split at h
  · simp at h; omega
  · obtain ⟨d, h1, rfl⟩ := List.mem_map.1 h
    have := Nat.digits_lt_base (b := 10) (by omega) (List.mem_reverse.1 h1)
    omega

theorem dec_ne_nil (n : Nat) : dec n ≠ [] := by
  unfold dec
  split
  · simp
  · rename_i h
    intro h1
    have h2 : Nat.digits 10 n = [] := by simpa using h1
    exact h (Nat.digits_eq_nil_iff_eq_zero.1 h2)

theorem pyNat_dec (n : Nat) : pyNat (dec n) = some n := by
  unfold pyNat
  rw [if_pos ⟨dec_ne_nil n, fun c hc => dec_digit hc⟩]
  unfold dec
  split
  · rename_i h; simp [h]
  · rw [foldl_digits, Nat.ofDigits_digits]
    simp

theorem pyInt_dec (n : Nat) : pyInt (dec n) = some (n : Int) := by
  have h := pyNat_dec n
  have hd := fun c => dec_digit (n := n) (c := c)
  revert h hd
  generalize dec n = t
  intro h hd
  unfold pyInt
  split
  · have := hd 45 (by simp); omega
  · have := hd 43 (by simp); omega
  · rw [h]; rfl

theorem pyInt_neg (n : Nat) : pyInt (45 :: dec n) = some (-(n : Int)) := by
  simp [pyInt, pyNat_dec]

/-- Characters that end no field. -/
def Inner (c : Nat) : Prop := c ≠ 44 ∧ c ≠ 10

theorem csv_inField {t rest : Text} (ht : ∀ c ∈ t, Inner c) (f : Text) (row : List Text) :
    csvRows ⟨.inField, f, row⟩ (t ++ rest) = csvRows ⟨.inField, f ++ t, row⟩ rest := by
  induction t generalizing f with
  | nil => simp
  | cons c t ih =>
    have hc := ht c (by simp)
    rw [List.cons_append, csvRows]
    simp only [csvChar, if_neg hc.2, if_neg hc.1]
    rw [ih (fun c hc => ht c (by simp [hc]))]
    simp

/-- A field followed by a comma. -/
theorem csv_field {t rest : Text} (ht : ∀ c ∈ t, Inner c) (hq : t.head? ≠ some 34) (row : List Text) :
    csvRows ⟨.startField, [], row⟩ (t ++ 44 :: rest) = csvRows ⟨.startField, [], row ++ [t]⟩ rest := by
  cases t with
  | nil => simp [csvRows, csvChar]
  | cons c t =>
    have hc := ht c (by simp)
    have h3 : c ≠ 34 := by simpa using hq
    rw [List.cons_append, csvRows]
    simp only [csvChar, if_neg hc.2, if_neg hc.1, if_neg h3]
    rw [csv_inField (fun c hc => ht c (by simp [hc]))]
    simp [csvRows, csvChar]

/-- The first field. -/
theorem csv_first {t rest : Text} (ht : ∀ c ∈ t, Inner c) (hq : t.head? ≠ some 34) :
    csvRows .init (t ++ 44 :: rest) = csvRows ⟨.startField, [], [t]⟩ rest := by
  cases t with
  | nil => simp [csvRows, csvChar, Csv.init]
  | cons c t =>
    have hc := ht c (by simp)
    have h3 : c ≠ 34 := by simpa using hq
    rw [List.cons_append, csvRows]
    simp only [csvChar, Csv.init, if_neg hc.2, if_neg hc.1, if_neg h3]
    rw [csv_inField (fun c hc => ht c (by simp [hc]))]
    simp [csvRows, csvChar]

/-- A field at the end of the line. -/
theorem csv_last {t rest : Text} (ht : ∀ c ∈ t, Inner c) (hq : t.head? ≠ some 34) (row : List Text) :
    csvRows ⟨.startField, [], row⟩ (t ++ 10 :: rest) = (row ++ [t]) :: csvRows .init rest := by
  cases t with
  | nil => simp [csvRows, csvChar]
  | cons c t =>
    have hc := ht c (by simp)
    have h3 : c ≠ 34 := by simpa using hq
    rw [List.cons_append, csvRows]
    simp only [csvChar, if_neg hc.2, if_neg hc.1, if_neg h3]
    rw [csv_inField (fun c hc => ht c (by simp [hc]))]
    simp [csvRows, csvChar]

theorem dec_inner (n : Nat) : ∀ c ∈ dec n, Inner c := fun c hc => by
  have := dec_digit hc
  exact ⟨by omega, by omega⟩

theorem dec_head (n : Nat) : (dec n).head? ≠ some 34 := by
  intro h
  have := dec_digit (List.mem_of_mem_head? h)
  omega

theorem csv_cavity {path rest : Text} (hp : ∀ c ∈ path, Inner c) (hq : path.head? ≠ some 34) (r : Nat × Nat) :
    csvRows .init (printCavity path r ++ rest) = [path, dec r.1, dec r.2] :: csvRows .init rest := by
  have e : printCavity path r ++ rest = path ++ 44 :: (dec r.1 ++ 44 :: (dec r.2 ++ 10 :: rest)) := by
    simp [printCavity]
  rw [e, csv_first hp hq, csv_field (dec_inner _) (dec_head _), csv_last (dec_inner _) (dec_head _)]
  rfl

theorem universal_append {s t : Text} (hs : 13 ∉ s) : universal (s ++ t) = s ++ universal t := by
  induction s with
  | nil => rfl
  | cons c s ih =>
    have hc : c ≠ 13 := fun h => hs (by simp [h])
    have : universal ((c :: s) ++ t) = c :: universal (s ++ t) := by
      rw [List.cons_append]
      generalize s ++ t = u
      rw [universal]
      · intro _ h; exact absurd h hc
      · exact hc
    rw [this, ih (fun h => hs (by simp [h]))]
    rfl

theorem universal_same {s : Text} (hs : 13 ∉ s) : universal s = s := by
  have := universal_append (t := []) hs
  simpa [universal] using this

/-- Paths that survive being written and read. -/
structure Plain (path : Text) : Prop where
  inner : ∀ c ∈ path, c ≠ 44 ∧ c ≠ 10 ∧ c ≠ 13
  head : path.head? ≠ some 34

theorem Plain.csv {path : Text} (h : Plain path) : ∀ c ∈ path, Inner c := fun c hc => ⟨(h.inner c hc).1, (h.inner c hc).2.1⟩

theorem cavity_no13 {path : Text} (h : Plain path) (r : Nat × Nat) : 13 ∉ printCavity path r := by
  intro hm
  simp only [printCavity, List.mem_append, List.mem_singleton] at hm
  rcases hm with ((((hm | hm) | hm) | hm) | hm) | hm
  · exact (h.inner _ hm).2.2 rfl
  · omega
  · have := dec_digit hm; omega
  · omega
  · have := dec_digit hm; omega
  · omega

theorem printCavities_no13 {d : List (Text × List (Nat × Nat))} (hd : ∀ e ∈ d, Plain e.1) : 13 ∉ printCavities d := by
  intro hm
  obtain ⟨e, he, hm⟩ := List.mem_flatMap.1 hm
  obtain ⟨r, hr, hm⟩ := List.mem_flatMap.1 hm
  exact cavity_no13 (hd e he) r hm

theorem csv_entry {path rest : Text} (hp : Plain path) (rs : List (Nat × Nat)) :
    csvRows .init (rs.flatMap (printCavity path) ++ rest) =
      (rs.map fun r => [path, dec r.1, dec r.2]) ++ csvRows .init rest := by
  induction rs with
  | nil => rfl
  | cons r rs ih =>
    rw [List.flatMap_cons, List.append_assoc, csv_cavity hp.csv hp.head, ih]
    rfl

theorem csv_all {d : List (Text × List (Nat × Nat))} (hd : ∀ e ∈ d, Plain e.1) :
    csvRows .init (printCavities d) = d.flatMap fun e => e.2.map fun r => [e.1, dec r.1, dec r.2] := by
  induction d with
  | nil => rfl
  | cons e d ih =>
    have : printCavities (e :: d) = e.2.flatMap (printCavity e.1) ++ printCavities d := rfl
    rw [this, csv_entry (hd e (by simp)), ih (fun e he => hd e (by simp [he]))]
    rfl

theorem iterRows_entry (name path : Text) (rs : List (Nat × Nat)) (rows : List (List Text)) :
    iterRows name ((rs.map fun r => [path, dec r.1, dec r.2]) ++ rows) =
      (iterRows name rows).map fun t => (if path = name then rs.map fun r => ((r.1 : Int), (r.2 : Int)) else []) ++ t := by
  induction rs with
  | nil => simp
  | cons r rs ih =>
    rw [List.map_cons, List.cons_append, iterRows]
    by_cases hp : path = name
    · simp only [if_pos hp, pyInt_dec, ih]
      cases iterRows name rows <;> simp
    · simp only [if_neg hp, ih]

theorem iterCavities_printed {d : List (Text × List (Nat × Nat))} (hd : ∀ e ∈ d, Plain e.1) (name : Text) :
    iterCavities name (printCavities d) = some ((d.filter (·.1 = name)).flatMap fun e =>
      e.2.map fun r => ((r.1 : Int), (r.2 : Int))) := by
  unfold iterCavities
  rw [universal_same (printCavities_no13 hd), csv_all hd]
  clear hd
  induction d with
  | nil => rfl
  | cons e d ih =>
    rw [List.flatMap_cons, iterRows_entry, ih]
    by_cases h : e.1 = name <;> simp [h]

/-! ### Changing ranges -/

theorem clamp_nat (n i : Nat) : clamp n (i : Int) = min i n := by
  unfold clamp
  rw [if_neg (by omega)]
  simp

theorem getSlice_nat (l : Data) (a b : Nat) : getSlice l a b = (l.take b).drop a := by
  unfold getSlice
  rw [clamp_nat, clamp_nat]
  apply List.ext_getElem?
  intro i
  simp only [List.getElem?_take, List.getElem?_drop]
  by_cases h1 : a ≤ l.length
  · rw [Nat.min_eq_left h1]
    by_cases h2 : i < min b l.length - a
    · rw [if_pos h2, if_pos (by omega)]
    · rw [if_neg h2]
      by_cases h3 : a + i < b
      · rw [if_pos h3, List.getElem?_eq_none (by omega)]
      · rw [if_neg h3]
  · rw [if_neg (by omega)]
    split
    · rw [List.getElem?_eq_none (by omega)]
    · rfl

theorem setSlice_nat {l : Data} {a b : Nat} (hab : a ≤ b) (xs : Data) :
    setSlice l a b xs = l.take a ++ xs ++ l.drop b := by
  unfold setSlice
  rw [clamp_nat, clamp_nat]
  congr 1
  · congr 1
    by_cases h : a ≤ l.length
    · rw [Nat.min_eq_left h]
    · rw [Nat.min_eq_right (by omega), List.take_length, List.take_of_length_le (by omega)]
  · by_cases h : b ≤ l.length
    · rw [Nat.min_eq_left h, Nat.max_eq_right (by omega)]
    · rw [List.drop_of_length_le (by omega), List.drop_of_length_le (by omega)]

/-- One change. -/
def change (m : Data → Data) (data : Data) (r : Nat × Nat) : Data :=
  data.take r.1 ++ m ((data.take (r.2 + 1)).drop r.1) ++ data.drop (r.2 + 1)

theorem setSlice_change (m : Data → Data) (data : Data) {r : Nat × Nat} (h : r.1 ≤ r.2 + 1) :
    setSlice data r.1 ((r.2 : Int) + 1) (m (getSlice data r.1 ((r.2 : Int) + 1))) = change m data r := by
  have : ((r.2 : Int) + 1) = ((r.2 + 1 : Nat) : Int) := by simp
  rw [this, setSlice_nat h, getSlice_nat]
  rfl

theorem change_length {m : Data → Data} (hm : ∀ c, (m c).length = c.length) (data : Data) {r : Nat × Nat}
    (h : r.1 ≤ r.2 + 1) : (change m data r).length = data.length := by
  simp only [change, List.length_append, hm, List.length_take, List.length_drop]
  omega

theorem change_outside {m : Data → Data} (hm : ∀ c, (m c).length = c.length) (data : Data) {r : Nat × Nat}
    (h : r.1 ≤ r.2 + 1) {i : Nat} (hi : i < r.1 ∨ r.2 < i) : (change m data r)[i]? = data[i]? := by
  have hl : (data.take r.1).length = min r.1 data.length := List.length_take
  have hl2 : (data.take r.1 ++ m ((data.take (r.2 + 1)).drop r.1)).length = min (r.2 + 1) data.length := by
    simp only [List.length_append, hm, List.length_take, List.length_drop]
    omega
  unfold change
  by_cases hi2 : i < data.length
  · rcases hi with hi | hi
    · rw [List.getElem?_append_left (by omega), List.getElem?_append_left (by omega), List.getElem?_take, if_pos hi]
    · rw [List.getElem?_append_right (by omega), hl2, List.getElem?_drop]
      congr 1
      omega
  · rw [List.getElem?_eq_none (l := data) (by omega), List.getElem?_eq_none]
    show (change m data r).length ≤ i
    rw [change_length hm data h]
    omega

theorem change_slice {m : Data → Data} (hm : ∀ c, (m c).length = c.length) (data : Data) {r : Nat × Nat}
    (h : r.1 ≤ r.2 + 1) : ((change m data r).take (r.2 + 1)).drop r.1 = m ((data.take (r.2 + 1)).drop r.1) := by
  have hl : (data.take r.1).length = min r.1 data.length := List.length_take
  have hs : (m ((data.take (r.2 + 1)).drop r.1)).length = min (r.2 + 1) data.length - r.1 := by
    simp only [hm, List.length_take, List.length_drop]
  generalize hM : m ((data.take (r.2 + 1)).drop r.1) = M at *
  apply List.ext_getElem?
  intro i
  simp only [change, hM, List.getElem?_drop, List.getElem?_take]
  by_cases h1 : r.1 + i < r.2 + 1
  · rw [if_pos h1]
    by_cases h2 : r.1 + i < data.length
    · rw [List.getElem?_append_left (by rw [List.length_append]; omega), List.getElem?_append_right (by omega)]
      congr 1
      omega
    · rw [List.getElem?_eq_none (l := M) (by omega), List.getElem?_eq_none]
      simp only [List.length_append, List.length_drop]
      omega
  · rw [if_neg h1, List.getElem?_eq_none (by omega)]

/-- The ranges that are left after skipping and up to the limit. -/
def chosen {α : Type} (limit skip : Int) (rs : List α) : List α :=
  if limit = -1 then rs.drop skip.toNat else (rs.drop skip.toNat).take limit.toNat

theorem mutateLoop_some (m : Data → Data) (limit skip : Int) : ∀ (rs : List (Nat × Nat)) (i n : Nat),
    (∀ r ∈ rs, r.1 ≤ r.2 + 1) → ∀ (data : Data), ∃ sel, sel = (if limit = -1 then rs.drop (skip - i).toNat else
      (rs.drop (skip - i).toNat).take (limit - n).toNat) ∧
      mutateLoop m limit skip i n (rs.map fun r => ((r.1 : Int), (r.2 : Int))) data =
      (sel.foldl (change m) data, n + sel.length) := by
  intro rs
  induction rs with
  | nil => intro i n _ data; exact ⟨_, rfl, by simp [mutateLoop]⟩
  | cons r rs ih =>
    intro i n h data
    have h' : ∀ r ∈ rs, r.1 ≤ r.2 + 1 := fun r hr => h r (by simp [hr])
    rw [List.map_cons, mutateLoop]
    by_cases hs : (i : Int) < skip
    · obtain ⟨sel, h1, h2⟩ := ih (i + 1) n h' data
      rw [if_pos hs, h2]
      refine ⟨sel, ?_, rfl⟩
      rw [h1, show (skip - i).toNat = (skip - (i + 1 : Nat)).toNat + 1 by omega, List.drop_succ_cons]
    · rw [if_neg hs, show (skip - i).toNat = 0 by omega, List.drop_zero]
      by_cases hl : limit = -1 ∨ (n : Int) < limit
      · rw [if_pos hl, setSlice_change m data (h r (by simp))]
        obtain ⟨sel, h1, h2⟩ := ih (i + 1) (n + 1) h' (change m data r)
        rw [h2]
        refine ⟨r :: sel, ?_, ?_⟩
        · rw [h1, show (skip - (i + 1 : Nat)).toNat = 0 by omega, List.drop_zero]
          by_cases hm : limit = -1
          · rw [if_pos hm, if_pos hm]
          · rw [if_neg hm, if_neg hm, show (limit - n).toNat = (limit - (n + 1 : Nat)).toNat + 1 by omega,
              List.take_succ_cons]
        · simp only [List.foldl_cons, List.length_cons]
          congr 1
          omega
      · rw [if_neg hl, if_neg (fun hx => hl (Or.inl hx)), show (limit - n).toNat = 0 by omega]
        exact ⟨_, rfl, by simp⟩

/-- All changes. -/
theorem mutateLoop_all (m : Data → Data) (limit skip : Int) (rs : List (Nat × Nat)) (h : ∀ r ∈ rs, r.1 ≤ r.2 + 1)
    (data : Data) : mutateLoop m limit skip 0 0 (rs.map fun r => ((r.1 : Int), (r.2 : Int))) data =
      ((chosen limit skip rs).foldl (change m) data, (chosen limit skip rs).length) := by
  obtain ⟨sel, h1, h2⟩ := mutateLoop_some m limit skip rs 0 0 h data
  rw [h2, h1]
  simp [chosen]

theorem chosen_sublist {α : Type} (limit skip : Int) (rs : List α) : (chosen limit skip rs).Sublist rs := by
  unfold chosen
  split
  · exact List.drop_sublist _ _
  · exact (List.take_sublist _ _).trans (List.drop_sublist _ _)

theorem foldl_length {m : Data → Data} (hm : ∀ c, (m c).length = c.length) : ∀ {rs : List (Nat × Nat)},
    (∀ r ∈ rs, r.1 ≤ r.2 + 1) → ∀ (data : Data), (rs.foldl (change m) data).length = data.length := by
  intro rs
  induction rs with
  | nil => intro _ _; rfl
  | cons r rs ih =>
    intro h data
    rw [List.foldl_cons, ih (fun r hr => h r (by simp [hr])), change_length hm _ (h r (by simp))]

theorem foldl_outside {m : Data → Data} (hm : ∀ c, (m c).length = c.length) : ∀ {rs : List (Nat × Nat)},
    (∀ r ∈ rs, r.1 ≤ r.2 + 1) → ∀ (data : Data) {i : Nat}, (∀ r ∈ rs, i < r.1 ∨ r.2 < i) →
    (rs.foldl (change m) data)[i]? = data[i]? := by
  intro rs
  induction rs with
  | nil => intro _ _ _ _; rfl
  | cons r rs ih =>
    intro h data i hi
    rw [List.foldl_cons, ih (fun r hr => h r (by simp [hr])) _ (fun r hr => hi r (by simp [hr])),
      change_outside hm _ (h r (by simp)) (hi r (by simp))]

theorem slice_congr {d d' : Data} {a b : Nat} (h : ∀ i, a ≤ i → i < b → d[i]? = d'[i]?) :
    (d.take b).drop a = (d'.take b).drop a := by
  apply List.ext_getElem?
  intro i
  simp only [List.getElem?_drop, List.getElem?_take]
  split
  · exact h _ (by omega) (by omega)
  · rfl

theorem foldl_slice {m : Data → Data} (hm : ∀ c, (m c).length = c.length) : ∀ {rs : List (Nat × Nat)},
    (∀ r ∈ rs, r.1 ≤ r.2 + 1) → rs.Pairwise (fun a b => a.2 < b.1) → ∀ (data : Data), ∀ r ∈ rs,
    ((rs.foldl (change m) data).take (r.2 + 1)).drop r.1 = m ((data.take (r.2 + 1)).drop r.1) := by
  intro rs
  induction rs with
  | nil => intro _ _ _ r hr; simp at hr
  | cons q rs ih =>
    intro h hp data r hr
    obtain ⟨hp1, hp2⟩ := List.pairwise_cons.1 hp
    have hrs : ∀ r ∈ rs, r.1 ≤ r.2 + 1 := fun r hr => h r (by simp [hr])
    rw [List.foldl_cons]
    rcases List.mem_cons.1 hr with rfl | hr
    · rw [← change_slice hm data (h r (by simp))]
      apply slice_congr
      intro i _ hi
      rw [foldl_outside hm hrs]
      intro x hx
      have := hp1 x hx
      omega
    · rw [ih hrs hp2 _ r hr]
      congr 1
      apply slice_congr
      intro i hi _
      have := hp1 r hr
      exact change_outside hm _ (h q (by simp)) (Or.inr (by omega))

/-! ### Single bytes -/

theorem writeMutated_some {buf : Data} {o : Nat} (h : o < buf.length) :
    writeMutated buf (o : Int) = some (buf.set o (flipByte buf[o]), buf) := by
  unfold writeMutated
  rw [if_neg (by omega)]
  simp [h]

theorem writeMutated_none {buf : Data} {o : Int} (h : o < 0 ∨ (buf.length : Int) ≤ o) : writeMutated buf o = none :=
  if_pos h

end Mutate
end Py
end Verif
