import Verif.PyStub
import Verif.Spec.Readelf
/-
C96: create_stublist.py (/repo/polytracker/scripts) lists the functions that a library defines, and no others.
-/
namespace Verif.C96
open PyStub
open Readelf (Sym render Normal Defined Named padL padR)

theorem padR_length {w : Nat} {s : Readelf.Line} (h : s.length ≤ w) : (padR w s).length = w := by simp [padR]; omega
theorem padL_length {w : Nat} {s : Readelf.Line} (h : s.length ≤ w) : (padL w s).length = w := by simp [padL]; omega

/-- A part between others. -/
theorem slice_mid (a m b : Line) (i j : Nat) (h1 : a.length = i) (h2 : j ≤ i + m.length) : slice (a ++ m ++ b) i j = m.take (j - i) := by
  subst h1
  unfold slice
  rw [List.append_assoc, List.drop_left, List.take_append_of_le_length (by omega)]

theorem typ_len {s : Sym} (h : Normal s) : s.typ.length ≤ 7 := by
  have := h.typ
  simp only [List.mem_cons, List.not_mem_nil, or_false] at this
  rcases this with e | e | e | e | e | e | e | e <;> rw [e] <;> decide

theorem bind_len {s : Sym} (h : Normal s) : s.bind.length ≤ 6 := by
  have := h.bind
  simp only [List.mem_cons, List.not_mem_nil, or_false] at this
  rcases this with e | e | e | e <;> rw [e] <;> decide

theorem ndx_len {s : Sym} (h : Normal s) : s.ndx.length ≤ 4 := by
  rcases h.ndx with h | h
  · simp only [List.mem_cons, List.not_mem_nil, or_false] at h
    rcases h with e | e | e <;> rw [e] <;> decide
  · exact h.1

theorem slice_typ {s : Sym} (h : Normal s) (j : Nat) (hj : j ≤ 38) : slice (render s) 31 j = (padR 7 s.typ).take (j - 31) := by
  have e : render s = (padL 6 s.num ++ [':', ' '] ++ s.value ++ [' '] ++ padL 5 s.size ++ [' ']) ++ padR 7 s.typ ++ ([' '] ++ padR 6 s.bind ++ [' '] ++
    padR 7 s.vis ++ [' '] ++ padL 4 s.ndx ++ [' '] ++ s.name) := by simp [render]
  rw [e]
  refine slice_mid _ _ _ _ _ ?_ ?_
  · simp only [List.length_append, padL_length h.num, padL_length h.size, h.value, List.length_cons, List.length_nil]
  · rw [padR_length (typ_len h)]; omega

theorem slice_bind {s : Sym} (h : Normal s) : slice (render s) 39 44 = (padR 6 s.bind).take 5 := by
  have e : render s = (padL 6 s.num ++ [':', ' '] ++ s.value ++ [' '] ++ padL 5 s.size ++ [' '] ++ padR 7 s.typ ++ [' ']) ++ padR 6 s.bind ++ ([' '] ++
    padR 7 s.vis ++ [' '] ++ padL 4 s.ndx ++ [' '] ++ s.name) := by simp [render]
  rw [e]
  refine slice_mid _ _ _ _ _ ?_ ?_
  · simp only [List.length_append, padL_length h.num, padL_length h.size, h.value, padR_length (typ_len h), List.length_cons, List.length_nil]
  · rw [padR_length (bind_len h)]; omega

theorem drop_ndx {s : Sym} (h : Normal s) : (render s).drop 54 = padL 4 s.ndx ++ ([' '] ++ s.name) := by
  have e : render s = (padL 6 s.num ++ [':', ' '] ++ s.value ++ [' '] ++ padL 5 s.size ++ [' '] ++ padR 7 s.typ ++ [' '] ++ padR 6 s.bind ++ [' '] ++
    padR 7 s.vis ++ [' ']) ++ (padL 4 s.ndx ++ ([' '] ++ s.name)) := by simp [render]
  rw [e]
  refine List.drop_left' ?_
  simp only [List.length_append, padL_length h.num, padL_length h.size, h.value, padR_length (typ_len h), padR_length (bind_len h),
    padR_length h.vis, List.length_cons, List.length_nil]

theorem drop_name {s : Sym} (h : Normal s) : (render s).drop 59 = s.name := by
  have : (render s).drop 59 = ((render s).drop 54).drop 5 := by rw [List.drop_drop]
  rw [this, drop_ndx h, ← List.append_assoc]
  refine List.drop_left' ?_
  simp [padL_length (ndx_len h)]

theorem slice_ndx {s : Sym} (h : Normal s) : slice (render s) 55 58 = (padL 4 s.ndx).drop 1 := by
  unfold slice
  have : (render s).drop 55 = ((render s).drop 54).drop 1 := by rw [List.drop_drop]
  rw [this, drop_ndx h, List.drop_append_of_le_length (by rw [padL_length (ndx_len h)]; omega)]
  refine List.take_left' ?_
  simp [padL_length (ndx_len h)]

theorem ndx_und {s : Sym} (h : Normal s) : (padL 4 s.ndx).drop 1 = "UND".toList ↔ s.ndx = "UND".toList := by
  rcases h.ndx with h | ⟨h1, h2⟩
  · simp only [List.mem_cons, List.not_mem_nil, or_false] at h
    rcases h with e | e | e <;> rw [e] <;> decide
  · have hd : ∀ c ∈ (padL 4 s.ndx).drop 1, c ≠ 'U' := by
      intro c hc
      have := List.mem_of_mem_drop hc
      unfold padL at this
      rcases List.mem_append.1 this with h | h
      · rw [List.eq_of_mem_replicate h]; decide
      · rintro rfl; exact absurd (h2 _ h) (by decide)
    constructor
    · intro e; exact absurd rfl (hd 'U' (by rw [e]; decide))
    · intro e; exact absurd (h2 'U' (by rw [e]; decide)) (by decide)

theorem isDefined_iff {s : Sym} (h : Normal s) : isDefined (render s) = true ↔ Defined s := by
  have ht : ((slice (render s) 31 35 == "FUNC".toList || slice (render s) 31 36 == "IFUNC".toList) = true) ↔
      (s.typ = "FUNC".toList ∨ s.typ = "IFUNC".toList) := by
    rw [slice_typ h 35 (by omega), slice_typ h 36 (by omega)]
    have := h.typ
    simp only [List.mem_cons, List.not_mem_nil, or_false] at this
    rcases this with e | e | e | e | e | e | e | e <;> rw [e] <;> decide
  have hb : ((slice (render s) 39 44 != "LOCAL".toList) = true) ↔ s.bind ≠ "LOCAL".toList := by
    rw [slice_bind h]
    have := h.bind
    simp only [List.mem_cons, List.not_mem_nil, or_false] at this
    rcases this with e | e | e | e <;> rw [e] <;> decide
  have hn : ((slice (render s) 55 58 != "UND".toList) = true) ↔ s.ndx ≠ "UND".toList := by
    rw [slice_ndx h, bne_iff_ne, Ne, ndx_und h]
  unfold isDefined Defined
  rw [Bool.and_eq_true, Bool.and_eq_true, ht, hb, hn, and_assoc]

theorem beforeAt_named (s : Sym) (n : Line) : beforeAt s.name = n ↔ Named s n := by
  unfold beforeAt Named
  generalize s.name = l
  constructor
  · rintro rfl
    induction l with
    | nil => simp
    | cons c l ih =>
      by_cases hc : c = '@'
      · subst hc; simp
      · rw [List.takeWhile_cons, if_pos (by simpa using hc)]
        refine ⟨by simpa [Ne.symm hc] using ih.1, ?_⟩
        rcases ih.2 with e | ⟨v, e⟩
        · exact .inl (by rw [← e])
        · exact .inr ⟨v, by rw [List.cons_append, ← e]⟩
  · rintro ⟨h, rfl | ⟨v, rfl⟩⟩
    · induction l with
      | nil => rfl
      | cons c l ih =>
        simp only [List.mem_cons, not_or] at h
        rw [List.takeWhile_cons, if_pos (by simpa using Ne.symm h.1), ih h.2]
    · induction n with
      | nil => simp
      | cons c n ih =>
        simp only [List.mem_cons, not_or] at h
        rw [List.cons_append, List.takeWhile_cons, if_pos (by simpa using Ne.symm h.1), ih h.2]

theorem mem_defined (ls : List Line) (n : Line) : n ∈ definedFunctions ls ↔ ∃ l ∈ ls, isDefined l = true ∧ beforeAt (l.drop 59) = n := by
  induction ls with
  | nil => simp [definedFunctions]
  | cons l ls ih =>
    unfold definedFunctions
    by_cases h : isDefined l = true
    · rw [if_pos h, List.mem_cons, ih]
      constructor
      · rintro (rfl | ⟨m, hm, h2⟩)
        · exact ⟨l, by simp, h, rfl⟩
        · exact ⟨m, by simp [hm], h2⟩
      · rintro ⟨m, hm, h2, h3⟩
        rcases List.mem_cons.1 hm with rfl | hm
        · exact .inl h3.symm
        · exact .inr ⟨m, hm, h2, h3⟩
    · rw [if_neg h, ih]
      constructor
      · rintro ⟨m, hm, h2⟩; exact ⟨m, by simp [hm], h2⟩
      · rintro ⟨m, hm, h2, h3⟩
        rcases List.mem_cons.1 hm with rfl | hm
        · exact absurd h2 h
        · exact ⟨m, hm, h2, h3⟩

theorem remove_eq (pat f : Line) (hp : '$' ∈ pat) (hf : '$' ∉ f) : remove pat 0 f = f := by
  induction f with
  | nil => rfl
  | cons c cs ih =>
    rw [remove, if_neg, ih (fun h => hf (by simp [h]))]
    intro h
    obtain ⟨t, ht⟩ := List.isPrefixOf_iff_prefix.1 h
    exact hf (by rw [← ht]; simp [hp])

/-- The list has, for each function that the library defines and for no other, a line with `uninstrumented` and one with
`discard`: for tables with functions of less than 100000 bytes and names without `$`. -/
theorem C96_list_partial (order : List Line → List Line) (ho : ∀ l x, x ∈ order l ↔ x ∈ l) (syms : List Sym)
    (hn : ∀ s ∈ syms, Normal s) (hd : ∀ s ∈ syms, '$' ∉ s.name) (x : Line) :
    x ∈ output order (syms.map render) ↔ ∃ s ∈ syms, ∃ n, Defined s ∧ Named s n ∧
      (x = "fun:".toList ++ n ++ "=uninstrumented".toList ∨ x = "fun:".toList ++ n ++ "=discard".toList) := by
  have hclean : ∀ s ∈ syms, ∀ n, Named s n → clean n = n := by
    intro s hs n h
    have : '$' ∉ n := by
      intro hm
      refine hd s hs ?_
      rcases h.2 with e | ⟨v, e⟩ <;> rw [e] <;> simp [hm]
    unfold clean
    rw [remove_eq "dfsw$".toList n (by decide) this, remove_eq "dfs$".toList n (by decide) this]
  unfold output
  rw [List.mem_flatMap]
  constructor
  · rintro ⟨n, hm, hx⟩
    rw [ho, mem_defined] at hm
    obtain ⟨l, hl, h1, h2⟩ := hm
    obtain ⟨s, hs, rfl⟩ := List.mem_map.1 hl
    rw [drop_name (hn s hs), beforeAt_named] at h2
    refine ⟨s, hs, n, (isDefined_iff (hn s hs)).1 h1, h2, ?_⟩
    unfold stub at hx
    rw [hclean s hs n h2] at hx
    simpa using hx
  · rintro ⟨s, hs, n, h1, h2, hx⟩
    refine ⟨n, ?_, ?_⟩
    · rw [ho, mem_defined]
      exact ⟨render s, List.mem_map.2 ⟨s, hs, rfl⟩, (isDefined_iff (hn s hs)).2 h1, by rw [drop_name (hn s hs), beforeAt_named]; exact h2⟩
    · unfold stub
      rw [hclean s hs n h2]
      simpa using hx

/-- A function `big` of 100000 bytes. -/
def big : Sym := ⟨"12".toList, "0000000000001139".toList, "0x186a0".toList, "FUNC".toList, "GLOBAL".toList, "DEFAULT".toList, "13".toList,
  "big".toList⟩

/-- A function of 100000 bytes is left out: its size makes the column wider. -/
theorem C96_size_refuted : Defined big ∧ Named big "big".toList ∧ output id [render big] = [] :=
  ⟨⟨.inl rfl, by decide, by decide⟩, ⟨by decide, .inl rfl⟩, by decide⟩

/-- A function whose own name has `dfs$` in it is listed under another name. -/
theorem C96_dollar_refuted : ∃ s, Normal s ∧ Defined s ∧ Named s "adfs$b".toList ∧
    output id [render s] = ["fun:ab=uninstrumented".toList, "fun:ab=discard".toList] := by
  refine ⟨⟨"12".toList, "0000000000001139".toList, "16".toList, "FUNC".toList, "GLOBAL".toList, "DEFAULT".toList, "13".toList,
    "adfs$b".toList⟩, ⟨by decide, by decide, by decide, by decide, by decide, by decide, .inr (by decide)⟩,
    ⟨.inl rfl, by decide, by decide⟩, ⟨by decide, .inl rfl⟩, by decide⟩

/-- A table with a function that has a version, a local one and an undefined one. -/
example : output id [
    "     1: 0000000000001139    22 FUNC    GLOBAL DEFAULT   13 f@@V1".toList,
    "     2: 0000000000001150    22 FUNC    LOCAL  DEFAULT   13 g".toList,
    "     3: 0000000000000000     0 FUNC    GLOBAL DEFAULT  UND puts@GLIBC".toList] =
    ["fun:f=uninstrumented".toList, "fun:f=discard".toList] := by decide

end Verif.C96
