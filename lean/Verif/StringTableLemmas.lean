import Verif.StringTable
import Verif.SectionLemmas
namespace Verif
namespace StrTab

/-- Bytes occupied by one string: length, characters, padding. -/
def block (s : List Nat) : List Nat :=
  le lenSize s.length ++ s ++ List.replicate (allocatedLen s.length - (lenSize + s.length)) 0

theorem allocatedLen_ge (n : Nat) : n + 2 ≤ allocatedLen n := by
  have h2 : lenSize = 2 := rfl
  simp only [allocatedLen]
  split <;> omega

theorem allocatedLen_le (n : Nat) : allocatedLen n ≤ n + 3 := by
  have h2 : lenSize = 2 := rfl
  simp only [allocatedLen]
  split <;> omega

@[simp] theorem block_length (s : List Nat) : (block s).length = allocatedLen s.length := by
  have := allocatedLen_ge s.length
  simp only [block, lenSize, List.length_append, le_length, List.length_replicate]
  omega

/-- The section holds exactly the strings `ss`. -/
structure Holds (S : Section) (ss : List (List Nat)) : Prop where
  ok : S.Ok
  small : S.mem.length ≤ 2 ^ 32 - 1
  used : S.mem.take S.pos = ss.flatMap block
  free : S.mem.drop S.pos = List.replicate (S.mem.length - S.pos) 0
  len : ∀ s ∈ ss, s.length ≤ maxLen

theorem Holds.pos {S : Section} {ss : List (List Nat)} (h : Holds S ss) :
    S.pos = (ss.flatMap block).length := by
  rw [← h.used, List.length_take, Nat.min_eq_left h.ok.pos]

theorem new_holds {base size : Nat} {S : Section} (h : base + size < 2 ^ 64)
    (hn : new base size = .ok S) : Holds S [] ∧ S.base = base ∧ S.mem.length = size := by
  unfold new at hn
  split at hn
  · cases hn
  · cases hn
    refine ⟨⟨Section.new_ok h, ?_, ?_, ?_, by simp⟩, rfl, ?_⟩ <;> simp [Section.new]
    omega

theorem addString_spec {S : Section} {ss : List (List Nat)} (h : Holds S ss) {s : List Nat}
    (hs : s.length ≤ maxLen) :
    (S.pos + allocatedLen s.length ≤ S.mem.length ∧ ∃ S', addString S s = .ok (S', some S.pos) ∧
      Holds S' (ss ++ [s]) ∧ S'.base = S.base ∧ S'.mem.length = S.mem.length) ∨
    (S.mem.length < S.pos + allocatedLen s.length ∧ addString S s = .ok (S, none)) := by
  have hml : maxLen = 65535 := rfl
  have hge := allocatedLen_ge s.length
  have hle := allocatedLen_le s.length
  have hpos := h.ok.pos
  have hsm := h.small
  have haddr := h.ok.addr
  unfold addString
  rw [if_neg (by omega), Section.write_eq h.ok (by omega)]
  by_cases hfit : S.pos + allocatedLen s.length ≤ S.mem.length
  · left
    refine ⟨hfit, ?_⟩
    rw [if_pos hfit]
    have hfit2 : S.pos + (le lenSize s.length ++ s).length ≤ S.mem.length := by
      simp only [List.length_append, le_length, lenSize]; omega
    have hlen := Section.store_length hfit2
    have hpl : (S.mem.take S.pos).length = S.pos := by rw [List.length_take]; omega
    simp only
    rw [show Section.offset (Section.mk S.base (Section.store S.mem S.pos
        (le lenSize s.length ++ s)) (S.pos + allocatedLen s.length)) (S.base + S.pos)
        = .ok S.pos by
      unfold Section.offset
      rw [if_neg (by simp only [hlen]; omega)]
      simp]
    simp only [Res.bind_ok, Res.pure_eq]
    rw [Nat.mod_eq_of_lt (by omega)]
    refine ⟨_, rfl, ⟨⟨by simpa [hlen] using haddr, by simpa [hlen] using hfit⟩,
      by simpa [hlen] using hsm, ?_, ?_, ?_⟩, rfl, hlen⟩
    · simp only [Section.store, List.flatMap_append, List.flatMap_cons, List.flatMap_nil,
        List.append_nil]
      have hd : S.mem.drop (S.pos + (le lenSize s.length ++ s).length) =
          List.replicate (S.mem.length - S.pos - (le lenSize s.length ++ s).length) 0 := by
        rw [← List.drop_drop, h.free, List.drop_replicate]
      rw [List.append_assoc, List.take_append, List.take_of_length_le (by omega), hpl, ← h.used]
      congr 1
      rw [List.take_append, List.take_of_length_le (by
        simp only [List.length_append, le_length, lenSize]; omega), hd, List.take_replicate, block]
      congr 2
      simp only [List.length_append, le_length, lenSize] at hfit2 ⊢
      omega
    · simp only [hlen]
      have hd : S.mem.drop (S.pos + (le lenSize s.length ++ s).length) =
          List.replicate (S.mem.length - S.pos - (le lenSize s.length ++ s).length) 0 := by
        rw [← List.drop_drop, h.free, List.drop_replicate]
      simp only [Section.store]
      rw [hd, List.append_assoc, List.drop_append, List.drop_of_length_le (by omega), hpl,
        List.nil_append, List.drop_append, List.drop_of_length_le (by
          simp only [List.length_append, le_length, lenSize]; omega), List.nil_append,
        List.drop_replicate]
      congr 1
      simp only [List.length_append, le_length, lenSize] at hfit2 ⊢
      omega
    · intro x hx
      rw [List.mem_append] at hx
      rcases hx with hx | hx
      · exact h.len x hx
      · simp only [List.mem_singleton] at hx; subst hx; exact hs
  · right
    rw [if_neg hfit]
    exact ⟨by omega, rfl⟩

theorem Holds.mem_at {S : Section} {pre post : List (List Nat)} {s : List Nat}
    (h : Holds S (pre ++ s :: post)) :
    S.mem = pre.flatMap block ++ (le lenSize s.length ++ s ++
      List.replicate (allocatedLen s.length - (lenSize + s.length)) 0) ++
      (post.flatMap block ++ S.mem.drop S.pos) := by
  conv => lhs; rw [← List.take_append_drop S.pos S.mem, h.used]
  simp [block]

theorem Holds.lenAt {S : Section} {pre post : List (List Nat)} {s : List Nat}
    (h : Holds S (pre ++ s :: post)) :
    lenAt S (pre.flatMap block).length = .ok s.length := by
  have hm := h.mem_at
  have hsl : s.length < 256 ^ 2 := by
    have := h.len s (by simp)
    have hml : maxLen = 65535 := rfl
    omega
  have h0 : S.mem[(pre.flatMap block).length]? = some (s.length % 256) := by
    rw [hm, List.append_assoc, List.getElem?_append_right (Nat.le_refl _)]
    simp [le, lenSize]
  have h1 : S.mem[(pre.flatMap block).length + 1]? = some (s.length / 256 % 256) := by
    rw [hm, List.append_assoc, List.getElem?_append_right (by omega)]
    simp [le, lenSize]
  unfold StrTab.lenAt
  rw [getRes_eq_ok.2 h0, getRes_eq_ok.2 h1]
  simp only [Res.bind_ok, Res.pure_eq]
  rw [show [s.length % 256, s.length / 256 % 256] = le 2 s.length from rfl, unle_le_of_lt hsl]

theorem Holds.deref {S : Section} {pre post : List (List Nat)} {s : List Nat}
    (h : Holds S (pre ++ s :: post)) : deref S (pre.flatMap block).length = .ok s := by
  have hm := h.mem_at
  have hlen : (pre.flatMap block).length + lenSize + s.length ≤ S.mem.length := by
    rw [hm]; simp only [List.length_append, le_length]; omega
  unfold StrTab.deref
  rw [h.lenAt]
  simp only [Res.bind_ok, if_pos hlen, Res.pure_eq]
  congr 1
  conv => lhs; rw [hm]
  rw [List.append_assoc, ← List.drop_drop, List.drop_left, List.append_assoc, List.append_assoc,
    List.drop_left' (by simp), List.take_left]

theorem Holds.iterFrom {S : Section} : ∀ (post pre : List (List Nat)) (fuel : Nat),
    Holds S (pre ++ post) → (post.flatMap block).length ≤ fuel →
    iterFrom S fuel (pre.flatMap block).length = .ok post := by
  intro post
  induction post with
  | nil =>
    intro pre fuel h _
    unfold StrTab.iterFrom
    rw [if_pos (by rw [Section.size, h.pos]; simp)]
  | cons s post ih =>
    intro pre fuel h hf
    have hb := allocatedLen_ge s.length
    have hlt : (pre.flatMap block).length < S.pos := by
      rw [h.pos]
      simp only [List.flatMap_append, List.flatMap_cons, List.length_append, block_length]
      omega
    simp only [List.flatMap_cons, List.length_append, block_length] at hf
    obtain ⟨fuel, rfl⟩ : ∃ k, fuel = k + 1 := ⟨fuel - 1, by omega⟩
    unfold StrTab.iterFrom
    rw [if_neg (by rw [Section.size]; omega), h.deref, h.lenAt]
    simp only [Res.bind_ok]
    have := ih (pre ++ [s]) fuel (by simpa using h) (by omega)
    simp only [List.flatMap_append, List.flatMap_cons, List.flatMap_nil, List.append_nil,
      List.length_append, block_length] at this
    rw [this]
    rfl

theorem Holds.strings {S : Section} {ss : List (List Nat)} (h : Holds S ss) :
    strings S = .ok ss := by
  have := Holds.iterFrom ss [] S.size (by simpa using h) (by rw [Section.size, h.pos]; exact Nat.le_refl _)
  simpa [StrTab.strings] using this

end StrTab
end Verif
