import Verif.Section
namespace Verif
namespace Section

/-- Address range is representable and the write position is inside. -/
structure Ok (S : Section) : Prop where
  addr : S.base + S.mem.length < 2 ^ 64
  pos : S.pos ≤ S.mem.length

theorem new_ok {base size : Nat} (h : base + size < 2 ^ 64) : (new base size).Ok :=
  ⟨by simpa [new] using h, by simp [new]⟩

theorem write_eq {S : Section} (h : S.Ok) {n : Nat} (hn : n < 2 ^ 64) :
    S.write n = if S.pos + n ≤ S.mem.length then some ({ S with pos := S.pos + n }, S.pos)
      else none := by
  have h1 := h.addr
  have h2 := h.pos
  unfold write
  simp only
  by_cases hw : S.base + S.pos + n < 2 ^ 64
  · rw [Nat.mod_eq_of_lt hw]
    by_cases hfit : S.pos + n ≤ S.mem.length
    · rw [if_neg (by omega), if_pos hfit]
    · rw [if_pos (by omega), if_neg hfit]
  · have : (S.base + S.pos + n) % 2 ^ 64 = S.base + S.pos + n - 2 ^ 64 := by
      rw [Nat.mod_eq_sub_mod (by omega), Nat.mod_eq_of_lt (by omega)]
    rw [this, if_pos (by omega), if_neg (by omega)]

theorem store_length {mem : List Nat} {a : Nat} {bs : List Nat} (h : a + bs.length ≤ mem.length) :
    (store mem a bs).length = mem.length := by
  simp only [store, List.length_append, List.length_take, List.length_drop]
  omega

theorem store_get {mem : List Nat} {a : Nat} {bs : List Nat} (h : a + bs.length ≤ mem.length)
    (i : Nat) : (store mem a bs)[i]? =
      if a ≤ i ∧ i < a + bs.length then bs[i - a]? else mem[i]? := by
  unfold store
  have hl : (mem.take a).length = a := by rw [List.length_take]; omega
  by_cases h1 : i < a
  · rw [if_neg (by omega), List.append_assoc, List.getElem?_append_left (by omega),
      List.getElem?_take]
    simp [h1]
  · by_cases h2 : i < a + bs.length
    · rw [if_pos ⟨by omega, h2⟩, List.append_assoc, List.getElem?_append_right (by omega), hl,
        List.getElem?_append_left (by omega)]
    · rw [if_neg (by omega), List.getElem?_append_right (by
        rw [List.length_append, hl]; omega), List.getElem?_drop, List.length_append, hl]
      congr 1; omega

theorem store_take {mem : List Nat} {a : Nat} {bs : List Nat} (h : a + bs.length ≤ mem.length) :
    (store mem a bs).take (a + bs.length) = mem.take a ++ bs := by
  unfold store
  have hl : (mem.take a).length = a := by rw [List.length_take]; omega
  rw [List.take_append_of_le_length (by simp [hl]), List.take_of_length_le (by simp [hl])]

theorem append_eq {S : Section} (h : S.Ok) {bs : List Nat} (hb : bs.length < 2 ^ 64) :
    S.append bs = if S.pos + bs.length ≤ S.mem.length then
      some ({ S with pos := S.pos + bs.length, mem := store S.mem S.pos bs }, S.pos) else none := by
  unfold append
  rw [write_eq h hb]
  by_cases hfit : S.pos + bs.length ≤ S.mem.length
  · rw [if_pos hfit, if_pos hfit]
  · rw [if_neg hfit, if_neg hfit]

theorem append_ok {S S' : Section} (h : S.Ok) {bs : List Nat} (hb : bs.length < 2 ^ 64) {off : Nat}
    (ha : S.append bs = some (S', off)) :
    S'.Ok ∧ off = S.pos ∧ S'.pos = S.pos + bs.length ∧ S'.base = S.base ∧
      S'.mem.length = S.mem.length ∧ S'.mem.take S'.pos = S.mem.take S.pos ++ bs ∧
      S'.mem.drop S'.pos = S.mem.drop S'.pos := by
  rw [append_eq h hb] at ha
  split at ha
  · rename_i hfit
    cases ha
    refine ⟨⟨by simpa [store_length hfit] using h.addr, by simpa [store_length hfit] using hfit⟩,
      rfl, rfl, rfl, store_length hfit, store_take hfit, ?_⟩
    simp only [store]
    have hl : (S.mem.take S.pos).length = S.pos := by rw [List.length_take]; have := h.pos; omega
    rw [List.drop_append, List.drop_of_length_le (by simp [hl])]
    simp [hl]
  · cases ha

end Section
end Verif
