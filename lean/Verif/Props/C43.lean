import Verif.CopyLemmas
import Mathlib.Tactic.IntervalCases
/- C43: filling memory gives every byte the value and the label of the fill character. -/
namespace Verif
open DfsanMem

attribute [local irreducible] shadowFor

theorem write32_byte (m : Mem) (a v i : Nat) (hi : i < 4) :
    m.write32 a v (a + i) = v / 2 ^ (8 * i) % 256 := by
  unfold Mem.write32 Mem.set
  interval_cases i <;> simp

theorem write64_byte (m : Mem) (a v i : Nat) (hi : i < 8) :
    m.write64 a v (a + i) = v / 2 ^ (8 * i) % 256 := by
  unfold Mem.write64
  by_cases h : i < 4
  · rw [write32_out (by omega), write32_byte _ _ _ _ h]
    interval_cases i <;> omega
  · obtain ⟨j, rfl⟩ : ∃ j, i = 4 + j := ⟨i - 4, by omega⟩
    rw [← Nat.add_assoc, write32_byte _ _ _ _ (by omega)]
    have : j < 4 := by omega
    interval_cases j <;> omega

theorem fillWords_eq (v : Nat) : ∀ (n p : Nat) (m : Mem) (x : Nat),
    fillWords v p n m x = if p ≤ x ∧ x < p + 16 * n then v / 2 ^ (8 * ((x - p) % 8)) % 256 else m x := by
  intro n
  induction n with
  | zero => intro p m x; simp [fillWords]
  | succ n ih =>
    intro p m x
    simp only [fillWords]
    rw [ih]
    by_cases h1 : p + 16 ≤ x ∧ x < p + 16 + 16 * n
    · rw [if_pos h1, if_pos (by omega)]
      congr 4
      omega
    · rw [if_neg h1]
      by_cases h2 : p ≤ x ∧ x < p + 16
      · rw [if_pos (by omega)]
        by_cases h3 : x < p + 8
        · obtain ⟨i, rfl⟩ : ∃ i, x = p + i := ⟨x - p, by omega⟩
          rw [write64_byte _ _ _ _ (by omega)]
          congr 4
          omega
        · rw [write64_out (by omega)]
          obtain ⟨i, rfl⟩ : ∃ i, x = p + 8 + i := ⟨x - p - 8, by omega⟩
          rw [write64_byte _ _ _ _ (by omega)]
          congr 4
          omega
      · rw [if_neg (by omega), write64_out (by omega), write64_out (by omega)]

/-- Byte `k` of a number. -/
def byteOf (v k : Nat) : Nat := v / 2 ^ (8 * k) % 256

theorem byteOf_testBit (v k j : Nat) : (byteOf v k).testBit j = (decide (j < 8) && v.testBit (8 * k + j)) := by
  unfold byteOf
  rw [show (256 : Nat) = 2 ^ 8 by rfl, Nat.testBit_mod_two_pow, Nat.testBit_div_two_pow, Nat.add_comm]

theorem pattern_testBit (v : Nat) (k j : Nat) (hk : k < 8) (hj : j < 8) :
    (pattern v).testBit (8 * k + j) = true ↔ ∃ i, i ≤ k ∧ v.testBit (8 * i + j) = true := by
  unfold pattern
  simp only [Nat.testBit_or, Nat.testBit_mod_two_pow, Nat.testBit_shiftLeft, Bool.or_eq_true, Bool.and_eq_true,
    decide_eq_true_eq]
  constructor
  · intro h
    have key : ∀ d, 8 * d ≤ 8 * k + j → v.testBit (8 * k + j - 8 * d) = true → ∃ i, i ≤ k ∧ v.testBit (8 * i + j) = true := by
      intro d h1 h2
      refine ⟨k - d, by omega, ?_⟩
      rw [show 8 * (k - d) + j = 8 * k + j - 8 * d by omega]
      exact h2
    rcases h with ((h | h) | h) | h
    · exact key 0 (by omega) h
    · exact key 1 (by omega) h.2.2
    · obtain ⟨h1, h2, h | h⟩ := h
      · exact key 2 (by omega) h
      · exact key 3 (by omega) (by rw [← h.2.2]; congr 1)
    · obtain ⟨h1, h2, (h | h) | h⟩ := h
      · exact key 4 (by omega) h
      · exact key 5 (by omega) (by rw [← h.2.2]; congr 1)
      · obtain ⟨h3, h4, h | h⟩ := h
        · exact key 6 (by omega) (by rw [← h]; congr 1)
        · exact key 7 (by omega) (by rw [← h.2.2]; congr 1)
  · rintro ⟨i, h1, h2⟩
    obtain ⟨d, rfl⟩ : ∃ d, k = i + d := ⟨k - i, by omega⟩
    have hd : d < 8 := by omega
    have e : ∀ x, x = 8 * i + j → v.testBit x = true := fun x hx => hx ▸ h2
    interval_cases d
    · exact .inl (.inl (.inl (e _ (by omega))))
    · exact .inl (.inl (.inr ⟨by omega, by omega, e _ (by omega)⟩))
    · exact .inl (.inr ⟨by omega, by omega, .inl (e _ (by omega))⟩)
    · exact .inl (.inr ⟨by omega, by omega, .inr ⟨by omega, by omega, e _ (by omega)⟩⟩)
    · exact .inr ⟨by omega, by omega, .inl (.inl (e _ (by omega)))⟩
    · exact .inr ⟨by omega, by omega, .inl (.inr ⟨by omega, by omega, e _ (by omega)⟩)⟩
    · exact .inr ⟨by omega, by omega, .inr ⟨by omega, by omega, .inl (e _ (by omega))⟩⟩
    · exact .inr ⟨by omega, by omega, .inr ⟨by omega, by omega, .inr ⟨by omega, by omega, e _ (by omega)⟩⟩⟩

/-- The words written by the aligned path have, at every byte, the byte expected, exactly if the bits of
every byte of the (sign-extended) character are among those of its lowest byte. -/
theorem pattern_ok (v : Nat) :
    (∀ k, k < 8 → byteOf (pattern v) k = v % 256) ↔ ∀ k, k < 8 → byteOf v k ||| v % 256 = v % 256 := by
  have hb : ∀ j, (v % 256).testBit j = (decide (j < 8) && v.testBit j) := by
    intro j; rw [show (256 : Nat) = 2 ^ 8 by rfl, Nat.testBit_mod_two_pow]
  have hp := fun k j h1 h2 => pattern_testBit v k j h1 h2
  constructor
  · intro h k hk
    apply Nat.eq_of_testBit_eq
    intro j
    rw [Nat.testBit_or, byteOf_testBit, hb]
    by_cases hj : j < 8
    · simp only [hj, decide_true, Bool.true_and]
      have h1 := congrArg (·.testBit j) (h k hk)
      simp only [byteOf_testBit, hb, hj, decide_true, Bool.true_and] at h1
      cases h2 : v.testBit (8 * k + j) with
      | false => simp
      | true => rw [← h1, (hp k j hk hj).2 ⟨k, Nat.le_refl _, h2⟩]; rfl
    · simp [hj]
  · intro h k hk
    apply Nat.eq_of_testBit_eq
    intro j
    rw [byteOf_testBit, hb]
    by_cases hj : j < 8
    · simp only [hj, decide_true, Bool.true_and]
      apply Bool.eq_iff_iff.2
      rw [hp k j hk hj]
      constructor
      · rintro ⟨i, h1, h2⟩
        have h3 := congrArg (·.testBit j) (h i (by omega))
        simp only [Nat.testBit_or, byteOf_testBit, hb, hj, decide_true, Bool.true_and, h2, Bool.true_or] at h3
        exact h3.symm
      · intro h1
        exact ⟨0, by omega, by simpa using h1⟩
    · simp [hj]

/-- Native fill of memory: what the instruction does. -/
theorem memset_bytes (m : Mem) (s n : Nat) (c : Int)
    (h : s % 16 = 0 → n % 16 = 0 → ∀ k, k < 8 → byteOf (c % 2 ^ 64).toNat k ||| (c % 256).toNat = (c % 256).toNat) (x : Nat) :
    memset m s c n x = Spec.fill m s n (c % 256).toNat x := by
  have hlow : (c % 2 ^ 64).toNat % 256 = (c % 256).toNat := by omega
  unfold memset Spec.fill
  split
  · rename_i h0
    rw [fillWords_eq, show 16 * (n / 8 / 2) = n by omega]
    have h1 := (pattern_ok (c % 2 ^ 64).toNat).2 (by rw [hlow]; exact h h0.1 h0.2)
    split
    · rw [← hlow]; exact h1 _ (by omega)
    · rfl
  · rw [fillBytes_eq]; rfl

/-- memset: every byte of the range gets the value of the character (modulo 256) and its label, and no
other byte or label changes. Missing for the full claim: aligned ranges with a character outside -1..255
(`C43_memset_refuted`, `C43_memset_aligned`). -/
theorem C43_memset_partial (m : Mem) {k s n cLabel : Nat} {c : Int} (hk : k ≤ 40) (hl : cLabel < 2 ^ 32)
    (hs : 0x700000008000 ≤ s) (hn : s + n < 0x800000000000)
    (hc : (-1 ≤ c ∧ c ≤ 255) ∨ ¬ (s % 16 = 0 ∧ n % 16 = 0)) :
    ∃ m', dfsanMemset (2 ^ k) m s c cLabel n = .ok m' ∧
      (∀ b, Spec.IsApp b → m' b = Spec.fill m s n (c % 256).toNat b) ∧
      (∀ b, Spec.IsApp b → labelOf m' b = Spec.fill (labelOf m) s n cLabel b) := by
  have hb : ∀ x, memset m s c n x = Spec.fill m s n (c % 256).toNat x := by
    apply memset_bytes
    intro h1 h2 i hi
    rcases hc with hc | hc
    · obtain ⟨c0, c1⟩ := hc
      by_cases hneg : c = -1
      · subst hneg; revert i; decide
      · have hv : (c % 2 ^ 64).toNat = c.toNat := by omega
        have hv2 : (c % 256).toNat = c.toNat := by omega
        rw [hv, hv2]
        unfold byteOf
        by_cases h0 : i = 0
        · subst h0; simp [Nat.mod_eq_of_lt (show c.toNat < 256 by omega)]
        · rw [Nat.div_eq_of_lt]
          · simp
          · calc c.toNat < 2 ^ 8 := by omega
              _ ≤ 2 ^ (8 * i) := Nat.pow_le_pow_right (by omega) (by omega)
    · exact absurd ⟨h1, h2⟩ hc
  unfold dfsanMemset
  obtain ⟨m', h1, h2, h3⟩ := setLabel_app' (memset m s c n) hk hl hs hn
  refine ⟨m', h1, fun b hb' => by rw [h3 b hb', hb], fun b hb' => ?_⟩
  rw [h2 b hb']
  unfold Spec.fill
  split
  · rfl
  · unfold labelOf
    apply read32_congr
    intro x hx1 hx2
    rw [hb, Spec.fill, if_neg]
    obtain ⟨b1, b2⟩ := hb'
    have eb := shadow_sum (show 0x700000000000 ≤ b by omega) (by omega)
    omega

/-- The `llvm.memset` instruction: the claim holds for every character. -/
theorem C43_instruction (m : Mem) {k s n c cLabel : Nat} (hk : k ≤ 40) (hl : cLabel < 2 ^ 32)
    (hs : 0x700000008000 ≤ s) (hn : s + n < 0x800000000000) :
    ∃ m', memSetInst (2 ^ k) m s c cLabel n = .ok m' ∧
      (∀ b, Spec.IsApp b → m' b = Spec.fill m s n (c % 256) b) ∧
      (∀ b, Spec.IsApp b → labelOf m' b = Spec.fill (labelOf m) s n cLabel b) := by
  unfold memSetInst
  obtain ⟨m', h1, h2, h3⟩ := setLabel_app' m hk hl hs hn
  rw [h1, Res.bind_ok]
  refine ⟨_, rfl, fun b hb => ?_, fun b hb => ?_⟩
  · rw [fillBytes_eq, Spec.fill, h3 b hb]
  · rw [← h2 b hb]
    unfold labelOf
    apply read32_congr
    intro x hx1 hx2
    obtain ⟨b1, b2⟩ := hb
    have eb := shadow_sum (show 0x700000000000 ≤ b by omega) (by omega)
    rw [fillBytes_eq, if_neg (by omega)]

/-- For aligned ranges the value stored is right for exactly those characters all of whose higher bytes
(after sign extension to 64 bits) have no bit that their lowest byte lacks. -/
theorem C43_memset_aligned (m : Mem) {s n : Nat} {c : Int} (hs : s % 16 = 0) (hn : n % 16 = 0) (h0 : 0 < n) :
    (∀ x, memset m s c n x = Spec.fill m s n (c % 256).toNat x) ↔
    ∀ k, k < 8 → byteOf (c % 2 ^ 64).toNat k ||| (c % 256).toNat = (c % 256).toNat := by
  have hlow : (c % 2 ^ 64).toNat % 256 = (c % 256).toNat := by omega
  refine ⟨fun h => ?_, fun h x => memset_bytes m s n c (fun _ _ => h) x⟩
  have h1 := pattern_ok (c % 2 ^ 64).toNat
  rw [hlow] at h1
  refine h1.1 fun k hk => ?_
  have h2 := h (s + k)
  unfold memset Spec.fill at h2
  rw [if_pos ⟨hs, hn⟩, fillWords_eq, if_pos (by omega), if_pos (by omega)] at h2
  rw [← h2]
  unfold byteOf
  congr 4
  omega

/-- Filling an aligned buffer with a negative `char` other than -1 stores 255 in its second byte. -/
theorem C43_memset_refuted (m : Mem) {k s n cLabel : Nat} {c : Int} (hk : k ≤ 40) (hl : cLabel < 2 ^ 32)
    (hs : 0x700000008000 ≤ s) (hn : s + n < 0x800000000000) (h1 : s % 16 = 0) (h2 : n % 16 = 0) (h0 : 0 < n)
    (hc : -128 ≤ c ∧ c < -1) :
    ∃ m', dfsanMemset (2 ^ k) m s c cLabel n = .ok m' ∧ m' (s + 1) = 255 ∧ (c % 256).toNat < 255 := by
  unfold dfsanMemset
  obtain ⟨m', e1, -, e3⟩ := setLabel_app' (memset m s c n) hk hl hs hn
  refine ⟨m', e1, ?_, by omega⟩
  rw [e3 (s + 1) ⟨by omega, by omega⟩]
  unfold memset
  rw [if_pos ⟨h1, h2⟩, fillWords_eq, if_pos (by omega), show (s + 1 - s) % 8 = 1 by omega]
  obtain ⟨c1, c2⟩ := hc
  interval_cases c <;> decide

/-- Hypotheses are met, and the values are what they should be: a 3-byte range and a 16-byte range
filled with a positive character. -/
example : (0x700000010001 : Nat) + 3 < 0x800000000000 ∧
    (memset (fun _ => 7) 0x700000010001 (-2) 3) 0x700000010002 = 254 ∧
    (memset (fun _ => 7) 0x700000010000 200 16) 0x70000001000f = 200 ∧
    (memset (fun _ => 7) 0x700000010000 (-2) 16) 0x70000001000f = 255 ∧
    (memset (fun _ => 7) 0x700000010000 (-2) 16) 0x700000010000 = 254 := by
  decide

end Verif
