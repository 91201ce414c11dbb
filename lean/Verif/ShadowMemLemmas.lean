import Verif.ShadowMem
/-
Facts about the byte-level shadow memory model (`Verif.ShadowMem`).
-/
namespace Verif
namespace DfsanMem

open Mem

/-! ### Bit arithmetic -/

theorem and_clear_high (r : Nat) (hr : r < 2 ^ 44) :
    (2 ^ 44 * 7 + r) &&& kShadowMask = r := by
  have hM : kShadowMask = 2 ^ 44 * 1048568 + (2 ^ 44 - 1) := by decide
  rw [hM]
  apply Nat.eq_of_testBit_eq
  intro i
  rw [Nat.testBit_and, Nat.testBit_two_pow_mul_add _ hr,
    Nat.testBit_two_pow_mul_add _ (show 2 ^ 44 - 1 < 2 ^ 44 by decide)]
  by_cases h : i < 44
  · simp only [h, if_true, Nat.testBit_two_pow_sub_one, decide_true, Bool.and_true]
  · simp only [h, if_false]
    rw [← Nat.testBit_and, show (7 : Nat) &&& 1048568 = 0 by decide, Nat.zero_testBit]
    symm
    apply Nat.testBit_lt_two_pow
    exact Nat.lt_of_lt_of_le hr (Nat.pow_le_pow_right (by decide) (by omega))

/-- Shadow address of an application address. -/
theorem shadowFor_app {a : Nat} (h1 : 0x700000000000 ≤ a) (h2 : a < 2 ^ 47) :
    shadowFor a = 4 * (a - 0x700000000000) := by
  have h := and_clear_high (a - 0x700000000000) (by omega)
  rw [show 2 ^ 44 * 7 + (a - 0x700000000000) = a by omega] at h
  unfold shadowFor
  rw [h, Nat.shiftLeft_eq]
  omega

theorem and_high_mask (k x : Nat) (hk : k ≤ 64) (hx : x < 2 ^ 64) :
    x &&& (2 ^ 64 - 2 ^ k) = x / 2 ^ k * 2 ^ k := by
  have hM : 2 ^ 64 - 2 ^ k = 2 ^ k * (2 ^ (64 - k) - 1) + 0 := by
    rw [Nat.mul_sub, ← Nat.pow_add, show k + (64 - k) = 64 by omega]
    omega
  have hp : 0 < 2 ^ k := Nat.pow_pos (by decide)
  have hR : x / 2 ^ k * 2 ^ k = 2 ^ k * (x / 2 ^ k) + 0 := by rw [Nat.mul_comm]; rfl
  rw [hM, hR]
  apply Nat.eq_of_testBit_eq
  intro i
  rw [Nat.testBit_and, Nat.testBit_two_pow_mul_add _ hp, Nat.testBit_two_pow_mul_add _ hp]
  by_cases h : i < k
  · simp [h]
  · simp only [h, if_false, Nat.testBit_two_pow_sub_one, Nat.testBit_div_two_pow]
    by_cases h64 : i < 64
    · have : i - k < 64 - k := by omega
      simp [this, show i - k + k = i by omega]
    · have : ¬ i - k < 64 - k := by omega
      have hz : x.testBit i = false := by
        apply Nat.testBit_lt_two_pow
        exact Nat.lt_of_lt_of_le hx (Nat.pow_le_pow_right (by decide) (by omega))
      simp [this, hz, show i - k + k = i by omega]

theorem mask_eq (k : Nat) (hk : k ≤ 64) : 2 ^ 64 - 1 - (2 ^ k - 1) = 2 ^ 64 - 2 ^ k := by
  have hp : 0 < 2 ^ k := Nat.pow_pos (by decide)
  have : 2 ^ k ≤ 2 ^ 64 := Nat.pow_le_pow_right (by decide) hk
  generalize 2 ^ k = K at *
  omega

theorem roundDownTo_eq (k x : Nat) (hk : k ≤ 64) (hx : x < 2 ^ 64) :
    roundDownTo x (2 ^ k) = x / 2 ^ k * 2 ^ k := by
  unfold roundDownTo
  rw [mask_eq k hk, and_high_mask k x hk hx]

theorem roundUpTo_eq (k x : Nat) (hk : k ≤ 64) (hx : x + 2 ^ k - 1 < 2 ^ 64) :
    roundUpTo x (2 ^ k) = (x + 2 ^ k - 1) / 2 ^ k * 2 ^ k := by
  unfold roundUpTo
  rw [mask_eq k hk, Nat.mod_eq_of_lt hx, and_high_mask k _ hk hx]

/-- Rounding down: the multiple at or below. -/
theorem roundDownTo_spec (k x : Nat) (hk : k ≤ 64) (hx : x < 2 ^ 64) :
    roundDownTo x (2 ^ k) ≤ x ∧ x < roundDownTo x (2 ^ k) + 2 ^ k ∧
      roundDownTo x (2 ^ k) % 2 ^ k = 0 := by
  rw [roundDownTo_eq k x hk hx]
  have hp : 0 < 2 ^ k := Nat.pow_pos (by decide)
  have h1 := Nat.div_add_mod x (2 ^ k)
  have h2 := Nat.mod_lt x hp
  rw [Nat.mul_comm] at h1
  refine ⟨by omega, by omega, Nat.mul_mod_left _ _⟩

/-- Rounding up: the multiple at or above. -/
theorem roundUpTo_spec (k x : Nat) (hk : k ≤ 64) (hx : x + 2 ^ k - 1 < 2 ^ 64) :
    x ≤ roundUpTo x (2 ^ k) ∧ roundUpTo x (2 ^ k) < x + 2 ^ k ∧
      roundUpTo x (2 ^ k) % 2 ^ k = 0 := by
  rw [roundUpTo_eq k x hk hx]
  have hp : 0 < 2 ^ k := Nat.pow_pos (by decide)
  have h1 := Nat.div_add_mod (x + 2 ^ k - 1) (2 ^ k)
  have h2 := Nat.mod_lt (x + 2 ^ k - 1) hp
  rw [Nat.mul_comm] at h1
  have h3 := Nat.mul_mod_left ((x + 2 ^ k - 1) / 2 ^ k) (2 ^ k)
  refine ⟨by omega, by omega, h3⟩

theorem roundDownTo_fix (k x : Nat) (hk : k ≤ 64) (hx : x < 2 ^ 64) (h : x % 2 ^ k = 0) :
    roundDownTo x (2 ^ k) = x := by
  rw [roundDownTo_eq k x hk hx]
  exact Nat.div_mul_cancel (Nat.dvd_of_mod_eq_zero h)

theorem roundUpTo_fix (k x : Nat) (hk : k ≤ 64) (hx : x + 2 ^ k - 1 < 2 ^ 64) (h : x % 2 ^ k = 0) :
    roundUpTo x (2 ^ k) = x := by
  have hp : 0 < 2 ^ k := Nat.pow_pos (by decide)
  obtain ⟨q, rfl⟩ := Nat.dvd_of_mod_eq_zero h
  rw [roundUpTo_eq k _ hk hx, show 2 ^ k * q + 2 ^ k - 1 = (2 ^ k - 1) + 2 ^ k * q by omega,
    Nat.add_mul_div_left _ _ hp, Nat.div_eq_of_lt (by omega), Nat.zero_add, Nat.mul_comm]

/-! ### Cells -/

theorem read32_congr {m m' : Mem} {a : Nat} (h : ∀ x, a ≤ x → x < a + 4 → m' x = m x) :
    m'.read32 a = m.read32 a := by
  unfold read32
  rw [h a (by omega) (by omega), h (a + 1) (by omega) (by omega), h (a + 2) (by omega) (by omega),
    h (a + 3) (by omega) (by omega)]

theorem read32_zero {m : Mem} {a : Nat} (h : ∀ x, a ≤ x → x < a + 4 → m x = 0) :
    m.read32 a = 0 := by
  unfold read32
  rw [h a (by omega) (by omega), h (a + 1) (by omega) (by omega), h (a + 2) (by omega) (by omega),
    h (a + 3) (by omega) (by omega)]

theorem read32_shift {m m' : Mem} {a b : Nat} (h : ∀ i, i < 4 → m' (a + i) = m (b + i)) :
    m'.read32 a = m.read32 b := by
  unfold read32
  have h0 := h 0 (by omega)
  rw [Nat.add_zero, Nat.add_zero] at h0
  rw [h0, h 1 (by omega), h 2 (by omega), h 3 (by omega)]

theorem read32_eq_zero {m : Mem} {a : Nat} (h : m.read32 a = 0) :
    ∀ x, a ≤ x → x < a + 4 → m x = 0 := by
  unfold read32 at h
  intro x h1 h2
  have : x = a ∨ x = a + 1 ∨ x = a + 2 ∨ x = a + 3 := by omega
  rcases this with e | e | e | e <;> subst e <;> omega

theorem write32_out {m : Mem} {a v x : Nat} (h : x < a ∨ a + 4 ≤ x) : m.write32 a v x = m x := by
  unfold write32 Mem.set
  rw [if_neg (by omega), if_neg (by omega), if_neg (by omega), if_neg (by omega)]

theorem read32_write32 (m : Mem) (a v : Nat) (hv : v < 2 ^ 32) : (m.write32 a v).read32 a = v := by
  simp only [read32, write32, Mem.set]
  simp only [Nat.add_right_cancel_iff, Nat.add_left_cancel_iff, Nat.left_eq_add, Nat.add_eq_left,
    if_true, Nat.reduceEqDiff, if_false]
  omega

theorem write32_zero {m : Mem} {a x : Nat} (h1 : a ≤ x) (h2 : x < a + 4) : m.write32 a 0 x = 0 := by
  have : x = a ∨ x = a + 1 ∨ x = a + 2 ∨ x = a + 3 := by omega
  unfold write32 Mem.set
  rcases this with e | e | e | e <;> subst e <;> simp

theorem write64_out {m : Mem} {a v x : Nat} (h : x < a ∨ a + 8 ≤ x) : m.write64 a v x = m x := by
  unfold write64
  rw [write32_out (by omega), write32_out (by omega)]

theorem write64_zero {m : Mem} {a x : Nat} (h1 : a ≤ x) (h2 : x < a + 8) : m.write64 a 0 x = 0 := by
  unfold write64
  by_cases h : x < a + 4
  · rw [write32_out (by omega)]
    exact write32_zero h1 h
  · exact write32_zero (by omega) (by omega)

theorem read64_eq_zero {m : Mem} {a : Nat} (h : m.read64 a = 0) :
    ∀ x, a ≤ x → x < a + 8 → m x = 0 := by
  unfold read64 at h
  intro x h1 h2
  by_cases hx : x < a + 4
  · exact read32_eq_zero (by omega : m.read32 a = 0) x h1 hx
  · exact read32_eq_zero (by omega : m.read32 (a + 4) = 0) x (by omega) (by omega)

/-! ### WriteShadowIfDifferent -/

theorem writeShadow_out (l : Nat) : ∀ (n p : Nat) (m : Mem) (x : Nat), (x < p ∨ p + 4 * n ≤ x) →
    writeShadow l p n m x = m x := by
  intro n
  induction n with
  | zero => intro p m x _; rfl
  | succ n ih =>
    intro p m x h
    simp only [writeShadow]
    rw [ih _ _ _ (by omega)]
    split
    · rfl
    · exact write32_out (by omega)

theorem writeShadow_in (l : Nat) (hl : l < 2 ^ 32) : ∀ (n p : Nat) (m : Mem) (i : Nat), i < n →
    (writeShadow l p n m).read32 (p + 4 * i) = l := by
  intro n
  induction n with
  | zero => intro p m i h; omega
  | succ n ih =>
    intro p m i h
    simp only [writeShadow]
    by_cases hi : i = 0
    · subst hi
      rw [read32_congr (m := if l = m.read32 p then m else m.write32 p l)
        (fun x h1 h2 => writeShadow_out l n _ _ x (by omega))]
      split
      · rename_i h; exact h.symm
      · exact read32_write32 m p l hl
    · have := ih (p + 4) (if l = m.read32 p then m else m.write32 p l) (i - 1) (by omega)
      rw [show p + 4 + 4 * (i - 1) = p + 4 * i by omega] at this
      exact this

/-! ### Clearing -/

theorem fillWords_zero : ∀ (n p : Nat) (m : Mem) (x : Nat),
    fillWords 0 p n m x = if p ≤ x ∧ x < p + 16 * n then 0 else m x := by
  intro n
  induction n with
  | zero => intro p m x; simp [fillWords]; omega
  | succ n ih =>
    intro p m x
    simp only [fillWords]
    rw [ih]
    by_cases h1 : p + 16 ≤ x ∧ x < p + 16 + 16 * n
    · rw [if_pos h1, if_pos (by omega)]
    · rw [if_neg h1]
      by_cases h2 : p ≤ x ∧ x < p + 16
      · rw [if_pos (by omega)]
        by_cases h3 : x < p + 8
        · exact write64_zero h2.1 h3
        · rw [write64_out (by omega)]
          exact write64_zero (by omega) (by omega)
      · rw [if_neg (by omega), write64_out (by omega), write64_out (by omega)]

theorem fillBytes_eq (c : Nat) : ∀ (n p : Nat) (m : Mem) (x : Nat),
    fillBytes c p n m x = if p ≤ x ∧ x < p + n then c else m x := by
  intro n
  induction n with
  | zero => intro p m x; simp [fillBytes]; omega
  | succ n ih =>
    intro p m x
    simp only [fillBytes]
    rw [ih]
    by_cases h1 : p + 1 ≤ x ∧ x < p + 1 + n
    · rw [if_pos h1, if_pos (by omega)]
    · rw [if_neg h1]
      by_cases h2 : x = p
      · subst h2
        rw [if_pos (by omega)]
        simp [Mem.set]
      · rw [if_neg (by omega)]
        simp [Mem.set, h2]

theorem memset_zero (m : Mem) (s n x : Nat) :
    memset m s 0 n x = if s ≤ x ∧ x < s + n then 0 else m x := by
  unfold memset
  split
  · have h0 : pattern ((0 : Int) % 2 ^ 64).toNat = 0 := by decide
    rw [h0, fillWords_zero]
    rw [show 16 * (n / 8 / 2) = n by omega]
  · rw [fillBytes_eq]
    rfl

theorem orBytes_zero (m : Mem) : ∀ (n a all : Nat), orBytes m a n all = 0 →
    all = 0 ∧ ∀ x, a ≤ x → x < a + n → m x = 0 := by
  intro n
  induction n with
  | zero => intro a all h; exact ⟨h, fun x h1 h2 => by omega⟩
  | succ n ih =>
    intro a all h
    obtain ⟨h1, h2⟩ := ih _ _ h
    have h3 := Nat.or_eq_zero_iff.mp h1
    refine ⟨h3.1, fun x hx1 hx2 => ?_⟩
    by_cases hx : x = a
    · subst hx; exact h3.2
    · exact h2 x (by omega) (by omega)

theorem orWords_zero (m : Mem) : ∀ (n a all : Nat), orWords m a n all = 0 →
    all = 0 ∧ ∀ x, a ≤ x → x < a + 8 * n → m x = 0 := by
  intro n
  induction n with
  | zero => intro a all h; exact ⟨h, fun x h1 h2 => by omega⟩
  | succ n ih =>
    intro a all h
    obtain ⟨h1, h2⟩ := ih _ _ h
    have h3 := Nat.or_eq_zero_iff.mp h1
    refine ⟨h3.1, fun x hx1 hx2 => ?_⟩
    by_cases hx : x < a + 8
    · exact read64_eq_zero h3.2 x hx1 hx
    · exact h2 x (by omega) (by omega)

/-- `mem_is_zero` answers true only for zero memory. -/
theorem memIsZero_true {m : Mem} {a n : Nat} (ha : a + n + 8 < 2 ^ 64)
    (h : memIsZero m a n = .ok true) : ∀ x, a ≤ x → x < a + n → m x = 0 := by
  unfold memIsZero at h
  split at h
  · cases h
  · have hU := roundUpTo_spec 3 a (by decide) (by omega)
    have hD := roundDownTo_spec 3 (a + n) (by decide) (by omega)
    simp only [show (2 : Nat) ^ 3 = 8 from rfl] at hU hD
    simp only [Res.ok.injEq, beq_iff_eq] at h
    generalize roundUpTo a 8 = U at *
    generalize roundDownTo (a + n) 8 = D at *
    have key : (if a ≤ D then ∀ x, D ≤ x → x < D + (a + n - D) → m x = 0 else True) ∧
        orWords m U ((D - U) / 8) (orBytes m a (min U (a + n) - a) 0) = 0 := by
      split at h
      · rename_i hc
        obtain ⟨h1, h2⟩ := orBytes_zero m _ _ _ h
        rw [if_pos hc]
        exact ⟨h2, h1⟩
      · rename_i hc
        rw [if_neg hc]
        exact ⟨trivial, h⟩
    obtain ⟨k1, k2⟩ := key
    obtain ⟨k3, k4⟩ := orWords_zero m _ _ _ k2
    obtain ⟨-, k6⟩ := orBytes_zero m _ _ _ k3
    intro x h1 h2
    by_cases c1 : x < U
    · exact k6 x h1 (by omega)
    · by_cases c2 : x < D
      · exact k4 x (by omega) (by omega)
      · by_cases c3 : a ≤ D
        · rw [if_pos c3] at k1
          exact k1 x (by omega) (by omega)
        · omega

theorem clearShadow_spec {m : Mem} {a n : Nat} (ha : a + n + 8 < 2 ^ 64) (hn : n ≤ 2 ^ 40) :
    ∃ m', clearShadow m a n = .ok m' ∧ ∀ x, m' x = if a ≤ x ∧ x < a + n then 0 else m x := by
  have hz : ∃ z, memIsZero m a n = .ok z := by
    unfold memIsZero
    rw [if_neg (by omega)]
    exact ⟨_, rfl⟩
  obtain ⟨z, hz⟩ := hz
  unfold clearShadow
  rw [hz]
  cases z with
  | true =>
    refine ⟨m, rfl, fun x => ?_⟩
    split
    · rename_i h; exact memIsZero_true ha hz x h.1 h.2
    · rfl
  | false => exact ⟨_, rfl, fun x => memset_zero m a n x⟩

/-! ### SetShadow -/

/-- Effect of SetShadow on bytes: cells in the range hold the label, everything else is unchanged. -/
theorem setLabel_spec {k l a n B : Nat} {m : Mem} (hk : k ≤ 40) (hl : l < 2 ^ 32)
    (hb : shadowFor a = B) (he : shadowFor ((a + n) % 2 ^ 64) = B + 4 * n)
    (hE2 : B + 4 * n < 2 ^ 47) :
    ∃ m', setLabel (2 ^ k) m l a n = .ok m' ∧
      (∀ i, i < n → m'.read32 (B + 4 * i) = l) ∧
      (∀ x, (x < B ∨ B + 4 * n ≤ x) → m' x = m x) := by
  unfold setLabel
  simp only [hb, he]
  have basic : ∃ m', (Res.ok (writeShadow l B n m) : Res Mem) = .ok m' ∧
      (∀ i, i < n → m'.read32 (B + 4 * i) = l) ∧
      (∀ x, (x < B ∨ B + 4 * n ≤ x) → m' x = m x) :=
    ⟨_, rfl, writeShadow_in l hl n B m, fun x hx => writeShadow_out l n B m x hx⟩
  split
  · exact basic
  · rename_i hl0
    simp only [ne_eq, Decidable.not_not] at hl0
    split
    · exact basic
    · rename_i hbig
      have hP : 2 ^ k ≤ 2 ^ 40 := Nat.pow_le_pow_right (by decide) hk
      have hpos : 0 < 2 ^ k := Nat.pow_pos (by decide)
      have hU := roundUpTo_spec k B (by omega) (by omega)
      have hD := roundDownTo_spec k (B + 4 * n) (by omega) (by omega)
      have hUf : roundUpTo (roundUpTo B (2 ^ k)) (2 ^ k) = roundUpTo B (2 ^ k) :=
        roundUpTo_fix k _ (by omega) (by omega) hU.2.2
      have hDf : roundDownTo (roundDownTo (B + 4 * n) (2 ^ k)) (2 ^ k) =
          roundDownTo (B + 4 * n) (2 ^ k) :=
        roundDownTo_fix k _ (by omega) (by omega) hD.2.2
      simp only [releasePages, hUf, hDf]
      generalize roundUpTo B (2 ^ k) = U at *
      generalize roundDownTo (B + 4 * n) (2 ^ k) = D at *
      generalize 2 ^ k = P at *
      obtain ⟨m1, e1, s1⟩ := clearShadow_spec (m := m) (a := B) (n := U - B) (by omega) (by omega)
      rw [e1]
      simp only [Res.bind_ok]
      rw [if_pos (show U < D by omega)]
      obtain ⟨m2, e2, s2⟩ := clearShadow_spec
        (m := fun x => if U ≤ x ∧ x < D then 0 else m1 x) (a := D) (n := B + 4 * n - D)
        (by omega) (by omega)
      have hval : ∀ x, m2 x = if B ≤ x ∧ x < B + 4 * n then 0 else m x := by
        intro x
        rw [s2, s1]
        repeat' split
        all_goals first | rfl | omega
      refine ⟨m2, e2, ?_, ?_⟩
      · intro i hi
        rw [hl0]
        exact read32_zero (fun x h1 h2 => by rw [hval, if_pos (by omega)])
      · intro x hx
        rw [hval, if_neg (by omega)]

/-! ### Copy loops -/

theorem copyUp_eq {d s : Nat} {m0 : Mem} : ∀ (n i : Nat) (m : Mem),
    (∀ j, i ≤ j → j < i + n → ∀ j', i ≤ j' → j' < j → s + j ≠ d + j') →
    (∀ x, m x = m0 x) →
    ∀ x, copyUp d s i n m x = if d + i ≤ x ∧ x < d + i + n then m0 (s + (x - d)) else m0 x := by
  intro n
  induction n generalizing m0 with
  | zero => intro i m _ hm x; simp only [copyUp]; rw [if_neg (by omega), hm]
  | succ n ih =>
    intro i m hdis hm x
    simp only [copyUp]
    rw [ih (i + 1) _ (fun j h1 h2 j' h3 h4 => hdis j (by omega) (by omega) j' (by omega) h4)
      (fun _ => rfl) x]
    by_cases h1 : d + (i + 1) ≤ x ∧ x < d + (i + 1) + n
    · rw [if_pos h1, if_pos (by omega)]
      have := hdis (x - d) (by omega) (by omega) i (by omega) (by omega)
      unfold Mem.set
      rw [if_neg (by omega), hm]
    · rw [if_neg h1]
      unfold Mem.set
      by_cases h2 : x = d + i
      · rw [if_pos h2, if_pos (by omega), hm, show x - d = i by omega]
      · rw [if_neg h2, if_neg (by omega), hm]

theorem copyDown_eq {d s : Nat} {m0 : Mem} : ∀ (n : Nat) (m : Mem),
    (∀ j, j < n → ∀ j', j < j' → j' < n → s + j ≠ d + j') →
    (∀ x, m x = m0 x) →
    ∀ x, copyDown d s n m x = if d ≤ x ∧ x < d + n then m0 (s + (x - d)) else m0 x := by
  intro n
  induction n generalizing m0 with
  | zero => intro m _ hm x; simp only [copyDown]; rw [if_neg (by omega), hm]
  | succ n ih =>
    intro m hdis hm x
    simp only [copyDown]
    rw [ih _ (fun j h1 j' h3 h4 => hdis j (by omega) j' (by omega) (by omega)) (fun _ => rfl) x]
    by_cases h1 : d ≤ x ∧ x < d + n
    · rw [if_pos h1, if_pos (by omega)]
      have := hdis (x - d) (by omega) n (by omega) (by omega)
      unfold Mem.set
      rw [if_neg (by omega), hm]
    · rw [if_neg h1]
      unfold Mem.set
      by_cases h2 : x = d + n
      · rw [if_pos h2, if_pos (by omega), hm, show x - d = n by omega]
      · rw [if_neg h2, if_neg (by omega), hm]

/-- `internal_memcpy` on ranges that do not overlap. -/
theorem memcpy_eq (m : Mem) {d s n : Nat} (h : d + n ≤ s ∨ s + n ≤ d) (x : Nat) :
    memcpy m d s n x = if d ≤ x ∧ x < d + n then m (s + (x - d)) else m x := by
  unfold memcpy
  rw [copyUp_eq (m0 := m) n 0 m (fun j h1 h2 j' h3 h4 => by omega) (fun _ => rfl) x]
  simp only [Nat.add_zero]

/-- `internal_memmove` on any ranges. -/
theorem memmove_eq (m : Mem) {d s n : Nat} (hn : n < 2 ^ 63) :
    ∃ m', memmove m d s n = .ok m' ∧
      ∀ x, m' x = if d ≤ x ∧ x < d + n then m (s + (x - d)) else m x := by
  unfold memmove
  rw [if_neg (by omega)]
  split
  · refine ⟨_, rfl, fun x => ?_⟩
    rw [copyUp_eq (m0 := m) n 0 m (fun j h1 h2 j' h3 h4 => by omega) (fun _ => rfl) x]
    simp only [Nat.add_zero]
  · split
    · refine ⟨_, rfl, fun x => ?_⟩
      rw [copyDown_eq (m0 := m) n m (fun j h1 j' h3 h4 => by omega) (fun _ => rfl) x]
    · refine ⟨m, rfl, fun x => ?_⟩
      split
      · rw [show s + (x - d) = x by omega]
      · rfl

/-! ### strlen -/

theorem strlenLoop_eq (m : Mem) (s len : Nat) (h0 : m (s + len) = 0)
    (hne : ∀ i, i < len → m (s + i) ≠ 0) : ∀ (fuel i : Nat), i ≤ len → len - i < fuel →
    strlenLoop m s fuel i = .ok len := by
  intro fuel
  induction fuel with
  | zero => intro i _ h; omega
  | succ fuel ih =>
    intro i hi hf
    simp only [strlenLoop]
    by_cases h : i = len
    · subst h; rw [if_pos h0]
    · rw [if_neg (hne i (by omega))]
      exact ih (i + 1) (by omega) (by omega)

theorem strlen_eq (m : Mem) (s len : Nat) (h0 : m (s + len) = 0)
    (hne : ∀ i, i < len → m (s + i) ≠ 0) (hl : len < 2 ^ 64) : strlen m s = .ok len :=
  strlenLoop_eq m s len h0 hne _ 0 (by omega) (by omega)

end DfsanMem
end Verif

namespace Verif
namespace DfsanMem

open Mem

/-! ### Application addresses -/

/-- Shadow address of an application address, without subtraction. -/
theorem shadow_sum {a : Nat} (h1 : 0x700000000000 ≤ a) (h2 : a < 2 ^ 47) :
    shadowFor a + 0x1c00000000000 = 4 * a := by
  obtain ⟨r, rfl⟩ := Nat.exists_eq_add_of_le h1
  have hr : r < 2 ^ 44 := by omega
  have h := and_clear_high r hr
  unfold shadowFor
  rw [show 0x700000000000 + r = 2 ^ 44 * 7 + r by omega, h, Nat.shiftLeft_eq]
  omega

attribute [local irreducible] shadowFor

/-- Label-setting on an application range. -/
theorem setLabel_app {k l a n : Nat} {m : Mem} (hk : k ≤ 40) (hl : l < 2 ^ 32)
    (ha : 0x700000000000 ≤ a) (hn : a + n < 2 ^ 47) :
    ∃ m', setLabel (2 ^ k) m l a n = .ok m' ∧
      (∀ i, i < n → m'.read32 (shadowFor a + 4 * i) = l) ∧
      (∀ x, (x < shadowFor a ∨ shadowFor a + 4 * n ≤ x) → m' x = m x) := by
  have e1 := shadow_sum ha (by omega)
  have e2 := shadow_sum (show 0x700000000000 ≤ a + n by omega) hn
  have hmod : (a + n) % 2 ^ 64 = a + n := Nat.mod_eq_of_lt (by omega)
  exact setLabel_spec hk hl rfl (by rw [hmod]; omega) (by omega)

end DfsanMem
end Verif
