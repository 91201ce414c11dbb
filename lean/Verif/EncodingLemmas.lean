import Verif.Encoding
/- Helper lemmas: arithmetic reading of the bit operations of `Verif.Encoding`. -/
namespace Verif

theorem or_eq_add {a b i : Nat} (h : b < 2 ^ i) : a <<< i ||| b = a * 2 ^ i + b := by
  rw [← Nat.shiftLeft_add_eq_or_of_lt h, Nat.shiftLeft_eq]

theorem boolBit_lt (b : Bool) : boolBit b < 2 := by cases b <;> simp [boolBit]

theorem and_maxLabel (x : Nat) : x &&& maxLabel = x % 2 ^ 31 := by
  simp only [maxLabel, Nat.and_two_pow_sub_one_eq_mod]
theorem and_maxIdx (x : Nat) : x &&& maxSourceIndex = x % 2 ^ 8 := by
  simp only [maxSourceIndex, Nat.and_two_pow_sub_one_eq_mod]
theorem and_maxOff (x : Nat) : x &&& maxSourceOffset = x % 2 ^ 54 := by
  simp only [maxSourceOffset, Nat.and_two_pow_sub_one_eq_mod]

theorem isSource_iff (e : Nat) : isSourceTaint e = true ↔ e / 2 ^ 63 % 2 = 1 := by
  simp [isSourceTaint, sourceTaintShift, Nat.shiftRight_eq_div_pow, Nat.and_one_is_mod]
theorem checkCf_iff (e : Nat) : checkCf e = true ↔ e / 2 ^ 62 % 2 = 1 := by
  simp [checkCf, cfShift, Nat.shiftRight_eq_div_pow, Nat.and_one_is_mod]

theorem checkCf_eq (e : Nat) : checkCf e = decide (e / 2 ^ 62 % 2 = 1) := by
  rw [Bool.eq_iff_iff, checkCf_iff]; simp

theorem encode_source (cf : Bool) (i o : Nat) :
    encode (.source cf i o) = 2 ^ 63 + boolBit cf * 2 ^ 62 + (o % 2 ^ 54) * 2 ^ 8 + i % 2 ^ 8 := by
  have hb := boolBit_lt cf
  simp only [encode, and_maxIdx, and_maxOff, sourceTaintShift, cfShift]
  have h2 : ∀ t, t < 2 ^ 62 → boolBit cf * 2 ^ 62 + t < 2 ^ 63 := by intro t ht; omega
  have h1 : o % 2 ^ 54 * 2 ^ 8 + i % 2 ^ 8 < 2 ^ 62 := by omega
  rewrite [Nat.or_assoc, Nat.or_assoc, or_eq_add (by omega : i % 2 ^ 8 < 2 ^ 8), or_eq_add h1,
    or_eq_add (h2 _ h1)]
  generalize o % 2 ^ 54 = x
  generalize i % 2 ^ 8 = y
  generalize boolBit cf = z
  omega

theorem encode_range (cf : Bool) (f l : Nat) (hl : l < 2 ^ 31) :
    encode (.range cf f l) = boolBit cf * 2 ^ 62 + (f % 2 ^ 31) * 2 ^ 31 + l := by
  have hb := boolBit_lt cf
  simp only [encode, and_maxLabel, cfShift, labelBits]
  rewrite [Nat.or_assoc, Nat.or_comm l, or_eq_add hl, or_eq_add (by omega)]
  omega

theorem encode_union (cf : Bool) (lo hi : Nat) :
    encode (.union cf lo hi) = boolBit cf * 2 ^ 62 + (hi % 2 ^ 31) * 2 ^ 31 + lo % 2 ^ 31 := by
  have hb := boolBit_lt cf
  simp only [encode, and_maxLabel, cfShift, labelBits]
  rewrite [Nat.and_comm maxLabel, and_maxLabel, Nat.or_assoc,
    or_eq_add (by omega : lo % 2 ^ 31 < 2 ^ 31), or_eq_add (by omega)]
  omega

/-- `decode` in plain arithmetic. -/
theorem decode_eq (e : Nat) : decode e =
    if e / 2 ^ 63 % 2 = 1 then .ok (.source (checkCf e) (e % 2 ^ 8) (e / 2 ^ 8 % 2 ^ 54))
    else if e / 2 ^ 31 % 2 ^ 31 = e % 2 ^ 31 then .fatal
    else if e / 2 ^ 31 % 2 ^ 31 < e % 2 ^ 31 then
      .ok (.range (checkCf e) (e / 2 ^ 31 % 2 ^ 31) (e % 2 ^ 31))
    else .ok (.union (checkCf e) (e % 2 ^ 31) (e / 2 ^ 31 % 2 ^ 31)) := by
  simp only [decode, isSource_iff, and_maxIdx, and_maxOff, and_maxLabel, labelBits,
    Nat.shiftRight_eq_div_pow, mkUnion]
  grind

theorem testBit_cf (e : Nat) : e.testBit 62 = checkCf e := by
  rw [Bool.eq_iff_iff, checkCf_iff, Nat.testBit_eq_decide_div_mod_eq]; simp

theorem addCf_eq (e : Nat) : addCf e = if checkCf e then e else e + 2 ^ 62 := by
  have key : addCf e = e ||| 2 ^ 62 := by simp [addCf, cfShift]
  rw [key]
  split
  · rename_i h
    apply Nat.eq_of_testBit_eq
    intro i
    rw [Nat.testBit_or, Nat.testBit_two_pow]
    by_cases hi : 62 = i
    · subst hi; simp [testBit_cf, h]
    · simp [hi]
  · rename_i h
    rw [checkCf_iff] at h
    have h1 : e % 2 ^ 62 < 2 ^ 62 := by omega
    have h2 : e = (e / 2 ^ 62) <<< 62 ||| e % 2 ^ 62 := by
      rw [or_eq_add h1]; omega
    have h3 : e / 2 ^ 62 ||| 1 = e / 2 ^ 62 + 1 := by
      have : e / 2 ^ 62 % 2 = 0 := by omega
      have h4 := @or_eq_add (e / 2 ^ 62 / 2) 1 1 (by omega)
      rw [Nat.shiftLeft_eq] at h4
      have h5 : e / 2 ^ 62 / 2 * 2 ^ 1 = e / 2 ^ 62 := by omega
      rw [h5] at h4; exact h4
    have h6 : (2:Nat) ^ 62 = 1 <<< 62 := by simp
    calc e ||| 2 ^ 62 = ((e / 2 ^ 62) <<< 62 ||| 1 <<< 62) ||| e % 2 ^ 62 := by
          rw [← h6]; conv => lhs; rw [h2]
          rw [Nat.or_assoc, Nat.or_comm (e % 2 ^ 62), ← Nat.or_assoc]
      _ = (e / 2 ^ 62 ||| 1) <<< 62 ||| e % 2 ^ 62 := by rw [Nat.shiftLeft_or_distrib]
      _ = e + 2 ^ 62 := by rw [or_eq_add h1, h3]; omega

theorem maskCf_and (e : Nat) (he : e < 2 ^ 64) :
    e &&& maskCf = if checkCf e then e - 2 ^ 62 else e := by
  have hb : ∀ i, (e &&& maskCf).testBit i = (e.testBit i && decide (i ≠ 62)) := by
    intro i
    rw [Nat.testBit_and]
    by_cases hi : i < 64
    · have : maskCf.testBit i = decide (i ≠ 62) := by
        have : ∀ j : Fin 64, maskCf.testBit j.1 = decide (j.1 ≠ 62) := by decide
        exact this ⟨i, hi⟩
      rw [this]
    · have : e.testBit i = false :=
        Nat.testBit_lt_two_pow (Nat.lt_of_lt_of_le he (Nat.pow_le_pow_right (by omega) (by omega)))
      simp [this]
  split
  · rename_i h
    have hc := (checkCf_iff e).1 h
    have h1 : addCf (e - 2 ^ 62) = e := by
      rw [addCf_eq]
      have : ¬ checkCf (e - 2 ^ 62) = true := by rw [checkCf_iff]; omega
      simp only [this]; simp only [Bool.false_eq_true, ↓reduceIte]; omega
    have hn : (e - 2 ^ 62).testBit 62 = false := by
      rw [testBit_cf, Bool.eq_false_iff, ne_eq, checkCf_iff]; omega
    apply Nat.eq_of_testBit_eq
    intro i
    rw [hb]
    by_cases hi : i = 62
    · subst hi; simp [hn]
    · have h3 : e.testBit i = (e - 2 ^ 62).testBit i := by
        conv => lhs; rw [← h1]
        simp only [addCf, cfShift, Nat.testBit_or, Nat.one_shiftLeft, Nat.testBit_two_pow]
        have : ¬ 62 = i := fun h => hi h.symm
        simp [this]
      simp [hi, h3]
  · rename_i h
    apply Nat.eq_of_testBit_eq
    intro i
    rw [hb]
    by_cases hi : i = 62
    · subst hi; simp [testBit_cf, h]
    · simp [hi]

end Verif
