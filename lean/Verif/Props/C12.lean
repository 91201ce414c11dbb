import Verif.BitmapLemmas
/- C12: the bitmap section is a faithful set of indices (sequential use; C13 is the concurrent case). -/
namespace Verif
open Spec

namespace Bitmap

/-- Performing an insertion request; the Boolean is the answer of `set`. -/
def exec (B : Bitmap) : Ins → Res (Bitmap × Bool)
  | .one i => B.set i
  | .range b n => do
    let B ← B.setRange b n
    return (B, false)

/-- Performing several requests. -/
def run (B : Bitmap) : List Ins → Res Bitmap
  | [] => .ok B
  | r :: rs => do
    let (B, _) ← B.exec r
    B.run rs

/-- The requests are small enough not to overflow the address arithmetic (size_t). -/
def NoWrap : Ins → Prop
  | .one _ => True
  | .range b n => b + n < 2 ^ 64

/-- State after the requests `rs`: what the proofs carry. -/
structure Inv (W cap : Nat) (rs : List Ins) (B : Bitmap) : Prop where
  w : B.W = W
  c : B.cap = cap
  len : B.buckets.length = bucketCount W cap
  bits : ∀ i, B.bit i = true ↔ Covered rs i
  used : ∀ i, Covered rs i → i / W < B.used
  lt : ∀ i, Covered rs i → i < cap
  max : B.used ≤ bucketCount W cap + 1

theorem covered_snoc {rs : List Ins} {r : Ins} {i : Nat} :
    Covered (rs ++ [r]) i ↔ Covered rs i ∨ r.covers i := by
  simp only [Covered, List.mem_append, List.mem_singleton]
  constructor
  · rintro ⟨x, (h | rfl), hc⟩
    · exact Or.inl ⟨x, h, hc⟩
    · exact Or.inr hc
  · rintro (⟨x, h, hc⟩ | h)
    · exact ⟨x, Or.inl h, hc⟩
    · exact ⟨r, Or.inr rfl, h⟩

theorem inv_empty (W cap : Nat) : Inv W cap [] (empty W cap) := by
  refine ⟨rfl, rfl, by simp [empty], fun i => ?_, fun i h => ?_, fun i h => ?_, by simp [empty]⟩
  · simp only [Covered, List.not_mem_nil, false_and, exists_false, iff_false, bit, empty]
    by_cases h : i / W < bucketCount W cap
    · simp [h]
    · simp [h]
  · simp [Covered] at h
  · simp [Covered] at h

/-- A request inside the capacity succeeds, reports whether a single bit was already set, and
re-establishes the invariant. -/
theorem exec_ok {W cap : Nat} {rs : List Ins} {B : Bitmap} (hW : 0 < W) (hB : Inv W cap rs B)
    (r : Ins) (hr : r.within cap) (hnw : NoWrap r) :
    ∃ B' ret, B.exec r = .ok (B', ret) ∧ Inv W cap (rs ++ [r]) B' ∧ B.used ≤ B'.used ∧
      (∀ i, r = .one i → (ret = true ↔ Covered rs i)) := by
  obtain ⟨hw, hc, hlen, hbits, hused, hlt, hmax⟩ := hB
  subst hw hc
  cases r with
  | one i =>
    have hi : i < B.cap := hr i rfl
    have hin : (BAct.bits (i / B.W) (mask B.W i)).inside B.buckets.length := by
      simp only [BAct.inside, hlen]; exact bucket_lt hW hi
    obtain ⟨B1, ret, h1, h2⟩ := act_spec hW _ hin
    obtain ⟨s1, s2, s3, s4⟩ := act_shape h1
    have hu := act_used h1 rfl
    obtain ⟨B2, k1, k2, k3, k4, k5⟩ := act_used_eq B1 (i / B.W)
    have hcov : ∀ j, (BAct.bits (i / B.W) (mask B.W i)).covers B.W j ↔ j = i := by
      intro j
      simp only [BAct.covers, testBit_mask, decide_eq_true_eq]
      constructor
      · rintro ⟨a, b⟩
        rw [@div_mul_rem B.W j, @div_mul_rem B.W i, a, b]
      · rintro rfl; exact ⟨rfl, rfl⟩
    have hbit2 : ∀ j, B2.bit j = B1.bit j := fun j => by simp [bit, k3, k4]
    refine ⟨B2, ret, ?_, ⟨by omega, by omega, by rw [k3, s3, hlen], ?_, ?_, ?_, ?_⟩, by omega, ?_⟩
    · simp only [exec, set, ge_iff_le, Nat.not_le.2 hi, if_false, h1, Res.bind_ok, s1]
      rw [k1]; rfl
    · intro j
      rw [hbit2, h2, hcov, covered_snoc, hbits]; rfl
    · intro j hj
      rw [covered_snoc] at hj
      rcases hj with hj | hj
      · have := hused j hj; omega
      · cases hj; omega
    · intro j hj
      rw [covered_snoc] at hj
      rcases hj with hj | hj
      · exact hlt j hj
      · cases hj; exact hi
    · have := bucket_lt hW hi; omega
    · intro j hj
      cases hj
      rw [← hbits]
      simp only [act] at h1
      have hb := bucket_lt hW hi
      rw [← hlen] at hb
      simp only [bit, List.getElem?_eq_getElem hb] at h1 ⊢
      split at h1
      · rename_i heq
        cases h1
        have := congrArg (fun x => x.testBit (i % B.W)) heq
        simp only [Nat.testBit_and, testBit_mask, decide_true, Bool.and_true] at this
        simp [this]
      · rename_i hne
        cases h1
        simp only [Bool.false_eq_true, false_iff]
        intro ht
        apply hne
        apply Nat.eq_of_testBit_eq
        intro k
        rw [Nat.testBit_and, testBit_mask]
        by_cases hk : i % B.W = k
        · subst hk; simp [ht]
        · simp [hk]
  | range b n =>
    simp only [NoWrap] at hnw
    by_cases hn : n = 0
    · subst hn
      have hno : ∀ j, ¬ (Ins.range b 0).covers j := fun j h => by simp only [Ins.covers] at h; omega
      refine ⟨B, false, by simp [exec, setRange], ⟨rfl, rfl, hlen, ?_, ?_, ?_, hmax⟩,
        Nat.le_refl _, fun i h => by cases h⟩
      · intro j; rw [covered_snoc, hbits]; simp [hno j]
      · intro j hj; rw [covered_snoc] at hj; exact hused j (hj.resolve_right (hno j))
      · intro j hj; rw [covered_snoc] at hj; exact hlt j (hj.resolve_right (hno j))
    · have hn' : 0 < n := by omega
      have hend : b + n ≤ B.cap := by
        have := hr (b + n - 1) ⟨by omega, by omega⟩; omega
      have hin := setRangeActs_inside (cap := B.cap) hW hn' hnw hend
      obtain ⟨B1, h1, s1, s2, s3, s4, h2⟩ := acts_spec (setRangeActs B.W b n) hW
        (by rw [hlen]; exact hin)
      have hcov := setRangeActs_covers hW hn' hnw
      obtain ⟨pre, c, hp, hpu, hc1, hc2, -, -⟩ := setRangeActs_used hW hn' hnw
      have hu : B1.used = max B.used (c + 1) := by
        rw [hp, acts_append, Res.bind_eq_ok] at h1
        obtain ⟨B0, e1, e2⟩ := h1
        have e3 := acts_used e1 hpu
        obtain ⟨B2, k1, k2, -⟩ := act_used_eq B0 c
        simp only [acts, k1, Res.bind_ok] at e2
        cases e2
        rw [k2, e3]
      refine ⟨B1, false, ?_, ⟨s1, s2, by rw [s3, hlen], ?_, ?_, ?_, ?_⟩, s4,
        fun i h => by cases h⟩
      · simp only [exec, setRange, hn, if_false, Nat.mod_eq_of_lt hnw]
        rw [if_neg (by omega), if_neg (by omega), h1]; rfl
      · intro j
        rw [h2, hcov, covered_snoc, hbits]; rfl
      · intro j hj
        rw [covered_snoc] at hj
        rcases hj with hj | hj
        · have := hused j hj; omega
        · have hj' : b ≤ j ∧ j < b + n := hj
          have : j / B.W ≤ (b + n - 1) / B.W := Nat.div_le_div_right (by omega)
          omega
      · intro j hj
        rw [covered_snoc] at hj
        rcases hj with hj | hj
        · exact hlt j hj
        · exact hr j hj
      · have : (b + n - 1) / B.W < bucketCount B.W B.cap := bucket_lt hW (by omega)
        omega

theorem run_inv {W cap : Nat} (hW : 0 < W) : ∀ (rs rs0 : List Ins) {B : Bitmap},
    Inv W cap rs0 B → (∀ r ∈ rs, r.within cap ∧ NoWrap r) →
    ∃ B', B.run rs = .ok B' ∧ Inv W cap (rs0 ++ rs) B' ∧ B.used ≤ B'.used := by
  intro rs
  induction rs with
  | nil => intro rs0 B h _; exact ⟨B, rfl, by simpa using h, Nat.le_refl _⟩
  | cons r rs ih =>
    intro rs0 B h hr
    obtain ⟨B1, ret, h1, h2, h3, -⟩ := exec_ok hW h r (hr r (by simp)).1 (hr r (by simp)).2
    obtain ⟨B2, k1, k2, k3⟩ := ih (rs0 ++ [r]) h2 (fun x hx => hr x (by simp [hx]))
    exact ⟨B2, by simp only [run, h1, Res.bind_ok, k1], by simpa using k2, by omega⟩

theorem and_mask_zero (v W i : Nat) : v &&& mask W i = 0 ↔ v.testBit (i % W) = false := by
  constructor
  · intro h
    have := congrArg (fun x => x.testBit (i % W)) h
    simpa [testBit_mask] using this
  · intro h
    apply Nat.eq_of_testBit_eq
    intro j
    rw [Nat.testBit_and, testBit_mask]
    by_cases hj : i % W = j
    · subst hj; simp [h]
    · simp [hj]

/-- An action outside the memory makes the whole sequence undefined. -/
theorem acts_ub : ∀ (as : List BAct) {B : Bitmap} (_ : 0 < B.W)
    (_ : ∃ a ∈ as, ¬ a.inside B.buckets.length), B.acts as = .ub := by
  intro as
  induction as with
  | nil => rintro B _ ⟨a, h, -⟩; simp at h
  | cons a as ih =>
    intro B hW h
    by_cases hin : a.inside B.buckets.length
    · obtain ⟨B1, r, h1, -⟩ := act_spec hW a hin
      obtain ⟨h2, -, h4, -⟩ := act_shape h1
      simp only [acts, h1, Res.bind_ok]
      refine ih (by omega) ?_
      obtain ⟨x, hx, hn⟩ := h
      rcases List.mem_cons.1 hx with rfl | hx
      · exact absurd hin hn
      · exact ⟨x, hx, by rw [h4]; exact hn⟩
    · have : B.act a = .ub := by
        cases a with
        | bits b m =>
          simp only [BAct.inside] at hin
          simp [act, List.getElem?_eq_none (Nat.not_lt.1 hin)]
        | fill b =>
          simp only [BAct.inside] at hin
          simp [act, List.getElem?_eq_none (Nat.not_lt.1 hin)]
        | used b => exact absurd trivial hin
      simp [acts, this]

end Bitmap

open Bitmap

/-- For every bucket width and capacity and every sequence of insertions that stay below the
capacity: all succeed, and afterwards an index below the capacity tests as set exactly when it was
covered by one of them. -/
theorem C12_faithful (W cap : Nat) (hW : 0 < W) (rs : List Ins)
    (hr : ∀ r ∈ rs, r.within cap ∧ NoWrap r) :
    ∃ B, (empty W cap).run rs = .ok B ∧ ∀ i, i < cap → ∃ a, B.isSet i = .ok a ∧
      (a = true ↔ Covered rs i) := by
  obtain ⟨B, h1, h2, -⟩ := run_inv hW rs [] (inv_empty W cap) hr
  refine ⟨B, h1, fun i hi => ?_⟩
  have hb := bucket_lt hW hi
  rw [← h2.len, ← h2.w] at hb
  have h3 := h2.bits i
  simp only [List.nil_append, bit, List.getElem?_eq_getElem hb] at h3
  refine ⟨(B.buckets[i / B.W] &&& mask B.W i != 0), by simp only [isSet, h2.c, ge_iff_le,
    Nat.not_le.2 hi, if_false, List.getElem?_eq_getElem hb], ?_⟩
  rw [← h3, bne_iff_ne, ne_eq, and_mask_zero]
  simp

/-- The answer of a single insertion tells whether the index was inserted before. -/
theorem C12_reports (W cap : Nat) (hW : 0 < W) (rs : List Ins)
    (hr : ∀ r ∈ rs, r.within cap ∧ NoWrap r) (B : Bitmap) (hB : (empty W cap).run rs = .ok B)
    (i : Nat) (hi : i < cap) :
    ∃ B' ret, B.set i = .ok (B', ret) ∧ (ret = true ↔ Covered rs i) := by
  obtain ⟨B0, h1, h2, -⟩ := run_inv hW rs [] (inv_empty W cap) hr
  rw [hB] at h1; cases h1
  obtain ⟨B', ret, k1, -, -, k4⟩ := exec_ok hW h2 (.one i)
    (fun j (hj : j = i) => hj ▸ hi) trivial
  exact ⟨B', ret, k1, by simpa using k4 i rfl⟩

/-- Insertions that reach beyond the capacity (and whose end is representable) end the program;
querying beyond the capacity does too. -/
theorem C12_refuses (B : Bitmap) (r : Ins) (hr : ¬ r.within B.cap) (hnw : NoWrap r) :
    B.exec r = .fatal := by
  cases r with
  | one i =>
    have : B.cap ≤ i := by
      rcases Nat.lt_or_ge i B.cap with h | h
      · exact absurd (fun j (hj : j = i) => hj ▸ h) hr
      · exact h
    simp [exec, Bitmap.set, this]
  | range b n =>
    simp only [NoWrap] at hnw
    have h : 0 < n ∧ B.cap < b + n := by
      refine ⟨?_, ?_⟩
      · rcases Nat.eq_zero_or_pos n with h | h
        · exact absurd (fun j (hj : b ≤ j ∧ j < b + n) => by omega) hr
        · exact h
      · rcases Nat.lt_or_ge B.cap (b + n) with h | h
        · exact h
        · exact absurd (fun j (hj : b ≤ j ∧ j < b + n) => by omega) hr
    have : B.setRange b n = .fatal := by
      unfold setRange
      rw [if_neg (by omega), Nat.mod_eq_of_lt hnw]
      split
      · rfl
      · rw [if_pos (by omega)]
    simp [exec, this]

theorem C12_query_refuses (B : Bitmap) (i : Nat) (h : B.cap ≤ i) : B.isSet i = .fatal := by
  simp [isSet, h]

/-- The reported size covers every set bit: bit `i` lives in byte `i / 8` of the section (little
endian buckets), which is below the size. The size never shrinks. -/
theorem C12_size (k cap : Nat) (hk : 0 < k) (rs : List Ins)
    (hr : ∀ r ∈ rs, r.within cap ∧ NoWrap r) (B : Bitmap)
    (hB : (empty (8 * k) cap).run rs = .ok B) :
    (∀ i, Covered rs i → i / 8 < B.size) ∧
    (∀ rs' B', (∀ r ∈ rs', r.within cap ∧ NoWrap r) → B.run rs' = .ok B' → B.size ≤ B'.size) := by
  have hW : 0 < 8 * k := by omega
  obtain ⟨B0, h1, h2, -⟩ := run_inv hW rs [] (inv_empty (8 * k) cap) hr
  rw [hB] at h1; cases h1
  constructor
  · intro i hi
    have := h2.used i (by simpa using hi)
    have hk8 : 8 * k / 8 = k := by omega
    rw [size, h2.w, hk8, Nat.div_lt_iff_lt_mul (by omega)]
    rw [Nat.div_lt_iff_lt_mul hW] at this
    rw [Nat.mul_assoc, Nat.mul_comm k 8]; exact this
  · intro rs' B' hr' h
    obtain ⟨B1, k1, k2, k3⟩ := run_inv hW rs' _ h2 hr'
    rw [h] at k1; cases k1
    rw [size, size, h2.w, k2.w]
    exact Nat.mul_le_mul_right _ k3

/-- The reported size exceeds the memory of the section by at most one bucket. -/
theorem C12_size_bound_partial (W cap : Nat) (hW : 0 < W) (rs : List Ins)
    (hr : ∀ r ∈ rs, r.within cap ∧ NoWrap r) (B : Bitmap) (hB : (empty W cap).run rs = .ok B) :
    B.size ≤ allocationSize W cap + W / 8 := by
  obtain ⟨B0, h1, h2, -⟩ := run_inv hW rs [] (inv_empty W cap) hr
  rw [hB] at h1; cases h1
  have := h2.max
  rw [size, allocationSize, h2.w]
  have := Nat.mul_le_mul_right (W / 8) this
  rw [Nat.add_mul, Nat.one_mul] at this
  exact this

/-- It can indeed exceed it: inserting the last index of the source-label index of the shipped
configuration (2^31 bits in 64-bit buckets) as a range makes the reported size 8 bytes larger than
the section. -/
theorem C12_size_refuted :
    ∃ B, (empty 64 (2 ^ 31)).run [.range (2 ^ 31 - 1) 1] = .ok B ∧
      B.size = allocationSize 64 (2 ^ 31) + 8 := by
  have hin : ∀ r ∈ [Ins.range (2 ^ 31 - 1) 1], r.within (2 ^ 31) ∧ NoWrap r := by
    intro r hr
    rw [List.mem_singleton] at hr
    subst hr
    exact ⟨fun i (hi : _ ∧ _) => by omega, by simp [NoWrap]⟩
  obtain ⟨B, h1, h2, -⟩ := run_inv (by omega) _ [] (inv_empty 64 (2 ^ 31)) hin
  refine ⟨B, h1, ?_⟩
  obtain ⟨pre, c, hp, hpu, -, -, hc, -⟩ := setRangeActs_used (W := 64) (b := 2 ^ 31 - 1) (n := 1)
    (by omega) (by omega) (by omega)
  have hc' := hc (by decide) (by decide)
  simp only [run, exec, Res.bind_eq_ok] at h1
  obtain ⟨⟨B1, r⟩, ⟨B2, e1, e2⟩, e3⟩ := h1
  cases e3
  cases e2
  unfold setRange at e1
  rw [if_neg (by omega), show (empty 64 (2 ^ 31)).cap = 2 ^ 31 from rfl,
    if_neg (show ¬ (2 ^ 31 - 1 ≥ 2 ^ 31) by omega),
    if_neg (show ¬ ((2 ^ 31 - 1 + 1) % 2 ^ 64 > 2 ^ 31) by omega)] at e1
  rw [show (empty 64 (2 ^ 31)).W = 64 from rfl, hp, acts_append, Res.bind_eq_ok] at e1
  obtain ⟨B0, e1, e2⟩ := e1
  have e3 := acts_used e1 hpu
  obtain ⟨B2, k1, k2, -⟩ := act_used_eq B0 c
  simp only [acts, k1, Res.bind_ok] at e2
  cases e2
  rw [size, h2.w, k2, e3, hc', show (empty 64 (2 ^ 31)).used = 0 from rfl]
  decide

/-- The capacity check is computed modulo 2^64 and can be defeated by a huge length: such a request
reaches beyond the capacity, yet it is not refused and runs outside the memory of the section. -/
theorem C12_wrap_refuted :
    ¬ (Ins.range 64 (2 ^ 64 - 64)).within (2 ^ 31) ∧
    (empty 64 (2 ^ 31)).exec (.range 64 (2 ^ 64 - 64)) = .ub := by
  constructor
  · intro h
    have := h (2 ^ 31) (by simp [Ins.covers])
    omega
  · have : (empty 64 (2 ^ 31)).setRange 64 (2 ^ 64 - 64) = .ub := by
      unfold setRange
      rw [if_neg (by omega), show (empty 64 (2 ^ 31)).cap = 2 ^ 31 from rfl,
        if_neg (show ¬ (64 ≥ 2 ^ 31) by omega),
        if_neg (show ¬ ((64 + (2 ^ 64 - 64)) % 2 ^ 64 > 2 ^ 31) by omega)]
      refine acts_ub _ (show 0 < 64 by omega) ⟨.fill (2 ^ 25), ?_, ?_⟩
      · show BAct.fill (2 ^ 25) ∈ setRangeActs 64 64 (2 ^ 64 - 64)
        have h0 : (64 : Nat) % 64 ≠ 0 ↔ False := by decide
        simp only [setRangeActs, h0, if_false, List.mem_append, List.mem_map, List.mem_range'_1]
        exact Or.inr (Or.inl ⟨2 ^ 25, by omega, rfl⟩)
      · show ¬ (2 ^ 25 < (List.replicate (bucketCount 64 (2 ^ 31)) 0).length)
        rw [List.length_replicate]; decide
    simp [exec, this]

/-- A concrete history: 8-bit buckets, 20 bits, overlapping ranges and single insertions. -/
example : (∀ r ∈ [Ins.one 3, .range 2 9, .range 16 4, .one 19], r.within 20 ∧ NoWrap r) ∧
    (empty 8 20).run [.one 3, .range 2 9, .range 16 4, .one 19] =
      .ok { W := 8, cap := 20, buckets := [0b11111100, 0b111, 0b1111], used := 3 } := by
  constructor
  · intro r hr
    simp only [List.mem_cons, List.not_mem_nil, or_false] at hr
    rcases hr with rfl | rfl | rfl | rfl
    · exact ⟨fun i (hi : _ = _) => by omega, trivial⟩
    · exact ⟨fun i (hi : _ ∧ _) => by omega, by simp [NoWrap]⟩
    · exact ⟨fun i (hi : _ ∧ _) => by omega, by simp [NoWrap]⟩
    · exact ⟨fun i (hi : _ = _) => by omega, trivial⟩
  · decide +kernel

end Verif
