import Verif.Bitmap
import Verif.Spec.IndexSet
namespace Verif
namespace Bitmap
open Spec

/-- Bit `i` of the bucket array. -/
def bit (B : Bitmap) (i : Nat) : Bool :=
  match B.buckets[i / B.W]? with
  | none => false
  | some v => v.testBit (i % B.W)

/-- Bits written by an action. -/
def _root_.Verif.BAct.covers (W : Nat) : BAct → Nat → Prop
  | .bits b m, i => i / W = b ∧ m.testBit (i % W) = true
  | .fill b, i => i / W = b
  | .used _, _ => False

/-- The bucket an action accesses exists. -/
def _root_.Verif.BAct.inside (nb : Nat) : BAct → Prop
  | .bits b _ => b < nb
  | .fill b => b < nb
  | .used _ => True

theorem testBit_allBits (W j : Nat) : (allBits W).testBit j = decide (j < W) := by
  simp [allBits, Nat.testBit_two_pow_sub_one]

theorem testBit_preMask {W s e j : Nat} (he : e ≤ W) :
    (preMask W s e).testBit j = decide (s ≤ j ∧ j < e) := by
  unfold preMask
  rw [Nat.testBit_and, Nat.testBit_mod_two_pow, Nat.testBit_shiftLeft, Nat.testBit_shiftRight,
    testBit_allBits, testBit_allBits, Bool.eq_iff_iff]
  simp only [Bool.and_eq_true, decide_eq_true_eq]
  omega

theorem testBit_postMask {W n j : Nat} (hn : n ≤ W) :
    (allBits W >>> (W - n)).testBit j = decide (j < n) := by
  rw [Nat.testBit_shiftRight, testBit_allBits, Bool.eq_iff_iff]
  simp only [decide_eq_true_eq]
  omega

theorem testBit_mask (W i j : Nat) : (mask W i).testBit j = decide (i % W = j) := by
  rw [mask, Nat.testBit_shiftLeft]
  by_cases h : i % W = j
  · subst h; simp
  · simp only [h, decide_false, Bool.and_eq_false_imp, decide_eq_true_eq]
    intro h2
    rw [← Nat.pow_zero 2, Nat.testBit_two_pow]
    simp only [decide_eq_false_iff_not]; omega

theorem act_shape {B B' : Bitmap} {a : BAct} {r : Bool} (h : B.act a = .ok (B', r)) :
    B'.W = B.W ∧ B'.cap = B.cap ∧ B'.buckets.length = B.buckets.length ∧ B.used ≤ B'.used := by
  cases a with
  | bits b m =>
    simp only [act] at h
    split at h
    · cases h
    · split at h <;> (cases h; simp)
  | fill b =>
    simp only [act] at h
    split at h
    · cases h
    · cases h; simp
  | used b =>
    simp only [act] at h
    split at h
    · cases h; simp
    · cases h; simp; omega

/-- An action that stays inside the memory succeeds and sets exactly the bits it covers. -/
theorem act_spec {B : Bitmap} (hW : 0 < B.W) (a : BAct) (ha : a.inside B.buckets.length) :
    ∃ B' r, B.act a = .ok (B', r) ∧
      (∀ i, B'.bit i = true ↔ (B.bit i = true ∨ (a.covers B.W i))) := by
  cases a with
  | bits b m =>
    simp only [BAct.inside] at ha
    simp only [act, List.getElem?_eq_getElem ha]
    split
    · rename_i heq
      refine ⟨B, true, rfl, fun i => ?_⟩
      simp only [BAct.covers]
      constructor
      · exact Or.inl
      · rintro (h | ⟨h1, h2⟩)
        · exact h
        · subst h1
          simp only [bit, List.getElem?_eq_getElem ha]
          rw [← heq, Nat.testBit_and] at h2
          simp at h2; exact h2.1
    · refine ⟨_, false, rfl, fun i => ?_⟩
      simp only [BAct.covers, bit, List.getElem?_set]
      by_cases hb : b = i / B.W
      · subst hb
        simp [ha]
      · have : ¬ i / B.W = b := fun h => hb h.symm
        simp [hb, this]
  | fill b =>
    simp only [BAct.inside] at ha
    simp only [act, List.getElem?_eq_getElem ha]
    refine ⟨_, false, rfl, fun i => ?_⟩
    simp only [BAct.covers, bit, List.getElem?_set]
    by_cases hb : b = i / B.W
    · subst hb
      simp [ha, testBit_allBits, Nat.mod_lt i hW]
    · have : ¬ i / B.W = b := fun h => hb h.symm
      simp [hb, this]
  | used b =>
    simp only [act]
    split
    · exact ⟨B, false, rfl, fun i => by simp [BAct.covers]⟩
    · exact ⟨_, false, rfl, fun i => by simp [BAct.covers, bit]⟩

theorem acts_spec : ∀ (as : List BAct) {B : Bitmap} (_ : 0 < B.W)
    (_ : ∀ a ∈ as, a.inside B.buckets.length),
    ∃ B', B.acts as = .ok B' ∧ B'.W = B.W ∧ B'.cap = B.cap ∧
      B'.buckets.length = B.buckets.length ∧ B.used ≤ B'.used ∧
      (∀ i, B'.bit i = true ↔ (B.bit i = true ∨ ∃ a ∈ as, a.covers B.W i)) := by
  intro as
  induction as with
  | nil => intro B hW _; exact ⟨B, rfl, rfl, rfl, rfl, Nat.le_refl _, fun i => by simp⟩
  | cons a as ih =>
    intro B hW hin
    obtain ⟨B1, r, h1, h5⟩ := act_spec hW a (hin a (by simp))
    obtain ⟨h2, h3, h4, h6⟩ := act_shape h1
    obtain ⟨B2, k1, k2, k3, k4, k6, k5⟩ := ih (B := B1) (by omega)
      (fun x hx => by rw [h4]; exact hin x (by simp [hx]))
    refine ⟨B2, ?_, by rw [k2, h2], by rw [k3, h3], by rw [k4, h4], by omega, fun i => ?_⟩
    · simp only [acts, h1, Res.bind_ok, k1]
    · rw [k5, h5, h2]
      simp only [List.mem_cons, exists_eq_or_imp]
      rw [or_assoc]

/-- Lexicographic comparison of positions. -/
theorem pos_le {W c s q r : Nat} (hs : s < W) (hr : r < W) :
    W * c + s ≤ W * q + r ↔ c < q ∨ (c = q ∧ s ≤ r) := by
  rcases Nat.lt_trichotomy c q with h | h | h
  · have := Nat.mul_le_mul_left W (show c + 1 ≤ q from h)
    rw [Nat.mul_add] at this
    constructor
    · intro _; exact Or.inl h
    · intro _; omega
  · subst h; omega
  · have := Nat.mul_le_mul_left W (show q + 1 ≤ c from h)
    rw [Nat.mul_add] at this
    constructor
    · intro _; omega
    · intro _; omega

theorem div_mul_rem {W n : Nat} : n = W * (n / W) + n % W := (Nat.div_add_mod n W).symm

/-- The actions of `set_range` cover exactly the requested range. -/
theorem setRangeActs_covers {W b n : Nat} (hW : 0 < W) (hn : 0 < n) (hb : b + n < 2 ^ 64) (i : Nat) :
    (∃ a ∈ setRangeActs W b n, a.covers W i) ↔ (b ≤ i ∧ i < b + n) := by
  have hr := Nat.mod_lt i hW
  have hs := Nat.mod_lt b hW
  have hi := @div_mul_rem W i
  have hbq := @div_mul_rem W b
  have hsn : (b % W + n) % 2 ^ 64 = b % W + n :=
    Nat.mod_eq_of_lt (by have := Nat.mod_le b W; omega)
  have hlow : b ≤ i ↔ b / W < i / W ∨ (b / W = i / W ∧ b % W ≤ i % W) := by
    have := @pos_le W (b / W) (b % W) (i / W) (i % W) hs hr
    rw [← hi, ← hbq] at this; exact this
  simp only [setRangeActs, hsn, List.mem_append, List.mem_map, List.mem_range'_1, List.mem_singleton]
  by_cases hz : b % W = 0
  · -- aligned start
    simp only [hz, ne_eq, not_true_eq_false, if_false, List.not_mem_nil, false_or]
    have hn2 := Nat.mod_lt n hW
    have hnq := @div_mul_rem W n
    have hrem : n - n / W * W = n % W := by rw [Nat.mul_comm]; omega
    rw [hrem]
    have hhigh : i < b + n ↔ i / W < b / W + n / W ∨ (i / W = b / W + n / W ∧ i % W < n % W) := by
      have := @pos_le W (b / W + n / W) (n % W) (i / W) (i % W) hn2 hr
      rw [← hi, show W * (b / W + n / W) + n % W = b + n by rw [Nat.mul_add]; omega] at this
      omega
    clear hrem
    generalize n / W = nq at *
    constructor
    · rintro ⟨a, (⟨x, hx, rfl⟩ | h | rfl), hc⟩
      · simp only [BAct.covers] at hc
        rw [hlow, hhigh]; omega
      · split at h
        · simp only [List.mem_singleton] at h
          subst h
          simp only [BAct.covers] at hc
          rw [testBit_postMask (by omega)] at hc
          simp only [decide_eq_true_eq] at hc
          rw [hlow, hhigh]; omega
        · simp at h
      · simp [BAct.covers] at hc
    · rintro ⟨h1, h2⟩
      rw [hlow] at h1; rw [hhigh] at h2
      rcases h2 with h2 | h2
      · exact ⟨.fill (i / W), Or.inl ⟨i / W, by omega, rfl⟩, rfl⟩
      · refine ⟨.bits (b / W + nq) (allBits W >>> (W - n % W)), Or.inr (Or.inl ?_), ?_⟩
        · rw [if_pos (by omega)]; simp
        · simp only [BAct.covers]
          rw [testBit_postMask (by omega)]
          simp only [decide_eq_true_eq]; omega
  · -- unaligned start
    simp only [hz, ne_eq, not_false_eq_true, if_true, List.mem_singleton]
    by_cases hsmall : b % W + n ≤ W
    · rw [Nat.min_eq_left hsmall]
      have : n - (b % W + n - b % W) = 0 := by omega
      rw [this]
      simp only [Nat.zero_div, Nat.zero_mul, Nat.sub_zero, Nat.lt_irrefl, if_false,
        List.not_mem_nil, Nat.add_zero, false_or, gt_iff_lt]
      have hhigh : b / W = i / W → (i < b + n ↔ i % W < b % W + n) := by
        intro h; rw [h] at hbq; omega
      have hhigh2 : i < b + n → i / W ≤ b / W := by
        intro h
        rcases Nat.lt_or_ge (b / W) (i / W) with h2 | h2
        · have := Nat.mul_le_mul_left W (show b / W + 1 ≤ i / W from h2)
          rw [Nat.mul_add] at this
          omega
        · exact h2
      constructor
      · rintro ⟨a, (rfl | ⟨x, hx, rfl⟩ | rfl), hc⟩
        · simp only [BAct.covers] at hc
          rw [testBit_preMask (by omega)] at hc
          simp only [decide_eq_true_eq] at hc
          rw [hlow, hhigh hc.1.symm]; omega
        · omega
        · simp [BAct.covers] at hc
      · rintro ⟨h1, h2⟩
        have h3 := hhigh2 h2
        rw [hlow] at h1
        have h4 : b / W = i / W := by omega
        rw [hhigh h4] at h2
        refine ⟨_, Or.inl rfl, ?_⟩
        simp only [BAct.covers]
        rw [testBit_preMask (by omega)]
        simp only [decide_eq_true_eq]; omega
    · rw [Nat.min_eq_right (by omega)]
      generalize hn1 : n - (W - b % W) = n1
      have hn2 := Nat.mod_lt n1 hW
      have hnq := @div_mul_rem W n1
      have hrem : n1 - n1 / W * W = n1 % W := by rw [Nat.mul_comm]; omega
      rw [hrem]
      have hhigh : i < b + n ↔ i / W < b / W + 1 + n1 / W ∨
          (i / W = b / W + 1 + n1 / W ∧ i % W < n1 % W) := by
        have := @pos_le W (b / W + 1 + n1 / W) (n1 % W) (i / W) (i % W) hn2 hr
        rw [← hi, show W * (b / W + 1 + n1 / W) + n1 % W = b + n by
          rw [Nat.mul_add, Nat.mul_add]; omega] at this
        omega
      clear hrem
      generalize n1 / W = nq at *
      constructor
      · rintro ⟨a, (rfl | ⟨x, hx, rfl⟩ | h | rfl), hc⟩
        · simp only [BAct.covers] at hc
          rw [testBit_preMask (by omega)] at hc
          simp only [decide_eq_true_eq] at hc
          rw [hlow, hhigh]; omega
        · simp only [BAct.covers] at hc
          rw [hlow, hhigh]; omega
        · split at h
          · simp only [List.mem_singleton] at h
            subst h
            simp only [BAct.covers] at hc
            rw [testBit_postMask (by omega)] at hc
            simp only [decide_eq_true_eq] at hc
            rw [hlow, hhigh]; omega
          · simp at h
        · simp [BAct.covers] at hc
      · rintro ⟨h1, h2⟩
        rw [hlow] at h1; rw [hhigh] at h2
        by_cases h4 : b / W = i / W
        · refine ⟨_, Or.inl rfl, ?_⟩
          simp only [BAct.covers]
          rw [testBit_preMask (by omega)]
          simp only [decide_eq_true_eq]; omega
        · rcases h2 with h2 | h2
          · exact ⟨.fill (i / W), Or.inr (Or.inl ⟨i / W, by omega, rfl⟩), rfl⟩
          · refine ⟨.bits (b / W + 1 + nq) (allBits W >>> (W - n1 % W)),
              Or.inr (Or.inr (Or.inl ?_)), ?_⟩
            · rw [if_pos (by omega)]; simp
            · simp only [BAct.covers]
              rw [testBit_postMask (by omega)]
              simp only [decide_eq_true_eq]; omega

/-- A bit lies in an existing bucket when it lies below the capacity. -/
theorem bucket_lt {W cap i : Nat} (hW : 0 < W) (h : i < cap) : i / W < bucketCount W cap := by
  unfold bucketCount
  rw [Nat.div_lt_iff_lt_mul hW]
  have := @div_mul_rem W (cap + W - 1)
  have := Nat.mod_lt (cap + W - 1) hW
  rw [Nat.mul_comm]; omega

/-- Every bucket action of `set_range` hits a bucket that holds a requested bit. -/
theorem setRangeActs_inside {W b n cap : Nat} (hW : 0 < W) (hn : 0 < n) (hb : b + n < 2 ^ 64)
    (hcap : b + n ≤ cap) : ∀ a ∈ setRangeActs W b n, a.inside (bucketCount W cap) := by
  have key : ∀ a ∈ setRangeActs W b n, ∀ r, r < W →
      (∀ x m, a = .bits x m → m.testBit r = true → x < bucketCount W cap) ∧
      (∀ x, a = .fill x → x < bucketCount W cap) := by
    intro a ha r hr
    constructor
    · rintro x m rfl ht
      have hd : (W * x + r) / W = x := by
        rw [Nat.mul_add_div hW, Nat.div_eq_of_lt hr]; rfl
      have hm : (W * x + r) % W = r := by
        rw [Nat.mul_add_mod, Nat.mod_eq_of_lt hr]
      have := (setRangeActs_covers hW hn hb (W * x + r)).1 ⟨_, ha, by
        simp only [BAct.covers]; rw [hd, hm]; exact ⟨rfl, ht⟩⟩
      rw [← hd]; exact bucket_lt hW (by omega)
    · rintro x rfl
      have hd : (W * x + r) / W = x := by
        rw [Nat.mul_add_div hW, Nat.div_eq_of_lt hr]; rfl
      have := (setRangeActs_covers hW hn hb (W * x + r)).1 ⟨_, ha, by
        simp only [BAct.covers]; exact hd⟩
      rw [← hd]; exact bucket_lt hW (by omega)
  intro a ha
  cases h : a with
  | used => trivial
  | fill x => exact (key a ha 0 hW).2 x h
  | bits x m =>
    simp only [BAct.inside]
    subst h
    -- the masks are non-zero
    have hs := Nat.mod_lt b hW
    have hsn : (b % W + n) % 2 ^ 64 = b % W + n :=
      Nat.mod_eq_of_lt (by have := Nat.mod_le b W; omega)
    have ha' := ha
    simp only [setRangeActs, hsn, List.mem_append, List.mem_map, List.mem_singleton] at ha'
    rcases ha' with h | ⟨_, _, h⟩ | h | h
    · split at h
      · simp only [List.mem_singleton] at h
        refine (key _ ha (b % W) hs).1 x m rfl ?_
        cases h
        rw [testBit_preMask (by omega)]
        simp only [decide_eq_true_eq]; omega
      · simp at h
    · cases h
    · generalize (if b % W ≠ 0 then n - (min (b % W + n) W - b % W) else n) = n1 at h
      generalize (if b % W ≠ 0 then b / W + 1 else b / W) = c1 at h
      split at h
      · rename_i hpos
        simp only [List.mem_singleton] at h
        refine (key _ ha 0 hW).1 x m rfl ?_
        cases h
        rw [testBit_postMask ?_]
        · simp only [decide_eq_true_eq]; exact hpos
        · have hnq := @div_mul_rem W n1
          have := Nat.mod_lt n1 hW
          rw [Nat.mul_comm]; omega
      · simp at h
    · cases h

end Bitmap
end Verif

namespace Verif
namespace Bitmap
open Spec

def _root_.Verif.BAct.isUsed : BAct → Bool
  | .used _ => true
  | _ => false

/-- `set_range` ends with one update of the number of used buckets, to one past a bucket that is at
least the last touched one and at most the one following it. -/
theorem setRangeActs_used {W b n : Nat} (hW : 0 < W) (hn : 0 < n) (hb : b + n < 2 ^ 64) :
    ∃ pre c, setRangeActs W b n = pre ++ [.used c] ∧ (∀ a ∈ pre, a.isUsed = false) ∧
      (b + n - 1) / W ≤ c ∧ c ≤ (b + n - 1) / W + 1 ∧ (b % W ≠ 0 → b % W + n ≤ W → c = b / W + 1) ∧
      (b + n) / W ≤ c := by
  have hs := Nat.mod_lt b hW
  have hbq := @div_mul_rem W b
  have hsn : (b % W + n) % 2 ^ 64 = b % W + n :=
    Nat.mod_eq_of_lt (by have := Nat.mod_le b W; omega)
  have hquot : ∀ q r, r < W → b + n = W * q + r → (b + n) / W = q := by
    intro q r hr h
    rw [h, Nat.mul_add_div hW, Nat.div_eq_of_lt hr]; rfl
  have hstep : (b + n) / W ≤ (b + n - 1) / W + 1 := by
    have h1 := @div_mul_rem W (b + n)
    rcases Nat.eq_zero_or_pos ((b + n) / W) with h | h
    · rw [h]; exact Nat.zero_le _
    · have : (b + n) / W - 1 ≤ (b + n - 1) / W := by
        rw [Nat.le_div_iff_mul_le hW, Nat.sub_mul, Nat.mul_comm]; omega
      omega
  have hmono : (b + n - 1) / W ≤ (b + n) / W := Nat.div_le_div_right (by omega)
  simp only [setRangeActs, hsn]
  refine ⟨_, _, by rw [← List.append_assoc, ← List.append_assoc], ?_, ?_⟩
  · intro a ha
    simp only [List.mem_append, List.mem_map] at ha
    rcases ha with (h | ⟨x, -, rfl⟩) | h
    · split at h
      · simp only [List.mem_singleton] at h; subst h; rfl
      · simp at h
    · rfl
    · generalize (if b % W ≠ 0 then n - (min (b % W + n) W - b % W) else n) = n1 at h
      split at h
      · simp only [List.mem_singleton] at h; subst h; rfl
      · simp at h
  · by_cases hz : b % W = 0
    · simp only [hz, ne_eq, not_true_eq_false, if_false, false_implies, true_and]
      have := hquot (b / W + n / W) (n % W) (Nat.mod_lt n hW) (by
        have hnq := @div_mul_rem W n
        rw [Nat.mul_add]; omega)
      generalize n / W = nq at *
      generalize (b + n) / W = q1 at *
      generalize (b + n - 1) / W = q2 at *
      omega
    · simp only [hz, ne_eq, not_false_eq_true, if_true, true_implies]
      by_cases hsmall : b % W + n ≤ W
      · rw [Nat.min_eq_left hsmall]
        have h0 : n - (b % W + n - b % W) = 0 := by omega
        rw [h0, Nat.zero_div, Nat.add_zero]
        have h2 : (b + n - 1) / W = b / W := by
          have h3 : b % W + n - 1 < W := by omega
          rw [show b + n - 1 = W * (b / W) + (b % W + n - 1) by omega, Nat.mul_add_div hW,
            Nat.div_eq_of_lt h3]; rfl
        rw [h2] at hstep ⊢
        exact ⟨by omega, by omega, fun _ => rfl, hstep⟩
      · rw [Nat.min_eq_right (by omega)]
        generalize hn1 : n - (W - b % W) = n1
        have := hquot (b / W + 1 + n1 / W) (n1 % W) (Nat.mod_lt n1 hW) (by
          have hnq := @div_mul_rem W n1
          rw [Nat.mul_add, Nat.mul_add]; omega)
        generalize n1 / W = nq at *
        generalize (b + n) / W = q1 at *
        generalize (b + n - 1) / W = q2 at *
        omega

theorem acts_append (as bs : List BAct) (B : Bitmap) :
    B.acts (as ++ bs) = (B.acts as >>= fun B' => B'.acts bs) := by
  induction as generalizing B with
  | nil => rfl
  | cons a as ih =>
    simp only [List.cons_append, acts]
    cases h : B.act a with
    | ok p => simp only [Res.bind_ok]; exact ih p.1
    | fatal => rfl
    | ub => rfl
    | hang => rfl

theorem act_used {B B' : Bitmap} {a : BAct} {r : Bool} (h : B.act a = .ok (B', r))
    (ha : a.isUsed = false) : B'.used = B.used := by
  cases a with
  | bits b m =>
    simp only [act] at h
    split at h
    · cases h
    · split at h <;> (cases h; rfl)
  | fill b =>
    simp only [act] at h
    split at h
    · cases h
    · cases h; rfl
  | used b => simp [BAct.isUsed] at ha

theorem acts_used {as : List BAct} : ∀ {B B' : Bitmap} (_ : B.acts as = .ok B')
    (_ : ∀ a ∈ as, a.isUsed = false), B'.used = B.used := by
  induction as with
  | nil => intro B B' h _; cases h; rfl
  | cons a as ih =>
    intro B B' h ha
    simp only [acts] at h
    rw [Res.bind_eq_ok] at h
    obtain ⟨⟨B1, r⟩, h1, h2⟩ := h
    rw [ih h2 (fun x hx => ha x (by simp [hx])), act_used h1 (ha a (by simp))]

theorem act_used_eq (B : Bitmap) (c : Nat) :
    ∃ B', B.act (.used c) = .ok (B', false) ∧ B'.used = max B.used (c + 1) ∧
      B'.buckets = B.buckets ∧ B'.W = B.W ∧ B'.cap = B.cap := by
  simp only [act]
  split
  · exact ⟨B, rfl, by omega, rfl, rfl, rfl⟩
  · exact ⟨_, rfl, by simp; omega, rfl, rfl, rfl⟩

end Bitmap
end Verif
