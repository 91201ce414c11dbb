import Verif.CfLog
import Verif.PyCfLog
import Verif.SectionLemmas
namespace Verif

/-- Ids and labels are 32 bits wide. -/
def CfEvent.fits : CfEvent → Prop
  | .enter f => f < 2 ^ 32
  | .leave f => f < 2 ^ 32
  | .tainted f l => f < 2 ^ 32 ∧ l < 2 ^ 32

namespace CfLog
open Py

theorem and7f (n : Nat) : n &&& 0x7f = n % 128 := Nat.and_two_pow_sub_one_eq_mod n 7

theorem and80_of_lt {n : Nat} (h : n < 128) : n &&& 0x80 = 0 := by
  apply Nat.eq_of_testBit_eq
  intro i
  rw [Nat.testBit_and, show (0x80 : Nat) = 2 ^ 7 from rfl, Nat.testBit_two_pow]
  by_cases hi : 7 = i
  · subst hi; simp [Nat.testBit_lt_two_pow (show n < 2 ^ 7 from h)]
  · simp [hi]

theorem or80 {n : Nat} (h : n < 128) : 0x80 ||| n = 128 + n := by
  have := Nat.two_pow_add_eq_or_of_lt (i := 7) (b := n) (by omega) 1
  simpa using this.symm

theorem contByte (n : Nat) : (0x80 ||| (n &&& 0x7f)) = 128 + n % 128 := by
  rw [and7f, or80 (Nat.mod_lt _ (by omega))]

theorem and80_cont {m : Nat} (h : m < 128) : (128 + m) &&& 0x80 = 128 := by
  rw [← or80 h, Nat.and_or_distrib_right, and80_of_lt h]; rfl

theorem varint_lt {n : Nat} (h : n < 128) : varint n = [n] := by
  rw [varint, dif_neg (by omega), and7f, Nat.mod_eq_of_lt h]

theorem varint_ge {n : Nat} (h : 128 ≤ n) : varint n = (128 + n % 128) :: varint (n / 128) := by
  rw [varint, dif_pos h, contByte, Nat.shiftRight_eq_div_pow]

theorem or_shift {v s x : Nat} (h : v < 2 ^ s) : v ||| (x <<< s) = v + x * 2 ^ s := by
  rw [Nat.shiftLeft_eq, Nat.or_comm, Nat.mul_comm, ← Nat.two_pow_add_eq_or_of_lt h, Nat.add_comm]

theorem decode_varint (n : Nat) : ∀ (s v : Nat) (rest : List Nat), v < 2 ^ s →
    decodeVarint s v (varint n ++ rest) = (v + n * 2 ^ s, rest) := by
  induction n using Nat.strongRecOn with
  | ind n ih =>
    intro s v rest hv
    by_cases h : n < 128
    · rw [varint_lt h]
      simp only [List.cons_append, List.nil_append, decodeVarint, and80_of_lt h, if_true, and7f,
        Nat.mod_eq_of_lt h, or_shift hv]
    · rw [varint_ge (by omega)]
      have hm := Nat.mod_lt n (show 0 < 128 by omega)
      simp only [List.cons_append, decodeVarint, and80_cont hm, and7f]
      rw [if_neg (by decide), show (128 + n % 128) % 128 = n % 128 by omega, or_shift hv]
      have hp : 2 ^ (s + 7) = 128 * 2 ^ s := by rw [Nat.pow_add]; omega
      have hv' : v + n % 128 * 2 ^ s < 2 ^ (s + 7) := by
        rw [hp]
        have : n % 128 * 2 ^ s ≤ 127 * 2 ^ s := Nat.mul_le_mul_right _ (by omega)
        omega
      rw [ih (n / 128) (by omega) (s + 7) _ rest hv', hp]
      congr 1
      have hd := Nat.div_add_mod n 128
      calc v + n % 128 * 2 ^ s + n / 128 * (128 * 2 ^ s)
          = v + (128 * (n / 128) + n % 128) * 2 ^ s := by
            rw [Nat.add_mul, ← Nat.mul_assoc, Nat.mul_comm (n / 128) 128]; omega
        _ = v + n * 2 ^ s := by rw [hd]

theorem varint_length {k : Nat} : ∀ {n : Nat}, n < 128 ^ (k + 1) → (varint n).length ≤ k + 1 := by
  induction k with
  | zero => intro n h; rw [varint_lt (by simpa using h)]; simp
  | succ k ih =>
    intro n h
    by_cases hn : n < 128
    · rw [varint_lt hn]; simp
    · rw [varint_ge (by omega)]
      have : n / 128 < 128 ^ (k + 1) := by
        rw [Nat.pow_succ] at h
        exact Nat.div_lt_of_lt_mul (by omega)
      have := ih this
      simp only [List.length_cons]; omega

theorem varint_pos (n : Nat) : 0 < (varint n).length := by
  rw [varint]; split <;> simp

theorem varint_byte (n : Nat) : ∀ b ∈ varint n, b < 256 := by
  induction n using Nat.strongRecOn with
  | ind n ih =>
    intro b hb
    by_cases h : n < 128
    · rw [varint_lt h] at hb; simp at hb; omega
    · rw [varint_ge (by omega)] at hb
      simp only [List.mem_cons] at hb
      rcases hb with rfl | hb
      · omega
      · exact ih _ (by omega) b hb

theorem encode_length (e : CfEvent) (h : e.fits) : (encode e).length ≤ 11 := by
  have h5 : ∀ n, n < 2 ^ 32 → (varint n).length ≤ 5 := fun n hn =>
    varint_length (k := 4) (Nat.lt_of_lt_of_le hn (by decide))
  cases e with
  | enter f =>
    have := h5 f h
    simp only [encode, List.length_cons]; omega
  | leave f =>
    have := h5 f h
    simp only [encode, List.length_cons]; omega
  | tainted f l =>
    have := h5 f h.1
    have := h5 l h.2
    simp only [encode, List.length_cons, List.length_append]; omega

end CfLog
end Verif
