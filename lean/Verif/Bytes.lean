/-
Little-endian representation of unsigned integers (x86-64, the only platform the dfsan part of the
code supports: /repo/polytracker/src/compiler-rt/lib/dfsan/dfsan_platform.h). Bytes are natural numbers below 256.
-/
namespace Verif

/-- `n` bytes of `v`, least significant first. -/
def le : Nat → Nat → List Nat
  | 0, _ => []
  | n + 1, v => v % 256 :: le n (v / 256)

/-- The number represented by a list of bytes. -/
def unle : List Nat → Nat
  | [] => 0
  | b :: bs => b + 256 * unle bs

@[simp] theorem le_length (n v : Nat) : (le n v).length = n := by
  induction n generalizing v with
  | zero => rfl
  | succ n ih => simp [le, ih]

theorem unle_le (n : Nat) : ∀ v, unle (le n v) = v % 256 ^ n := by
  induction n with
  | zero => intro v; simp [le, unle, Nat.mod_one]
  | succ n ih =>
    intro v
    simp only [le, unle, ih]
    rw [Nat.pow_succ, Nat.mul_comm (256 ^ n), Nat.mod_mul]

theorem unle_le_of_lt {n v : Nat} (h : v < 256 ^ n) : unle (le n v) = v := by
  rw [unle_le, Nat.mod_eq_of_lt h]

theorem le_byte {n v b : Nat} (h : b ∈ le n v) : b < 256 := by
  induction n generalizing v with
  | zero => simp [le] at h
  | succ n ih =>
    simp only [le, List.mem_cons] at h
    rcases h with rfl | h
    · omega
    · exact ih h

end Verif
