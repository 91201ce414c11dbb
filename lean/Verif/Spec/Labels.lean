/-
Reference vocabulary for labels of application memory, independent of the runtime model.
-/
namespace Verif
namespace Spec

/-- Application memory on x86-64: from the lowest application address of the runtime's memory layout
to the end of the 47-bit user address space. -/
def IsApp (a : Nat) : Prop := 0x700000008000 ≤ a ∧ a < 0x800000000000

/-- Giving every byte of `[a, a + n)` the value `v`. -/
def fill (f : Nat → Nat) (a n v : Nat) : Nat → Nat :=
  fun b => if a ≤ b ∧ b < a + n then v else f b

/-- Copying `n` values from `s` to `d`: the value at each destination position is the value its
source position had before. -/
def copy (f : Nat → Nat) (d s n : Nat) : Nat → Nat :=
  fun b => if d ≤ b ∧ b < d + n then f (s + (b - d)) else f b

/-- The zero-terminated string of length `len` at `s`. -/
structure IsStr (bytes : Nat → Nat) (s len : Nat) : Prop where
  nul : bytes (s + len) = 0
  nonzero : ∀ i, i < len → bytes (s + i) ≠ 0

end Spec
end Verif
