/-
Reference vocabulary for the comparison and search functions of the C library, independent of the
runtime model. A buffer or string is the function from positions to bytes (0..255).
-/
namespace Verif
namespace Spec

/-- Which positions a comparison of two buffers of `n` bytes has to look at: those before which the
buffers agree. -/
def MemLooks (x y : Nat → Nat) (n i : Nat) : Prop := i < n ∧ ∀ j, j < i → x j = y j

/-- Which positions a comparison of two strings has to look at: those before which the strings agree
(after applying `key` to the characters) and neither has ended, below the limit `n` if there is
one. -/
def StrLooks (key : Nat → Nat) (x y : Nat → Nat) (n : Option Nat) (i : Nat) : Prop :=
  (∀ N, n = some N → i < N) ∧ ∀ j, j < i → key (x j) = key (y j) ∧ x j ≠ 0 ∧ y j ≠ 0

/-- The result `r` of a comparison that looks at the positions `looks`: zero if all of them agree, and
otherwise negative or positive as the pair that differs is in the relation `lt` or its converse. -/
structure Compares (lt : Nat → Nat → Prop) (key : Nat → Nat) (x y : Nat → Nat) (looks : Nat → Prop)
    (r : Int) : Prop where
  zero : r = 0 ↔ ∀ i, looks i → key (x i) = key (y i)
  neg : ∀ i, looks i → lt (key (x i)) (key (y i)) → r < 0
  pos : ∀ i, looks i → lt (key (y i)) (key (x i)) → 0 < r

/-- Order of characters in the C standard (7.24.4): as `unsigned char`. -/
def unsignedLt (a b : Nat) : Prop := a < b

/-- Order of bytes as two's complement numbers. -/
def signedLt (a b : Nat) : Prop := (a + 128) % 256 < (b + 128) % 256

/-- Lower case in the C locale. -/
def lower (b : Nat) : Nat := if 65 ≤ b ∧ b ≤ 90 then b + 32 else b

/-- Result of `strchr(s, c)`, as a position: the first occurrence of `c` converted to `char`, the
terminator being part of the string. -/
def StrChr (x : Nat → Nat) (c : Int) : Option Nat → Prop
  | some i => (x i : Int) = c % 256 ∧ ∀ j, j < i → (x j : Int) ≠ c % 256 ∧ x j ≠ 0
  | none => ∃ k, x k = 0 ∧ ∀ j, j ≤ k → (x j : Int) ≠ c % 256

/-- Result of `memchr(s, c, n)`: the first of `n` bytes equal to `c` converted to `unsigned char`. -/
def MemChr (x : Nat → Nat) (c : Int) (n : Nat) : Option Nat → Prop
  | some i => i < n ∧ (x i : Int) = c % 256 ∧ ∀ j, j < i → (x j : Int) ≠ c % 256
  | none => ∀ j, j < n → (x j : Int) ≠ c % 256

/-- Result of `strrchr(s, c)` on a string of length `len`: the last occurrence of `c`. -/
def StrRChr (x : Nat → Nat) (len : Nat) (c : Int) : Option Nat → Prop
  | some i => i ≤ len ∧ (x i : Int) = c % 256 ∧ ∀ j, i < j → j ≤ len → (x j : Int) ≠ c % 256
  | none => ∀ j, j ≤ len → (x j : Int) ≠ c % 256

/-- The string `y` of length `ly` occurs at position `i` of the string `x` of length `lx`. -/
def OccursAt (x : Nat → Nat) (lx : Nat) (y : Nat → Nat) (ly i : Nat) : Prop :=
  i + ly ≤ lx ∧ ∀ j, j < ly → x (i + j) = y j

/-- Result of `strstr`: the first occurrence. -/
def StrStr (x : Nat → Nat) (lx : Nat) (y : Nat → Nat) (ly : Nat) : Option Nat → Prop
  | some i => OccursAt x lx y ly i ∧ ∀ j, j < i → ¬ OccursAt x lx y ly j
  | none => ∀ j, ¬ OccursAt x lx y ly j

/-- Result of `strpbrk`: the first character of the string `x` of length `lx` that occurs in the
string `y` of length `ly`. -/
def StrPBrk (x : Nat → Nat) (lx : Nat) (y : Nat → Nat) (ly : Nat) : Option Nat → Prop
  | some i => i < lx ∧ (∃ k, k < ly ∧ y k = x i) ∧ ∀ j, j < i → ∀ k, k < ly → y k ≠ x j
  | none => ∀ j, j < lx → ∀ k, k < ly → y k ≠ x j

end Spec
end Verif
