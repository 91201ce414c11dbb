/- Specification: differences of two traces of bytes, marks below a text, pictures of bytes. -/
namespace Verif.Spec

/-- The byte that each column of a text belongs to: byte `k`, `k + 1`, … are written with the given widths. -/
def columns (width : Nat → Nat) : Nat → List Nat → List Nat
  | _, [] => []
  | k, b :: bs => List.replicate (width b) k ++ columns width (k + 1) bs

/-- A line of marks: spaces and carets, a caret exactly below the columns of the bytes in `[a, b)`. -/
structure Marks (marks : List Char) (cols : List Nat) (a b : Nat) : Prop where
  only : ∀ c ∈ marks, c = ' ' ∨ c = '^'
  below : ∀ j : Nat, marks[j]? = some '^' ↔ ∃ k, cols[j]? = some k ∧ a ≤ k ∧ k < b

/-- `x` and `y` and all between them are in `P`. -/
def Joined (P : Nat → Prop) (x y : Nat) : Prop := ∀ z, min x y ≤ z → z ≤ max x y → P z

/-- The value of a hexadecimal digit. -/
def hexValue (c : Char) : Option Nat :=
  if '0' ≤ c ∧ c ≤ '9' then some (c.toNat - '0'.toNat)
  else if 'a' ≤ c ∧ c ≤ 'f' then some (c.toNat - 'a'.toNat + 10) else none

/-- Reads a text with the escapes `\n`, `\r`, `\t`, `\\` and `\xHH` back to bytes. -/
def unescape : List Char → Option (List Nat)
  | [] => some []
  | '\\' :: 'n' :: r => (unescape r).map (10 :: ·)
  | '\\' :: 'r' :: r => (unescape r).map (13 :: ·)
  | '\\' :: 't' :: r => (unescape r).map (9 :: ·)
  | '\\' :: '\\' :: r => (unescape r).map (92 :: ·)
  | '\\' :: 'x' :: a :: b :: r =>
    match hexValue a, hexValue b with
    | some x, some y => (unescape r).map ((16 * x + y) :: ·)
    | _, _ => none
  | c :: r => if c = '\\' then none else (unescape r).map (c.toNat :: ·)

end Verif.Spec
