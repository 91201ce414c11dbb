/-
A row of the symbol table that `readelf -s -W` prints (binutils, print_dynamic_symbol): the format is assumed. Sizes above 99999
are printed in hexadecimal and make their column wider.
-/
namespace Verif.Readelf

abbrev Line := List Char

/-- `%-7s` and the like. -/
def padR (w : Nat) (s : Line) : Line := s ++ List.replicate (w - s.length) ' '

/-- `%4s` and the like. -/
def padL (w : Nat) (s : Line) : Line := List.replicate (w - s.length) ' ' ++ s

/-- A symbol as it is printed. -/
structure Sym where
  num : Line
  value : Line
  size : Line
  typ : Line
  bind : Line
  vis : Line
  ndx : Line
  name : Line

/-- The row. -/
def render (s : Sym) : Line :=
  padL 6 s.num ++ [':', ' '] ++ s.value ++ [' '] ++ padL 5 s.size ++ [' '] ++ padR 7 s.typ ++ [' '] ++ padR 6 s.bind ++ [' '] ++
    padR 7 s.vis ++ [' '] ++ padL 4 s.ndx ++ [' '] ++ s.name

/-- What can stand in the columns; sizes up to 99999. -/
structure Normal (s : Sym) : Prop where
  num : s.num.length ≤ 6
  value : s.value.length = 16
  size : s.size.length ≤ 5
  typ : s.typ ∈ ["NOTYPE".toList, "OBJECT".toList, "FUNC".toList, "SECTION".toList, "FILE".toList, "COMMON".toList, "TLS".toList, "IFUNC".toList]
  bind : s.bind ∈ ["LOCAL".toList, "GLOBAL".toList, "WEAK".toList, "UNIQUE".toList]
  vis : s.vis.length ≤ 7
  ndx : s.ndx ∈ ["UND".toList, "ABS".toList, "COM".toList] ∨ s.ndx.length ≤ 4 ∧ ∀ c ∈ s.ndx, c.isDigit = true

/-- The symbol is a function that others can call and that is defined here. -/
def Defined (s : Sym) : Prop :=
  (s.typ = "FUNC".toList ∨ s.typ = "IFUNC".toList) ∧ s.bind ≠ "LOCAL".toList ∧ s.ndx ≠ "UND".toList

/-- `n` is the name of the symbol without its version. -/
def Named (s : Sym) (n : Line) : Prop := '@' ∉ n ∧ (s.name = n ∨ ∃ v, s.name = n ++ '@' :: v)

end Verif.Readelf
