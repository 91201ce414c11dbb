/-
What a line of an ABI list says (the format of LLVM's special case lists, only entries for functions):
`fun:name=category`. Written without the model.
-/
namespace Verif.AbiLines

abbrev Line := List Char

/-- Characters that are not part of a category. -/
def Blank (c : Char) : Prop := c = ' ' ∨ c = '\t' ∨ c = '\n' ∨ c = '\r' ∨ c = '\x0b' ∨ c = '\x0c'

/-- `v` is `w` without blanks at its ends. -/
def Trim (w v : Line) : Prop := ∃ p q, w = p ++ v ++ q ∧ (∀ c ∈ p, Blank c) ∧ (∀ c ∈ q, Blank c) ∧
  (∀ c t, v = c :: t → ¬ Blank c) ∧ ∀ c t, v = t ++ [c] → ¬ Blank c

/-- The line puts the function `n` into the category `v`. -/
def Says (l n v : Line) : Prop := ∃ a b c w, l = 'f' :: a :: b :: c :: (n ++ '=' :: w) ∧ '=' ∉ n ∧ '=' ∉ w ∧ Trim w v

/-- The line decides how calls of `n` are treated: categories other than `uninstrumented`. -/
def Treats (l n v : Line) : Prop := Says l n v ∧ v ≠ "uninstrumented".toList

/-- A list in which no function is treated twice. -/
def Once (f : List Line) : Prop := f.Pairwise fun l m => ∀ n v w, Treats l n v → ¬ Treats m n w

/-- Two lists that agree. -/
def Agree (f g : List Line) : Prop := ∀ l ∈ f, ∀ m ∈ g, ∀ n v w, Treats l n v → Treats m n w → v = w

end Verif.AbiLines
