import Verif.Encoding
/- Specification vocabulary for taint values. Uses only the data type `Taint`. -/
namespace Verif.Spec

/-- A taint value the API lets a client build: the asserts of RangeTaint / UnionTaint
(taint.h 101, 120-122) and the documented ranges of the fields. -/
def LegalTaint : Taint → Prop
  | .source _ i o => i < 256 ∧ o < 2 ^ 54
  | .range _ f l => f < l ∧ l < 2 ^ 31
  | .union _ lo hi => lo + 1 < hi ∧ hi < 2 ^ 31

/-- The same without the "non-adjacent" assert of UnionTaint. -/
def Representable : Taint → Prop
  | .source _ i o => i < 256 ∧ o < 2 ^ 54
  | .range _ f l => f < l ∧ l < 2 ^ 31
  | .union _ lo hi => lo < hi ∧ hi < 2 ^ 31

/-- A word denoting no taint: the source bit is clear and the two 31-bit fields agree. -/
def NoTaint (w : Nat) : Prop :=
  w.testBit 63 = false ∧ ∀ i, i < 31 → w.testBit i = w.testBit (31 + i)

/-- The flag of a taint value. -/
def flagOf : Taint → Bool
  | .source cf _ _ => cf
  | .range cf _ _ => cf
  | .union cf _ _ => cf

/-- A taint value with its flag replaced. -/
def withFlag (b : Bool) : Taint → Taint
  | .source _ i o => .source b i o
  | .range _ f l => .range b f l
  | .union _ lo hi => .union b lo hi

end Verif.Spec
