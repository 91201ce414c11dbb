import Verif.Mapping
import Verif.Spec.Labels
/- What mapping events say about the label of a byte, independent of how the runtime clears labels. -/
namespace Verif
namespace Spec
open DfsanMem

/-- Number of bytes of the pages that `length` bytes need. -/
def pageSpan (page length : Nat) : Nat := (length + page - 1) / page * page

/-- The memory an event is about: first byte, number of bytes and the label they get. A failed call is
about nothing. -/
def range (page : Nat) : MapEvent → Option (Nat × Nat × Nat)
  | .mmap length (some a) => some (a, pageSpan page length, 0)
  | .mmap _ none => none
  | .munmap addr length ret => if ret = -1 then none else some (addr, pageSpan page length, 0)
  | .label l addr n => some (addr, n, l)
  | .flush => none

/-- The label an event gives the byte `b`, if it is about that byte. -/
def gives (page : Nat) (e : MapEvent) (b : Nat) : Option Nat :=
  if e = .flush then some 0
  else match range page e with
    | some (a, n, l) => if a ≤ b ∧ b < a + n then some l else none
    | none => none

/-- The ranges of an event lie in application memory and its label fits its type. -/
def Fits (page : Nat) (e : MapEvent) : Prop :=
  ∀ a n l, range page e = some (a, n, l) → 0x700000008000 ≤ a ∧ a + n < 0x800000000000 ∧ l < 2 ^ 32

end Spec
end Verif
