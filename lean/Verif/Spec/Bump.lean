/-
Specification for C15: what a sequence of space requests should be answered, given the space
available. Uses no definition of the model.
-/
namespace Verif.Spec

/-- Answers of an allocator that hands out space in order, back to back, and refuses what does not
fit: each answer is the granted interval (offset, length), or `none`. -/
def grants (avail : Nat) : Nat → List Nat → List (Option (Nat × Nat))
  | _, [] => []
  | used, n :: ns =>
    if used + n ≤ avail then some (used, n) :: grants avail (used + n) ns
    else none :: grants avail used ns

end Verif.Spec
