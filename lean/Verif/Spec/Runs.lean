/- Specification: maximal runs of a set of numbers. -/
namespace Verif.Spec

/-- `rs` are the maximal runs of consecutive numbers of the set `P`, in increasing order, each as
(first, one past the last): they are not empty, increasing with a gap between them, cover exactly
`P`, and none can be extended. -/
structure MaximalRuns (rs : List (Nat × Nat)) (P : Nat → Prop) : Prop where
  nonempty : ∀ r ∈ rs, r.1 < r.2
  apart : rs.Pairwise fun a b => a.2 < b.1
  covers : ∀ o, (∃ r ∈ rs, r.1 ≤ o ∧ o < r.2) ↔ P o
  maximal : ∀ r ∈ rs, ¬ P r.2 ∧ (0 < r.1 → ¬ P (r.1 - 1))

/-- `L` is the least number that is at least `b` and greater than every element of `Q`. -/
def IsExtent (b : Nat) (Q : Nat → Prop) (L : Nat) : Prop :=
  (b ≤ L ∧ ∀ o, Q o → o < L) ∧ ∀ L', (b ≤ L' ∧ ∀ o, Q o → o < L') → L ≤ L'

end Verif.Spec
