import Verif.Spec.Runs
/- Specification: regions of several sources, each given as source, first offset and one past the last. -/
namespace Verif.Spec

/-- The regions cover exactly the bytes in `P`, each once. -/
structure CoversOnce {σ : Type} (rs : List (σ × Nat × Nat)) (P : σ → Nat → Prop) : Prop where
  nonempty : ∀ r ∈ rs, r.2.1 < r.2.2
  once : rs.Pairwise fun a b => a.1 = b.1 → a.2.2 ≤ b.2.1 ∨ b.2.2 ≤ a.2.1
  covers : ∀ s o, (∃ r ∈ rs, r.1 = s ∧ r.2.1 ≤ o ∧ o < r.2.2) ↔ P s o

/-- The regions of one source are the maximal runs of its bytes. -/
def MaximalFor {σ : Type} [DecidableEq σ] (rs : List (σ × Nat × Nat)) (P : σ → Nat → Prop) (s : σ) : Prop :=
  MaximalRuns ((rs.filter fun r => decide (r.1 = s)).map (·.2)) (P s)

end Verif.Spec
