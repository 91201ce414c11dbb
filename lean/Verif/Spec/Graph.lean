import Verif.Spec.Taint
/-
Specification of what a label graph means. A graph is any assignment of taint values to labels;
nothing here refers to words, sections or the union algorithm.
-/
namespace Verif.Spec

/-- Assignment of taint values to labels (none: label not handed out, or label 0). -/
abbrev Graph := Nat → Option Taint

/-- `Denotes g l (i, o)`: byte `o` of source `i` is one of the input bytes label `l` stands for. -/
inductive Denotes (g : Graph) : Nat → Nat × Nat → Prop where
  | source {l cf i o} : g l = some (.source cf i o) → Denotes g l (i, o)
  | range {l cf f t k b} : g l = some (.range cf f t) → f ≤ k → k ≤ t → Denotes g k b → Denotes g l b
  | lower {l cf lo hi b} : g l = some (.union cf lo hi) → Denotes g lo b → Denotes g l b
  | higher {l cf lo hi b} : g l = some (.union cf lo hi) → Denotes g hi b → Denotes g l b

/-- `Ref t k`: the taint value `t` directly refers to label `k`. -/
def Ref : Taint → Nat → Prop
  | .source _ _ _, _ => False
  | .range _ f t, k => f ≤ k ∧ k ≤ t
  | .union _ lo hi, k => k = lo ∨ k = hi

/-- `BuiltFrom g l k`: `k` is `l` itself or one of the labels `l` is transitively built from. -/
inductive BuiltFrom (g : Graph) : Nat → Nat → Prop where
  | refl (l) : BuiltFrom g l l
  | step {l t m k} : g l = some t → Ref t m → BuiltFrom g m k → BuiltFrom g l k

/-- Well-formed graph with labels `1 .. n-1`: every label has a legal taint value that refers only
to smaller non-zero labels; nothing else is a label. -/
structure WellFormed (g : Graph) (n : Nat) : Prop where
  legal : ∀ l, 0 < l → l < n → ∃ t, g l = some t ∧ LegalTaint t ∧ ∀ k, Ref t k → 0 < k ∧ k < l
  none : ∀ l, l = 0 ∨ n ≤ l → g l = none

/-- The label carries the control-flow flag. -/
def Flagged (g : Graph) (l : Nat) : Prop := ∃ t, g l = some t ∧ flagOf t = true

/-- Flags are downward closed: a flagged label only refers to flagged labels. -/
def FlagsClosed (g : Graph) : Prop :=
  ∀ l t k, g l = some t → flagOf t = true → Ref t k → Flagged g k

/-- Two graphs agree except for flags on label `l`. -/
def SameTaint (g h : Graph) (l : Nat) : Prop :=
  (g l).map (withFlag false) = (h l).map (withFlag false)

end Verif.Spec
