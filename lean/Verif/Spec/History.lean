import Verif.Spec.Graph
/-
Specification of a run of the tracker as seen from outside: the sequence of calls together with the
labels they returned, and what every label must mean according to that sequence.
-/
namespace Verif.Spec

/-- A completed call at the label-store interface with its result. -/
inductive Event where
  /-- bytes `offset .. offset+length-1` of source `src` were read; the labels start at `first` -/
  | source (src offset length first : Nat)
  /-- labels `l` and `r` were combined; the answer was `u` -/
  | union (l r u : Nat)
  /-- label `l` was reported to affect control flow -/
  | mark (l : Nat)
  deriving DecidableEq, Repr

/-- How an event changes the table "label ↦ set of input bytes". -/
def after (D : Nat → Nat × Nat → Prop) : Event → Nat → Nat × Nat → Prop
  | .source src off n first, l, b =>
    if first ≤ l ∧ l < first + n then b = (src, off + (l - first)) else D l b
  | .union l r u, x, b => if x = u then D l b ∨ D r b else D x b
  | .mark _, x, b => D x b

/-- What label `l` means after the events (oldest first). -/
def Meaning (es : List Event) : Nat → Nat × Nat → Prop :=
  es.foldl after (fun _ _ => False)

/-- Input byte `b` influenced control flow according to the events: some marked label meant it at
the time it was marked. -/
def Influenced (es : List Event) (b : Nat × Nat) : Prop :=
  ∃ before l rest, es = before ++ .mark l :: rest ∧ Meaning before l b

end Verif.Spec
