import Verif.HistoryLemmas
/-
Executable scripts, used to exhibit concrete runs that meet the hypotheses of the theorems.
-/
namespace Verif
open Spec
namespace Labels

instance (L : Labels) (op : Op) : Decidable (L.Allowed op) := by
  cases op <;> (unfold Allowed; infer_instance)

/-- Perform a list of calls, checking the client contract before each. -/
def script : Labels → List Op → Option (Labels × List Event)
  | L, [] => some (L, [])
  | L, op :: ops =>
    if L.Allowed op then
      match L.exec op with
      | .ok (L', e) =>
        match script L' ops with
        | some (L'', es) => some (L'', e :: es)
        | none => none
      | _ => none
    else none

theorem Runs.cons {L L1 L2 : Labels} {op : Op} {e : Event} {es : List Event}
    (ha : L.Allowed op) (he : L.exec op = .ok (L1, e)) (h : Runs L1 es L2) :
    Runs L (e :: es) L2 := by
  have h1 : Runs L ([] ++ [e]) L1 := .snoc (.nil L) ha he
  exact h1.trans h

theorem script_runs : ∀ (ops : List Op) (L L' : Labels) (es : List Event),
    script L ops = some (L', es) → Runs L es L' := by
  intro ops
  induction ops with
  | nil => intro L L' es h; simp [script] at h; obtain ⟨rfl, rfl⟩ := h; exact .nil _
  | cons op ops ih =>
    intro L L' es h
    simp only [script] at h
    split at h
    · rename_i ha
      split at h
      · rename_i L1 e he
        split at h
        · rename_i L2 es2 hs
          cases h
          exact .cons ha he (ih _ _ _ hs)
        · cases h
      · cases h
    · cases h

/-- State after a script. -/
def endOf (L : Labels) (ops : List Op) : Labels := ((script L ops).getD (L, [])).1
/-- Events of a script. -/
def evsOf (L : Labels) (ops : List Op) : List Event := ((script L ops).getD (L, [])).2

theorem runs_of {L : Labels} {ops : List Op} (h : (script L ops).isSome = true) :
    Runs L (evsOf L ops) (endOf L ops) := by
  apply script_runs ops
  obtain ⟨x, hx⟩ := Option.isSome_iff_exists.1 h
  simp [evsOf, endOf, hx]

/-- A small run: six input bytes, two ranges, a union of non-adjacent labels, a larger range made
from two ranges, a union of everything, and a marking. -/
def exOps : List Op :=
  [.source 3 10 6, .union 1 2, .union 3 4, .union 7 8, .union 1 3, .union 10 6, .union 9 11, .mark 10]

def exStore : Labels := endOf (init 64) exOps
def exEvents : List Event := evsOf (init 64) exOps

theorem exReach : Reach 64 exEvents exStore := runs_of (by decide +kernel)

end Labels
end Verif
