import Verif.Spec.Ir
/-
Specification: the calls and returns of a run, read off the stack of calls. Nothing here refers to how they
are reported.
-/
namespace Verif
namespace Ir

variable {τ : Type}

/-- The function being executed. -/
def State.top (s : State τ) : Nat := (s.frames.head?.map (·.fn)).getD 0

/-- What happens to the stack of calls in a step from `s` to `s'`: a function is entered (`true`) if the stack
gets deeper, the function executed until now is left (`false`) if it gets shallower. -/
def callStep (s s' : State τ) : List (Bool × Nat) :=
  if s.frames.length < s'.frames.length then [(true, s'.top)]
  else if s'.frames.length < s.frames.length then [(false, s.top)]
  else []

/-- The calls and returns of at most `n` steps, in order. The function that ends the program is left. -/
def callsRun (A : Alg τ) (P : Prog) (inp : World) : Nat → State τ → List (Bool × Nat)
  | 0, _ => []
  | n + 1, s =>
    match step A P inp s with
    | .next s' => callStep s s' ++ callsRun A P inp n s'
    | .done _ _ => [(false, s.top)]
    | .stuck => []

/-- The calls and returns of a run from the start of function `fn`, which is entered first. -/
def callsFrom (A : Alg τ) (P : Prog) (inp : World) (fn n : Nat) (s : State τ) : List (Bool × Nat) :=
  (true, fn) :: callsRun A P inp n s

/-- Follows calls and returns: the functions being executed, innermost first. A return must be of the function
being executed. -/
def unwind : List Nat → List (Bool × Nat) → Option (List Nat)
  | st, [] => some st
  | st, (true, f) :: l => unwind (f :: st) l
  | g :: st, (false, f) :: l => if g = f then unwind st l else none
  | [], (false, _) :: _ => none

end Ir
end Verif
