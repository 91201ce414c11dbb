import Verif.CfLog
import Verif.PyCfLog
/-
Specification vocabulary for C23 and C24: what a reader of a log of function and branch events should
report. Uses no definition of the model except the data types of events and items.
-/
namespace Verif.Spec
open Py

/-- Leaving every function above the topmost occurrence of `f` (all, if there is none). -/
def unwound (f : Nat) : List Nat → List Nat
  | [] => []
  | top :: rest => if top = f then top :: rest else unwound f rest

/-- Reports for leaving them, innermost first. -/
def unwinding (f : Nat) : List Nat → List CfItem
  | [] => []
  | top :: rest => if top = f then [] else .leave (top :: rest).reverse :: unwinding f rest

/-- Reports for leaving all functions. -/
def drain : List Nat → List CfItem
  | [] => []
  | top :: rest => .leave (top :: rest).reverse :: drain rest

/-- Reports for a sequence of events, given the current stack (innermost function first), and
whether a leave event was met with no function to leave. -/
def replay : List CfEvent → List Nat → List CfItem × Bool
  | [], st => (drain st, false)
  | .enter f :: es, st =>
    let r := replay es (f :: st)
    (.enter (f :: st).reverse :: r.1, r.2)
  | .leave f :: es, st =>
    match unwound f st with
    | [] => (unwinding f st ++ [.leave []], true)
    | top :: st' =>
      let r := replay es st'
      (unwinding f st ++ .leave (top :: st').reverse :: r.1, r.2)
  | .tainted f l :: es, st =>
    let r := replay es (unwound f st)
    (unwinding f st ++ .tainted (unwound f st).reverse l :: r.1, r.2)

/-- What a running program does inside a function: nothing more, a branch on tainted data, or a call
whose own behaviour is `inner`; `left` says whether the call returned normally (so that its leave
event was logged) or was abandoned by a non-local exit. -/
inductive Body where
  | done
  | branch (label : Nat) (rest : Body)
  | call (fn : Nat) (inner : Body) (left : Bool) (rest : Body)
  deriving DecidableEq, Repr

/-- Events logged by code of function `f`. -/
def logOf (f : Nat) : Body → List CfEvent
  | .done => []
  | .branch l rest => .tainted f l :: logOf f rest
  | .call g inner left rest =>
    .enter g :: (logOf g inner ++ ((if left then [.leave g] else []) ++ logOf f rest))

/-- What should be reported for code running with call stack `st` (innermost first): every call is
entered and left with exactly the stack at that point, whether or not its leave event was logged. -/
def reports (st : List Nat) : Body → List CfItem
  | .done => []
  | .branch l rest => .tainted st.reverse l :: reports st rest
  | .call g inner _ rest =>
    .enter (g :: st).reverse :: (reports (g :: st) inner ++
      .leave (g :: st).reverse :: reports st rest)

/-- Every call returned normally. -/
def Returns : Body → Prop
  | .done => True
  | .branch _ rest => Returns rest
  | .call _ inner left rest => left = true ∧ Returns inner ∧ Returns rest

/-- No branch outside of any function. -/
def NoBranch : Body → Prop
  | .done => True
  | .branch _ _ => False
  | .call _ _ _ rest => NoBranch rest

/-- Functions abandoned at the end of a body with no later event in it, innermost first;
`p` are those abandoned right before. -/
def abandoned (p : List Nat) : Body → List Nat
  | .done => p
  | .branch _ rest => abandoned [] rest
  | .call g inner left rest => abandoned (if left then [] else abandoned [] inner ++ [g]) rest

/-- A restriction on non-local exits: after calls were abandoned, the next event is not a call, and
it is logged by a function with an id different from the abandoned ones. `p` lists the abandoned
functions since the last event. -/
def Tame (f : Nat) (p : List Nat) : Body → Prop
  | .done => True
  | .branch _ rest => f ∉ p ∧ Tame f [] rest
  | .call g inner left rest =>
    p = [] ∧ Tame g [] inner ∧ (left = true → g ∉ abandoned [] inner) ∧
    Tame f (if left then [] else abandoned [] inner ++ [g]) rest

end Verif.Spec
