import Verif.Spec.Decisions
/-
Specification: programs with threads. The threads share memory, input and output; each has its own calls and
its own stack. Any thread may make the next step; a thread may start at any time, and when one has ended its
value may be collected. Nothing here refers to instrumentation.
-/
namespace Verif
namespace Ir

variable {τ : Type}

/-- A thread: its calls (innermost first) and its stack pointer, or the value with which it ended. -/
inductive Thread (τ : Type) where
  | live (frames : List (Frame τ)) (sp : Nat)
  | ended (v : Nat × τ)

/-- All threads. The stack pointer in `glob` is that of the thread that ran last. -/
structure Multi (τ : Type) where
  threads : List (Thread τ)
  glob : Glob τ

/-- What may happen next: thread `i` makes a step; a thread starts in function `f` on a stack of its own;
the value of thread `i` is collected and put into memory at address `a`. -/
inductive Act (α : Type) where
  | run (i : Nat)
  | spawn (f : Nat) (args : List α) (sp : Nat)
  | join (i a : Nat)

/-- One action; `none` if it is not possible. -/
def mstep (A : Alg τ) (P : Prog) (inp : World) (M : Multi τ) : Act (Nat × τ) → Option (Multi τ)
  | .run i =>
    match M.threads[i]? with
    | some (.live frames sp) =>
      match step A P inp ⟨frames, { M.glob with sp }⟩ with
      | .next s => some ⟨M.threads.set i (.live s.frames s.glob.sp), s.glob⟩
      | .done v g => some ⟨M.threads.set i (.ended v), g⟩
      | .stuck => none
    | _ => none
  | .spawn f args sp =>
    match P[f]? with
    | some F => if F.blocks = [] then none else some ⟨M.threads ++ [.live [newFrame A f args sp] sp], M.glob⟩
    | none => none
  | .join i a =>
    match M.threads[i]? with
    | some (.ended v) =>
      if CanAccess a 8 then
        some { M with glob := { M.glob with mem := putInt M.glob.mem a 8 v.1, tmem := putAll M.glob.tmem a 8 v.2 } }
      else none
    | _ => none

/-- A schedule. -/
def mrun (A : Alg τ) (P : Prog) (inp : World) : List (Act (Nat × τ)) → Multi τ → Option (Multi τ)
  | [], M => some M
  | a :: as, M => (mstep A P inp M a).bind (mrun A P inp as)

/-- The new labels that an action may need. -/
def mcost (P : Prog) (inp : World) (M : Multi τ) : Act (Nat × τ) → Nat
  | .run i =>
    match M.threads[i]? with
    | some (.live frames sp) => State.cost P inp ⟨frames, { M.glob with sp }⟩
    | _ => 0
  | _ => 0

/-- The same for a schedule. -/
def mrunCost (A : Alg τ) (P : Prog) (inp : World) : List (Act (Nat × τ)) → Multi τ → Nat
  | [], _ => 0
  | a :: as, M => mcost P inp M a + ((mstep A P inp M a).map (mrunCost A P inp as)).getD 0

/-- What an action is to report. -/
def mobserve (A : Alg τ) (C : Nat → Marks) (P : Prog) (M : Multi τ) : Act (Nat × τ) → List (Hook × Nat × τ)
  | .run i =>
    match M.threads[i]? with
    | some (.live frames sp) => observe A C P ⟨frames, { M.glob with sp }⟩
    | _ => []
  | .spawn f _ _ => plainReport A (C f).enter
  | .join _ _ => []

/-- What a schedule is to report, in order. -/
def mobserveRun (A : Alg τ) (C : Nat → Marks) (P : Prog) (inp : World) :
    List (Act (Nat × τ)) → Multi τ → List (Hook × Nat × τ)
  | [], _ => []
  | a :: as, M => mobserve A C P M a ++ ((mstep A P inp M a).map (mobserveRun A C P inp as)).getD []

/-- The places where threads pass values on past the code of the program pass no taint on: a new thread is
given untainted arguments; and a value is collected into a place that already depends on what the value depends
on (for instance, neither depends on anything). -/
def Kept (M : Multi (Nat × Nat → Prop)) : Act (Nat × (Nat × Nat → Prop)) → Prop
  | .run _ => True
  | .spawn _ args _ => ∀ x ∈ args, ∀ b, ¬ x.2 b
  | .join i a => ∀ v, M.threads[i]? = some (.ended v) → ∀ j < 8, ∀ b, M.glob.tmem (a + j) b ↔ v.2 b

/-- The same for a schedule. -/
def KeptRun (A : Alg (Nat × Nat → Prop)) (P : Prog) (inp : World) :
    List (Act (Nat × (Nat × Nat → Prop))) → Multi (Nat × Nat → Prop) → Prop
  | [], _ => True
  | a :: as, M => Kept M a ∧ ∀ M', mstep A P inp M a = some M' → KeptRun A P inp as M'

/-- The start of a program: one thread, at the start of function `fn`. -/
def mstart (A : Alg τ) (fn : Nat) (args : List Nat) (mem : Nat → Nat) (sp : Nat) (tm : Nat → τ := fun _ => A.zero) :
    Multi τ where
  threads := [.live (start A fn args mem sp tm).frames sp]
  glob := (start A fn args mem sp tm).glob

end Ir
end Verif
