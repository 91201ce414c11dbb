import Verif.LabelDeqLemmas
import Verif.Spec.Queue
/- C11: the work queue is a FIFO queue at every size. -/
namespace Verif
open Spec

/-- A client script run against the queue implementation. -/
def LabelDeq.run (N : Nat) : List QOp → LabelDeq → Res (List QObs)
  | [], _ => .ok []
  | .push x :: ops, q => do
    let q ← q.pushBack N x
    let obs ← LabelDeq.run N ops q
    pure (.pushed :: obs)
  | .pop :: ops, q => do
    let (x, q) ← q.popFront N
    let obs ← LabelDeq.run N ops q
    pure (.popped x :: obs)
  | .empty :: ops, q => do
    let obs ← LabelDeq.run N ops q
    pure (.isEmpty q.isEmpty :: obs)

theorem LabelDeq.run_holds {N : Nat} (ops : List QOp) : ∀ (q : LabelDeq) (l : List Nat),
    q.Holds N l → q.run N ops = fifoRun ops l := by
  induction ops with
  | nil => intro q l _; rfl
  | cons op ops ih =>
    intro q l h
    cases op with
    | push x =>
      obtain ⟨q', h1, h2⟩ := LabelDeq.pushBack_holds h x
      simp only [LabelDeq.run, fifoRun, h1, Res.bind_ok, ih q' _ h2]
      cases fifoRun ops (l ++ [x]) <;> rfl
    | pop =>
      cases l with
      | nil => simp only [LabelDeq.run, fifoRun, LabelDeq.popFront_nil h]; rfl
      | cons x l =>
        obtain ⟨q', h1, h2⟩ := LabelDeq.popFront_holds h
        simp only [LabelDeq.run, fifoRun, h1, Res.bind_ok, ih q' _ h2]
        cases fifoRun ops l <;> rfl
    | empty =>
      simp only [LabelDeq.run, fifoRun, ih q l h, LabelDeq.isEmpty_holds h]
      cases fifoRun ops l <;> rfl

/-- For every ring size and every script of pushes, pops and emptiness tests, the client of a fresh
`LabelDeq` sees exactly what the client of an unbounded FIFO list sees; in particular no script
makes the ring buffer index out of bounds or the migration loop run on. -/
theorem C11_fifo (N : Nat) (hN : 0 < N) (ops : List QOp) :
    (LabelDeq.new N).run N ops = fifoRun ops [] :=
  LabelDeq.run_holds ops _ _ (LabelDeq.new_holds hN)

/-- The shipped size, with a script that forces the migration. -/
example : (LabelDeq.new 3).run 3 [.push 1, .pop, .push 2, .push 3, .push 4, .pop, .pop, .pop, .empty]
    = .ok [.pushed, .popped 1, .pushed, .pushed, .pushed, .popped 2, .popped 3, .popped 4,
        .isEmpty true] := by decide

end Verif
