import Verif.Base
/- Specification of a first-in first-out queue: a list, with a script of operations. -/
namespace Verif.Spec

/-- What a client can do with a queue. -/
inductive QOp where
  | push (x : Nat)
  | pop
  | empty
  deriving DecidableEq, Repr

/-- What the client sees. -/
inductive QObs where
  | pushed
  | popped (x : Nat)
  | isEmpty (b : Bool)
  deriving DecidableEq, Repr

/-- Reference behaviour: items leave in the order they came. Popping an empty queue is undefined. -/
def fifoRun : List QOp → List Nat → Res (List QObs)
  | [], _ => .ok []
  | .push x :: ops, items =>
    match fifoRun ops (items ++ [x]) with
    | .ok obs => .ok (.pushed :: obs)
    | r => r
  | .pop :: ops, items =>
    match items with
    | [] => .ub
    | x :: rest =>
      match fifoRun ops rest with
      | .ok obs => .ok (.popped x :: obs)
      | r => r
  | .empty :: ops, items =>
    match fifoRun ops items with
    | .ok obs => .ok (.isEmpty (items == []) :: obs)
    | r => r

end Verif.Spec
