import Verif.Base
/-
Model of /repo/polytracker/include/taintdag/labeldeq.h (lines within that file).
-/
namespace Verif

/-- `ArrayImpl`, labeldeq.h 88-109: ring of `N` slots. `arr_` is uninitialised in C++; the model
fills it with zeros, no theorem depends on the fill. -/
structure Ring where
  arr : List Nat
  first : Nat
  last : Nat
  deriving DecidableEq, Repr

namespace Ring
/-- Constructor: `label_t arr_[N]; size_t first{0}; size_t last{0};` 89-91. -/
def new (N : Nat) : Ring := ⟨List.replicate N 0, 0, 0⟩
/-- `next`, 93. -/
def next (N i : Nat) : Nat := (i + 1) % N
/-- `empty`, 95. -/
def isEmpty (a : Ring) : Bool := a.first == a.last
/-- `full`, 97. -/
def full (N : Nat) (a : Ring) : Bool := a.last == next N a.first
/-- `pop_front`, 99-103; reading outside the array is `ub`. -/
def popFront (N : Nat) (a : Ring) : Res (Nat × Ring) := do
  let v ← getRes a.arr a.last
  pure (v, { a with last := next N a.last })
/-- `push_back`, 105-108; writing outside the array is `ub`. -/
def pushBack (N : Nat) (a : Ring) (l : Nat) : Res Ring :=
  if a.first < a.arr.length then
    .ok { a with arr := a.arr.set a.first l, first := next N a.first }
  else .ub
end Ring

/-- `LabelDeq<N>`, labeldeq.h 19-128: either the ring is active or a `std::deque` (a list). -/
inductive LabelDeq where
  | arr (a : Ring)
  | deq (d : List Nat)
  deriving DecidableEq, Repr

namespace LabelDeq

/-- Constructor, 23-26. -/
def new (N : Nat) : LabelDeq := .arr (Ring.new N)

/-- `empty`, 66-72. -/
def isEmpty : LabelDeq → Bool
  | .arr a => a.isEmpty
  | .deq d => d.isEmpty

/-- `pop_front`, 43-52. "Undefined if empty()". -/
def popFront (N : Nat) (q : LabelDeq) : Res (Nat × LabelDeq) :=
  if q.isEmpty then .ub else
  match q with
  | .arr a => do
    let (v, a) ← a.popFront N
    pure (v, .arr a)
  | .deq [] => .ub
  | .deq (v :: d) => .ok (v, .deq d)

/-- The loop of `migrate`, 77-79: move everything out of the ring. `fuel` bounds the iterations. -/
def drain (N : Nat) : Nat → Ring → List Nat → Res (List Nat)
  | 0, a, d => if a.isEmpty then .ok d else .hang
  | fuel + 1, a, d =>
    if a.isEmpty then .ok d
    else do
      let (v, a) ← a.popFront N
      drain N fuel a (d ++ [v])

/-- `migrate`, 75-86. A ring of `N` slots is drained in fewer than `N` iterations (C11). -/
def migrate (N : Nat) (a : Ring) (l : Nat) : Res LabelDeq := do
  let d ← drain N N a []
  pure (.deq (d ++ [l]))

/-- `push_back`, 54-64. -/
def pushBack (N : Nat) (q : LabelDeq) (l : Nat) : Res LabelDeq :=
  match q with
  | .arr a =>
    if a.full N then migrate N a l
    else do
      let a ← a.pushBack N l
      pure (.arr a)
  | .deq d => .ok (.deq (d ++ [l]))

end LabelDeq
end Verif
