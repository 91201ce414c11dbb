import Verif.Spec.Grammar
/-
Model of the parse trees, /repo/polytracker/parsing.py 29-180, 218-252, 309-340, 391-425.
Python lists used as stacks are Lean lists with the top first. A tree that is not changed is a value;
`simplify` changes the trees in place and is modelled on a heap of nodes. `IntervalTree`s and byte offsets
of the nodes (`begin_offset`, `verify_bounds`, the deconflicting passes, 427-548) are not modelled.
-/
namespace Verif.PyTree
open Verif.Spec

/-- The value of a node of a NonGeneralizedParseTree, parsing.py 309-312: `Start` (247), `Terminal` (218),
or a trace event: a BasicBlockEntry or a function event. The `name` of an event is what `production_name`,
grammars.py 1193-1197, makes of it; the name 0 is "<START>". -/
inductive Val where
  | start
  | term (bytes : List Nat)
  | bb (name : Nat)
  | fn (name : Nat)
  deriving DecidableEq, Repr

/-- `isinstance(value, BasicBlockEntry)`. -/
def Val.isBB : Val → Bool
  | .bb _ => true
  | _ => false

section
variable {V : Type}

mutual
/-- The number of nodes. -/
def size : Tree V → Nat
  | .node _ cs => sizes cs + 1
def sizes : List (Tree V) → Nat
  | [] => 0
  | t :: ts => size t + sizes ts
end

/-- The loop of `preorder_traversal`, parsing.py 71-76, with its stack; `fuel` bounds the rounds. -/
def preLoop : Nat → List (Tree V) → List (Tree V)
  | 0, _ => []
  | _ + 1, [] => []
  | fuel + 1, t :: s => t :: preLoop fuel (t.children ++ s)

/-- `preorder_traversal`, parsing.py 71-76, run to its end; there are as many rounds as nodes. -/
def preorder (t : Tree V) : List (Tree V) := preLoop (size t) [t]

/-- The loop of `postorder_traversal`, parsing.py 60-69. -/
def postLoop : Nat → List (Bool × Tree V) → List (Tree V)
  | 0, _ => []
  | _ + 1, [] => []
  | fuel + 1, (expanded, t) :: s =>
    if !expanded && !t.children.isEmpty then
      postLoop fuel (t.children.map (false, ·) ++ (true, t) :: s)
    else t :: postLoop fuel s

/-- `postorder_traversal`, parsing.py 60-69; every node is popped at most twice. -/
def postorder (t : Tree V) : List (Tree V) := postLoop (2 * size t) [(false, t)]

/-- `leaves`, parsing.py 85-88. -/
def leaves (t : Tree V) : List (Tree V) := (preorder t).filter (fun n => n.children.isEmpty)

/-- `IPTNode`, parsing.py 136-142; the parent is a position in the stack `to_clone`, counted from its
bottom. -/
structure Frame (V : Type) where
  node : Tree V
  children : Option (List (Tree V))
  parent : Option Nat

/-- `ipt_node.parent.children.append(cloned)`, parsing.py 159-161; `none` is the failed assertion. -/
def appendChild : List (Frame V) → Nat → Tree V → Option (List (Frame V))
  | [], _, _ => none
  | f :: s, p, t =>
    if p = s.length then
      match f.children with
      | none => none
      | some l => some ({ f with children := some (l ++ [t]) } :: s)
    else (appendChild s p t).map (f :: ·)

/-- The loop of `ImmutableParseTree.clone`, parsing.py 144-165; `none` is an exception. -/
def cloneLoop : Nat → List (Frame V) → Option (Tree V)
  | 0, _ => none
  | _ + 1, [] => none
  | fuel + 1, f :: s =>
    match f.children with
    | none =>
      cloneLoop fuel (f.node.children.map (fun c => ⟨c, none, some s.length⟩) ++
        { f with children := some [] } :: s)
    | some l =>
      let cloned := Tree.node f.node.val l
      match f.parent with
      | some p =>
        match appendChild s p cloned with
        | none => none
        | some s' => cloneLoop fuel s'
      | none => if s.isEmpty then some cloned else none

/-- `clone`, parsing.py 135-166. -/
def clone (t : Tree V) : Option (Tree V) := cloneLoop (2 * size t) [⟨t, none, none⟩]

end

/-- The loop over the leaves in `terminals`, parsing.py 334-337; `none` is the failed assertion. -/
def terminalsOf : List (Tree Val) → Option (List (List Nat))
  | [] => some []
  | t :: ts =>
    match t.val with
    | .term b => (terminalsOf ts).map (b :: ·)
    | _ => none

/-- `terminals`, parsing.py 334-337. -/
def terminals (t : Tree Val) : Option (List (List Nat)) := terminalsOf (leaves t)

/-- `matches`, parsing.py 339-340. -/
def «matches» (t : Tree Val) : Option (List Nat) := (terminals t).map List.flatten

/-- `b.startswith(p)` and the rest after `p`. -/
def dropPrefix : List Nat → List Nat → Option (List Nat)
  | [], b => some b
  | _ :: _, [] => none
  | p :: ps, b :: bs => if p = b then dropPrefix ps bs else none

/-- The loop of `verify`, parsing.py 391-410, over the nodes in preorder, without `verify_bounds`; the
state is `remaining`; `none` is the ValueError. -/
def verifyLoop : List (Tree Val) → List Nat → Option (List Nat)
  | [], remaining => some remaining
  | t :: ts, remaining =>
    match t.val with
    | .term b =>
      match dropPrefix b remaining with
      | none => none
      | some r => verifyLoop ts r
    | _ => verifyLoop ts remaining

/-- `verify`, parsing.py 391-410, without `verify_bounds`: whether it returns. -/
def verify (t : Tree Val) (string : List Nat) : Bool := (verifyLoop (preorder t) string).isSome

/-- The nodes in memory: what the attributes `value` and `children` of every node are. -/
structure Heap where
  val : Nat → Val
  kids : Nat → List Nat

/-- The body of the loop of `simplify`, parsing.py 419-425, for the node `n`. -/
def visit (h : Heap) (n : Nat) : Heap :=
  match h.kids n with
  | [c] =>
    if (h.val c).isBB then
      match h.kids c with
      | [g] => { h with kids := fun m => if m = n then [g] else h.kids m }
      | _ => h
    else h
  | _ => h

/-- `simplify`, parsing.py 412-425: the generator `postorder_traversal` (60-69) and the body of the loop
take turns. -/
def simplifyLoop : Nat → Heap → List (Bool × Nat) → Heap
  | 0, h, _ => h
  | _ + 1, h, [] => h
  | fuel + 1, h, (expanded, n) :: s =>
    if !expanded && !(h.kids n).isEmpty then
      simplifyLoop fuel h ((h.kids n).map (false, ·) ++ (true, n) :: s)
    else simplifyLoop fuel (visit h n) s

end Verif.PyTree
