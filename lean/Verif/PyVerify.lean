import Verif.PyEarley
/-
Model of `Grammar.verify` and `Grammar.dependency_graph`, /repo/polytracker/grammars.py 1003-1015, 1046-1091.
A Production is given by its name; two Productions are equal, also as nodes of a graph and elements of sets, if
they have the same rules (grammars.py 376-380). `used_by` is a defaultdict: `keys` are its keys; asking for an
entry adds a key, but in `verify` only keys of productions of the grammar, which changes nothing.
`nx.dfs_preorder_nodes` is a function of networkx; the nodes that it gives are an argument `vs`, which must meet
its contract `Dfs`.
-/
namespace Verif.PyVerify
open Verif.Spec Verif.PyGrammar Verif.PyEarley

/-- The exceptions: MissingProductionError, CorruptedGrammarError, DisconnectedGrammarError, the exception of
networkx for a node that is not in the graph, KeyError. -/
inductive VErr where
  | missing | corrupted | disconnected | node | key
  deriving DecidableEq, Repr

/-- A node of the graph that `dependency_graph` makes: a name or a Production. -/
inductive GNode where
  | name (a : Nat)
  | prod (a : Nat)
  deriving DecidableEq, Repr

/-- The edges of `dependency_graph`, grammars.py 1007-1014, from the production that uses to the one that is
used, if all of them are in the grammar. -/
def edges (σ : Iter) (g : Gram) (keys : List Nat) : List (Nat × Nat) :=
  keys.flatMap (fun v => (σ.names (g.usedBy v)).map (fun u => (u, v)))

/-- The nodes of `dependency_graph`, grammars.py 1004-1006: the names, added for all productions, and the
Productions at the ends of edges. -/
def nodes (σ : Iter) (g : Gram) (keys : List Nat) : List GNode :=
  g.order.map .name ++ (edges σ g keys).flatMap (fun e => [.prod e.1, .prod e.2])

/-- Equality of nodes. -/
def GNode.same (g : Gram) : GNode → GNode → Bool
  | .name a, .name b => decide (a = b)
  | .prod a, .prod b => sameProd g a b
  | _, _ => false

/-- `for v in rule.sequence`, grammars.py 1049-1060. -/
def checkSym (g : Gram) (a : Nat) : Sym → Option VErr
  | .term _ => none
  | .nt v =>
    if (g.prod v).isNone then some .missing
    else if a ∉ g.usedBy v then some .corrupted
    else none

/-- The body of the first loop of `verify`, grammars.py 1048-1065. -/
def checkProd (σ : Iter) (g : Gram) (a : Nat) : Option VErr :=
  match g.prod a with
  | none => none
  | some p =>
    match (σ.rules p.rules).findSome? (fun r => r.seq.findSome? (checkSym g a)) with
    | some e => some e
    | none => (σ.names (g.usedBy a)).findSome? (fun u => if (g.prod u).isNone then some .corrupted else none)

/-- `[node.name for node in not_visited_prods if node.can_produce_terminal]`, grammars.py 1085-1087: whether it
has an element, and the grammar with the answers that are remembered. -/
def askAny (σ : Iter) : List Nat → Gram → Option (Bool × Gram)
  | [], g => some (false, g)
  | a :: as, g =>
    match g.canProduceTerminal σ a with
    | none => none
    | some (b, g') => (askAny σ as g').map (fun q => (b || q.1, q.2))

/-- A set of Productions, grammars.py 1081-1083: of equal ones the first. -/
def toSet (g : Gram) : List Nat → List Nat
  | [] => []
  | a :: as => a :: (toSet g as).filter (fun b => !sameProd g a b)

/-- `Grammar.verify`, grammars.py 1046-1091. The start production is in the grammar. -/
def verify (σ : Iter) (g : Gram) (keys vs : List Nat) (test : Bool) : Except VErr Gram :=
  match g.order.findSome? (checkProd σ g) with
  | some e => .error e
  | none =>
    match keys.findSome? (fun v => if (g.prod v).isNone then some VErr.corrupted else none) with
    | some e => .error e
    | none =>
      match g.start, test with
      | some s, true =>
        if !(nodes σ g keys).any (GNode.same g (.prod s)) then .error .node
        else if vs.length < g.order.length then
          match askAny σ (σ.names (toSet g (g.order.filter (fun a => !vs.any (sameProd g a))))) g with
          | none => .error .key
          | some (b, g') => if b then .error .disconnected else .ok g'
        else .ok g
      | _, _ => .ok g

/-- The Productions at the end of paths from the start; equal ones are the same node. -/
inductive Visit (g : Gram) (keys : List Nat) (s : Nat) : Nat → Prop
  | start : Visit g keys s s
  | step {a u v} : Visit g keys s a → sameProd g a u = true → v ∈ keys → u ∈ g.usedBy v → Visit g keys s v

/-- The contract of `nx.dfs_preorder_nodes(graph, source=s)`: every node that can be reached, once. -/
structure Dfs (g : Gram) (keys : List Nat) (s : Nat) (vs : List Nat) : Prop where
  sound : ∀ v ∈ vs, ∃ b, Visit g keys s b ∧ sameProd g v b = true
  complete : ∀ b, Visit g keys s b → ∃ v ∈ vs, sameProd g b v = true
  once : vs.Pairwise (fun a b => sameProd g a b = false)
  known : ∀ v ∈ vs, (g.prod v).isSome

end Verif.PyVerify
