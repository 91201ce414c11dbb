import Verif.Spec.Digraph
import Mathlib.Data.List.Sort
/-
Model of the graphs of the Python library, /repo/polytracker/graphs.py: the class `DiGraph` with its caches, `DAG` and
`non_disjoint_union_all`. The base class is `nx.DiGraph` of networkx 2.x: a graph is its nodes and its edges in the
order in which they came. Functions of networkx that search a graph are arguments (`Nx`) that must do what their
documentation says (`Nx.Ok`). Nodes are numbers, compared by value. The drawing library and labels are not modelled.
-/
namespace Verif.PyGraph
open Verif.Spec

/-- The data of an nx.DiGraph. -/
structure G where
  nodes : List Nat
  edges : List (Nat × Nat)
  deriving DecidableEq, Repr

/-- A graph without nodes. -/
def G.empty : G := ⟨[], []⟩

/-- There is an edge. -/
def G.E (g : G) (a b : Nat) : Prop := (a, b) ∈ g.edges

instance (g : G) (a b : Nat) : Decidable (g.E a b) := inferInstanceAs (Decidable ((a, b) ∈ g.edges))

/-- nx.DiGraph.add_node. -/
def G.addNode (g : G) (n : Nat) : G := if n ∈ g.nodes then g else { g with nodes := g.nodes ++ [n] }

/-- nx.DiGraph.add_edge. -/
def G.addEdge (g : G) (a b : Nat) : G :=
  let h := (g.addNode a).addNode b
  if (a, b) ∈ h.edges then h else { h with edges := h.edges ++ [(a, b)] }

/-- nx.DiGraph.add_edges_from. -/
def G.addEdges (g : G) (es : List (Nat × Nat)) : G := es.foldl (fun h e => h.addEdge e.1 e.2) g

/-- nx.DiGraph.remove_nodes_from: nodes that are not there are ignored. -/
def G.removeNodes (g : G) (ns : List Nat) : G :=
  ⟨g.nodes.filter (fun n => decide (n ∉ ns)), g.edges.filter (fun e => decide (e.1 ∉ ns ∧ e.2 ∉ ns))⟩

/-- nx.DiGraph.remove_edge of an edge that is there. -/
def G.removeEdge (g : G) (a b : Nat) : G := { g with edges := g.edges.filter (fun e => decide (e ≠ (a, b))) }

/-- nx.DiGraph.predecessors of a node that is there. -/
def G.preds (g : G) (n : Nat) : List Nat := (g.edges.filter (fun e => decide (e.2 = n))).map Prod.fst

/-- nx.DiGraph.successors of a node that is there. -/
def G.succs (g : G) (n : Nat) : List Nat := (g.edges.filter (fun e => decide (e.1 = n))).map Prod.snd

/-- What is true of every nx.DiGraph. -/
structure G.Wf (g : G) : Prop where
  nodes : g.nodes.Nodup
  edges : g.edges.Nodup
  ends : ∀ a b, g.E a b → a ∈ g.nodes ∧ b ∈ g.nodes

/-- The functions of networkx that are called: all_pairs_shortest_path_length (graphs.py 35-37),
shortest_path_length with a target (69), dfs_successors (125), immediate_dominators (133). -/
structure Nx where
  dist : G → Nat → Nat → Option Nat
  toTarget : G → Nat → List (Nat × Nat)
  tree : G → Nat → List (Nat × List Nat)
  idom : G → Nat → List (Nat × Nat)

/-- What their documentation says. dfs_successors gives, for the nodes of a spanning tree of what can be reached that have
children in it, these children; immediate_dominators gives the start for itself. -/
structure Nx.Ok (X : Nx) : Prop where
  dist : ∀ g : G, g.Wf → ∀ a b d, X.dist g a b = some d ↔ a ∈ g.nodes ∧ Dist g.E a b d
  target : ∀ g : G, g.Wf → ∀ n ∈ g.nodes, ((X.toTarget g n).map Prod.fst).Nodup ∧
    ∀ x d, (x, d) ∈ X.toTarget g n ↔ x ∈ g.nodes ∧ Dist g.E x n d
  tree : ∀ g : G, g.Wf → ∀ n ∈ g.nodes,
    (∀ p cs, (p, cs) ∈ X.tree g n → cs ≠ [] ∧ ∀ c ∈ cs, g.E p c ∧ Linked g.E n p ∧ c ≠ p ∧ c ≠ n) ∧
    ∀ c, Linked g.E n c → c ≠ n → ∃ p cs, (p, cs) ∈ X.tree g n ∧ c ∈ cs
  idom : ∀ g : G, g.Wf → ∀ r ∈ g.nodes, ∀ n d, (n, d) ∈ X.idom g r ↔ (n = r ∧ d = r) ∨ IDom g.E r d n

/-- A DiGraph, graphs.py 27-31: the graph and three caches. -/
structure DG where
  g : G
  dist : Option (Nat → Nat → Option Nat)
  roots : Option (List Nat)
  dom : Option G

/-- DiGraph(), graphs.py 27-31. -/
def DG.new : DG := ⟨.empty, none, none, none⟩

/-- What a call gives: nothing, a number or infinity, nodes, a truth value, a graph, an exception. -/
inductive Ans where
  | unit
  | num (d : Option Nat)
  | nodes (l : List Nat)
  | bool (b : Bool)
  | graph (g : G)
  | err
  deriving DecidableEq, Repr

/-- The methods. -/
inductive Op where
  | addNode (n : Nat)
  | addEdge (a b : Nat)
  | removeNode (n : Nat)
  | removeEdge (a b : Nat)
  | setRoots (l : List Nat)
  | pathLength (a b : Nat)
  | roots
  | depth (n : Nat)
  | ancestors (n : Nat)
  | onePred (n : Nat)
  | descendants (n : Nat)
  | domForest
  deriving DecidableEq, Repr

/-- `path_length`, graphs.py 33-44: the cache, and the answer. -/
def DG.pathLength (X : Nx) (D : DG) (a b : Nat) : DG × Option Nat :=
  match D.dist with
  | some f => (D, f a b)
  | none => ({ D with dist := some (X.dist D.g) }, X.dist D.g a b)

/-- `_find_roots`, graphs.py 49-50. -/
def G.findRoots (g : G) : List Nat := g.nodes.filter (fun n => decide (g.preds n = []))

/-- `roots`, graphs.py 52-56. -/
def DG.getRoots (D : DG) : DG × List Nat :=
  match D.roots with
  | some l => (D, l)
  | none => ({ D with roots := some D.g.findRoots }, D.g.findRoots)

/-- The smaller of two numbers; `none` is infinity. -/
def minInf : Option Nat → Option Nat → Option Nat
  | none, b => b
  | a, none => a
  | some a, some b => some (min a b)

/-- `min` of the lengths from the roots, graphs.py 58-59; exception for no roots. -/
def DG.depth (X : Nx) (D : DG) (n : Nat) : DG × Ans :=
  let (D1, rs) := D.getRoots
  match rs with
  | [] => (D1, .err)
  | r :: rs =>
    let (D2, d) := D1.pathLength X r n
    let q := rs.foldl (fun (s : DG × Option Nat) r => ((s.1.pathLength X r n).1, minInf s.2 (s.1.pathLength X r n).2)) (D2, d)
    (q.1, .num q.2)

/-- The order of pairs of a distance and a node. -/
def before (x y : Nat × Nat) : Bool := decide (x.1 < y.1 ∨ (x.1 = y.1 ∧ x.2 ≤ y.2))

/-- `ancestors`, graphs.py 61-73, for a node that is there. -/
def G.ancestors (X : Nx) (g : G) (n : Nat) : List Nat :=
  ((((X.toTarget g n).filter (fun p => decide (p.1 ≠ n))).map (fun p => (p.2, p.1))).mergeSort before).map Prod.snd

/-- `has_one_predecessor`, graphs.py 75-89, for a node that is there. -/
def G.onePred (g : G) (n : Nat) : Bool :=
  match g.preds n with
  | [] => false
  | [_] => true
  | _ :: _ :: _ => false

/-- `descendants`, graphs.py 124-125, for a node that is there. -/
def G.descendants (X : Nx) (g : G) (n : Nat) : List Nat := (X.tree g n).map Prod.fst

/-- The loop of `dominator_forest`, graphs.py 131-135. -/
def domLoop (X : Nx) (g : G) (rs : List Nat) : G :=
  rs.foldl (fun f r => (X.idom g r).foldl (fun f p => if p.1 ≠ p.2 then f.addEdge p.2 p.1 else f) f) .empty

/-- `dominator_forest`, graphs.py 127-136. networkx raises an exception for a root that is not a node; what has been
made by then stays in the cache, which is set before the loop. -/
def DG.domForest (X : Nx) (D : DG) : DG × Ans :=
  match D.dom with
  | some f => (D, .graph f)
  | none =>
    let (D1, rs) := D.getRoots
    let f := domLoop X D.g (rs.takeWhile (fun r => decide (r ∈ D.g.nodes)))
    ({ D1 with dom := some f }, if rs.all (fun r => decide (r ∈ D.g.nodes)) then .graph f else .err)

/-- A call of a method. -/
def DG.step (X : Nx) (D : DG) : Op → DG × Ans
  | .addNode n => ({ D with g := D.g.addNode n }, .unit)
  | .addEdge a b => ({ D with g := D.g.addEdge a b }, .unit)
  | .removeNode n => if n ∈ D.g.nodes then ({ D with g := D.g.removeNodes [n] }, .unit) else (D, .err)
  | .removeEdge a b => if (a, b) ∈ D.g.edges then ({ D with g := D.g.removeEdge a b }, .unit) else (D, .err)
  | .setRoots l => ({ D with roots := some l }, .unit)
  | .pathLength a b => ((D.pathLength X a b).1, .num (D.pathLength X a b).2)
  | .roots => (D.getRoots.1, .nodes D.getRoots.2)
  | .depth n => D.depth X n
  | .ancestors n => (D, if n ∈ D.g.nodes then .nodes (D.g.ancestors X n) else .err)
  | .onePred n => (D, if n ∈ D.g.nodes then .bool (D.g.onePred n) else .err)
  | .descendants n => (D, if n ∈ D.g.nodes then .nodes (D.g.descendants X n) else .err)
  | .domForest => D.domForest X

/-- Calls one after the other: the object after them and the answers. -/
def DG.run (X : Nx) (D : DG) : List Op → DG × List Ans
  | [] => (D, [])
  | o :: os => (((D.step X o).1.run X os).1, (D.step X o).2 :: ((D.step X o).1.run X os).2)

/-- The body of the loop of `contract` with the default union, graphs.py 107-118: the new node is the predecessor. -/
def contractStep (g : G) (ret : G) (n : Nat) : G :=
  if g.onePred n then
    match g.preds n with
    | [] => ret
    | p :: _ => (ret.removeNodes [p, n]).addEdges ((g.preds p).map (fun i => (i, p)) ++ (g.succs n).map (fun o => (p, o)))
  else ret

/-- `contract` with the default union, graphs.py 91-122, with the nodes in the order in which the set gives them. -/
def contract (g : G) (order : List Nat) : G := order.foldl (contractStep g) (G.empty.addEdges g.edges)

/-- `contract` with another union, graphs.py 103-122: `nodes` is the set and `pick` its first element; `none` is an
exception; the last argument bounds the rounds. -/
def contractU (g : G) (union : Nat → Nat → Nat) (pick : List Nat → Nat) : Nat → List Nat → G → Option G
  | 0, _, ret => some ret
  | k + 1, nodes, ret =>
    if nodes = [] then some ret
    else
      let n := pick nodes
      let rest := nodes.filter (fun x => decide (x ≠ n))
      if n ∉ g.nodes then none
      else if g.onePred n then
        match g.preds n with
        | [] => none
        | p :: _ =>
          let m := union p n
          let ret' := (ret.removeNodes [p, n]).addEdges
            ((g.preds p).map (fun i => (i, m)) ++ (g.succs n).map (fun o => (m, o)))
          if m = p then contractU g union pick k rest ret'
          else if p ∉ rest then none
          else
            let rest' := rest.filter (fun x => decide (x ≠ p))
            contractU g union pick k (if m ∈ rest' then rest' else rest' ++ [m]) ret'
      else contractU g union pick k rest ret

/-- How the inner loop of `vertex_induced_subgraph` ends: at a node without parents, at a vertex above, with an
assertion, or not within the given rounds. -/
inductive Up where
  | top (n : Nat) (parent : Option Nat)
  | vertex
  | assertion
  | forever
  deriving DecidableEq, Repr

/-- The inner loop, graphs.py 194-208. -/
def up (sub : G) (vs : List Nat) : Nat → Nat → Option Nat → Up
  | 0, _, _ => .forever
  | k + 1, node, parent =>
    match sub.preds node with
    | [] => .top node parent
    | [a] =>
      if a ∈ vs then .vertex
      else up sub vs k a (some (parent.getD a))
    | _ :: _ :: _ => .assertion

/-- The outer loop of `vertex_induced_subgraph`, graphs.py 191-208; `vs` is the set. The state is the copy and the nodes
to remove; `none` is an exception or a loop without end. -/
def induceLoop (vs : List Nat) (k : Nat) : List Nat → G × List Nat → Option (G × List Nat)
  | [], s => some s
  | v :: rest, (sub, rem) =>
    if v ∉ sub.nodes then none
    else
      match up sub vs k v none with
      | .top _ none => induceLoop vs k rest (sub, rem)
      | .top n (some p) => induceLoop vs k rest ((sub.removeEdge p v).addEdge n v, rem)
      | .vertex => induceLoop vs k rest (sub, rem ++ [v])
      | .assertion => none
      | .forever => none

/-- `vertex_induced_subgraph`, graphs.py 187-210. -/
def induce (g : G) (vs : List Nat) (k : Nat) : Option G :=
  (induceLoop vs k vs (g, g.nodes.filter (fun n => decide (n ∉ vs)))).map (fun s => s.1.removeNodes s.2)

/-- `non_disjoint_union_all`, graphs.py 216-220: the edges are collected in a set, whose order is unknown; `order` is a list
of its elements. -/
def unionAll (order : List (Nat × Nat)) : G := G.empty.addEdges order

/-- What `to_dot` draws, graphs.py 138-183, for names that are different: root nodes, invisible edges between them, inner
nodes, and edges. -/
def toDot (D : DG) (keep : Nat → Bool) : List Nat × List (Nat × Nat) × List Nat × List (Nat × Nat) :=
  let ns := (D.g.nodes.filter keep).mergeSort (fun a b => decide (a ≤ b))
  let rs := ns.filter (fun n => decide (n ∈ D.getRoots.2))
  (rs, rs.zip rs.tail, ns.filter (fun n => decide (n ∉ D.getRoots.2)), D.g.edges.filter (fun e => keep e.1 && keep e.2))

end Verif.PyGraph
