import Verif.PyForest
/-
Model of the export of the taint forest as a graph: `TaintForest.to_graph`,
/repo/polytracker/taint_forest.py 65-76, and of the parts of `DiGraph` it is used with:
`_find_roots`, `roots` and `to_dot`, /repo/polytracker/graphs.py 49-56 and 138-183. The nodes of the
graph are the integer labels. `none` means that a Python exception is raised.
-/
namespace Verif.Py

/-- `networkx.DiGraph` over integers: nodes and edges in the order in which they were added, each once.
`DAG(dag)`, taint_forest.py 76, copies both in this order. -/
structure Dg where
  nodes : List Int
  edges : List (Int × Int)
  deriving DecidableEq, Repr

namespace Dg

/-- `nx.DiGraph()`, taint_forest.py 66. -/
def empty : Dg := ⟨[], []⟩

/-- `add_node`: does nothing for a node that is there. -/
def addNode (G : Dg) (x : Int) : Dg :=
  if x ∈ G.nodes then G else { G with nodes := G.nodes ++ [x] }

/-- `add_edge`: adds the two ends first; does nothing more for an edge that is there. -/
def addEdge (G : Dg) (x y : Int) : Dg :=
  let G := (G.addNode x).addNode y
  if (x, y) ∈ G.edges then G else { G with edges := G.edges ++ [(x, y)] }

/-- `in_degree` of a node. -/
def inDegree (G : Dg) (x : Int) : Nat := (G.edges.filter fun e => e.2 = x).length

/-- `roots`, graphs.py 49-56. -/
def roots (G : Dg) : List Int := G.nodes.filter fun x => G.inDegree x = 0

/-- `self.edges`: node by node, for each node its successors in the order in which they were added. -/
def edgeView (G : Dg) : List (Int × Int) := G.nodes.flatMap fun x => G.edges.filter fun e => e.1 = x

/-- `sorted` on integers. -/
def insertSorted (x : Int) : List Int → List Int
  | [] => [x]
  | y :: ys => if x ≤ y then x :: y :: ys else y :: insertSorted x ys

/-- `sorted` on integers. -/
def sorted : List Int → List Int
  | [] => []
  | x :: xs => insertSorted x (sorted xs)

/-- The GraphViz document made by `to_dot`: the square nodes of the subgraph of roots, the invisible
edges between them, the nodes of the inner subgraph, and the edges. -/
structure Dot where
  roots : List Int
  invisible : List (Int × Int)
  inner : List Int
  edges : List (Int × Int)
  deriving DecidableEq, Repr

/-- `to_dot`, graphs.py 138-183, with a filter for the nodes (the default one takes all, 147-148); `str` is the
default labeler, so that nodes are known by their labels. -/
def toDot (G : Dg) (keep : Int → Bool) : Dot :=
  let ns := sorted (G.nodes.filter keep)
  let rs := ns.filter fun x => x ∈ G.roots
  { roots := rs
    invisible := rs.zip rs.tail
    inner := ns.filter fun x => x ∉ G.roots
    edges := G.edgeView.filter fun e => keep e.1 && keep e.2 }

end Dg

namespace Forest

/-- The node behind `parent_one` / `parent_two` is asked for (taint_dag.py 719-731) and, as nodes are
truthy, asked for again for its label; the edge is added. taint_forest.py 70-71 and 73-74. -/
def addParent (F : TDFile) (st : Forest) (G : Dg) (p label : Int) : Option (Dg × Forest) := do
  let (_, st) ← st.get F p
  let (nd, st) ← st.get F p
  return (G.addEdge nd.label label, st)

/-- The body of the loop for one node, taint_forest.py 69-74. -/
def addNodeParents (F : TDFile) (st : Forest) (G : Dg) (nd : FNode) : Option (Dg × Forest) :=
  let G := G.addNode nd.label
  match nd.parents with
  | none => some (G, st)
  | some (p, q) => do
    let (G, st) ← addParent F st G p nd.label
    addParent F st G q nd.label

/-- The loop of `to_graph`, taint_forest.py 68-74, over the generator `nodes`, taint_dag.py 810-814: the
queries for parents happen between the steps of the generator. At most `fuel` iterations. -/
def graphFrom (F : TDFile) : Nat → Forest → Dg → Int → Option (Dg × Forest)
  | 0, _, _, _ => none
  | k + 1, st, G, label =>
    match st.cache.get label with
    | none => some (G, st)
    | some _ => do
      let (nd, st) ← st.get F label
      let (G, st) ← addNodeParents F st G nd
      graphFrom F k st G (label - 1)

/-- `to_graph`, taint_forest.py 65-76. -/
def toGraph (F : TDFile) (fuel : Nat) (st : Forest) : Option (Dg × Forest) := do
  let m ← maxKey st.cache.keys
  graphFrom F fuel st .empty m

end Forest
end Verif.Py
