import Verif.PyTreeSimp
/- C61: parse trees. Traversals and clones are exact; simplifying a tree keeps its leaves, its functions
and the bytes it stands for. -/
namespace Verif
open Spec PyTree

/-- The traversals yield every node exactly once, in the order they promise; `leaves` are the nodes
without children, from left to right. -/
theorem C61_traversal {V : Type} (t : Tree V) :
    preorder t = t.pre ∧ postorder t = t.post ∧ (leaves t).map Tree.val = t.fringe :=
  ⟨preorder_eq t, postorder_eq t, leaves_eq t⟩

/-- `clone` always succeeds and gives an equal tree. -/
theorem C61_clone {V : Type} (t : Tree V) : clone t = some t := clone_eq t

/-- `matches` returns the bytes of the leaves in order, and fails exactly if a leaf is not a terminal. -/
theorem C61_matches (t : Tree Val) (w : List Nat) :
    «matches» t = some w ↔ ∃ bs : List (List Nat), t.fringe = bs.map Val.term ∧ w = bs.flatten := by
  unfold «matches»
  rw [terminals_eq, Option.map_eq_some_iff]
  constructor
  · rintro ⟨bs, hb, rfl⟩
    exact ⟨bs, bytesOf_eq_some.1 hb, rfl⟩
  · rintro ⟨bs, hb, rfl⟩
    exact ⟨bs, bytesOf_eq_some.2 hb, rfl⟩

mutual
/-- A tree in memory without the identities of its nodes. -/
def PyTree.plain : Obj → Tree Val
  | .node v cs => .node v.2 (PyTree.plainL cs)
def PyTree.plainL : List Obj → List (Tree Val)
  | [] => []
  | t :: ts => PyTree.plain t :: PyTree.plainL ts
end

mutual
theorem PyTree.plain_fringe : ∀ (d : Obj), (plain d).fringe = d.fringe.map Prod.snd
  | .node v [] => by simp [plain, plainL, Tree.fringe]
  | .node v (c :: cs) => by
    simp [plain, plainL, Tree.fringe, plain_fringe c, plainL_fringe cs]
theorem PyTree.plainL_fringe : ∀ (ds : List Obj), Tree.fringeL (plainL ds) = (Tree.fringeL ds).map Prod.snd
  | [] => rfl
  | d :: ds => by simp [plainL, Tree.fringeL, plain_fringe d, plainL_fringe ds]
end

/-- `simplify` of a tree `d` in memory. Afterwards there is a tree `d'` with the same root node. It has
the same leaves; the nodes other than basic blocks are still there, in the same order; the bytes it
matches are the same; no node has as its only child a basic block with an only child; no value and no
node outside of the tree has changed. -/
theorem C61_simplify (h : Heap) (d : Obj) (hh : Holds h d) (hd : (ids d).Nodup) (fuel : Nat)
    (hf : 2 * PyTree.size d ≤ fuel) :
    ∃ d', Holds (simplifyLoop fuel h [(false, d.val.1)]) d' ∧ d'.val = d.val ∧ d'.fringe = d.fringe ∧
      keep d'.pre = keep d.pre ∧ «matches» (plain d') = «matches» (plain d) ∧ Irreducible d'.pre ∧
      (∀ n ∈ d'.pre, n.val.1 ∈ ids d) ∧
      (simplifyLoop fuel h [(false, d.val.1)]).val = h.val ∧
      ∀ i, i ∉ ids d → (simplifyLoop fuel h [(false, d.val.1)]).kids i = h.kids i := by
  obtain ⟨n, h', hn, hrun, hhold, hval, hkids⟩ := simplify_node d h hh hd
  have e : simplifyLoop fuel h [(false, d.val.1)] = h' := by
    have hfu : fuel = n + (fuel - n) := by omega
    rw [hfu, hrun]
    cases fuel - n <;> simp [simplifyLoop]
  rw [e]
  refine ⟨PyTree.simp d, hhold, simp_val d, simp_fringe d, simp_keep d, ?_, simp_irreducible d, simp_sub d,
    hval, hkids⟩
  unfold «matches»
  rw [terminals_eq, terminals_eq, plain_fringe, plain_fringe, simp_fringe]

/-- Partial: what is missing is that `verify` compares the whole string. For a tree in which exactly the
terminals have no children, `verify(string)` returns if and only if the tree matches a beginning of the
string. -/
theorem C61_verify_partial (t : Tree Val) (ht : Terminated t) (s : List Nat) :
    verify t s = true ↔ ∃ w r, «matches» t = some w ∧ s = w ++ r := by
  obtain ⟨bs, hb, hv⟩ := verify_node t ht
  unfold verify «matches»
  rw [preorder_eq, hv, terminals_eq, hb, Option.isSome_iff_exists]
  constructor
  · rintro ⟨r, hr⟩
    exact ⟨bs.flatten, r, rfl, dropPrefix_eq_some.1 hr⟩
  · rintro ⟨w, r, hw, hs⟩
    simp only [Option.map_some, Option.some.injEq] at hw
    subst hw
    exact ⟨r, dropPrefix_eq_some.2 hs⟩

/-- `verify` accepts a tree that stands for less than the string: bytes left over at the end are not
noticed. -/
theorem C61_verify_refuted : ∃ (t : Tree Val) (w s : List Nat), Terminated t ∧ «matches» t = some w ∧
    verify t s = true ∧ w ≠ s := by
  refine ⟨.node .start [.node (.term [97]) []], [97], [97, 98], ?_, by decide +kernel, by decide +kernel,
    by decide⟩
  intro n hn
  simp only [Tree.pre, Tree.preL, List.append_nil, List.mem_cons, List.not_mem_nil, or_false] at hn
  rcases hn with rfl | rfl <;> simp [Tree.children, Tree.val]

/-- A tree with a function, blocks in blocks and two terminals. -/
def PyTree.exTree : Tree Val :=
  .node .start [.node (.fn 1) [.node (.bb 2) [.node (.bb 3) [.node (.term [97]) [], .node (.term [98]) []]]]]

example : preorder PyTree.exTree = PyTree.exTree.pre ∧ (preorder PyTree.exTree).length = 6 :=
  ⟨(C61_traversal _).1, by decide +kernel⟩

example : clone PyTree.exTree = some PyTree.exTree := C61_clone _

example : «matches» PyTree.exTree = some [97, 98] :=
  (C61_matches _ _).2 ⟨[[97], [98]], rfl, rfl⟩

example : Terminated PyTree.exTree ∧ verify PyTree.exTree [97, 98] = true := by
  refine ⟨?_, by decide +kernel⟩
  intro n hn
  simp only [PyTree.exTree, Tree.pre, Tree.preL, List.append_nil, List.mem_cons, List.not_mem_nil,
    or_false, List.cons_append, List.nil_append] at hn
  rcases hn with rfl | rfl | rfl | rfl | rfl | rfl <;> simp [Tree.children, Tree.val]

/-- The same tree in memory, at the addresses 0 to 5. -/
def PyTree.exObj : Obj :=
  .node (0, .start) [.node (1, .fn 1) [.node (2, .bb 2) [.node (3, .bb 3)
    [.node (4, .term [97]) [], .node (5, .term [98]) []]]]]

def PyTree.exHeap : Heap :=
  ⟨fun n => ([.start, .fn 1, .bb 2, .bb 3, .term [97], .term [98]] : List Val).getD n .start,
   fun n => ([[1], [2], [3], [4, 5]] : List (List Nat)).getD n []⟩

/-- The block 2 is skipped, the block 3 with two children is not. -/
example : Holds PyTree.exHeap PyTree.exObj ∧ (ids PyTree.exObj).Nodup ∧
    (List.range 6).map (simplifyLoop 12 PyTree.exHeap [(false, 0)]).kids = [[1], [3], [3], [4, 5], [], []] := by
  refine ⟨?_, by decide +kernel, by decide +kernel⟩
  intro n hn
  simp only [PyTree.exObj, Tree.pre, Tree.preL, List.append_nil, List.mem_cons, List.not_mem_nil,
    or_false, List.cons_append, List.nil_append] at hn
  rcases hn with rfl | rfl | rfl | rfl | rfl | rfl <;> exact ⟨rfl, rfl⟩

end Verif
