import Verif.PyTree
/-
The parse tree of a trace, /repo/polytracker/parsing.py 254-303 (trace_to_tree), 309-388 (byte offsets of nodes,
verify_bounds), 391-410 (verify), 427-548 (deconflicting), 551-605 (trace_to_non_generalized_tree).

An `IntervalTree` (library) is given by what it holds at every offset: here the intervals of a tree never overlap
when they are looked at (`split_overlaps` and `merge_overlaps` make them disjoint). Data is the uid of the block
that used the byte last; no data (`None`) is -1, as which `_winners` reads it. The passes over the nodes are
given by recursion, the order of the nodes is that of C61; trees are values, since no node is in two places.
-/
namespace Verif.PyIntervals
open Verif.Spec Verif.PyTree

/-- What an IntervalTree holds at offsets 0, 1, …; nothing beyond the end. -/
abbrev Ivs := List (Option Int)

/-- `tree[i]` for an offset. -/
def get (iv : Ivs) (i : Nat) : Option Int := iv.getD i none

/-- `IntervalTree.begin()` (0 for an empty tree), used in `begin_offset`, parsing.py 321-325. -/
def begin_ (iv : Ivs) : Nat := ((List.range iv.length).find? fun i => (get iv i).isSome).getD 0

/-- `IntervalTree.end()` (0 for an empty tree), used in `end_offset`, parsing.py 327-331. -/
def end_ (iv : Ivs) : Nat := (((List.range iv.length).reverse.find? fun i => (get iv i).isSome).map (· + 1)).getD 0

/-- `IntervalTree.chop(b, e)`: removes the range; nothing for `e ≤ b` (no interval begins before `b` and contains it
in the calls here). -/
def chop (b e : Int) (iv : Ivs) : Ivs :=
  (List.range iv.length).map fun (i : Nat) => if b ≤ (i : Int) ∧ (i : Int) < e then none else get iv i

/-- The larger of two data. -/
def maxData : Option Int → Option Int → Option Int
  | some x, some y => some (max x y)
  | some x, none => some x
  | none, y => y

/-- `a |= b; a.split_overlaps(); a.merge_overlaps(data_reducer=max)`, parsing.py 509-513. -/
def join (a b : Ivs) : Ivs := (List.range (max a.length b.length)).map fun i => maxData (get a i) (get b i)

/-- A tree with the one interval from `b` to `e`. -/
def span (b e : Nat) (d : Int) : Ivs := (List.range e).map fun i => if b ≤ i then some d else none

/-- A node of a NonGeneralizedParseTree, parsing.py 309-319: value and intervals. -/
abbrev NTree := Tree (Val × Ivs)

/-- `_winners`, parsing.py 427-456, where the nodes overlap. -/
def winners (a b : Ivs) : List Int :=
  (List.range (end_ a + 1 - begin_ b)).map fun k =>
    (get a (begin_ b + k)).getD (-1) - (get b (begin_ b + k)).getD (-1)

/-- `badness` of a point, parsing.py 468-471. -/
def badness (ws : List Int) (p : Nat) : Nat :=
  ((List.range ws.length).filter fun i =>
    (decide (i < p) && decide (ws.getD i 0 < 0)) || (decide (p ≤ i) && decide (ws.getD i 0 > 0))).length

/-- The loop of `best_partition`, parsing.py 466-474; the state is `best_point` with `best_badness`. -/
def bestLoop (ws : List Int) : List Nat → Option (Nat × Nat) → Option (Nat × Nat)
  | [], best => best
  | p :: ps, none => bestLoop ws ps (some (p, badness ws p))
  | p :: ps, some (q, b) => bestLoop ws ps (if badness ws p < b then some (p, badness ws p) else some (q, b))

/-- `best_partition`, parsing.py 458-475, for nodes that overlap. -/
def bestPoint (a b : Ivs) : Nat :=
  ((bestLoop (winners a b) (List.range ((winners a b).length + 1)) none).map (·.1)).getD (end_ a)

/-- `deconflict_sibling`, parsing.py 492-498. -/
def deconflictSibling (a b : Ivs) : Ivs × Ivs :=
  if end_ a ≤ begin_ b then (a, b) else
  let q := begin_ b + bestPoint a b
  (chop q (end_ a) a, chop 0 q b)

/-- `best_subset` and `deconflict_parent`, parsing.py 477-490, 500-504; `none` is an exception. -/
def deconflictParent (parent iv : Ivs) : Option Ivs :=
  if end_ iv ≤ begin_ parent then none else
  let ws := winners iv parent
  let left := (ws.takeWhile (decide <| · < 0)).length
  if left = ws.length then none else
  let right := ws.length - (ws.reverse.takeWhile (decide <| · < 0)).length
  some (chop ((begin_ iv : Int) + left) ((end_ iv : Int) - right) iv)

/-- The intervals of a node. -/
def ivs (t : NTree) : Ivs := t.val.2

/-- The loop over adjacent children, parsing.py 507-508, from a child on. -/
def deconflictFrom (v : Val) (a : Ivs) (as : List NTree) : List NTree → List NTree
  | [] => [.node (v, a) as]
  | .node (w, b) bs :: ts =>
    .node (v, (deconflictSibling a b).1) as :: deconflictFrom w (deconflictSibling a b).2 bs ts

/-- The loop over adjacent children, parsing.py 507-508. -/
def deconflicts : List NTree → List NTree
  | [] => []
  | .node (v, a) as :: ts => deconflictFrom v a as ts

/-- `covered_input_bytes.overlaps(b, e)`. -/
def overlaps (c : Ivs) (b e : Nat) : Bool := (List.range e).any fun i => decide (b ≤ i) && (get c i).isSome

/-- The loop of `verify_bounds` over the children, parsing.py 345-365; `none` is the ValueError. -/
def coverLoop (check : Bool) : List NTree → Ivs → Option Ivs
  | [], c => some c
  | t :: ts, c =>
    if check && overlaps c (begin_ (ivs t)) (end_ (ivs t)) then none
    else coverLoop check ts (if begin_ (ivs t) < end_ (ivs t) then join c (span (begin_ (ivs t)) (end_ (ivs t)) 0) else c)

/-- After `merge_overlaps(strict=False)` there is at most one interval, parsing.py 379-380. -/
def gapless (c : Ivs) : Bool := (List.range (end_ c)).all fun i => decide (i < begin_ c) || (get c i).isSome

/-- `verify_bounds`, parsing.py 342-388: whether it returns. -/
def verifyBounds (overlap coverage missing : Bool) (t : NTree) : Bool :=
  match coverLoop overlap t.children [] with
  | none => false
  | some c =>
    (!coverage || t.children.isEmpty || (begin_ c == begin_ (ivs t) && end_ c == end_ (ivs t))) &&
    (!missing || t.children.isEmpty || gapless c)

/-- `bottom_up_pass`, parsing.py 506-518; `dbg` is `__debug__`. -/
def bottomUpPass (dbg : Bool) (v : Val) (iv : Ivs) (cs : List NTree) : Option NTree :=
  let cs := deconflicts (cs.filter fun c => begin_ (ivs c) < end_ (ivs c))
  let t : NTree := .node (v, cs.foldl (fun iv c => join iv (ivs c)) iv) cs
  if dbg && !verifyBounds true false false t then none else some t

mutual
/-- The first loop of `trace_to_non_generalized_tree`, parsing.py 561-570; `n` is the length of the input. An interval of
length 0 raises ValueError. -/
def bottomUp (dbg : Bool) (n : Nat) : NTree → Option NTree
  | .node (v, iv) cs =>
    match bottomUps dbg n cs with
    | none => none
    | some cs =>
      if v = .start then
        if n = 0 then none else bottomUpPass dbg v (join iv (span 0 n 0)) cs
      else bottomUpPass dbg v iv cs
def bottomUps (dbg : Bool) (n : Nat) : List NTree → Option (List NTree)
  | [] => some []
  | t :: ts =>
    match bottomUp dbg n t with
    | none => none
    | some t => (bottomUps dbg n ts).map (t :: ·)
end

/-- `inputstr[x:y]`. -/
def slice (input : List Nat) (x y : Nat) : List Nat := (input.take y).drop x

/-- A terminal, parsing.py 590-593, 597-598. -/
def terminal (input : List Nat) (x y : Nat) : NTree := .node (.term (slice input x y), span x y (-1)) []

/-- The loop of `top_down_pass` for one child, parsing.py 528-535; `parent` are the new intervals of the node. -/
def shrink (b e : Nat) (parent iv : Ivs) : Option Ivs :=
  let iv := chop 0 b iv
  let iv := if end_ iv > e then chop e (end_ iv) iv else iv
  if begin_ iv < end_ iv then deconflictParent parent iv else some iv

mutual
/-- The second loop, parsing.py 572-600: `top_down_pass` (520-535) of a node whose intervals are now `iv`, and its new
children. -/
def topDown (dbg : Bool) (input : List Nat) : NTree → Ivs → Option NTree
  | .node (v, _) cs, iv =>
    if end_ iv ≤ begin_ iv then
      -- `assert new_children`
      if dbg then none else some (.node (v, iv) [])
    else
      (topDowns dbg input (begin_ iv) (end_ iv) cs (begin_ iv)).map
        (.node (v, span (begin_ iv) (end_ iv) (-1)))
/-- The new children of a node from `b` to `e`, `last` is `last_end`. -/
def topDowns (dbg : Bool) (input : List Nat) (b e : Nat) : List NTree → Nat → Option (List NTree)
  | [], last => some (if last < e then [terminal input last e] else [])
  | .node (v, iv) cs :: ts, last =>
    match shrink b e (span b e (-1)) iv with
    | none => none
    | some iv' =>
      if end_ iv' ≤ begin_ iv' then topDowns dbg input b e ts last
      else
        match topDown dbg input (.node (v, iv) cs) iv', topDowns dbg input b e ts (end_ iv') with
        | some t, some ts' =>
          some ((if last < begin_ iv' then [terminal input last (begin_ iv')] else []) ++ t :: ts')
        | _, _ => none
end

mutual
/-- A tree without its intervals. -/
def plain : NTree → Tree Val
  | .node v cs => .node v.1 (plainL cs)
def plainL : List NTree → List (Tree Val)
  | [] => []
  | t :: ts => plain t :: plainL ts
end

/-- `verify`, parsing.py 391-410. -/
def verify (t : NTree) (input : List Nat) : Bool :=
  t.pre.all (verifyBounds true true true) && PyTree.verify (plain t) input

/-- An event of a trace: the invocation of a function (and whether it `touched_taint`), whose blocks are its
children, and the entry of a basic block with its uid and the offsets of the bytes it used, whose child is the
function it called, if any. -/
inductive TEv where
  | fn (name : Nat) (touched : Bool)
  | bb (name uid : Nat) (offs : List Nat)
  deriving DecidableEq

/-- `IntervalTree(self._consumed_intervals())`, parsing.py 316, 537-541. -/
def consumed (uid : Nat) (offs : List Nat) : Ivs :=
  (List.range (offs.foldr max 0 + 1)).map fun i => if i ∈ offs then some (uid : Int) else none

mutual
/-- The children of a function in `trace_to_tree`, parsing.py 283-301, without terminals: its blocks, each followed by the
function it called, if that touched taint. -/
def blocks : List (Tree TEv) → List NTree
  | [] => []
  | .node (.bb name uid offs) fs :: ts => .node (.bb name, consumed uid offs) [] :: (called fs ++ blocks ts)
  | .node (.fn _ _) _ :: ts => blocks ts
def called : List (Tree TEv) → List NTree
  | [] => []
  | .node (.fn name touched) bs :: _ => if touched then [.node (.fn name, []) (blocks bs)] else []
  | .node (.bb _ _ _) _ :: _ => []
end

/-- `trace_to_tree`, parsing.py 254-303, with `include_terminals=False`; `entry` is the invocation of the entry point,
by its name and its blocks. -/
def traceTree (entry : Nat) (bs : List (Tree TEv)) : NTree :=
  .node (.start, []) [.node (.fn entry, []) (blocks bs)]

/-- `trace_to_non_generalized_tree`, parsing.py 551-605, of a trace with the contents of its inputs; `none` is an
exception. -/
def nonGeneralized (dbg : Bool) (inputs : List (List Nat)) (entry : Nat) (bs : List (Tree TEv)) : Option NTree :=
  match inputs with
  | [input] =>
    match bottomUp dbg input.length (traceTree entry bs) with
    | none => none
    | some t =>
      match topDown dbg input t (ivs t) with
      | none => none
      | some t => if dbg && !verify t input then none else some t
  | _ => none

end Verif.PyIntervals
