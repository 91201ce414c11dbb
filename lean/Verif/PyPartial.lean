import Verif.Spec.Partial
import Verif.PyGrammar
/-
Model of `Production.partial_match` and `Grammar.find_partial_trees`, /repo/polytracker/grammars.py 172-253,
410-422, 994-1001. A generator is modelled by the list of what it yields, and how this ends; what it has
yielded before it goes on for ever or raises is what the model yields for any number of steps. A node for a
Production is given by its name, a node for a Rule by its sequence. Python's recursion limit is not modelled.
-/
namespace Verif.PyPartial
open Verif.Spec Verif.PyGrammar

/-- How an enumeration ends: regularly, with a KeyError, with an AttributeError (`None.partial_match`), or
not within the given number of steps. -/
inductive Status where
  | done | key | attribute | running
  deriving DecidableEq, Repr

/-- `PartialMatch`, grammars.py 410-422. -/
structure PMatch where
  tree : Tree PVal
  syms : List Sym
  rem : List Nat

/-- What a generator yields, and how it ends. -/
abbrev Out := List PMatch × Status

/-- One generator after the other: `for rule in self.rules`, grammars.py 181. -/
def Out.seq : List Out → Out
  | [] => ([], .done)
  | o :: os => if o.2 = .done then (o.1 ++ (Out.seq os).1, (Out.seq os).2) else o

/-- An element of `stack`, grammars.py 191-193. -/
structure Item where
  rem : List Nat
  trees : List (Tree PVal)
  syms : List Sym

/-- `if not trees: trees = [ImmutableParseTree(Terminal(""))]`, grammars.py 199-200. -/
def orEmpty (ts : List (Tree PVal)) : List (Tree PVal) := if ts = [] then [PVal.leaf []] else ts

/-- The body of `for match in …` for one match, grammars.py 234-252: what is yielded, and what is pushed.
`it.syms` begins with the name; `ss` is `remaining_symbols[1:]`. -/
def onMatch (A : Nat) (r : List Sym) (it : Item) (ss : List Sym) (m : PMatch) : List PMatch × List Item :=
  if m.rem = [] ∨ (m.syms = [] ∧ ss.length + 1 < 2) then
    ([⟨PVal.tree A r (it.trees ++ [m.tree]), ss, m.rem⟩], [])
  else ([], [⟨m.rem, it.trees ++ [m.tree], m.syms ++ ss⟩])

mutual
/-- `Production.partial_match`, grammars.py 172-253. -/
def pm (σ : Iter) (g : Gram) : Nat → Nat → List Nat → Out
  | 0, _, _ => ([], .running)
  | f + 1, A, s =>
    match g.prod A with
    | none => ([], .key)
    | some p =>
      if p.rules = [] ∨ s = [] then ([⟨.node (.prod A) [], [], s⟩], .done)
      else Out.seq ((σ.rules p.rules).map (fun r => loop σ g f A r.seq [⟨s, [], r.seq⟩]))

/-- `while stack`, grammars.py 194-252, for one rule; the top of the stack is first. -/
def loop (σ : Iter) (g : Gram) : Nat → Nat → List Sym → List Item → Out
  | 0, _, _, _ => ([], .running)
  | _ + 1, _, _, [] => ([], .done)
  | f + 1, A, r, it :: st =>
    match it.syms with
    | [] =>
      let o := loop σ g f A r st
      (⟨PVal.tree A r (orEmpty it.trees), [], it.rem⟩ :: o.1, o.2)
    | x :: ss =>
      if it.rem = [] then
        let o := loop σ g f A r st
        (⟨PVal.tree A r (orEmpty it.trees), x :: ss, it.rem⟩ :: o.1, o.2)
      else
        match x with
        | .term b =>
          if it.rem = b then
            let o := loop σ g f A r st
            (⟨PVal.tree A r (it.trees ++ [PVal.leaf b]), ss, []⟩ :: o.1, o.2)
          else if b <+: it.rem then loop σ g f A r (⟨it.rem.drop b.length, it.trees ++ [PVal.leaf b], ss⟩ :: st)
          else loop σ g f A r st
        | .nt B =>
          let q := pm σ g f B it.rem
          let ys := q.1.flatMap (fun m => (onMatch A r it ss m).1)
          if q.2 = .done then
            let o := loop σ g f A r ((q.1.flatMap (fun m => (onMatch A r it ss m).2)).reverse ++ st)
            (ys ++ o.1, o.2)
          else (ys, q.2)
end

/-- `Grammar.find_partial_trees`, grammars.py 994-1001. -/
def findTrees (σ : Iter) (g : Gram) (f : Nat) (s : List Nat) (start : Option Nat) : List (Tree PVal) × Status :=
  match (match start with | some a => some a | none => g.start) with
  | none => ([], .attribute)
  | some a => ((pm σ g f a s).1.map (·.tree), (pm σ g f a s).2)

end Verif.PyPartial
