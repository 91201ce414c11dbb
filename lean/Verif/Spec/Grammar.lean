/-
Specification: context-free grammars over bytes and the strings they derive, and ordered trees.
Independent of the model of grammars.py and parsing.py.
-/
namespace Verif.Spec

/-- A grammar symbol: a string of bytes, or the name of a production. Names are numbers; only their
equality matters. -/
inductive Sym where
  | term (bytes : List Nat)
  | nt (name : Nat)
  deriving DecidableEq, Repr

/-- A context-free grammar: the alternatives of every name. -/
abbrev Cfg := Nat → List (List Sym)

/-- `Derives G s w`: the sequence of symbols `s` derives the string `w`. -/
inductive Derives (G : Cfg) : List Sym → List Nat → Prop
  | nil : Derives G [] []
  | term {b s w} : Derives G s w → Derives G (.term b :: s) (b ++ w)
  | nt {A r s u w} : r ∈ G A → Derives G r u → Derives G s w → Derives G (.nt A :: s) (u ++ w)

/-- `w` is in the language of the name `A`. -/
def Cfg.Lang (G : Cfg) (A : Nat) (w : List Nat) : Prop := Derives G [.nt A] w

/-- The name `b` can occur in what the name `a` is expanded to. -/
inductive Cfg.Reaches (G : Cfg) (a : Nat) : Nat → Prop
  | refl : Reaches G a a
  | step {b c r} : Reaches G a b → r ∈ G b → .nt c ∈ r → Reaches G a c

/-- A terminal can occur in what the name `a` is expanded to. -/
def Cfg.LeadsToTerminal (G : Cfg) (a : Nat) : Prop := ∃ c r b, G.Reaches a c ∧ r ∈ G c ∧ .term b ∈ r

/-- An ordered tree. -/
inductive Tree (V : Type) where
  | node (val : V) (children : List (Tree V))

namespace Tree
variable {V : Type}

/-- The value at the root. -/
def val : Tree V → V
  | .node v _ => v

/-- The subtrees of the root. -/
def children : Tree V → List (Tree V)
  | .node _ cs => cs

mutual
/-- All subtrees, a node before its children, from left to right. -/
def pre : Tree V → List (Tree V)
  | .node v cs => .node v cs :: preL cs
def preL : List (Tree V) → List (Tree V)
  | [] => []
  | t :: ts => pre t ++ preL ts
end

mutual
/-- All subtrees, the children before their node, from left to right. -/
def post : Tree V → List (Tree V)
  | .node v cs => postL cs ++ [.node v cs]
def postL : List (Tree V) → List (Tree V)
  | [] => []
  | t :: ts => post t ++ postL ts
end

mutual
/-- The values of the nodes without children, from left to right. -/
def fringe : Tree V → List V
  | .node v [] => [v]
  | .node _ (c :: cs) => fringe c ++ fringeL cs
def fringeL : List (Tree V) → List V
  | [] => []
  | t :: ts => fringe t ++ fringeL ts
end

end Tree
end Verif.Spec
