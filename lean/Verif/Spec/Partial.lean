import Verif.Spec.Grammar
/-
Specification: partial parse trees of a grammar. Independent of the model of grammars.py.
A tree for a name has one child for the rule that was chosen, and below it one tree per symbol of the rule.
-/
namespace Verif.Spec

/-- What stands at a node of a parse tree: a name, a rule, or a string. -/
inductive PVal where
  | prod (name : Nat)
  | rule (seq : List Sym)
  | term (bytes : List Nat)
  deriving DecidableEq, Repr

/-- The leaf for a string. -/
def PVal.leaf (b : List Nat) : Tree PVal := .node (.term b) []

/-- The tree for a name and a rule of it, with the trees for the symbols of the rule. -/
def PVal.tree (A : Nat) (r : List Sym) (ts : List (Tree PVal)) : Tree PVal := .node (.prod A) [.node (.rule r) ts]

mutual
/-- `Full G s t w`: `t` is a complete parse tree for the symbol `s` and the string `w`. A rule without
symbols is drawn with a leaf for the empty string. -/
inductive Full (G : Cfg) : Sym → Tree PVal → List Nat → Prop
  | term {b} : Full G (.term b) (PVal.leaf b) b
  | none {A} : [] ∈ G A → Full G (.nt A) (PVal.tree A [] [PVal.leaf []]) []
  | some {A s r ts w} : s :: r ∈ G A → Fulls G (s :: r) ts w → Full G (.nt A) (PVal.tree A (s :: r) ts) w
/-- Complete parse trees for a sequence of symbols. -/
inductive Fulls (G : Cfg) : List Sym → List (Tree PVal) → List Nat → Prop
  | nil : Fulls G [] [] []
  | cons {s t u ss ts w} : Full G s t u → Fulls G ss ts w → Fulls G (s :: ss) (t :: ts) (u ++ w)
end

/-- `Cut G s t w post`: `t` is what is left of a parse tree for the symbol `s` when it is cut off behind a
leaf with a string that is not empty: everything left of the way to this leaf is complete, everything
right of it is missing. `w` is the string up to the cut, `post` are the symbols missing in the topmost
rule. -/
inductive Cut (G : Cfg) : Sym → Tree PVal → List Nat → List Sym → Prop
  | term {b} : b ≠ [] → Cut G (.term b) (PVal.leaf b) b []
  | nt {A pre s post ts t u w post'} : pre ++ s :: post ∈ G A → Fulls G pre ts u → Cut G s t w post' →
      Cut G (.nt A) (PVal.tree A (pre ++ s :: post) (ts ++ [t])) (u ++ w) post

/-- `Begins G s w d`: expanding names from the left, the sequence `s` becomes the string `w` followed by the
symbols `d`. -/
inductive Begins (G : Cfg) : List Sym → List Nat → List Sym → Prop
  | stop {s} : Begins G s [] s
  | term {b s w d} : Begins G s w d → Begins G (.term b :: s) (b ++ w) d
  | nt {A r s w d} : r ∈ G A → Begins G (r ++ s) w d → Begins G (.nt A :: s) w d

/-- The name `a` can be expanded, from the left, to something that begins with the name `b`, in one step of
choosing a rule of `a` and letting what stands before `b` derive the empty string. -/
def Cfg.LeftCalls (G : Cfg) (a b : Nat) : Prop := ∃ pre post, pre ++ .nt b :: post ∈ G a ∧ Derives G pre []

end Verif.Spec
