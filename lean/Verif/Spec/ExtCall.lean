/-
Calls of library functions on labelled values: what is meant, independently of how the labels travel.
-/
namespace Verif.Spec

/-- Memory with a label for every byte. -/
structure LMem where
  byte : Nat → Nat
  label : Nat → Nat

/-- A function of the program: takes labelled values, returns one, may change memory. -/
abbrev LFun := List (Nat × Nat) → LMem → (Nat × Nat) × LMem

/-- What the replacement of a library function does once it has been called: it changes memory, calls functions
of the program (given by address) on labelled values, and returns a value with a label, or forgets the
label. -/
inductive WCode where
  | ret (v : Nat) (l : Option Nat)
  | mem (f : LMem → LMem) (k : WCode)
  | look (f : LMem → Nat) (k : Nat → WCode)
  | call (p : Nat) (args : List (Nat × Nat)) (k : Nat → Nat → WCode)

/-- Its meaning: `fns` are the functions of the program. -/
def WCode.meaning (fns : Nat → LFun) : WCode → LMem → (Nat × Option Nat) × LMem
  | .ret v l, m => ((v, l), m)
  | .mem f k, m => k.meaning fns (f m)
  | .look f k, m => (k (f m)).meaning fns m
  | .call p args k, m =>
    let r := fns p args m
    (k r.1.1 r.1.2).meaning fns r.2

/-- All calls are of functions with at most `n` parameters. -/
def WCode.Within (n : Nat) : WCode → Prop
  | .ret _ _ => True
  | .mem _ k => k.Within n
  | .look _ k => ∀ v, (k v).Within n
  | .call _ args k => args.length ≤ n ∧ ∀ v l, (k v l).Within n

/-- The labelled arguments of a call, the fixed and the variable ones. -/
structure LArgs where
  fixed : List (Nat × Nat)
  rest : List (Nat × Nat)

end Verif.Spec
