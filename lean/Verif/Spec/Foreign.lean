import Verif.Spec.Unwind
/-
Programs whose memory is also written by code that is not part of the program text: library functions called by it,
the calling convention, which puts the variable arguments of a call in memory, `va_start`, which fills in a
`va_list`. Such code may write any byte at any moment; what the byte depends on is said with the write.
-/
namespace Verif
namespace Ir

/-- What a byte written by foreign code depends on: nothing, an operand of the function being executed (such as a
variable argument), or a byte of memory (it is a copy of it). -/
inductive Origin where
  | nothing
  | opd (o : Opd)
  | byte (a : Nat)
  deriving DecidableEq, Repr

/-- What may happen next: an ordinary step; a library call throws; foreign code writes byte `x` at address `a`. -/
inductive Deed where
  | go
  | throws (v : Nat)
  | writes (a x : Nat) (o : Origin)
  deriving DecidableEq, Repr

variable {τ : Type}

/-- The taint of what is written. -/
def Origin.taint (A : Alg τ) (s : State τ) : Origin → τ
  | .nothing => A.zero
  | .byte a => s.glob.tmem a
  | .opd o =>
    match s.frames with
    | [] => A.zero
    | fr :: _ => (fr.get A o).2

/-- One action. -/
def wstep (A : Alg τ) (P : Prog) (lands : Lands) (inp : World) (s : State τ) : Deed → Out τ
  | .go => step A P inp s
  | .throws v => raise A P lands v s
  | .writes a x o =>
    if CanAccess a 1 then
      .next ⟨s.frames, { s.glob with mem := putInt s.glob.mem a 1 x, tmem := putAll s.glob.tmem a 1 (o.taint A s) }⟩
    else .stuck

/-- A run with exceptions and foreign code. -/
def wrun (A : Alg τ) (P : Prog) (lands : Lands) (inp : World) : List Deed → State τ → Out τ
  | [], s => .next s
  | a :: as, s =>
    match wstep A P lands inp s a with
    | .next s' => wrun A P lands inp as s'
    | o => o

/-- How many combinations of taints it needs at most. -/
def wcost (A : Alg τ) (P : Prog) (lands : Lands) (inp : World) : List Deed → State τ → Nat
  | [], _ => 0
  | a :: as, s =>
    (if a = .go then s.cost P inp else 0) +
    match wstep A P lands inp s a with
    | .next s' => wcost A P lands inp as s'
    | _ => 0

/-- The action as if what foreign code writes depended on what the byte written over depended on. -/
def Deed.blind : Deed → Deed
  | .writes a x _ => .writes a x (.byte a)
  | b => b

/-- Every byte that foreign code writes depends on what the byte there before depended on (for instance: both
on nothing). -/
def Agree (A : Alg τ) (P : Prog) (lands : Lands) (inp : World) : List Deed → State τ → Prop
  | [], _ => True
  | b :: bs, s =>
    (∀ a x o, b = .writes a x o → o.taint A s = s.glob.tmem a) ∧
    ∀ s', wstep A P lands inp s b = .next s' → Agree A P lands inp bs s'

end Ir
end Verif
