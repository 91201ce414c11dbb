import Verif.Spec.Ir
/-
Programs with exceptions: an untracked call (a library function such as `__cxa_throw`) may throw instead of
returning. The calls are left one after the other until one is found that has a landing block, where the program
goes on.

An `invoke` is a `call` or an `untracked` call that is the last instruction of its block; the end of the block lists
both where it goes on normally and its landing block. There the place of the result of the call holds the value of
the `landingpad` instruction, which depends on nothing. Going on with an exception (`resume`) is throwing again.
-/
namespace Verif
namespace Ir

/-- The landing blocks: that of the call at the end of a block of a function. -/
abbrev Lands := Nat → Nat → Option Nat

/-- Landing blocks are among the blocks where the block of the call can go to. -/
def LandsOk (P : Prog) (lands : Lands) : Prop :=
  ∀ (fn : Nat) (F : Func) (b : Nat) (B : Block) (t : Nat), P[fn]? = some F → F.blocks[b]? = some B →
    lands fn b = some t → t ∈ B.succs

/-- Instruction `j` of block `b` of function `fn`. -/
def instrAt (P : Prog) (fn b j : Nat) : Option Instr :=
  P[fn]?.bind fun F => F.blocks[b]?.bind fun B => B.body[j]?

/-- The landing block of instruction `j` of block `b` of function `fn`, if it is an `invoke`. -/
def landing (P : Prog) (lands : Lands) (fn b j : Nat) : Option Nat :=
  P[fn]?.bind fun F => F.blocks[b]?.bind fun B => if j + 1 = B.body.length then lands fn b else none

variable {τ : Type}

/-- Leaving calls until one has a landing block. If there is none, the process is stopped. -/
def unroll (A : Alg τ) (P : Prog) (lands : Lands) (v : Nat) (g : Glob τ) : List (Frame τ) → Out τ
  | [] => .stuck
  | fr :: rest =>
    match landing P lands fr.fn fr.blk fr.idx, P[fr.fn]? with
    | some t, some F => jump A F (fr.set (v, A.zero)) rest g t
    | _, _ => unroll A P lands v { g with sp := fr.sp } rest

/-- An untracked call throws; the landing block gets the value `v`. -/
def raise (A : Alg τ) (P : Prog) (lands : Lands) (v : Nat) (s : State τ) : Out τ :=
  match s.frames with
  | [] => .stuck
  | fr :: _ =>
    match instrAt P fr.fn fr.blk fr.idx with
    | some (.untracked _ _) => unroll A P lands v s.glob s.frames
    | _ => .stuck

/-- What may happen next: an ordinary step, or an exception. -/
def xstep (A : Alg τ) (P : Prog) (lands : Lands) (inp : World) (s : State τ) : Option Nat → Out τ
  | none => step A P inp s
  | some v => raise A P lands v s

/-- A run with exceptions. -/
def xrun (A : Alg τ) (P : Prog) (lands : Lands) (inp : World) : List (Option Nat) → State τ → Out τ
  | [], s => .next s
  | a :: as, s =>
    match xstep A P lands inp s a with
    | .next s' => xrun A P lands inp as s'
    | o => o

/-- How many combinations of taints it needs at most. -/
def xcost (A : Alg τ) (P : Prog) (lands : Lands) (inp : World) : List (Option Nat) → State τ → Nat
  | [], _ => 0
  | a :: as, s =>
    (if a = none then s.cost P inp else 0) +
    match xstep A P lands inp s a with
    | .next s' => xcost A P lands inp as s'
    | _ => 0

end Ir
end Verif
