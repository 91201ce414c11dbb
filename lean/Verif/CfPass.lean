import Verif.Spec.Decisions
/-
Model of the passes that insert reports, /repo/polytracker/src/passes/tainted_control_flow.cpp 76-188 and
/repo/polytracker/src/passes/taint_tracking.cpp 72-131, on the language of `Verif.Spec.Ir`. LLVM names values
by pointers to instructions; here values are named by positions, which move when instructions are inserted,
so the pass also renames. Not modelled: vectors (skipped or not handled, tainted_control_flow.cpp 133-136 and
taint_tracking.cpp 75-78), the conversions to 64 bits (see `Verif.Branch`, C31), the argv call (taint_tracking.cpp 32-67).
-/
namespace Verif
namespace CfPass
open Ir

/-- What tainted_control_flow.cpp reports about the function with id `f` (FnIds: ids are given in the order
of first use; here the position in the module): indices, branches, switches, selects (90-145),
entering (165-171) and leaving (173-176). -/
def controlFlow (f : Nat) (logged : Nat → Nat → Nat → Bool) (cond : Nat → Bool) : Marks :=
  { hk := .taken f, enter := some (.enter f), leave := some (.leave f), logged, cond }

/-- What taint_tracking.cpp reports: indices, branches and switches (87-105). -/
def taintTracking (logged : Nat → Nat → Nat → Bool) (cond : Nat → Bool) : Marks :=
  { hk := .noted, enter := none, leave := none, logged, cond }

/-- The number of calls inserted before instruction `j` of block `b`, or before the end of the block. -/
def extra (m : Marks) (b j : Nat) (t : Term) : Option Instr → Nat
  | some (.op _ args) => (decisions (m.logged b j) 0 args).length
  | some (.select _ _ _) => if m.logged b j 0 then 1 else 0
  | some _ => 0
  | none =>
    match t with
    | .br _ _ _ => if m.cond b then 1 else 0
    | .ret _ => if m.leave.isSome then 1 else 0
    | .unreachable => 0

/-- The position, after the pass, of the first thing inserted before instruction `j` of block `b`. -/
def startAt (m : Marks) (b : Nat) (B : Block) : Nat → Nat
  | 0 => if b = 0 ∧ m.enter.isSome then 1 else 0
  | j + 1 => startAt m b B j + extra m b j B.term B.body[j]? + 1

/-- The position of instruction `j` itself after the pass. -/
def posOf (m : Marks) (b : Nat) (B : Block) (j : Nat) : Nat :=
  startAt m b B j + extra m b j B.term B.body[j]?

/-- The new name of a value. -/
def renReg (m : Marks) (F : Func) : Reg → Reg
  | .phi b k => .phi b k
  | .ins b j =>
    match F.blocks[b]? with
    | some B => .ins b (posOf m b B j)
    | none => .ins b j

/-- The new name of an operand. -/
def renOpd (m : Marks) (F : Func) : Opd → Opd
  | .reg r => .reg (renReg m F r)
  | o => o

/-- The value used instead of a decision that was reported by the call at position `k` of block `b`:
tainted_control_flow.cpp replaces it by the result of the call (102, 118, 129, 144), taint_tracking.cpp
leaves it. -/
def instead (m : Marks) (F : Func) (b k : Nat) (o : Opd) : Opd :=
  if m.hk.gives then .reg (.ins b k) else renOpd m F o

/-- The loop over the indices of an address computation, tainted_control_flow.cpp 93-103 and
taint_tracking.cpp 88-93: the calls inserted from position `k` on and the operands afterwards. -/
def tap (m : Marks) (F : Func) (b : Nat) (lg : Nat → Bool) : Nat → Nat → List Opd → List Instr × List Opd
  | _, _, [] => ([], [])
  | k, i, o :: os =>
    if lg i then
      let r := tap m F b lg (k + 1) (i + 1) os
      (.hook m.hk (renOpd m F o) :: r.1, instead m F b k o :: r.2)
    else
      let r := tap m F b lg k (i + 1) os
      (r.1, renOpd m F o :: r.2)

/-- Renaming in an instruction. -/
def renInstr (ρ : Opd → Opd) : Instr → Instr
  | .op f args => .op f (args.map ρ)
  | .untracked f args => .untracked f (args.map ρ)
  | .load a n => .load (ρ a) n
  | .store a v n => .store (ρ a) (ρ v) n
  | .select c t e => .select (ρ c) (ρ t) (ρ e)
  | .call void f args => .call void (ρ f) (args.map ρ)
  | .alloca n => .alloca n
  | .getVar k => .getVar k
  | .setVar k v => .setVar k (ρ v)
  | .getc => .getc
  | .read a n => .read (ρ a) (ρ n)
  | .write a n => .write (ρ a) (ρ n)
  | .putc v => .putc (ρ v)
  | .memset d c n => .memset (ρ d) (ρ c) (ρ n)
  | .memcpy move d s n => .memcpy move (ρ d) (ρ s) (ρ n)
  | .rmw f a args n => .rmw f (ρ a) (args.map ρ) n
  | .hook k v => .hook k (ρ v)

/-- Visiting instruction `j` of block `b`: the inserted calls, from position `k` on, and the instruction.
Address computations: tainted_control_flow.cpp 90-104; selects: 132-145. -/
def visit (m : Marks) (F : Func) (b j k : Nat) : Instr → List Instr × Instr
  | .op f args =>
    let r := tap m F b (m.logged b j) k 0 args
    (r.1, .op f r.2)
  | .select c t e =>
    if m.logged b j 0 then
      ([.hook m.hk (renOpd m F c)], .select (instead m F b k c) (renOpd m F t) (renOpd m F e))
    else ([], .select (renOpd m F c) (renOpd m F t) (renOpd m F e))
  | I => ([], renInstr (renOpd m F) I)

/-- Visiting the end of a block: branches and switches (tainted_control_flow.cpp 106-130), returns
(173-176). -/
def visitTerm (m : Marks) (F : Func) (b k : Nat) : Term → List Instr × Term
  | .br c f ts =>
    if m.cond b then ([.hook m.hk (renOpd m F c)], .br (instead m F b k c) f ts)
    else ([], .br (renOpd m F c) f ts)
  | .ret v =>
    ((match m.leave with
      | some h => [.hook h (.const 0)]
      | none => []), .ret (v.map (renOpd m F)))
  | .unreachable => ([], .unreachable)

/-- Visiting the instructions of a block from number `j` on, and its end: the instructions afterwards. -/
def emit (m : Marks) (F : Func) (b : Nat) (B : Block) : Nat → List Instr → List Instr
  | j, [] => (visitTerm m F b (startAt m b B j) B.term).1
  | j, I :: Is =>
    let r := visit m F b j (startAt m b B j) I
    r.1 ++ r.2 :: emit m F b B (j + 1) Is

/-- The call inserted at the start of the entry block, tainted_control_flow.cpp 165-171. -/
def prefixOf (m : Marks) (b : Nat) : List Instr :=
  match m.enter with
  | some h => if b = 0 then [.hook h (.const 0)] else []
  | none => []

/-- A block after the pass. -/
def passBlock (m : Marks) (F : Func) (b : Nat) (B : Block) : Block where
  phis := B.phis.map (fun inc => inc.map (fun x => (x.1, renOpd m F x.2)))
  body := prefixOf m b ++ emit m F b B 0 B.body
  term := (visitTerm m F b (startAt m b B B.body.length) B.term).2

/-- A function after the pass. -/
def passFunc (m : Marks) (F : Func) : Func where
  nparams := F.nparams
  void := F.void
  blocks := F.blocks.mapIdx (fun b B => passBlock m F b B)

/-- `run`, tainted_control_flow.cpp 178-188, taint_tracking.cpp 114-131. -/
def pass (C : Nat → Marks) (P : Prog) : Prog := P.mapIdx (fun f F => passFunc (C f) F)

end CfPass
end Verif
