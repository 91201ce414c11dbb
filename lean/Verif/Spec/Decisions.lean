import Verif.Spec.Ir
/-
Specification: what the reports of a program should say, given which of its operands are decisions. The
reports are read off the steps of the original program; nothing here refers to how a pass inserts them.
-/
namespace Verif
namespace Ir

/-- What is to be reported about one function. `hk` is the report for a decision; `enter` and `leave` the
reports for entering and leaving the function, if wanted. `logged b j i`: operand `i` of instruction `j` of
block `b` is a decision (an index of an address computation, or with `i = 0` the condition of a select).
`cond b`: block `b` ends with a conditional branch or a switch. -/
structure Marks where
  hk : Hook
  enter : Option Hook
  leave : Option Hook
  logged : Nat → Nat → Nat → Bool
  cond : Nat → Bool

variable {τ : Type}

/-- A report of an operand. -/
def Frame.report (A : Alg τ) (fr : Frame τ) (k : Hook) (o : Opd) : Hook × Nat × τ :=
  (k, (fr.get A o).1, if k.seen then (fr.get A o).2 else A.zero)

/-- A report without operand. -/
def plainReport (A : Alg τ) (k : Option Hook) : List (Hook × Nat × τ) :=
  match k with
  | none => []
  | some k => [(k, 0, A.zero)]

/-- The operands that are decisions, in order. -/
def decisions (lg : Nat → Bool) : Nat → List Opd → List Opd
  | _, [] => []
  | i, o :: os => if lg i then o :: decisions lg (i + 1) os else decisions lg (i + 1) os

/-- What the next step of the program is to report. Calling a function reports that it is entered. -/
def observe (A : Alg τ) (C : Nat → Marks) (P : Prog) (s : State τ) : List (Hook × Nat × τ) :=
  match s.frames with
  | [] => []
  | fr :: _ =>
    match P[fr.fn]? with
    | none => []
    | some F =>
      match F.blocks[fr.blk]? with
      | none => []
      | some B =>
        let m := C fr.fn
        match B.body[fr.idx]? with
        | some (.op _ args) => (decisions (m.logged fr.blk fr.idx) 0 args).map (fr.report A m.hk)
        | some (.select c _ _) => if m.logged fr.blk fr.idx 0 then [fr.report A m.hk c] else []
        | some (.call _ f _) => plainReport A (C (fr.get A f).1).enter
        | some (.hook k v) => [fr.report A k v]
        | some _ => []
        | none =>
          match B.term with
          | .br c _ _ => if m.cond fr.blk then [fr.report A m.hk c] else []
          | .ret _ => plainReport A m.leave
          | .unreachable => []

/-- What at most `n` steps are to report. -/
def observeRun (A : Alg τ) (C : Nat → Marks) (P : Prog) (inp : World) :
    Nat → State τ → List (Hook × Nat × τ)
  | 0, _ => []
  | n + 1, s =>
    observe A C P s ++
    match step A P inp s with
    | .next s' => observeRun A C P inp n s'
    | _ => []

/-- What a run from the start of function `fn` is to report: the function is entered first. -/
def observeFrom (A : Alg τ) (C : Nat → Marks) (P : Prog) (inp : World) (fn n : Nat) (s : State τ) :
    List (Hook × Nat × τ) :=
  plainReport A (C fn).enter ++ observeRun A C P inp n s

/-- Following the calls with a stack (innermost first): entering pushes, leaving must be of the innermost
function, and decisions must be reported for the innermost function. `none`: the reports are not in
order. -/
def follow : List Hook → List Nat → Option (List Nat)
  | [], st => some st
  | .enter f :: ks, st => follow ks (f :: st)
  | .leave f :: ks, st =>
    match st with
    | [] => none
    | g :: st => if g = f then follow ks st else none
  | .taken f :: ks, st => if st.head? = some f then follow ks st else none
  | .noted :: ks, st => follow ks st

end Ir
end Verif
