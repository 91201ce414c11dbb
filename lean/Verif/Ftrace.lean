import Verif.Linked
/-
Model of function tracing: /repo/polytracker/src/passes/function_tracing.cpp 24-58 on top of the linked
program. The pass inserts two calls of the runtime (/repo/polytracker/src/polytracker/polytracker.cpp
24-38): at the very start of a function the name is given to `__polytracker_log_func_entry`, and just before
every return the result of that call is given to `__polytracker_log_func_exit`. Both are listed as
uninstrumented and discard (/repo/polytracker/custom_abi/polytracker_abilist.txt 33-36), so the DFSan pass, which
runs afterwards (/repo/polytracker/build.py 195-206), inserts nothing for them.

Simplified: the calls are not instructions of the language; the machine makes them when a frame is at the
place where they are inserted. The result of the first call is a value of the function, so it is kept per
frame (`saved`, innermost first, aligned with the frames). Not modelled: functions left by exit, longjmp or
exceptions, for which no call is inserted, and musttail calls.
-/
namespace Verif
namespace Ftrace
open Ir PassIr Linked

/-- The names of the functions of the module as bytes, and the names in the ignore lists (function_tracing.cpp
17-20, 45). -/
structure Fns where
  name : Nat → List Nat
  ignore : List (List Nat)

/-- Functions that are not ignored get the calls, function_tracing.cpp 46-49. -/
def Fns.traced (N : Fns) (f : Nat) : Bool := decide (N.name f ∉ N.ignore)

/-- The name as the runtime gets it: its length is passed as a number of 16 bits, function_tracing.cpp 52-53
and polytracker.cpp 25-29. -/
def Fns.passed (N : Fns) (f : Nat) : List Nat := (N.name f).take ((N.name f).length % 2 ^ 16)

/-- The call at the start of a function, function_tracing.cpp 50-53. -/
def enters (N : Fns) (fr : IFrame) (T : Tracker) (saved : List Nat) : Res (Tracker × List Nat) :=
  if N.traced fr.fn && fr.blk == 0 && fr.idx == 0 then do
    let (T, i) ← T.functionEntry (N.passed fr.fn)
    pure (T, i :: saved.tail)
  else pure (T, saved)

/-- The frame is at a return. -/
def atRet (P : Prog) (fr : IFrame) : Bool :=
  match P[fr.fn]? with
  | none => false
  | some F =>
    match F.blocks[fr.blk]? with
    | none => false
    | some B =>
      match B.body[fr.idx]?, B.term with
      | none, .ret _ => true
      | _, _ => false

/-- The call before a return, function_tracing.cpp 35-38. -/
def leaves (N : Fns) (P : Prog) (fr : IFrame) (T : Tracker) (saved : List Nat) : Res Tracker :=
  if N.traced fr.fn && atRet P fr then T.functionExit (saved.headD 0) else pure T

/-- The saved results after a step: one per frame. -/
def shift (d : Nat) (saved : List Nat) : IOut → List Nat
  | .next s =>
    if d < s.frames.length then 0 :: saved
    else if s.frames.length < d then saved.tail
    else saved
  | _ => saved

/-- One instruction with the inserted calls. -/
def ftstep (N : Fns) (dom : Nat → Nat → Nat → Bool) (P : Prog) (inp : World) (io : Io) (s : IState)
    (saved : List Nat) (T : Tracker) : Res (IOut × List Nat × Tracker) :=
  match s.frames with
  | [] => pure (.stuck, saved, T)
  | fr :: _ => do
    let (T, saved) ← enters N fr T saved
    let T ← leaves N P fr T saved
    let (o, T) ← tstep dom P inp io s T
    pure (o, shift s.frames.length saved o, T)

/-- At most `n` steps. -/
def ftrun (N : Fns) (dom : Nat → Nat → Nat → Bool) (P : Prog) (inp : World) (io : Io) :
    Nat → IState → List Nat → Tracker → Res (IOut × List Nat × Tracker)
  | 0, s, saved, T => pure (.next s, saved, T)
  | n + 1, s, saved, T => do
    match ← ftstep N dom P inp io s saved T with
    | (.next s', saved', T') => ftrun N dom P inp io n s' saved' T'
    | r => pure r

end Ftrace
end Verif
