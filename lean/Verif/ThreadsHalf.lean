import Verif.Threads
/-
The same threads at a finer grain: the code that the pass inserts in front of an instruction
(/repo/polytracker/src/passes/DataFlowSanitizer.cpp 2540-2574 for loads, 2576-2625 for stores: the access to the
shadow comes first, then the instruction) is one step and the instruction another, and other threads may run in
between.

Simplified: the inserted code in front of one instruction is still one step.
-/
namespace Verif
namespace Threads
open Ir PassIr Linked

/-- What may happen next: thread `i` runs the code inserted in front of its instruction; thread `i` runs the
instruction; a thread starts. -/
inductive Half where
  | code (i : Nat)
  | instr (i : Nat)
  | spawn (f : Nat) (args : List Nat) (sp : Nat)

/-- Threads, and of which of them the code in front of the next instruction has been run. -/
structure HMulti where
  M : IMulti
  ready : Nat → Bool

/-- The code inserted in front of the next instruction. -/
def tcode (dom : Nat → Nat → Nat → Bool) (P : Prog) (s : IState) (T : Tracker) : Res (Option (IState × Tracker)) :=
  match s.frames with
  | [] => pure none
  | fr :: rest =>
    match P[fr.fn]? with
    | none => pure none
    | some F =>
      match F.blocks[fr.blk]? with
      | none => pure none
      | some _ => do
        let J := instrument (dom fr.fn) F
        let (fr, g) ← sexecs J.avoid (J.st.ann (fr.blk, fr.idx + 1)).pre fr { s.glob with L := T.labels }
        pure (some (⟨fr :: rest, g⟩, { T with labels := g.L }))

/-- The instruction itself. -/
def tinstr (dom : Nat → Nat → Nat → Bool) (P : Prog) (inp : World) (io : Io) (s : IState) (T : Tracker) :
    Res (IOut × Tracker) :=
  match s.frames with
  | [] => pure (.stuck, T)
  | fr :: rest =>
    match P[fr.fn]? with
    | none => pure (.stuck, T)
    | some F =>
      let J := instrument (dom fr.fn) F
      let anns := fun fn p => match P[fn]? with
        | some F => (instrument (dom fn) F).st.ann p
        | none => ⟨[], [], none⟩
      match F.blocks[fr.blk]? with
      | none => pure (.stuck, T)
      | some B =>
        match B.body[fr.idx]? with
        | some I => tstepInstr io P inp (J.st.ann (fr.blk, fr.idx + 1)) fr rest { s.glob with L := T.labels } T I
        | none => pure (istepTerm anns F J.st fr rest { s.glob with L := T.labels } B.term, T)

/-- One action; `none` if it is not possible. -/
def hstep (dom : Nat → Nat → Nat → Bool) (P : Prog) (inp : World) (io : Io) (H : HMulti) : Half → Res (Option HMulti)
  | .code i =>
    match H.M.threads[i]?, H.ready i with
    | some (.live frames argTls retTls sp), false => do
      match ← tcode dom P ⟨frames, { H.M.glob with argTls, retTls, sp }⟩ H.M.T with
      | some (s, T) =>
        pure (some ⟨⟨H.M.threads.set i (.live s.frames s.glob.argTls s.glob.retTls s.glob.sp), s.glob, T⟩,
          fun j => if j = i then true else H.ready j⟩)
      | none => pure none
    | _, _ => pure none
  | .instr i =>
    match H.M.threads[i]?, H.ready i with
    | some (.live frames argTls retTls sp), true => do
      match ← tinstr dom P inp io ⟨frames, { H.M.glob with argTls, retTls, sp }⟩ H.M.T with
      | (.next s, T) =>
        pure (some ⟨⟨H.M.threads.set i (.live s.frames s.glob.argTls s.glob.retTls s.glob.sp), s.glob, T⟩,
          fun j => if j = i then false else H.ready j⟩)
      | (.done v l g, T) =>
        pure (some ⟨⟨H.M.threads.set i (.ended v l), g, T⟩, fun j => if j = i then false else H.ready j⟩)
      | (.stuck, _) => pure none
    | _, _ => pure none
  | .spawn f args sp => do
    match ← tmstep dom P inp io H.M (.spawn f args sp) with
    | some M => pure (some ⟨M, H.ready⟩)
    | none => pure none

/-- A schedule. -/
def hrun (dom : Nat → Nat → Nat → Bool) (P : Prog) (inp : World) (io : Io) : List Half → HMulti → Res (Option HMulti)
  | [], H => pure (some H)
  | a :: as, H => do
    match ← hstep dom P inp io H a with
    | some H' => hrun dom P inp io as H'
    | none => pure none

end Threads
end Verif
