import Verif.Linked
import Verif.Spec.Threads
/-
Model of an instrumented program with threads, linked with the runtime.

`__dfsw_pthread_create` (/repo/polytracker/src/compiler-rt/lib/dfsan/dfsan_custom.cpp 772-812) lets the new
thread run `DFsanThread::ThreadStart` (/repo/polytracker/src/compiler-rt/lib/dfsan/dfsan_thread.cpp 47-72), which
calls the start routine through its trampoline with label 0 for the argument; the trampoline puts the labels of the
arguments into the TLS area of the new thread and discards the label of the result
(/repo/polytracker/src/passes/DataFlowSanitizer.cpp 1199-1252). `pthread_join` is listed as uninstrumented only
(/repo/polytracker/custom_abi/dfsan_abilist.txt 3005), so the library's function is called and puts the value into
memory, of which the labels stay as they are. `__dfsan_arg_tls` and `__dfsan_retval_tls` are thread-local
(/repo/polytracker/src/compiler-rt/lib/dfsan/dfsan.cpp 61-65), memory, its labels and the tracker are shared.

Simplified: the instructions of a thread together with the code inserted for them are not interrupted, and
neither are calls of the runtime (what happens inside the label store, the logs and the streams when
threads interleave there is C05, C12, C34 and C60); the call of `pthread_create` is not an instruction of the
language: a thread may start at any time, with any argument.
-/
namespace Verif
namespace Threads
open Ir PassIr Linked

/-- A thread: its calls, its TLS areas and its stack pointer, or its value and the label of the value. -/
inductive IThread where
  | live (frames : List IFrame) (argTls : Nat → Nat) (retTls sp : Nat)
  | ended (v label : Nat)

/-- All threads; the TLS areas and the stack pointer in `glob` are those of the thread that ran last. -/
structure IMulti where
  threads : List IThread
  glob : IGlob
  T : Tracker

/-- A new thread, dfsan_thread.cpp 47-72: its TLS areas are zero, and the labels of its arguments are zero. -/
def ispawn (F : Func) (f : Nat) (args : List Nat) (sp : Nat) (g : IGlob) : IThread :=
  .live [newIFrame F f args { g with sp, argTls := fun _ => 0, retTls := 0 }] (fun _ => 0) 0 sp

/-- One action; `none` if it is not possible. -/
def tmstep (dom : Nat → Nat → Nat → Bool) (P : Prog) (inp : World) (io : Io) (M : IMulti) :
    Act Nat → Res (Option IMulti)
  | .run i =>
    match M.threads[i]? with
    | some (.live frames argTls retTls sp) => do
      match ← tstep dom P inp io ⟨frames, { M.glob with argTls, retTls, sp }⟩ M.T with
      | (.next s, T) => pure (some ⟨M.threads.set i (.live s.frames s.glob.argTls s.glob.retTls s.glob.sp), s.glob, T⟩)
      | (.done v l g, T) => pure (some ⟨M.threads.set i (.ended v l), g, T⟩)
      | (.stuck, _) => pure none
    | _ => pure none
  | .spawn f args sp =>
    match P[f]? with
    | some F =>
      if F.blocks = [] then pure none else pure (some { M with threads := M.threads ++ [ispawn F f args sp M.glob] })
    | none => pure none
  | .join i a =>
    match M.threads[i]? with
    | some (.ended v _) =>
      if CanAccess a 8 then
        pure (some { M with glob := { M.glob with mem := DfsanMem.writeInt M.glob.mem a 8 v } })
      else pure none
    | _ => pure none

/-- A schedule. -/
def tmrun (dom : Nat → Nat → Nat → Bool) (P : Prog) (inp : World) (io : Io) : List (Act Nat) → IMulti →
    Res (Option IMulti)
  | [], M => pure (some M)
  | a :: as, M => do
    match ← tmstep dom P inp io M a with
    | some M' => tmrun dom P inp io as M'
    | none => pure none

/-- The start of the program: the main thread at the start of function `fn`. -/
def tmstart (F : Func) (fn : Nat) (args : List Nat) (mem : Mem) (sp : Nat) (T : Tracker) : IMulti where
  threads := [.live (istart F fn args mem sp T.labels).frames (fun _ => 0) 0 sp]
  glob := (istart F fn args mem sp T.labels).glob
  T := T

end Threads
end Verif
