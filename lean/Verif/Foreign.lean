import Verif.Unwind
import Verif.Spec.Foreign
/-
Model of an instrumented program, linked with the runtime, whose memory is also written by code that the pass does
not see. The labels are not touched by it:
- a call of a function listed as discard or functional (or not listed, with a warning) has only the label of its
  result set, /repo/polytracker/src/passes/DataFlowSanitizer.cpp 2966-2982;
- for a call of an instrumented function the labels of the arguments of fixed parameters only are stored
  (`FT->getNumParams()`, 3108); the code generator puts the variable arguments where `va_arg` finds them (on x86-64 it
  is expanded to loads from memory before the pass runs), which the pass does not see;
- `llvm.va_start` is an intrinsic, for which the labels of operands are combined and nothing is stored (3084-3087).
-/
namespace Verif
namespace Foreign
open Ir PassIr Linked Unwind

/-- One action. Foreign code writes the byte only. -/
def twstep (dom : Nat → Nat → Nat → Bool) (P : Prog) (lands : Lands) (inp : World) (io : Io) (s : IState)
    (T : Tracker) : Deed → Res (IOut × Tracker)
  | .go => tstep dom P inp io s T
  | .throws v => tthrow dom P lands v s T
  | .writes a x _ =>
    if CanAccess a 1 then
      pure (.next ⟨s.frames, { s.glob with mem := DfsanMem.writeInt s.glob.mem a 1 x }⟩, T)
    else pure (.stuck, T)

/-- A run with exceptions and foreign code. -/
def twrun (dom : Nat → Nat → Nat → Bool) (P : Prog) (lands : Lands) (inp : World) (io : Io) :
    List Deed → IState → Tracker → Res (IOut × Tracker)
  | [], s, T => pure (.next s, T)
  | a :: as, s, T => do
    match ← twstep dom P lands inp io s T a with
    | (.next s', T') => twrun dom P lands inp io as s' T'
    | (o, T') => pure (o, T')

end Foreign
end Verif
