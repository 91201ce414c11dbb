import Verif.Linked
import Verif.Spec.Unwind
/-
Model of an instrumented program with exceptions, linked with the runtime.

For an `invoke` the pass stores the labels of the arguments before it
(/repo/polytracker/src/passes/DataFlowSanitizer.cpp 3103-3129) and reads the label of the result at the start of the
normal destination, or of a new block before it if the destination has other predecessors (3133-3160); nothing is
inserted on the way to the landing block. The pass has no case for `landingpad`, so its value has no shadow of its
own, and `getShadow` of a value without a shadow is zero (1764-1768). The unwinder is part of the library and not
instrumented: it changes neither the TLS areas nor the labels of memory. An `invoke` of a custom function is made
through its wrapper (2983-2989), which calls the function as an ordinary call does.

Simplified: custom functions do not throw (they are functions of the C library).
-/
namespace Verif
namespace Unwind
open Ir PassIr Linked

/-- Leaving calls until one has a landing block, where the label of the landing value is zero. -/
def iunwind (dom : Nat → Nat → Nat → Bool) (P : Prog) (lands : Lands) (v : Nat) (g : IGlob) : List IFrame → IOut
  | [] => .stuck
  | fr :: rest =>
    match landing P lands fr.fn fr.blk fr.idx, P[fr.fn]? with
    | some t, some F =>
      let J := instrument (dom fr.fn) F
      ijump F J.st ((fr.label (J.st.ann (fr.blk, fr.idx + 1)).dst 0).set v) rest g t
    | _, _ => iunwind dom P lands v { g with sp := fr.sp } rest

/-- An untracked call throws, after the code inserted before it. -/
def tthrow (dom : Nat → Nat → Nat → Bool) (P : Prog) (lands : Lands) (v : Nat) (s : IState) (T : Tracker) :
    Res (IOut × Tracker) :=
  match s.frames with
  | [] => pure (.stuck, T)
  | fr :: rest =>
    match P[fr.fn]?, instrAt P fr.fn fr.blk fr.idx with
    | some F, some (.untracked _ _) => do
      let J := instrument (dom fr.fn) F
      let (fr, g) ← sexecs J.avoid (J.st.ann (fr.blk, fr.idx + 1)).pre fr { s.glob with L := T.labels }
      pure (iunwind dom P lands v g (fr :: rest), { T with labels := g.L })
    | _, _ => pure (.stuck, T)

/-- What may happen next: an ordinary step, or an exception. -/
def txstep (dom : Nat → Nat → Nat → Bool) (P : Prog) (lands : Lands) (inp : World) (io : Io) (s : IState)
    (T : Tracker) : Option Nat → Res (IOut × Tracker)
  | none => tstep dom P inp io s T
  | some v => tthrow dom P lands v s T

/-- A run with exceptions. -/
def txrun (dom : Nat → Nat → Nat → Bool) (P : Prog) (lands : Lands) (inp : World) (io : Io) :
    List (Option Nat) → IState → Tracker → Res (IOut × Tracker)
  | [], s, T => pure (.next s, T)
  | a :: as, s, T => do
    match ← txstep dom P lands inp io s T a with
    | (.next s', T') => txrun dom P lands inp io as s' T'
    | (o, T') => pure (o, T')

end Unwind
end Verif
