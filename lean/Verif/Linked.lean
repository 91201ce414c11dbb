import Verif.PassIr
import Verif.Wrappers
/-
The instrumented program linked with the runtime: `PassIr` with its label store replaced by the tracker
(`Tracker`), and input, output and reports made through the wrappers and hooks of the runtime.

`PassIr.istep` creates labels directly in a label store; here the same instructions call
`impl_getc_style_functions` and `impl_read_recv_functions`
(/repo/polytracker/src/taint_sources/taint_sources.cpp 94-131), `__dfsw_putc` and `__dfsw_write`
(/repo/polytracker/src/taint_sources/write_taints.cpp 49-57, 80-95) and the reporting functions
(/repo/polytracker/src/polytracker/polytracker.cpp 48-105), which use the one tracker of the process. The
tracker is started. Labels combined by inserted code are combined in the tracker's label store
(`__polytracker_union_table`, polytracker.cpp 40-46, called from
/repo/polytracker/src/compiler-rt/lib/dfsan/dfsan.cpp 230).

The tracker reads and writes the labels of memory through DFSan, so they are those of the program's memory
(`DfsanMem.labelOf`): the part of `Tracker.shadow` that a wrapper uses is taken from there before the call
(`sync`), and the part it sets is written there afterwards (`copyLabels`).

Simplified: the program reads one stream and writes one stream, and the stream position of `getc` and `putc`
is the file position of `read` and `write` (unbuffered streams).
-/
namespace Verif
namespace Linked
open Ir PassIr

/-- The streams of the program: their descriptors, and whether `ftello` knows the position in them. -/
structure Io where
  fdIn : Int
  fdOut : Int
  seekIn : Bool
  seekOut : Bool

/-- The result of `ftello` after `pos` bytes: the position, or -1 for streams such as pipes. -/
def told (seek : Bool) (pos : Nat) : Int := if seek then (pos : Int) else -1

/-- The result of the library's `getc`: the byte as an int, or EOF (-1). -/
def called : Option (Fin 256) → Int
  | some c => c.val
  | none => -1

/-- The labels of `m` bytes from address `a` on, as `dfsan_read_label` finds them in memory
(/repo/polytracker/src/taintdag/polytracker.cpp 147). -/
def sync (T : Tracker) (mem : Mem) (a m : Nat) : Tracker :=
  { T with shadow := fun x => if a ≤ x ∧ x < a + m then DfsanMem.labelOf mem x else T.shadow x }

/-- The labels set by the tracker for `m` bytes from address `a` on, written by `dfsan_set_label`
(/repo/polytracker/src/taintdag/polytracker.cpp 62-65). Pages have 4096 bytes. -/
def copyLabels (sh : Shadow) (mem : Mem) (a : Nat) : Nat → Res Mem
  | 0 => .ok mem
  | m + 1 => do
    let mem ← DfsanMem.setLabel 4096 mem (sh a % 2 ^ 32) a 1
    copyLabels sh mem (a + 1) m

/-- The instruction itself. `putc` writes the character converted to unsigned char and returns it (C standard
7.21.7.7). -/
def tstepInstr (io : Io) (P : Prog) (inp : World) (an : Ann) (fr : IFrame) (rest : List IFrame)
    (g : IGlob) (T : Tracker) : Instr → Res (IOut × Tracker)
  | .getc => do
    let (T, c, l) ← Wrap.getc T io.fdIn (told io.seekIn g.pos) (called (inp.byte g.pos))
    pure (.next ⟨(fr.label an.dst l).set (c % 2 ^ 32).toNat :: rest,
      { g with pos := if (inp.byte g.pos).isSome then g.pos + 1 else g.pos, L := T.labels }⟩, T)
  | .putc v => do
    let l := fr.lab (an.xargs.headD .zero)
    let (T, _, _) ← Wrap.putc T io.fdOut (fr.get v) l (told io.seekOut g.out.length)
      ((fr.get v % 256 : Nat) : Int)
    pure (.next ⟨fr.set 0 :: rest, { g with out := g.out ++ [(fr.get v, l)], L := T.labels }⟩, T)
  | .read a n =>
    let m := inp.got g.pos (fr.get n)
    if CanFill (fr.get a) (fr.get n) then do
      let (T, r, l) ← Wrap.read T io.fdIn (fr.get a) (told io.seekIn g.pos) m
      let mem ← copyLabels T.shadow (putBytes inp g.pos (fr.get a) m g.mem) (fr.get a) m
      pure (.next ⟨(fr.label an.dst l).set r.toNat :: rest, { g with mem, pos := g.pos + m, L := T.labels }⟩, T)
    else pure (.stuck, T)
  | .write a n =>
    let m := inp.took g.out.length (fr.get n)
    if CanAccess (fr.get a) (fr.get n) then do
      let (T, r, l) ← Wrap.write (sync T g.mem (fr.get a) m) io.fdOut (fr.get a)
        (told io.seekOut g.out.length) m
      pure (.next ⟨(fr.label an.dst l).set r.toNat :: rest,
        { g with
          out := g.out ++
            (List.range m).map (fun i => (g.mem (fr.get a + i), DfsanMem.labelOf g.mem (fr.get a + i)))
          L := T.labels }⟩, T)
    else pure (.stuck, T)
  | .hook k v => do
    let l := fr.lab (an.xargs.headD .zero)
    let ev := g.ev ++ [(k, fr.get v, l)]
    match k with
    | .taken f =>
      let T ← if 0 < l then T.logCf (.tainted f l) else pure T
      pure (.next ⟨(fr.label an.dst l).set (fr.get v) :: rest, { g with ev, L := T.labels }⟩, T)
    | .noted =>
      let T ← if 0 < l then T.affectsControlFlow l else pure T
      pure (.next ⟨fr.set 0 :: rest, { g with ev, L := T.labels }⟩, T)
    | .enter f =>
      let T ← T.logCf (.enter f)
      pure (.next ⟨fr.set 0 :: rest, { g with ev, L := T.labels }⟩, T)
    | .leave f =>
      let T ← T.logCf (.leave f)
      pure (.next ⟨fr.set 0 :: rest, { g with ev, L := T.labels }⟩, T)
  | I => do
    let o ← istepInstr P inp 0 an fr rest g I
    pure (o, T)

/-- One instruction of the original program with all code inserted for it; the code works on the label store
of the tracker. -/
def tstep (dom : Nat → Nat → Nat → Bool) (P : Prog) (inp : World) (io : Io) (s : IState) (T : Tracker) :
    Res (IOut × Tracker) :=
  match s.frames with
  | [] => pure (.stuck, T)
  | fr :: rest =>
    match P[fr.fn]? with
    | none => pure (.stuck, T)
    | some F =>
      let J := instrument (dom fr.fn) F
      let anns := fun fn p => match P[fn]? with
        | some F => (instrument (dom fn) F).st.ann p
        | none => ⟨[], [], none⟩
      match F.blocks[fr.blk]? with
      | none => pure (.stuck, T)
      | some B => do
        let an := J.st.ann (fr.blk, fr.idx + 1)
        let (fr, g) ← sexecs J.avoid an.pre fr { s.glob with L := T.labels }
        let T := { T with labels := g.L }
        match B.body[fr.idx]? with
        | some I => tstepInstr io P inp an fr rest g T I
        | none => pure (istepTerm anns F J.st fr rest g B.term, T)

/-- At most `n` steps. -/
def trun (dom : Nat → Nat → Nat → Bool) (P : Prog) (inp : World) (io : Io) :
    Nat → IState → Tracker → Res (IOut × Tracker)
  | 0, s, T => pure (.next s, T)
  | n + 1, s, T => do
    match ← tstep dom P inp io s T with
    | (.next s', T') => trun dom P inp io n s' T'
    | (o, T') => pure (o, T')

end Linked
end Verif
