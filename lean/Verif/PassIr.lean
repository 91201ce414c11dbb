import Verif.PassMem
import Verif.Spec.Ir
/-
Model of the pass /repo/polytracker/src/passes/DataFlowSanitizer.cpp on the language of `Verif.Spec.Ir`,
and of the execution of the instrumented program. Options as in `Verif.PassMem`; calls use the TLS
convention (IA_TLS), labels of aggregates are one label (the legacy mode). Not modelled: atomic accesses,
vector selects, invoke, functions with native ABI, variadic functions, loads from constant globals,
calls of custom wrappers other than those of `getc`, `read`, `putc`, `write` and the reports (`hook`). The lengths of block instructions have 64 bits.
The two loads and the union of a two-byte load, or the blocks of the fast path of a longer one, are one
shadow instruction `load`, whose effect is `DfsanMem.loadShadow`.
-/
namespace Verif
namespace PassIr
open Ir

/-- A shadow value: the zero shadow constant, the shadow of an argument, or the result of an inserted
instruction. -/
inductive SV where
  | zero
  | arg (i : Nat)
  | v (n : Nat)
  deriving DecidableEq, Repr

/-- Inserted instructions. `union` is the code of `combineShadows` (1898-1929), `load` and `store`
access the shadow of memory, `sel` is the shadow select (2774), `getVar`/`setVar` access the shadow
alloca of a local variable, `setArg` stores to `__dfsan_arg_tls` at a byte offset and `setRet` to
`__dfsan_retval_tls`. `fill` calls `__dfsan_set_label`, `copy` copies the shadow of a range. -/
inductive SIns where
  | union (n : Nat) (a b : SV)
  | load (n : Nat) (a : Opd) (size : Nat)
  | store (a : Opd) (size : Nat) (s : SV)
  | sel (n : Nat) (c : Opd) (a b : SV)
  | getVar (n k : Nat)
  | setVar (k : Nat) (s : SV)
  | setArg (off : Nat) (s : SV)
  | setRet (s : SV)
  | fill (s : SV) (d n : Opd)
  | copy (move : Bool) (d s n : Opd)

/-- What the pass does to one instruction: code before it, shadow arguments added to it, the shadow
that receives the label of its result. -/
structure Ann where
  pre : List SIns
  xargs : List SV
  dst : Option Nat

/-- `DFSanFunction` (545-640): number of shadows created, the place where each was inserted,
`ValShadowMap`, `CachedShadows` (a block and a shadow), `ShadowElements`, the code inserted at the
current instruction and the result for finished ones, the shadow phis. -/
structure PSt where
  next : Nat
  place : Nat → Pt
  shadow : Reg → Option SV
  cached : SV × SV → Option (Nat × SV)
  elems : SV → Option (List SV)
  em : List SIns
  ann : Pt → Ann
  phis : Reg → Nat

/-- ArgTLSSize, RetvalTLSSize; dfsan.cpp 57-58, DataFlowSanitizer.cpp 151-152. -/
def argTLSSize : Nat := 800

/-- `getShadowForTLSArgument`, 1733-1762: the offset of argument `i`, if it fits. `off` is the offset of
the first of the remaining arguments, of which there are `n`; every shadow has 4 bytes. -/
def argOffset : Nat → Nat → Nat → Option Nat
  | _, 0, _ => none
  | off, _ + 1, 0 => if off + 4 > argTLSSize then none else some off
  | off, n + 1, i + 1 => if off + 4 > argTLSSize then none else argOffset (off + 4) n i

/-- `getShadow`, 1764-1793. -/
def PSt.getShadow (F : Func) (st : PSt) : Opd → SV
  | .const _ => .zero
  | .arg i => if (argOffset 0 F.nparams i).isSome then .arg i else .zero
  | .reg r => (st.shadow r).getD .zero

/-- A new shadow inserted at `p`. -/
def PSt.fresh (st : PSt) (p : Pt) : PSt × Nat :=
  ({ st with next := st.next + 1, place := fun n => if n = st.next then p else st.place n }, st.next)

def PSt.emit (st : PSt) (i : SIns) : PSt := { st with em := st.em ++ [i] }

/-- A number for each shadow value, standing for its address in the compiler. -/
def SV.code : SV → Nat
  | .zero => 0
  | .arg i => 2 * i + 1
  | .v n => 2 * n + 2

/-- The key of `CachedShadows`, 1889-1891. -/
def key (a b : SV) : SV × SV := if b.code < a.code then (b, a) else (a, b)

/-- The elements of a shadow when it takes part in a new union, 1931-1942. -/
def PSt.elemsOf (st : PSt) (a : SV) : List SV := (st.elems a).getD [a]

/-- One of the shadows has all elements of the other, 1868-1887. -/
def PSt.included (st : PSt) (a b : SV) : Option SV :=
  match st.elems a, st.elems b with
  | some ea, some eb =>
    if eb.all (· ∈ ea) then some a else if ea.all (· ∈ eb) then some b else none
  | some ea, none => if b ∈ ea then some a else none
  | none, some eb => if a ∈ eb then some b else none
  | none, none => none

/-- The union has been computed before at a place that dominates `p`, 1889-1894. `dom` is the dominator
relation of blocks (`DT.dominates`). -/
def PSt.cachedFor (dom : Nat → Nat → Bool) (p : Pt) (st : PSt) (a b : SV) : Option SV :=
  match st.cached (key a b) with
  | some (blk, s) => if dom blk p.1 then some s else none
  | none => none

/-- `combineShadows`, 1860-1946, at the instruction `p`. -/
def combine (dom : Nat → Nat → Bool) (p : Pt) (st : PSt) (a b : SV) : PSt × SV :=
  if a = .zero then (st, b)
  else if b = .zero then (st, a)
  else if a = b then (st, a)
  else
    match st.included a b with
    | some s => (st, s)
    | none =>
      match st.cachedFor dom p a b with
      | some s => (st, s)
      | none =>
        let e := st.elemsOf a ++ st.elemsOf b
        let (st, n) := st.fresh p
        let st := st.emit (.union n a b)
        ({ st with
            cached := fun k => if k = key a b then some (p.1, .v n) else st.cached k
            elems := fun s => if s = .v n then some e else st.elems s }, .v n)

/-- The loop of `combineOperandShadows`, 1955-1956. -/
def combineLoop (dom : Nat → Nat → Bool) (F : Func) (p : Pt) : List Opd → PSt → SV → PSt × SV
  | [], st, s => (st, s)
  | o :: os, st, s =>
    let (st, s) := combine dom p st s (st.getShadow F o)
    combineLoop dom F p os st s

/-- `combineOperandShadows`, 1950-1959. -/
def combineOperands (dom : Nat → Nat → Bool) (F : Func) (p : Pt) (st : PSt) : List Opd → PSt × SV
  | [] => (st, .zero)
  | o :: os => combineLoop dom F p os st (st.getShadow F o)

/-- The stores of the argument shadows in `visitCallBase`, 3103-3130. -/
def argStores (F : Func) (st : PSt) : Nat → List Opd → List SIns
  | _, [] => []
  | off, o :: os =>
    if off + 4 > argTLSSize then []
    else .setArg off (st.getShadow F o) :: argStores F st (off + 4) os

/-- `setShadow`, 1795-1800 (the assertion is not modelled). -/
def PSt.setShadow (st : PSt) (r : Reg) (s : SV) : PSt :=
  { st with shadow := fun x => if x = r then some s else st.shadow x }

/-- Finishing the instruction at `p`: the code inserted so far belongs to it. -/
def PSt.close (st : PSt) (p : Pt) (xargs : List SV) (dst : Option Nat) : PSt :=
  { st with em := [], ann := fun q => if q = p then ⟨st.em, xargs, dst⟩ else st.ann q }

/-- Visiting instruction `j` of block `b`.
`op`: `visitInstOperands`, 1961-1965 (and `visitLoadInst` for constant globals: the label of the pointer, 2217-2232). `untracked`: WK_Discard and WK_Warning in `visitWrappedCallBase`,
2966-2978, and instructions without visitor. `load`: `visitLoadInst`, 2322-2374. `store`:
`visitStoreInst`, 2576-2625. `select`: `visitSelectInst`, 2749-2799. `call`: `visitCallBase`, 3098-3178.
`alloca`: `visitAllocaInst`, 2723-2747. `getVar`, `setVar`: loads and stores of an alloca with a shadow
alloca, 2202-2214 and 2490-2502 (its own shadow is zero). `getc`, `putc`, `read`, `write`: WK_Custom, 2983-3078.
`memset`: `visitMemSetInst`, 2801-2812. `memcpy`: `visitMemTransferInst`, 2814-2849. `rmw`:
`visitCASOrRMW`, 2627-2644, and `visitStoreInst` for atomic stores (their size is not 0). `hook`: calls of
`__polytracker_log_tainted_control_flow` and `__polytracker_log_conditional_branch`, which are WK_Custom,
and of `__polytracker_enter_function` and `__polytracker_leave_function`, which are WK_Discard
(dfsan_abilist.txt 35-38, 52-53; polytracker_abilist.txt 44-45). -/
def visitInstr (dom : Nat → Nat → Bool) (F : Func) (b j : Nat) (st : PSt) : Instr → PSt
  | .op _ args =>
    let (st, s) := combineOperands dom F (b, j + 1) st args
    (st.setShadow (.ins b j) s).close (b, j + 1) [] none
  | .untracked _ _ => (st.setShadow (.ins b j) .zero).close (b, j + 1) [] none
  | .load a n =>
    if n = 0 then (st.setShadow (.ins b j) .zero).close (b, j + 1) [] none
    else
      let (st, m) := st.fresh (b, j + 1)
      let st := st.emit (.load m a n)
      let (st, s) := combine dom (b, j + 1) st (.v m) (st.getShadow F a)
      (st.setShadow (.ins b j) s).close (b, j + 1) [] none
  | .store a v n =>
    if n = 0 then st.close (b, j + 1) [] none
    else (st.emit (.store a n (st.getShadow F v))).close (b, j + 1) [] none
  | .select c t e =>
    let sc := st.getShadow F c
    let tt := st.getShadow F t
    let se := st.getShadow F e
    let (st, s) :=
      if tt = se then (st, tt)
      else
        let (st, m) := st.fresh (b, j + 1)
        (st.emit (.sel m c tt se), .v m)
    let (st, s) := combine dom (b, j + 1) st sc s
    (st.setShadow (.ins b j) s).close (b, j + 1) [] none
  | .call void _ args =>
    let st := { st with em := st.em ++ argStores F st 0 args }
    if void then st.close (b, j + 1) [] none
    else
      let (st, m) := st.fresh (b, j + 1)
      (st.setShadow (.ins b j) (.v m)).close (b, j + 1) [] (some m)
  | .alloca _ => (st.setShadow (.ins b j) .zero).close (b, j + 1) [] none
  | .getVar k =>
    let (st, m) := st.fresh (b, j + 1)
    let st := st.emit (.getVar m k)
    let (st, s) := combine dom (b, j + 1) st (.v m) .zero
    (st.setShadow (.ins b j) s).close (b, j + 1) [] none
  | .setVar k v => (st.emit (.setVar k (st.getShadow F v))).close (b, j + 1) [] none
  | .getc =>
    let (st, m) := st.fresh (b, j + 1)
    (st.setShadow (.ins b j) (.v m)).close (b, j + 1) [] (some m)
  | .putc v => st.close (b, j + 1) [st.getShadow F v] none
  | .read a n =>
    let xs := [st.getShadow F a, st.getShadow F n]
    let (st, m) := st.fresh (b, j + 1)
    (st.setShadow (.ins b j) (.v m)).close (b, j + 1) xs (some m)
  | .write a n =>
    let xs := [st.getShadow F a, st.getShadow F n]
    let (st, m) := st.fresh (b, j + 1)
    (st.setShadow (.ins b j) (.v m)).close (b, j + 1) xs (some m)
  | .memset d c n => (st.emit (.fill (st.getShadow F c) d n)).close (b, j + 1) [] none
  | .memcpy move d s n => (st.emit (.copy move d s n)).close (b, j + 1) [] none
  | .rmw _ a _ n => ((st.emit (.store a n .zero)).setShadow (.ins b j) .zero).close (b, j + 1) [] none
  | .hook k v =>
    match k with
    | .enter _ | .leave _ => (st.setShadow (.ins b j) .zero).close (b, j + 1) [] none
    | .noted => st.close (b, j + 1) [st.getShadow F v] none
    | .taken _ =>
      let xs := [st.getShadow F v]
      let (st, m) := st.fresh (b, j + 1)
      (st.setShadow (.ins b j) (.v m)).close (b, j + 1) xs (some m)

/-- Visiting the end of a block: `visitReturnInst`, 2851-2884; nothing is done for branches. -/
def visitTerm (F : Func) (p : Pt) (st : PSt) : Term → PSt
  | .ret (some v) => (st.emit (.setRet (st.getShadow F v))).close p [] none
  | _ => st.close p [] none

/-- `visitPHINode`, 3237-3261, for the phis of block `b` from number `k` on. -/
def visitPhis (b : Nat) : Nat → List (List (Nat × Opd)) → PSt → PSt
  | _, [], st => st
  | k, _ :: ps, st =>
    let (st, n) := st.fresh (b, 0)
    let st := st.setShadow (.phi b k) (.v n)
    visitPhis b (k + 1) ps { st with phis := fun r => if r = .phi b k then n else st.phis r }

/-- Visiting the instructions of block `b` from number `j` on, 1612-1626. -/
def visitBody (dom : Nat → Nat → Bool) (F : Func) (b : Nat) : Nat → List Instr → PSt → PSt
  | _, [], st => st
  | j, I :: Is, st => visitBody dom F b (j + 1) Is (visitInstr dom F b j st I)

/-- Visiting a block, 1609-1626. -/
def visitBlock (dom : Nat → Nat → Bool) (F : Func) (st : PSt) (b : Nat) : PSt :=
  match F.blocks[b]? with
  | none => st
  | some B =>
    visitTerm F (b, B.body.length + 1) (visitBody dom F b 0 B.body (visitPhis b 0 B.phis st)) B.term

/-- `depth_first(&F->getEntryBlock())`, 1607: LLVM's df_iterator. The stack holds, for each block on the
current path, the successors not tried yet; `out` is the list of blocks visited so far. -/
def dfsGo (succ : Nat → List Nat) : Nat → List (List Nat) → List Nat → List Nat
  | 0, _, out => out
  | _ + 1, [], out => out
  | fuel + 1, [] :: st, out => dfsGo succ fuel st out
  | fuel + 1, (c :: cs) :: st, out =>
    if c ∈ out then dfsGo succ fuel (cs :: st) out
    else dfsGo succ fuel (succ c :: cs :: st) (out ++ [c])

/-- Successors of a block. -/
def succOf (F : Func) (b : Nat) : List Nat :=
  match F.blocks[b]? with
  | some B => B.succs
  | none => []

/-- The order in which the blocks are visited. The bound is large enough for the search to end. -/
def order (F : Func) : List Nat :=
  dfsGo (succOf F) (((List.range F.blocks.length).map (fun b => (succOf F b).length + 1)).sum + 1)
    [succOf F 0] [0]

/-- The state before the first block. -/
def PSt.init : PSt where
  next := 0
  place := fun _ => (0, 0)
  shadow := fun _ => none
  cached := fun _ => none
  elems := fun _ => none
  em := []
  ann := fun _ => ⟨[], [], none⟩
  phis := fun _ => 0

/-- An instrumented function: the result of the pass, and AvoidNewBlocks (591): more than 1000 blocks. -/
structure IFunc where
  st : PSt
  avoid : Bool

/-- Instrumenting a function, 1599-1645. Unreachable blocks are removed first (1600), so only the
blocks in `order` count. The operands of the shadow phis (1632-1642) are the shadows, at the end, of the
operands of the phis; see `sphi`. -/
def instrument (dom : Nat → Nat → Bool) (F : Func) : IFunc where
  st := (order F).foldl (visitBlock dom F) PSt.init
  avoid := decide ((order F).length > 1000)

/-! ### Execution of the instrumented program -/

/-- A call in progress: the values, and the labels in the shadows. -/
structure IFrame where
  fn : Nat
  blk : Nat
  idx : Nat
  env : Reg → Nat
  args : List Nat
  vars : Nat → Nat
  sp : Nat
  senv : Nat → Nat
  sargs : Nat → Nat
  svars : Nat → Nat

/-- One memory for the bytes of the program and the shadow; the TLS areas (by byte offset); the label
store; the output with the labels given to the output function; the calls of the reporting functions
with the value and the label given to them. -/
structure IGlob where
  mem : Mem
  sp : Nat
  pos : Nat
  out : List (Nat × Nat)
  ev : List (Hook × Nat × Nat)
  argTls : Nat → Nat
  retTls : Nat
  L : Labels

structure IState where
  frames : List IFrame
  glob : IGlob

inductive IOut where
  | next (s : IState)
  | done (v : Nat) (label : Nat) (g : IGlob)
  | stuck

def IFrame.get (fr : IFrame) : Opd → Nat
  | .const v => v
  | .arg i => fr.args.getD i 0
  | .reg r => fr.env r

/-- The label in a shadow value. -/
def IFrame.lab (fr : IFrame) : SV → Nat
  | .zero => 0
  | .arg i => fr.sargs i
  | .v n => fr.senv n

def IFrame.put (fr : IFrame) (n l : Nat) : IFrame :=
  { fr with senv := fun m => if m = n then l else fr.senv m }

def IFrame.set (fr : IFrame) (x : Nat) : IFrame :=
  { fr with env := fun r => if r = .ins fr.blk fr.idx then x else fr.env r, idx := fr.idx + 1 }

/-- An inserted instruction. -/
def sexec (avoid : Bool) (fr : IFrame) (g : IGlob) : SIns → Res (IFrame × IGlob)
  | .union n a b => do
    let (L, l) ← DfsanMem.combineCode avoid true g.L (fr.lab a) (fr.lab b)
    pure (fr.put n l, { g with L })
  | .load n a size => do
    let (L, l) ← DfsanMem.loadShadow avoid true g.L g.mem (fr.get a) size
    pure (fr.put n l, { g with L })
  | .store a size s =>
    pure (fr, { g with mem :=
      DfsanMem.storeShadow (decide (s = .zero)) g.mem (fr.get a) size (fr.lab s) })
  | .sel n c a b => pure (fr.put n (if fr.get c ≠ 0 then fr.lab a else fr.lab b), g)
  | .getVar n k => pure (fr.put n (fr.svars k), g)
  | .setVar k s => pure ({ fr with svars := fun i => if i = k then fr.lab s else fr.svars i }, g)
  | .setArg off s =>
    pure (fr, { g with argTls := fun o => if o = off then fr.lab s else g.argTls o })
  | .setRet s => pure (fr, { g with retTls := fr.lab s })
  | .fill s d n => do
    let mem ← DfsanMem.setLabel 4096 g.mem (fr.lab s) (fr.get d) (fr.get n)
    pure (fr, { g with mem })
  | .copy move d s n =>
    if move then do
      let mem ← DfsanMem.memmove g.mem (DfsanMem.passShadow (fr.get d)) (DfsanMem.passShadow (fr.get s))
        (fr.get n * 4 % 2 ^ 64)
      pure (fr, { g with mem })
    else
      let mem := DfsanMem.memcpy g.mem (DfsanMem.passShadow (fr.get d)) (DfsanMem.passShadow (fr.get s))
        (fr.get n * 4 % 2 ^ 64)
      pure (fr, { g with mem })

def sexecs (avoid : Bool) : List SIns → IFrame → IGlob → Res (IFrame × IGlob)
  | [], fr, g => pure (fr, g)
  | i :: is, fr, g => do
    let (fr, g) ← sexec avoid fr g i
    sexecs avoid is fr g

/-- The frame of a new call. The loads of the argument shadows are at the start of the entry block
(1754-1758). -/
def newIFrame (F : Func) (fn : Nat) (args : List Nat) (g : IGlob) : IFrame :=
  { fn, blk := 0, idx := 0, env := fun _ => 0, args, vars := fun _ => 0, sp := g.sp,
    senv := fun _ => 0,
    sargs := fun i => match argOffset 0 F.nparams i with
      | some off => g.argTls off
      | none => 0
    svars := fun _ => 0 }

/-- Giving the result of the current instruction its label. -/
def IFrame.label (fr : IFrame) (dst : Option Nat) (l : Nat) : IFrame :=
  match dst with
  | some n => fr.put n l
  | none => fr

/-- The system call: `m` bytes of input from offset `pos` on are placed at address `a`. -/
def putBytes (inp : World) (pos a m : Nat) (mem : Mem) : Mem :=
  fun x => if a ≤ x ∧ x < a + m then inp.at (pos + (x - a)) else mem x

/-- The loop of `create_source_taint`, /repo/polytracker/src/taintdag/polytracker.cpp 59-65: `m` bytes from
address `a` on get the labels from `l` on (`dfsan_set_label` takes them modulo 2^32). Pages have 4096 bytes. -/
def labelBytes (mem : Mem) (a l : Nat) : Nat → Res Mem
  | 0 => .ok mem
  | m + 1 => do
    let mem ← DfsanMem.setLabel 4096 mem (l % 2 ^ 32) a 1
    labelBytes mem (a + 1) (l + 1) m

/-- The instruction itself, with the additions of the pass. The input byte of `getc` is the byte at
offset `pos` of source `src`; its wrapper creates a label for it. The wrapper of
`__polytracker_log_tainted_control_flow` (polytracker.cpp 76-88) returns the value with its label. The wrapper
of `read` (taint_sources.cpp 113-131) gives a label to each byte read, that of `write` (write_taints.cpp 49-57)
notes the label of each byte written; both results have label 0. -/
def istepInstr (P : Prog) (inp : World) (src : Nat) (an : Ann) (fr : IFrame) (rest : List IFrame)
    (g : IGlob) : Instr → Res IOut
  | .op f args => pure (.next ⟨fr.set (f (args.map fr.get)) :: rest, g⟩)
  | .untracked f args => pure (.next ⟨fr.set (f (args.map fr.get)) :: rest, g⟩)
  | .load a n =>
    if n = 0 then pure (.next ⟨fr.set 0 :: rest, g⟩)
    else if CanAccess (fr.get a) n then
      pure (.next ⟨fr.set (readInt g.mem (fr.get a) n) :: rest, g⟩)
    else pure .stuck
  | .store a v n =>
    if n = 0 then pure (.next ⟨fr.set 0 :: rest, g⟩)
    else if CanAccess (fr.get a) n then
      pure (.next ⟨fr.set 0 :: rest, { g with mem := DfsanMem.writeInt g.mem (fr.get a) n (fr.get v) }⟩)
    else pure .stuck
  | .select c t e => pure (.next ⟨fr.set (if fr.get c ≠ 0 then fr.get t else fr.get e) :: rest, g⟩)
  | .call void f args =>
    match P[fr.get f]? with
    | none => pure .stuck
    | some F =>
      if F.nparams = args.length ∧ F.void = void ∧ F.blocks ≠ [] then
        pure (.next ⟨newIFrame F (fr.get f) (args.map fr.get) g :: fr :: rest, g⟩)
      else pure .stuck
  | .alloca n => pure (.next ⟨fr.set (g.sp - n) :: rest, { g with sp := g.sp - n }⟩)
  | .getVar k => pure (.next ⟨fr.set (fr.vars k) :: rest, g⟩)
  | .setVar k v =>
    pure (.next ⟨{ fr.set 0 with vars := fun i => if i = k then fr.get v else fr.vars i } :: rest, g⟩)
  | .getc =>
    match inp.byte g.pos with
    | some c => do
      let (L, r) ← g.L.createSourceLabels src g.pos 1
      pure (.next ⟨(fr.label an.dst r.1).set c.val :: rest, { g with pos := g.pos + 1, L }⟩)
    | none => pure (.next ⟨(fr.label an.dst 0).set eof :: rest, g⟩)
  | .putc v =>
    pure (.next ⟨fr.set 0 :: rest,
      { g with out := g.out ++ [(fr.get v, fr.lab (an.xargs.headD .zero))] }⟩)
  | .read a n =>
    let m := inp.got g.pos (fr.get n)
    if CanFill (fr.get a) (fr.get n) then
      if m = 0 then pure (.next ⟨(fr.label an.dst 0).set 0 :: rest, g⟩)
      else do
        let (L, r) ← g.L.createSourceLabels src g.pos m
        let mem ← labelBytes (putBytes inp g.pos (fr.get a) m g.mem) (fr.get a) r.1 m
        pure (.next ⟨(fr.label an.dst 0).set m :: rest, { g with mem, pos := g.pos + m, L }⟩)
    else pure .stuck
  | .write a n =>
    let m := inp.took g.out.length (fr.get n)
    if CanAccess (fr.get a) (fr.get n) then
      pure (.next ⟨(fr.label an.dst 0).set m :: rest,
        { g with out := g.out ++
          (List.range m).map (fun i => (g.mem (fr.get a + i), DfsanMem.labelOf g.mem (fr.get a + i))) }⟩)
    else pure .stuck
  | .memset d c n =>
    if CanFill (fr.get d) (fr.get n) then
      pure (.next ⟨fr.set 0 :: rest,
        { g with mem := DfsanMem.fillBytes (fr.get c % 2 ^ 8) (fr.get d) (fr.get n) g.mem }⟩)
    else pure .stuck
  | .memcpy move d s n =>
    if CanCopy move (fr.get d) (fr.get s) (fr.get n) then
      if move then do
        let mem ← DfsanMem.memmove g.mem (fr.get d) (fr.get s) (fr.get n)
        pure (.next ⟨fr.set 0 :: rest, { g with mem }⟩)
      else
        pure (.next ⟨fr.set 0 :: rest,
          { g with mem := DfsanMem.memcpy g.mem (fr.get d) (fr.get s) (fr.get n) }⟩)
    else pure .stuck
  | .rmw f a args n =>
    if 0 < n ∧ CanAccess (fr.get a) n then
      let r := f (readInt g.mem (fr.get a) n) (args.map fr.get)
      pure (.next ⟨fr.set r.2 :: rest, { g with mem := DfsanMem.writeInt g.mem (fr.get a) n r.1 }⟩)
    else pure .stuck
  | .hook k v =>
    let l := fr.lab (an.xargs.headD .zero)
    match k with
    | .taken _ =>
      pure (.next ⟨(fr.label an.dst l).set (fr.get v) :: rest,
        { g with ev := g.ev ++ [(k, fr.get v, l)] }⟩)
    | .noted => do
      -- src/polytracker/polytracker.cpp 48-65: a label that is not zero is marked
      let L ← if 0 < l then g.L.affectsControlFlow l else pure g.L
      pure (.next ⟨fr.set 0 :: rest, { g with ev := g.ev ++ [(k, fr.get v, l)], L }⟩)
    | _ => pure (.next ⟨fr.set 0 :: rest, { g with ev := g.ev ++ [(k, fr.get v, l)] }⟩)

/-- The shadow phis of block `t` entered from block `b`: the shadow written by each and the shadow it
takes (1632-1642). -/
def sphi (F : Func) (st : PSt) (t : Nat) (os : List Opd) : List (Nat × SV) :=
  os.zipIdx.map (fun (o, k) => (st.phis (.phi t k), st.getShadow F o))

/-- All shadow phis of a block are executed at the same time. -/
def IFrame.putAll (fr : IFrame) (xs : List (Nat × SV)) : IFrame :=
  (xs.map (fun x => (x.1, fr.lab x.2))).foldl (fun f x => f.put x.1 x.2) fr

def ijump (F : Func) (st : PSt) (fr : IFrame) (rest : List IFrame) (g : IGlob) (t : Nat) : IOut :=
  match F.blocks[t]? with
  | none => .stuck
  | some B =>
    match phiOpds fr.blk B.phis with
    | none => .stuck
    | some os =>
      .next ⟨{ fr.putAll (sphi F st t os) with
        blk := t, idx := 0
        env := fun r => match r with
          | .phi b k => if b = t then
              match os[k]? with
              | some o => fr.get o
              | none => fr.env r
            else fr.env r
          | .ins _ _ => fr.env r } :: rest, g⟩

/-- Returning to the caller, which reads the label of the result from TLS after the call (3149-3160).
`anns` gives the annotations of a place of a function. -/
def idoReturn (anns : Nat → Pt → Ann) (g : IGlob) (sp x : Nat) (void : Bool) : List IFrame → IOut
  | [] => .done x (if void then 0 else g.retTls) { g with sp }
  | c :: rest =>
    .next ⟨(c.label (anns c.fn (c.blk, c.idx + 1)).dst g.retTls).set x :: rest, { g with sp }⟩

def istepTerm (anns : Nat → Pt → Ann) (F : Func) (st : PSt) (fr : IFrame) (rest : List IFrame)
    (g : IGlob) : Term → IOut
  | .br c f ts =>
    match ts[f (fr.get c)]? with
    | none => .stuck
    | some t => ijump F st fr rest g t
  | .ret none => if F.void then idoReturn anns g fr.sp 0 true rest else .stuck
  | .ret (some v) => if F.void then .stuck else idoReturn anns g fr.sp (fr.get v) false rest
  | .unreachable => .stuck

/-- One instruction of the original program with all code inserted for it. `dom` is the dominator tree
of each function. -/
def istep (dom : Nat → Nat → Nat → Bool) (P : Prog) (inp : World) (src : Nat) (s : IState) :
    Res IOut :=
  match s.frames with
  | [] => pure .stuck
  | fr :: rest =>
    match P[fr.fn]? with
    | none => pure .stuck
    | some F =>
      let J := instrument (dom fr.fn) F
      let anns := fun fn p => match P[fn]? with
        | some F => (instrument (dom fn) F).st.ann p
        | none => ⟨[], [], none⟩
      match F.blocks[fr.blk]? with
      | none => pure .stuck
      | some B => do
        let an := J.st.ann (fr.blk, fr.idx + 1)
        let (fr, g) ← sexecs J.avoid an.pre fr s.glob
        match B.body[fr.idx]? with
        | some I => istepInstr P inp src an fr rest g I
        | none => pure (istepTerm anns F J.st fr rest g B.term)

/-- At most `n` steps. -/
def irun (dom : Nat → Nat → Nat → Bool) (P : Prog) (inp : World) (src : Nat) : Nat → IState → Res IOut
  | 0, s => pure (.next s)
  | n + 1, s => do
    match ← istep dom P inp src s with
    | .next s' => irun dom P inp src n s'
    | o => pure o

/-- The start: the TLS areas are zero (dfsan.cpp 61-65), function `fn` is entered. -/
def istart (F : Func) (fn : Nat) (args : List Nat) (mem : Mem) (sp : Nat) (L : Labels) : IState :=
  let g : IGlob := { mem, sp, pos := 0, out := [], ev := [], argTls := fun _ => 0, retTls := 0, L }
  ⟨[newIFrame F fn args g], g⟩

end PassIr
end Verif
