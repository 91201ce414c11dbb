import Verif.Spec.Labels
/-
A small SSA language standing for the LLVM bitcode that the DataFlowSanitizer pass transforms, and what
its programs mean. The meaning is given once, for any way `Alg` of describing taint: with the one-element
type it is the ordinary meaning of the program (values only), with sets of input bytes it is the taint
that the analysis is supposed to compute. Nothing here refers to the tracker.
-/
namespace Verif
namespace Ir

/-- An SSA value: a phi (block, position) or the result of an instruction (block, position). -/
inductive Reg where
  | phi (b k : Nat)
  | ins (b j : Nat)
  deriving DecidableEq, Repr

/-- An operand. Addresses of globals and functions are constants. -/
inductive Opd where
  | const (v : Nat)
  | arg (i : Nat)
  | reg (r : Reg)
  deriving DecidableEq, Repr

/-- What a program reports about itself: a function was entered or left, a decision was taken in a
function (`taken`, whose result is the value decided on), a decision was taken (`noted`). -/
inductive Hook where
  | enter (f : Nat)
  | leave (f : Nat)
  | taken (f : Nat)
  | noted
  deriving DecidableEq, Repr

/-- The taint of the value is reported too. -/
def Hook.seen : Hook → Bool
  | .taken _ | .noted => true
  | _ => false

/-- The reported value is also the result. -/
def Hook.gives : Hook → Bool
  | .taken _ => true
  | _ => false

/-- Instructions. `op` stands for everything whose result is a function of its operands: unary, binary
and compare instructions, casts, address arithmetic, vector and aggregate instructions, intrinsics and
calls of functions listed as functional, and loads from constant globals. `untracked` stands for calls of functions listed as discard and
for instructions the pass does not know (freeze). `alloca` gives fresh stack memory; `getVar`/`setVar` are
loads and stores of a local variable whose address is not taken. `getc` reads the next input byte,
`putc` writes a value to an output. `read a n` reads up to `n` bytes of input into memory, `write a n` writes up
to `n` bytes of memory to the output; their results are the numbers of bytes. `memset d c n` and `memcpy move d s n` are the block instructions
(`move`: the ranges may overlap). `rmw f a args n` stands for atomic instructions that change memory (atomicrmw, cmpxchg
and atomic stores): what is in the `n` bytes at `a` and the operands determine what is put there and the result;
the pass gives up tracking here. `hook` reports something. -/
inductive Instr where
  | op (f : List Nat → Nat) (args : List Opd)
  | untracked (f : List Nat → Nat) (args : List Opd)
  | load (a : Opd) (size : Nat)
  | store (a v : Opd) (size : Nat)
  | select (c t e : Opd)
  | call (void : Bool) (f : Opd) (args : List Opd)
  | alloca (size : Nat)
  | getVar (k : Nat)
  | setVar (k : Nat) (v : Opd)
  | getc
  | putc (v : Opd)
  | read (a n : Opd)
  | write (a n : Opd)
  | memset (d c n : Opd)
  | memcpy (move : Bool) (d s n : Opd)
  | rmw (f : Nat → List Nat → Nat × Nat) (a : Opd) (args : List Opd) (size : Nat)
  | hook (k : Hook) (v : Opd)

/-- Ends of blocks. `br c f ts` goes to the block at position `f c` of `ts`; it stands for
unconditional and conditional branches and switches. -/
inductive Term where
  | br (c : Opd) (f : Nat → Nat) (ts : List Nat)
  | ret (v : Option Opd)
  | unreachable

/-- A block: phis (with one operand per predecessor), instructions, end. -/
structure Block where
  phis : List (List (Nat × Opd))
  body : List Instr
  term : Term

/-- A function; block 0 is the entry. -/
structure Func where
  nparams : Nat
  void : Bool
  blocks : List Block

abbrev Prog := List Func

/-- How taint is described: untainted, combination, taint of the input byte at an offset. -/
structure Alg (τ : Type) where
  zero : τ
  join : τ → τ → τ
  src : Nat → τ

/-- Combination of a list. -/
def Alg.all {τ : Type} (A : Alg τ) (ts : List τ) : τ := ts.foldr A.join A.zero

/-- Taint as a set of bytes of input `s`. -/
def sets (s : Nat) : Alg (Nat × Nat → Prop) where
  zero := fun _ => False
  join := fun x y b => x b ∨ y b
  src := fun off b => b = (s, off)

/-- No taint at all. -/
def plain : Alg Unit := ⟨(), fun _ _ => (), fun _ => ()⟩

/-- A call of a function in progress. `idx` is the next instruction of the block `blk`; in a caller it is
the call. `sp` is the stack pointer to go back to. -/
structure Frame (τ : Type) where
  fn : Nat
  blk : Nat
  idx : Nat
  env : Reg → Nat × τ
  args : List (Nat × τ)
  vars : Nat → Nat × τ
  sp : Nat

/-- Memory (bytes and their taint), stack pointer, number of input bytes read, output, reports. -/
structure Glob (τ : Type) where
  mem : Nat → Nat
  tmem : Nat → τ
  sp : Nat
  pos : Nat
  out : List (Nat × τ)
  ev : List (Hook × Nat × τ)

/-- The innermost call is the head of `frames`. -/
structure State (τ : Type) where
  frames : List (Frame τ)
  glob : Glob τ

/-- What a step leads to. `stuck` is undefined behaviour of the program. -/
inductive Out (τ : Type) where
  | next (s : State τ)
  | done (v : Nat × τ) (g : Glob τ)
  | stuck

variable {τ : Type}

/-- Value and taint of an operand. -/
def Frame.get (A : Alg τ) (fr : Frame τ) : Opd → Nat × τ
  | .const v => (v, A.zero)
  | .arg i => fr.args.getD i (0, A.zero)
  | .reg r => fr.env r

/-- Give the current instruction its result and go on. -/
def Frame.set (fr : Frame τ) (x : Nat × τ) : Frame τ :=
  { fr with env := fun r => if r = .ins fr.blk fr.idx then x else fr.env r, idx := fr.idx + 1 }

/-- The integer in `n` bytes from `a`, little endian. -/
def readInt (m : Nat → Nat) : Nat → Nat → Nat
  | _, 0 => 0
  | a, n + 1 => m a + 256 * readInt m (a + 1) n

/-- Putting an integer in `n` bytes from `a`. -/
def putInt (m : Nat → Nat) (a n v : Nat) : Nat → Nat :=
  fun x => if a ≤ x ∧ x < a + n then v / 256 ^ (x - a) % 256 else m x

/-- Giving `n` places from `a` the taint `t`. -/
def putAll {α : Type} (f : Nat → α) (a n : Nat) (t : α) : Nat → α :=
  fun x => if a ≤ x ∧ x < a + n then t else f x

/-- Copying `n` places from `s` to `d`. -/
def copyAll {α : Type} (f : Nat → α) (d s n : Nat) : Nat → α :=
  fun x => if d ≤ x ∧ x < d + n then f (s + (x - d)) else f x

/-- A range of application memory, of a size an instruction can have. -/
def CanAccess (a n : Nat) : Prop :=
  0x700000008000 ≤ a ∧ a + n ≤ 0x800000000000 ∧ n ≤ 2 ^ 32

instance (a n : Nat) : Decidable (CanAccess a n) := by unfold CanAccess; infer_instance

/-- What `memset` and `read` may fill: a range that does not reach the end of the address space. -/
def CanFill (a n : Nat) : Prop := CanAccess a n ∧ a + n < 0x800000000000

instance (a n : Nat) : Decidable (CanFill a n) := by unfold CanFill; infer_instance

/-- What `memcpy` may copy. -/
def CanCopy (move : Bool) (d s n : Nat) : Prop :=
  CanAccess d n ∧ CanAccess s n ∧ (move = true ∨ d + n ≤ s ∨ s + n ≤ d)

instance (move : Bool) (d s n : Nat) : Decidable (CanCopy move d s n) := by
  unfold CanCopy; infer_instance

/-- The frame of a new call of function `fn`. -/
def newFrame (A : Alg τ) (fn : Nat) (args : List (Nat × τ)) (sp : Nat) : Frame τ :=
  { fn, blk := 0, idx := 0, env := fun _ => (0, A.zero), args, vars := fun _ => (0, A.zero), sp }

/-- What a program finds outside: the input byte at each offset (`none` past the end), how many bytes a call of
`read` with count `n` at offset `pos` gets (fewer than asked for at the end of the input, and for pipes,
terminals and sockets at any time), how many a call of `write` with count `n` after `pos` bytes takes. -/
structure World where
  byte : Nat → Option (Fin 256)
  got : Nat → Nat → Nat
  took : Nat → Nat → Nat
  got_le : ∀ pos n, got pos n ≤ n
  there : ∀ pos n i, i < got pos n → (byte (pos + i)).isSome
  took_le : ∀ pos n, took pos n ≤ n

/-- A file with the bytes `l` as input, and an output that takes everything. -/
def World.file (l : List (Fin 256)) : World where
  byte := fun i => l[i]?
  got := fun pos n => min n (l.length - pos)
  took := fun _ n => n
  got_le := fun _ _ => Nat.min_le_left _ _
  there := fun pos n i h => by
    rw [List.getElem?_eq_getElem (by omega)]; rfl
  took_le := fun _ _ => Nat.le_refl _

/-- The value of the input byte at an offset. -/
def World.at (w : World) (i : Nat) : Nat := ((w.byte i).map Fin.val).getD 0

/-- What `getc` returns at the end of the input: -1 as an int of 32 bits. -/
def eof : Nat := 2 ^ 32 - 1

/-- An instruction. -/
def stepInstr (A : Alg τ) (P : Prog) (inp : World) (fr : Frame τ) (rest : List (Frame τ))
    (g : Glob τ) : Instr → Out τ
  | .op f args =>
    let xs := args.map (fr.get A)
    .next ⟨fr.set (f (xs.map (·.1)), A.all (xs.map (·.2))) :: rest, g⟩
  | .untracked f args =>
    .next ⟨fr.set (f ((args.map (fr.get A)).map (·.1)), A.zero) :: rest, g⟩
  | .load a n =>
    if n = 0 then .next ⟨fr.set (0, A.zero) :: rest, g⟩
    else
      let p := fr.get A a
      if CanAccess p.1 n then
        .next ⟨fr.set (readInt g.mem p.1 n,
          A.join (A.all ((List.range n).map (fun i => g.tmem (p.1 + i)))) p.2) :: rest, g⟩
      else .stuck
  | .store a v n =>
    if n = 0 then .next ⟨fr.set (0, A.zero) :: rest, g⟩
    else
      let p := fr.get A a
      let x := fr.get A v
      if CanAccess p.1 n then
        .next ⟨fr.set (0, A.zero) :: rest,
          { g with mem := putInt g.mem p.1 n x.1, tmem := putAll g.tmem p.1 n x.2 }⟩
      else .stuck
  | .select c t e =>
    let x := fr.get A c
    let y := if x.1 ≠ 0 then fr.get A t else fr.get A e
    .next ⟨fr.set (y.1, A.join x.2 y.2) :: rest, g⟩
  | .call void f args =>
    let fn := (fr.get A f).1
    match P[fn]? with
    | none => .stuck
    | some F =>
      if F.nparams = args.length ∧ F.void = void ∧ F.blocks ≠ [] then
        .next ⟨newFrame A fn (args.map (fr.get A)) g.sp :: fr :: rest, g⟩
      else .stuck
  | .alloca n => .next ⟨fr.set (g.sp - n, A.zero) :: rest, { g with sp := g.sp - n }⟩
  | .getVar k => .next ⟨fr.set (fr.vars k) :: rest, g⟩
  | .setVar k v =>
    let x := fr.get A v
    .next ⟨{ fr.set (0, A.zero) with vars := fun i => if i = k then x else fr.vars i } :: rest, g⟩
  | .getc =>
    match inp.byte g.pos with
    | some c => .next ⟨fr.set (c.val, A.src g.pos) :: rest, { g with pos := g.pos + 1 }⟩
    | none => .next ⟨fr.set (eof, A.zero) :: rest, g⟩
  | .putc v =>
    .next ⟨fr.set (0, A.zero) :: rest, { g with out := g.out ++ [fr.get A v] }⟩
  | .read a n =>
    let p := (fr.get A a).1
    let k := (fr.get A n).1
    let m := inp.got g.pos k
    if CanFill p k then
      .next ⟨fr.set (m, A.zero) :: rest,
        { g with
          mem := fun x => if p ≤ x ∧ x < p + m then inp.at (g.pos + (x - p)) else g.mem x
          tmem := fun x => if p ≤ x ∧ x < p + m then A.src (g.pos + (x - p)) else g.tmem x
          pos := g.pos + m }⟩
    else .stuck
  | .write a n =>
    let p := (fr.get A a).1
    let k := (fr.get A n).1
    let m := inp.took g.out.length k
    if CanAccess p k then
      .next ⟨fr.set (m, A.zero) :: rest,
        { g with out := g.out ++ (List.range m).map (fun i => (g.mem (p + i), g.tmem (p + i))) }⟩
    else .stuck
  | .memset d c n =>
    let a := (fr.get A d).1
    let x := fr.get A c
    let k := (fr.get A n).1
    if CanFill a k then
      .next ⟨fr.set (0, A.zero) :: rest,
        { g with mem := putAll g.mem a k (x.1 % 256), tmem := putAll g.tmem a k x.2 }⟩
    else .stuck
  | .memcpy move d s n =>
    let a := (fr.get A d).1
    let b := (fr.get A s).1
    let k := (fr.get A n).1
    if CanCopy move a b k then
      .next ⟨fr.set (0, A.zero) :: rest,
        { g with mem := copyAll g.mem a b k, tmem := copyAll g.tmem a b k }⟩
    else .stuck
  | .rmw f a args n =>
    let p := (fr.get A a).1
    if 0 < n ∧ CanAccess p n then
      let r := f (readInt g.mem p n) ((args.map (fr.get A)).map (·.1))
      .next ⟨fr.set (r.2, A.zero) :: rest,
        { g with mem := putInt g.mem p n r.1, tmem := putAll g.tmem p n A.zero }⟩
    else .stuck
  | .hook k v =>
    let x := fr.get A v
    .next ⟨fr.set (if k.gives then x else (0, A.zero)) :: rest,
      { g with ev := g.ev ++ [(k, x.1, if k.seen then x.2 else A.zero)] }⟩

/-- The operands that the phis of a block take when it is entered from block `b`. -/
def phiOpds (b : Nat) (phis : List (List (Nat × Opd))) : Option (List Opd) :=
  phis.mapM (fun inc => inc.lookup b)

/-- Going to block `t`: all its phis get their values at the same time. -/
def jump (A : Alg τ) (F : Func) (fr : Frame τ) (rest : List (Frame τ)) (g : Glob τ) (t : Nat) :
    Out τ :=
  match F.blocks[t]? with
  | none => .stuck
  | some B =>
    match phiOpds fr.blk B.phis with
    | none => .stuck
    | some os =>
      .next ⟨{ fr with
        blk := t, idx := 0
        env := fun r => match r with
          | .phi b k => if b = t then
              match os[k]? with
              | some o => fr.get A o
              | none => fr.env r
            else fr.env r
          | .ins _ _ => fr.env r } :: rest, g⟩

/-- Returning. -/
def doReturn (g : Glob τ) (sp : Nat) (x : Nat × τ) : List (Frame τ) → Out τ
  | [] => .done x { g with sp }
  | caller :: rest => .next ⟨caller.set x :: rest, { g with sp }⟩

/-- The end of a block. -/
def stepTerm (A : Alg τ) (F : Func) (fr : Frame τ) (rest : List (Frame τ)) (g : Glob τ) :
    Term → Out τ
  | .br c f ts =>
    match ts[f (fr.get A c).1]? with
    | none => .stuck
    | some t => jump A F fr rest g t
  | .ret none => if F.void then doReturn g fr.sp (0, A.zero) rest else .stuck
  | .ret (some v) => if F.void then .stuck else doReturn g fr.sp (fr.get A v) rest
  | .unreachable => .stuck

/-- One step of a program. -/
def step (A : Alg τ) (P : Prog) (inp : World) (s : State τ) : Out τ :=
  match s.frames with
  | [] => .stuck
  | fr :: rest =>
    match P[fr.fn]? with
    | none => .stuck
    | some F =>
      match F.blocks[fr.blk]? with
      | none => .stuck
      | some B =>
        match B.body[fr.idx]? with
        | some I => stepInstr A P inp fr rest s.glob I
        | none => stepTerm A F fr rest s.glob B.term

/-- The value of an operand. -/
def Frame.val (fr : Frame τ) : Opd → Nat
  | .const v => v
  | .arg i => (fr.args[i]?.map (·.1)).getD 0
  | .reg r => (fr.env r).1

/-- How many combinations of two taints an instruction needs at most; a new source counts as one. The values
of the operands are `val`, and `got n` bytes of input are to be had if `n` are asked for. -/
def Instr.cost (val : Opd → Nat) (got : Nat → Nat) : Instr → Nat
  | .op _ args => args.length - 1
  | .load _ n => n
  | .select _ _ _ => 1
  | .getc => 1
  | .read _ n => got (val n)
  | _ => 0

/-- The cost of the next step. -/
def State.cost (P : Prog) (inp : World) (s : State τ) : Nat :=
  match s.frames with
  | [] => 0
  | fr :: _ =>
    match P[fr.fn]? with
    | none => 0
    | some F =>
      match F.blocks[fr.blk]? with
      | none => 0
      | some B =>
        match B.body[fr.idx]? with
        | some I => I.cost fr.val (inp.got s.glob.pos)
        | none => 0

/-- At most `n` steps. -/
def run (A : Alg τ) (P : Prog) (inp : World) : Nat → State τ → Out τ
  | 0, s => .next s
  | n + 1, s =>
    match step A P inp s with
    | .next s' => run A P inp n s'
    | o => o

/-- The cost of at most `n` steps. -/
def runCost (A : Alg τ) (P : Prog) (inp : World) : Nat → State τ → Nat
  | 0, _ => 0
  | n + 1, s =>
    s.cost P inp +
    match step A P inp s with
    | .next s' => runCost A P inp n s'
    | _ => 0

/-- The start of a program: function `fn` is called with untainted arguments; memory is tainted by `tm`, if
nothing else is said not at all. -/
def start (A : Alg τ) (fn : Nat) (args : List Nat) (mem : Nat → Nat) (sp : Nat)
    (tm : Nat → τ := fun _ => A.zero) : State τ where
  frames := [newFrame A fn (args.map (fun v => (v, A.zero))) sp]
  glob := { mem, tmem := tm, sp, pos := 0, out := [], ev := [] }

/-! ### Valid SSA -/

/-- A place in a function: 0 is the phis of the block, `j + 1` its instruction `j`, the last its end. -/
abbrev Pt := Nat × Nat

/-- Where a value is defined. -/
def Reg.pt : Reg → Pt
  | .phi b _ => (b, 0)
  | .ins b j => (b, j + 1)

/-- The blocks a block can go to. -/
def Block.succs (B : Block) : List Nat :=
  match B.term with
  | .br _ _ ts => ts
  | _ => []

/-- Control flow between places. -/
inductive Func.Edge (F : Func) : Pt → Pt → Prop where
  | seq {b B k} : F.blocks[b]? = some B → k ≤ B.body.length → Edge F (b, k) (b, k + 1)
  | jump {b B t} : F.blocks[b]? = some B → t ∈ B.succs →
      Edge F (b, B.body.length + 1) (t, 0)

/-- There is a path from the entry to `p` that does not go through `d` before `p`. -/
inductive Func.Avoid (F : Func) (d : Pt) : Pt → Prop where
  | entry : Avoid F d (0, 0)
  | step {p q} : Avoid F d p → p ≠ d → F.Edge p q → Avoid F d q

/-- `d` is executed before `p` on every path: `d` strictly dominates `p`. -/
def Func.Avail (F : Func) (d p : Pt) : Prop := ¬ F.Avoid d p

/-- Places that can be reached. -/
inductive Func.Reach (F : Func) : Pt → Prop where
  | entry : Reach F (0, 0)
  | step {p q} : Reach F p → F.Edge p q → Reach F q

/-- The value exists. -/
def Func.Defines (F : Func) : Reg → Prop
  | .phi b k => ∃ B, F.blocks[b]? = some B ∧ k < B.phis.length
  | .ins b j => ∃ B, F.blocks[b]? = some B ∧ j < B.body.length

/-- The operand may be used at `p`. -/
def Func.Usable (F : Func) (p : Pt) : Opd → Prop
  | .const _ => True
  | .arg i => i < F.nparams
  | .reg r => F.Defines r ∧ F.Avail r.pt p

/-- The operands of an instruction. -/
def Instr.opds : Instr → List Opd
  | .op _ args => args
  | .untracked _ args => args
  | .load a _ => [a]
  | .store a v _ => [a, v]
  | .select c t e => [c, t, e]
  | .call _ f args => f :: args
  | .alloca _ => []
  | .getVar _ => []
  | .setVar _ v => [v]
  | .getc => []
  | .putc v => [v]
  | .read a n => [a, n]
  | .write a n => [a, n]
  | .memset d c n => [d, c, n]
  | .memcpy _ d s n => [d, s, n]
  | .rmw _ a args _ => a :: args
  | .hook _ v => [v]

/-- The operands of the end of a block. -/
def Term.opds : Term → List Opd
  | .br c _ _ => [c]
  | .ret (some v) => [v]
  | _ => []

/-- What the LLVM verifier checks: branches lead to blocks, the entry has no phis, and in reachable code
uses are dominated by definitions (a phi uses its operand at the end of the predecessor). -/
structure Func.Valid (F : Func) : Prop where
  target : ∀ (b : Nat) (B : Block) t, F.blocks[b]? = some B → t ∈ B.succs → t < F.blocks.length
  entry : ∀ B, F.blocks[0]? = some B → B.phis = []
  ins : ∀ b B j I, F.blocks[b]? = some B → B.body[j]? = some I → F.Reach (b, j + 1) →
    ∀ o ∈ I.opds, F.Usable (b, j + 1) o
  term : ∀ b B, F.blocks[b]? = some B → F.Reach (b, B.body.length + 1) →
    ∀ o ∈ B.term.opds, F.Usable (b, B.body.length + 1) o
  phi : ∀ (b : Nat) (B : Block) (t : Nat) (T : Block) inc o, F.blocks[b]? = some B → t ∈ B.succs → F.blocks[t]? = some T →
    F.Reach (b, B.body.length + 1) → inc ∈ T.phis → inc.lookup b = some o →
    F.Usable (b, B.body.length + 1) o

/-- Block `a` is on every path from the entry to block `b`: the dominator relation between blocks. -/
inductive Func.BAvoid (F : Func) (a : Nat) : Nat → Prop where
  | entry : a ≠ 0 → BAvoid F a 0
  | step {b t : Nat} {B : Block} : BAvoid F a b → F.blocks[b]? = some B → t ∈ B.succs → t ≠ a → BAvoid F a t

end Ir
end Verif
