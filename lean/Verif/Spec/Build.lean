import Verif.Build
/- What the build tool should leave, and what the compiler makes of a command line. -/
namespace Verif.Build

variable {C : Type}

/-- The first command of the journal with an output of that name, and the first such output. -/
def First (J : List Cmd) (t : Word) (c : Cmd) (p : Path) : Prop :=
  ∃ (J1 J2 : List Cmd) (o1 o2 : List Item) (o : Item), J = J1 ++ c :: J2 ∧ c.outputs = o1 ++ o :: o2 ∧ o.path = p ∧
    p.name = t ∧ (∀ d ∈ J1, ∀ x ∈ d.outputs, x.path.name ≠ t) ∧ ∀ x ∈ o1, x.path.name ≠ t

/-- The base of a name: without what follows the last dot, if something is before and after the dot. -/
inductive Base : Word → Word → Prop where
  | cut {b s} : b ≠ [] → s ≠ [] → '.' ∉ s → Base (b ++ '.' :: s) b
  | whole {n} : (∀ b s, n = b ++ '.' :: s → '.' ∉ s → b = [] ∨ s = []) → Base n n

/-- Libraries among the inputs of a command. -/
def libFiles (c : Cmd) : List Path := c.inputs.filterMap fun i =>
  match i.kind with
  | .lib => some i.path
  | .other => none

/-- The executable that target `t` stands for: the stages applied to the stored artifact, in the files before the run. -/
def Makes (E : Env C) (J : List Cmd) (fs : Files C) (t b : Word) (exe : C) : Prop :=
  ∃ c p x0 x1 x2 x3 x4, First J t c p ∧ Base t b ∧ fs p = some x0 ∧ E.T.extract x0 = some x1 ∧
    (if E.cflog then ∃ ids, E.T.tcf x1 = some (x2, ids) else x2 = x1) ∧ E.T.opt x2 = some x3 ∧ E.T.inst x3 = some x4 ∧
    E.T.link (lowerCmd c E.poly ⟨E.cwd, b ++ ".instrumented.bc".toList⟩ ⟨E.cwd, b ++ ".instrumented".toList⟩) x4
      ((libFiles c).map fs) = some exe

/-- The table of functions of target `t`. -/
def Ids (E : Env C) (J : List Cmd) (fs : Files C) (t : Word) (ids : C) : Prop :=
  ∃ c p x0 x1 x2, First J t c p ∧ fs p = some x0 ∧ E.T.extract x0 = some x1 ∧ E.T.tcf x1 = some (x2, ids)

/-- Names of targets that do not get in the way of each other: all are in a store that is not the working directory;
different targets have different bases `b`, and no base is that of another followed by `.opt`; no artifact or library is a
bitcode file of one of them, or one of the files made in the working directory. -/
structure Apart (E : Env C) (J : List Cmd) (store : Word) (ts : List Word) : Prop where
  names : [] ∉ ts
  dir : store ≠ E.cwd
  stored : ∀ t ∈ ts, ∀ c p, First J t c p → p.dir = store
  bases : ∀ t ∈ ts, ∀ u ∈ ts, ∀ b, Base t b → Base u b → t = u
  opts : ∀ t ∈ ts, ∀ u ∈ ts, ∀ b, Base t b → Base u (b ++ ".opt".toList) → False
  self : ∀ t ∈ ts, ∀ u ∈ ts, ∀ b, Base u b → t ≠ b ++ ".bc".toList ∧ t ≠ b ++ ".opt.bc".toList
  lib : ∀ t ∈ ts, ∀ c p, First J t c p → ∀ l ∈ libFiles c,
    (l.dir = store → ∀ u ∈ ts, ∀ b, Base u b → l.name ≠ b ++ ".bc".toList ∧ l.name ≠ b ++ ".opt.bc".toList) ∧
    (l.dir = E.cwd → l.name ≠ "functionid.json".toList ∧ ∀ u ∈ ts, ∀ b, Base u b →
      l.name ≠ b ++ ".instrumented.bc".toList ∧ l.name ≠ b ++ ".instrumented".toList)

/-! ### Command lines -/

/-- Parts of a command line: files, `-o f`, `-of`, options, options with a value. -/
inductive Part where
  | file (w : Word)
  | out (w : Word)
  | joined (w : Word)
  | flag (w : Word)
  | pair (f v : Word)
  deriving DecidableEq, Repr

/-- A word that stands alone. -/
def single (w : Word) : Part :=
  match w with
  | '-' :: 'o' :: v => .joined v
  | '-' :: _ => .flag w
  | _ => .file w

/-- How a compiler reads its arguments; `takes` are the options (other than `-o`) followed by a value. -/
def parse (takes : Word → Bool) : List Word → Option (List Part)
  | [] => some []
  | [w] => if w = ['-', 'o'] || takes w then none else some [single w]
  | w :: v :: r =>
    if w = ['-', 'o'] then (parse takes r).map (.out v :: ·)
    else if takes w then (parse takes r).map (.pair w v :: ·)
    else (parse takes (v :: r)).map (single w :: ·)

/-- The output that a part gives. -/
def Part.output : Part → Option Word
  | .out w => some w
  | .joined w => some w
  | _ => none

/-- The file that is written: the last of the outputs. -/
def written (ps : List Part) : Option Word := (ps.filterMap Part.output).getLast?

/-- Words that the tool takes out of the command. -/
def Removed (c : Cmd) (w : Word) : Prop := (∃ i ∈ c.inputs, i.pre = w) ∨ w = ['-', 'o'] ∨ ∃ o ∈ c.outputs, o.pre = w

/-- A command whose words can be told apart: outputs of the journal are given as `-o f`, and no option or value of an option
is also an input or output. -/
def Clear (c : Cmd) (ps : List Part) : Prop :=
  ∀ x ∈ ps, match x with
    | .file _ => True
    | .out v => Removed c v
    | .joined _ => False
    | .flag w => ¬ Removed c w
    | .pair f v => ¬ Removed c f ∧ ¬ Removed c v

/-- What stays of a command: all but its output and its inputs, in the same order. -/
inductive Stays (c : Cmd) : List Part → List Part → Prop where
  | nil : Stays c [] []
  | out {v ps qs} : Stays c ps qs → Stays c (.out v :: ps) qs
  | input {w ps qs} : Removed c w → Stays c ps qs → Stays c (.file w :: ps) qs
  | file {w ps qs} : ¬ Removed c w → Stays c ps qs → Stays c (.file w :: ps) (.file w :: qs)
  | flag {w ps qs} : Stays c ps qs → Stays c (.flag w :: ps) (.flag w :: qs)
  | pair {f v ps qs} : Stays c ps qs → Stays c (.pair f v :: ps) (.pair f v :: qs)

end Verif.Build
