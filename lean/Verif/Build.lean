/-
The build tool `instrument-targets`: /repo/polytracker/build.py 83-134 (`_lower_bitcode`), 137-152, 164-225 (the steps),
228-234 (`_find_target`), 424-446 (`InstrumentTargets.run`), and the names of pathlib that it uses.

Simplifications: contents of files are abstract, and so are the tools (get-bc, opt with its passes, the compiler): each is a
function of the contents it reads, or fails. Paths are a directory and a name, without links; the journal is not a file that
the tool writes. Environment variables and the existence checks of 11-30 are left out. The pass pt-tcf also writes
`functionid.json` in the working directory (/repo/polytracker/src/passes/tainted_control_flow.cpp 190-193).
-/
namespace Verif.Build

abbrev Word := List Char

/-! ### Names -/

/-- Position of the last dot of a name (`rfind`). -/
def lastDot : Word → Option Nat
  | [] => none
  | c :: r =>
    match lastDot r with
    | some i => some (i + 1)
    | none => if c = '.' then some 0 else none

/-- `PurePath.stem`: up to the last dot, if that is neither the first nor the last character. -/
def stem (n : Word) : Word :=
  match lastDot n with
  | some i => if 0 < i && i + 1 < n.length then n.take i else n
  | none => n

/-- `PurePath.with_suffix`, for a suffix that is not empty. -/
def withSuffix (n s : Word) : Word := stem n ++ s

def dotBc : Word := ['.', 'b', 'c']
def dotOptBc : Word := ['.', 'o', 'p', 't', '.', 'b', 'c']
def dotInst : Word := ['.', 'i', 'n', 's', 't', 'r', 'u', 'm', 'e', 'n', 't', 'e', 'd']

/-- A path. -/
structure Path where
  dir : Word
  name : Word
  deriving DecidableEq, Repr

def Path.str (p : Path) : Word := p.dir ++ '/' :: p.name

/-! ### The journal -/

/-- Kinds of inputs that matter. -/
inductive Kind where
  | lib
  | other
  deriving DecidableEq, Repr

/-- An input or output in the journal: as it was written, and where it is stored. -/
structure Item where
  pre : Word
  path : Path
  kind : Kind
  deriving DecidableEq, Repr

/-- A command of the build. -/
structure Cmd where
  tool : Word
  args : List Word
  inputs : List Item
  outputs : List Item
  deriving DecidableEq, Repr

/-- `_find_target`, 228-234. -/
def findTarget (J : List Cmd) (t : Word) : Option (Cmd × Path) :=
  J.findSome? fun c => (c.outputs.find? fun o => o.path.name = t).map fun o => (c, o.path)

/-! ### The link command -/

/-- Arguments that are left, 110-115. -/
def keptArgs (c : Cmd) : List Word :=
  c.args.filter fun x => !(c.inputs.map (·.pre) ++ [['-', 'o']] ++ c.outputs.map (·.pre)).contains x

/-- Libraries of the command, 107-108. -/
def libs (c : Cmd) : List Path := (c.inputs.filter fun i => i.kind = .lib).map (·.path)

/-- The command, 117-134; `poly` are the libraries of PolyTracker and what follows up to the end of the group. -/
def lowerCmd (c : Cmd) (poly : List Word) (bc out : Path) : List Word :=
  [c.tool, bc.str, ['-', 'o'], out.str] ++ keptArgs c ++
    ["-pie".toList, "-Wl,--allow-multiple-definition".toList, "-Wl,--start-group".toList] ++ (libs c).map Path.str ++ poly

/-! ### The steps -/

/-- The tools: `get-bc`, pt-tcf (new bitcode and the table of functions), `opt -O3`, the other passes, the compiler. -/
structure Tools (C : Type) where
  extract : C → Option C
  tcf : C → Option (C × C)
  opt : C → Option C
  inst : C → Option C
  /-- Command, bitcode, libraries. -/
  link : List Word → C → List (Option C) → Option C

/-- Files. -/
abbrev Files (C : Type) := Path → Option C

variable {C : Type}

def Files.set (fs : Files C) (p : Path) (c : C) : Files C := fun q => if q = p then some c else fs q

/-- What stays fixed in a run: tools, working directory, `--cflog`, libraries of PolyTracker. -/
structure Env (C : Type) where
  T : Tools C
  cwd : Word
  cflog : Bool
  poly : List Word

/-- The files of a target: bitcode, optimized bitcode, instrumented bitcode, executable (430-431, 438, 446). -/
def bcPath (p : Path) : Path := { p with name := withSuffix p.name dotBc }
def optPath (p : Path) : Path := { p with name := withSuffix (bcPath p).name dotOptBc }
def instPath (E : Env C) (p : Path) : Path := ⟨E.cwd, stem (bcPath p).name ++ dotInst ++ dotBc⟩
def exePath (E : Env C) (p : Path) : Path := ⟨E.cwd, stem (instPath E p).name⟩
def idsPath (E : Env C) : Path := ⟨E.cwd, "functionid.json".toList⟩

/-- A tool that reads one file and writes one; nothing is written if it fails. -/
def step (f : C → Option C) (src dst : Path) (fs : Files C) : Option (Files C) :=
  ((fs src).bind f).map (fs.set dst)

/-- pt-tcf in place, 433-435. -/
def tcfStep (E : Env C) (p : Path) (fs : Files C) : Option (Files C) :=
  ((fs (bcPath p)).bind E.T.tcf).map fun r => (fs.set (idsPath E) r.2).set (bcPath p) r.1

/-- The compiler, 446 with 83-134. -/
def linkStep (E : Env C) (c : Cmd) (p : Path) (fs : Files C) : Option (Files C) :=
  step (fun b => E.T.link (lowerCmd c E.poly (instPath E p) (exePath E p)) b ((libs c).map fs)) (instPath E p) (exePath E p) fs

/-- One round of the loop, 425-446; `none`: an exception. (Files written before an exception are not modelled.) -/
def target (E : Env C) (J : List Cmd) (fs : Files C) (t : Word) : Option (Files C) :=
  match findTarget J t with
  | none => none
  | some (c, p) => do
    let fs ← step E.T.extract p (bcPath p) fs
    let fs ← if E.cflog then tcfStep E p fs else some fs
    let fs ← step E.T.opt (bcPath p) (optPath p) fs
    let fs ← step E.T.inst (optPath p) (instPath E p) fs
    linkStep E c p fs

/-- `InstrumentTargets.run`, 423-446. -/
def run (E : Env C) (J : List Cmd) (fs : Files C) (ts : List Word) : Option (Files C) := ts.foldlM (target E J) fs

end Verif.Build
