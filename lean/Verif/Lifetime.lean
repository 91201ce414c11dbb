import Verif.Spec.Life
/-
The life of the tracker in a process: it is constructed by `__taint_start`, which the taint tracking pass registers
as a global constructor (/repo/polytracker/src/passes/taint_tracking.cpp 81-84, 133), and destroyed by
`polytracker_end`, which is registered with atexit (/repo/polytracker/src/polytracker/main.cpp 104-113, 167). The
C runtime is the environment: constructors run in the order of their priorities, those of equal priority in the
order of the module, then main; when the process exits, the functions registered with atexit run, the last
registered first, then the functions in .fini_array. Code is given by what it does to the runtime. Threads are
not modelled.
-/
namespace Verif.Lifetime
open Verif.Spec

/-- The entry points of the runtime: those of polytracker.cpp 24-105, and the wrappers (taint_sources.cpp,
write_taints.cpp) that use the tracker. -/
inductive Hook where
  | funcEntry | funcExit | unionTable | condBranch | taintedCf | enterFunction | leaveFunction | taintArgv | wrapper
  deriving DecidableEq

/-- What code does: a call of an entry point, with the label and the value of its argument; `atexit(f)`;
`__taint_start()`; `exit()`. -/
inductive Act where
  | hook (h : Hook) (label value : Nat)
  | atexit (f : Nat)
  | start
  | exit
  deriving DecidableEq

/-- A program: its constructors with their priorities (`llvm.global_ctors`), main, the bodies of the functions it
registers with atexit, and its destructor functions (`.fini_array`). -/
structure Prog where
  ctors : List (Nat × List Act)
  main : List Act
  body : Nat → List Act
  fini : List (List Act)

/-- `TaintTrackingPass::run`, taint_tracking.cpp 81-84 and 113-135: the start of the tracker is added to the
constructors with priority 0, the call for the command line to main. -/
def instrument (P : Prog) : Prog :=
  { P with ctors := P.ctors ++ [(0, [.start])], main := .hook .taintArgv 0 0 :: P.main }

/-- An entry of the list of functions to call at exit. -/
inductive Handler where
  | user (f : Nat)
  | ours
  deriving DecidableEq

/-- The state of the process: `polytracker_init_flag` (polytracker.cpp 14-22), the setting
`polytracker_taint_argv` (main.cpp 31), the registered functions, the last one first, and what happened. -/
structure PState where
  flag : Bool
  argv : Bool
  handlers : List Handler
  log : List LifeEv

/-- The start of a process. -/
def PState.init : PState := ⟨false, false, [], []⟩

/-- Something happens. -/
def PState.say (s : PState) (e : LifeEv) : PState := { s with log := s.log ++ [e] }

/-- `if (p) use of the tracker`. -/
def PState.useIf (s : PState) (p : Bool) : PState := if p then s.say .use else s

/-- The entry points. polytracker.cpp 24-37, 39-45, 47-65, 76-105: nothing happens before the start; argv.cpp 11-22;
the wrappers do not look at the flag. -/
def hook (s : PState) (h : Hook) (label value : Nat) : PState :=
  match h with
  | .funcEntry | .funcExit | .unionTable | .enterFunction | .leaveFunction => s.useIf s.flag
  | .condBranch => s.useIf (s.flag && decide (0 < label))
  | .taintedCf =>
    if s.flag then (s.useIf (decide (0 < label))).say (.value value value) else s.say (.value value 0)
  | .taintArgv => s.useIf s.argv
  | .wrapper => s.say .use

/-- `__taint_start`, polytracker.cpp 67-70 with main.cpp 158-168: the settings are read (`argv`: whether the
command line is a source), the tracker is constructed, the streams that are wanted are registered (`n`),
`polytracker_end` is registered, the flag is set. -/
def start (argv : Bool) (n : Nat) (s : PState) : PState :=
  { flag := true, argv := argv, handlers := .ours :: s.handlers,
    log := s.log ++ .construct :: List.replicate n .use }

/-- `polytracker_end`, main.cpp 104-113: `n` streams are closed, the tracker is destroyed. The flag stays. -/
def end_ (n : Nat) (s : PState) : PState := { s with log := s.log ++ (List.replicate n .use ++ [.destroy]) }

/-- The environment: whether the command line is tracked, how many streams are registered at the start and
closed at the end. -/
structure Setup where
  argv : Bool
  opened : Nat
  closed : Nat

/-- Runs code to its end or to `exit()`; tells whether it is the end. -/
def runActs (E : Setup) : List Act → PState → PState × Bool
  | [], s => (s, true)
  | .hook h l v :: as, s => runActs E as (hook s h l v)
  | .atexit f :: as, s => runActs E as { s with handlers := .user f :: s.handlers }
  | .start :: as, s => runActs E as (start E.argv E.opened s)
  | .exit :: _, s => (s, false)

/-- Runs code in turn until one calls exit. -/
def runAll (E : Setup) : List (List Act) → PState → PState × Bool
  | [], s => (s, true)
  | c :: cs, s =>
    match runActs E c s with
    | (s', true) => runAll E cs s'
    | (s', false) => (s', false)

/-- Puts a constructor before the first one that does not have a smaller priority. -/
def insertCtor (c : Nat × List Act) : List (Nat × List Act) → List (Nat × List Act)
  | [] => [c]
  | d :: ds => if c.1 ≤ d.1 then c :: d :: ds else d :: insertCtor c ds

/-- The order in which constructors run. -/
def ctorOrder : List (Nat × List Act) → List (Nat × List Act)
  | [] => []
  | c :: cs => insertCtor c (ctorOrder cs)

/-- The functions registered with atexit, the last one first; they may register more. At most the given number
of functions is called; tells whether that was enough. -/
def handlers (E : Setup) (P : Prog) : Nat → PState → PState × Bool
  | 0, s => (s, s.handlers.isEmpty)
  | n + 1, s =>
    match s.handlers with
    | [] => (s, true)
    | .user f :: hs => handlers E P n (runActs E (P.body f) { s with handlers := hs }).1
    | .ours :: hs => handlers E P n (end_ E.closed { s with handlers := hs })

/-- The functions in `.fini_array`. -/
def fini (E : Setup) : List (List Act) → PState → PState
  | [], s => s
  | c :: cs, s => fini E cs (runActs E c s).1

/-- The process: at most `n` functions registered with atexit are called. Tells whether it came to its end. -/
def process (E : Setup) (P : Prog) (n : Nat) : PState × Bool :=
  let s := (runAll E ((ctorOrder P.ctors).map (·.2) ++ [P.main]) .init).1
  match handlers E P n s with
  | (s', true) => (fini E P.fini s', true)
  | r => r

end Verif.Lifetime
