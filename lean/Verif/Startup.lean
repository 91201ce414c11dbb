import Verif.TrackerHistory
import Verif.ShadowMem
/-
Model of the start of an instrumented process: settings from the environment
(/repo/polytracker/src/polytracker/main.cpp), tainting of the command line
(/repo/polytracker/src/taint_sources/argv.cpp) and the entry points called by instrumented code, which
do nothing before start-up (/repo/polytracker/src/polytracker/polytracker.cpp).

Left out: what is printed (polytracker_print_settings), the settings byte_start, byte_end,
taint_node_ttl and trace flags, which nothing reads, and the wrappers of libc functions, which are
modelled in Wrappers.lean.
-/
namespace Verif
namespace Startup

/-- Character codes. -/
def chars (cs : List Char) : List Nat := cs.map Char.toNat

/-- Environment variables: `getenv` of the C library. -/
abbrev Env := List Nat → Option (List Nat)

/-- Names of the variables, main.cpp 60, 64, 68, 72, 76. -/
def polydb : List Nat := chars ['P', 'O', 'L', 'Y', 'D', 'B']
/-- See `polydb`. -/
def stdoutVar : List Nat := chars "POLYTRACKER_STDOUT_SINK".toList
/-- See `polydb`. -/
def stderrVar : List Nat := chars "POLYTRACKER_STDERR_SINK".toList
/-- See `polydb`. -/
def stdinVar : List Nat := chars "POLYTRACKER_STDIN_SOURCE".toList
/-- See `polydb`. -/
def argvVar : List Nat := chars "POLYTRACKER_TAINT_ARGV".toList

/-- File names given to the standard streams, main.cpp 135, 139, 146. -/
def devStdout : List Nat := chars "/dev/stdout".toList
/-- See `devStdout`. -/
def devStderr : List Nat := chars "/dev/stderr".toList
/-- See `devStdout`. -/
def devStdin : List Nat := chars "/dev/stdin".toList

/-- The settings, main.cpp 25-31. -/
structure Settings where
  dbName : List Nat
  stderrSink : List Nat
  stdoutSink : List Nat
  stdinSource : List Nat
  taintArgv : Bool
  deriving DecidableEq, Repr

/-- Values before the environment is read: default-constructed strings, main.cpp 90-93, and the
initialiser in line 31. -/
def Settings.initial : Settings :=
  { dbName := [], stderrSink := [], stdoutSink := [], stdinSource := [], taintArgv := false }

/-- `polytracker_parse_env`, main.cpp 59-79. `argv[0]` of an empty value is its terminator. -/
def parseEnv (env : Env) (s : Settings) : Settings :=
  let s := match env polydb with | some v => { s with dbName := v } | none => s
  let s := match env stdoutVar with | some v => { s with stdoutSink := v } | none => s
  let s := match env stderrVar with | some v => { s with stderrSink := v } | none => s
  let s := match env stdinVar with | some v => { s with stdinSource := v } | none => s
  match env argvVar with | some v => { s with taintArgv := v.headD 0 == 49 } | none => s

/-- "polytracker.tdag", main.cpp 54. -/
def defaultName : List Nat := chars "polytracker.tdag".toList

/-- `set_defaults`, main.cpp 45-56. -/
def setDefaults (s : Settings) : Settings :=
  if s.dbName = [] then { s with dbName := defaultName } else s

/-- `polytracker_get_settings`, main.cpp 89-96. -/
def getSettings (env : Env) : Settings := setDefaults (parseEnv env .initial)

/-- What start-up sees of the standard streams: `fileno` (negative: no descriptor) and the result of
`file_size` for a name. -/
structure Stdio where
  stdinFd : Int
  stdoutFd : Int
  stderrFd : Int
  size : List Nat → Option Nat

/-- `if (int f = fileno(stream); f >= 0 && setting == "1") get_polytracker_tdag().open_file(f, name);`,
main.cpp 134-136, 138-140, 145-147; the character '1' is 49. -/
def openStream (io : Stdio) (fd : Int) (setting name : List Nat) (T : Tracker) : Res Tracker :=
  if 0 ≤ fd ∧ setting = [49] then do
    let (T, _) ← T.openFile fd name (io.size name)
    return T
  else .ok T

/-- `sink_streams`, main.cpp 132-141. -/
def sinkStreams (s : Settings) (io : Stdio) (T : Tracker) : Res Tracker := do
  let T ← openStream io io.stdoutFd s.stdoutSink devStdout T
  openStream io io.stderrFd s.stderrSink devStderr T

/-- `stdin_source`, main.cpp 144-148. -/
def stdinSource (s : Settings) (io : Stdio) (T : Tracker) : Res Tracker :=
  openStream io io.stdinFd s.stdinSource devStdin T

/-- `taint_start`, main.cpp 150-159. The tracker writes to a new file named by the settings, mapped at
`base`. -/
def taintStart (env : Env) (io : Stdio) (c : Config) (base : Nat) : Res (Settings × Tracker) := do
  let s := getSettings env
  let T ← Tracker.init c base
  let T ← sinkStreams s io T
  let T ← stdinSource s io T
  return (s, T)

/-- `std::to_string` of a non-negative number (C++ library); `fuel` bounds the number of digits. -/
def decimalF : Nat → Nat → List Nat
  | 0, n => [48 + n % 10]
  | fuel + 1, n => if n < 10 then [48 + n] else decimalF fuel (n / 10) ++ [48 + n % 10]

/-- `std::to_string(i)` for `0 ≤ i < 2^31`: at most ten digits. -/
def decimal (n : Nat) : List Nat := decimalF 9 n

/-- `std::string{"argv["} + std::to_string(i) + "]"`, argv.cpp 26. -/
def argName (i : Nat) : List Nat := chars ['a', 'r', 'g', 'v', '['] ++ decimal i ++ chars [']']

/-- The loop of taint_argv, argv.cpp 25-30, from argument `i` on, `n` arguments left. Reading beyond
the array is undefined. The memory is that of the process; the tracker's own writes to labels do not
touch it. -/
def argvLoop (m : Mem) (argv : List Nat) : Nat → Nat → Tracker → Res Tracker
  | _, 0, T => .ok T
  | i, n + 1, T => do
    let p ← getRes argv i
    let len ← DfsanMem.strlen m p
    let (T, _) ← T.createTaintSource (argName i) p len
    argvLoop m argv (i + 1) n T

/-- `taint_argv`, argv.cpp 11-31. -/
def taintArgv (flag : Bool) (m : Mem) (argc : Int) (argv : List Nat) (T : Tracker) :
    Res Tracker :=
  if flag = false then .ok T
  else if argc ≤ 0 then .ok T
  else argvLoop m argv 0 argc.toNat T

/-- The runtime's part of a process: `polytracker_init_flag`, polytracker.cpp 14, the settings, and
the tracker, which does not exist before start-up (early_construct.h 84-99). -/
structure Proc where
  init : Bool
  settings : Settings
  tracker : Option Tracker

/-- A process before any code of it has run. -/
def Proc.fresh : Proc := { init := false, settings := .initial, tracker := none }

/-- The functions called by instrumented code, polytracker.cpp 24-102. -/
inductive Entry where
  /-- `__polytracker_log_func_entry`, 24-30 -/
  | funcEntry (name : List Nat)
  /-- `__polytracker_log_func_exit`, 32-38 -/
  | funcExit (i : Nat)
  /-- `__polytracker_union_table`, 40-46 -/
  | unionTable (l r : Nat)
  /-- `__dfsw___polytracker_log_conditional_branch`, 58-65 -/
  | condBranch (label : Nat)
  /-- `__polytracker_taint_argv`, 72-74 -/
  | argv (argc : Int) (argv : List Nat)
  /-- `__dfsw___polytracker_log_tainted_control_flow`, 76-88 -/
  | taintedCf (cond fid label : Nat)
  /-- `__polytracker_enter_function`, 90-95 -/
  | enter (fid : Nat)
  /-- `__polytracker_leave_function`, 97-102 -/
  | leave (fid : Nat)
  deriving DecidableEq, Repr

/-- What an entry point hands back: its result, if it has one, and the label stored for the result
(`none`: the place is left as it was). -/
structure Answer where
  value : Option Nat
  retLabel : Option Nat
  deriving DecidableEq, Repr

/-- `get_polytracker_tdag()`: undefined before construction. -/
def Proc.get (P : Proc) : Res Tracker :=
  match P.tracker with
  | some T => .ok T
  | none => .ub

/-- The entry points, in the order of `Entry`; `m` is the memory of the process at the call. -/
def step (m : Mem) (P : Proc) : Entry → Res (Proc × Answer)
  | .funcEntry name =>
    if P.init = false then .ok (P, ⟨some 0, none⟩)
    else do
      let T ← P.get
      let (T, i) ← T.functionEntry name
      return ({ P with tracker := some T }, ⟨some i, none⟩)
  | .funcExit i =>
    if P.init = false then .ok (P, ⟨none, none⟩)
    else do
      let T ← P.get
      let T ← T.functionExit i
      return ({ P with tracker := some T }, ⟨none, none⟩)
  | .unionTable l r =>
    if P.init = false then .ok (P, ⟨some 0, none⟩)
    else do
      let T ← P.get
      let (T, u) ← T.unionLabels l r
      return ({ P with tracker := some T }, ⟨some u, none⟩)
  | .condBranch label =>
    if P.init = false then .ok (P, ⟨none, none⟩)
    else if label > 0 then do
      let T ← P.get
      let T ← T.affectsControlFlow label
      return ({ P with tracker := some T }, ⟨none, none⟩)
    else .ok (P, ⟨none, none⟩)
  | .argv argc argv =>
    if P.settings.taintArgv = false then .ok (P, ⟨none, none⟩)
    else do
      let T ← P.get
      let T ← taintArgv P.settings.taintArgv m argc argv T
      return ({ P with tracker := some T }, ⟨none, none⟩)
  | .taintedCf cond fid label =>
    if P.init = false then .ok (P, ⟨some 0, none⟩)
    else if label > 0 then do
      let T ← P.get
      let T ← T.logCf (.tainted fid label)
      return ({ P with tracker := some T }, ⟨some cond, some label⟩)
    else .ok (P, ⟨some cond, some label⟩)
  | .enter fid =>
    if P.init = false then .ok (P, ⟨none, none⟩)
    else do
      let T ← P.get
      let T ← T.logCf (.enter fid)
      return ({ P with tracker := some T }, ⟨none, none⟩)
  | .leave fid =>
    if P.init = false then .ok (P, ⟨none, none⟩)
    else do
      let T ← P.get
      let T ← T.logCf (.leave fid)
      return ({ P with tracker := some T }, ⟨none, none⟩)

/-- A sequence of calls with the memory at each. -/
def steps (P : Proc) : List (Mem × Entry) → Res (Proc × List Answer)
  | [] => .ok (P, [])
  | (m, e) :: es => do
    let (P, a) ← step m P e
    let (P, as) ← steps P es
    return (P, a :: as)

/-- `__taint_start`, polytracker.cpp 67-70. It is called once, by the constructor that
TaintTrackingPass::insertTaintStartupCall adds (taint_tracking.cpp 82-85). -/
def start (env : Env) (io : Stdio) (c : Config) (base : Nat) (P : Proc) : Res Proc := do
  let (s, T) ← taintStart env io c base
  return { P with init := true, settings := s, tracker := some T }

end Startup
end Verif
