import Verif.PassModule
/-
How the instrumented program is linked: the command line of `_lower_bitcode`, /repo/polytracker/build.py 83-137, and the part
of a linker that it relies on: archives, `--start-group`, `--allow-multiple-definition`.

Simplifications: shared libraries, weak symbols and versions are left out; a linker that looks through an archive takes the
first member that defines a missing symbol, and again until none does (ld takes them in the order of the symbol table).
-/
namespace Verif.Libs
open PassModule

/-- An object file: symbols defined and symbols referred to. -/
structure Obj where
  file : Name
  defs : List Name
  refs : List Name
  deriving DecidableEq, Repr

/-- A library of object files. -/
abbrev Archive := List Obj

/-- A symbol is defined by one of the objects. -/
def defined (l : List Obj) (s : Name) : Bool := l.any fun o => o.defs.contains s

/-- A symbol is missing: referred to and not defined. -/
def absent (l : List Obj) (s : Name) : Bool := (l.any fun o => o.refs.contains s) && !defined l s

/-- A member of an archive that defines a missing symbol. -/
def wanted (l : List Obj) (m : Obj) : Bool := m.defs.any (absent l)

/-- Search of one archive: members are added until none is wanted. -/
def scan : Nat → Archive → List Obj → List Obj
  | 0, _, l => l
  | n + 1, a, l =>
    match a.find? (wanted l) with
    | none => l
    | some m => scan n a (l ++ [m])

/-- One pass over the archives of a group. -/
def pass (as : List Archive) (l : List Obj) : List Obj := as.foldl (fun l a => scan a.length a l) l

/-- `--start-group … --end-group`: passes until one adds nothing. -/
def group : Nat → List Archive → List Obj → List Obj
  | 0, _, l => l
  | n + 1, as, l => if (pass as l).length = l.length then l else group n as (pass as l)

/-- All rounds of a group. -/
def linkGroup (as : List Archive) (l : List Obj) : List Obj := group ((as.map (·.length)).sum + 1) as l

/-- The definition that a symbol gets: with `--allow-multiple-definition` (build.py 127) the first. -/
def resolve (l : List Obj) (s : Name) : Option Obj := l.find? fun o => o.defs.contains s

/-- The symbol that a call of a custom function refers to (DataFlowSanitizer.cpp 2985-3012). -/
def dfswSym (n : Name) : Name := ['_', '_', 'd', 'f', 's', 'w', '_'] ++ n

/-- Symbols that a use refers to. -/
def refSyms : ORef → List Name
  | .instr s => [s]
  | .native s => [s]
  | .addr s => [s]
  | .custom g => [dfswSym g]
  | .stop => ["__dfsan_vararg_wrapper".toList]

/-- The object file made of a module of the result: definitions that are not local, and all symbols used. -/
def objOf (O : OModule) : Obj :=
  { file := [],
    defs := (O.funcs.filter fun F => F.body.isSome && !F.loc).map (·.name) ++
      (O.aliases.filter fun a => !a.loc).map (·.name),
    refs := O.funcs.flatMap fun F => (F.body.getD []).flatMap refSyms }

/-- The libraries of the link. -/
structure LinkLibs where
  user : List Archive
  cxx : Archive
  cxxabi : Archive
  poly : Archive
  rt : Archive

/-- The group of the command, build.py 128-134: libraries of the original command, libc++.a and libc++abi.a, libPolytracker.a,
the runtime (90-97, 100). -/
def LinkLibs.line (B : LinkLibs) : List Archive := B.user ++ [B.cxx, B.cxxabi, B.poly, B.rt]

/-- The objects of the executable, from those given before the group (the bitcode, 121, and objects of `args`, 124). -/
def lower (B : LinkLibs) (main : List Obj) : List Obj := linkGroup B.line main

end Verif.Libs
