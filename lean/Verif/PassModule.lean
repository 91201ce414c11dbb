import Verif.WrapCall
/-
Work of the data-flow pass on modules: names, wrappers, aliases, and which symbol a use of a function becomes,
/repo/polytracker/src/passes/DataFlowSanitizer.cpp 277-310 (ABI list), 1123-1144, 1146-1164 (names), 1166-1197
(wrappers), 1457-1610 (`runImpl`), 2963-2985 and 3082-3097 (calls).

Uses of functions are pointers in LLVM; here they are names within the module, so that giving a function a new name
changes all its uses. Names are lists of characters. Simplifications: aliases stand for functions directly, not for
other aliases; intrinsics and functions of the runtime (1459-1460) are not part of the list of functions; linkage is local
or not; TLS ABI, no origins, no module inline assembler. LLVM's renaming of a symbol whose new name is taken is not
modelled (the theorems ask for programs without names that begin with the prefixes).
-/
namespace Verif.PassModule

abbrev Name := List Char

/-- What is used of the type of a function: number of parameters, variable arguments, `void`. -/
structure Sig where
  params : Nat
  vararg : Bool
  void : Bool
  deriving DecidableEq, Repr

/-- A use of a function: a direct call, or any other use (its address; a call through a cast to another type; an
`invoke` of a custom function, 2986-2991). `stop` is the call of `__dfsan_vararg_wrapper` in a wrapper. -/
inductive Ref where
  | call (g : Name)
  | addr (g : Name)
  | stop
  deriving DecidableEq, Repr

/-- A function: `body` are the uses of functions in it, `none` for a declaration. -/
structure Func where
  name : Name
  sig : Sig
  loc : Bool
  body : Option (List Ref)
  deriving DecidableEq, Repr

/-- An alias of a function. -/
structure Alias where
  name : Name
  loc : Bool
  base : Name
  deriving DecidableEq, Repr

/-- A module; `src` is its identifier. -/
structure Module where
  src : Name
  funcs : List Func
  aliases : List Alias
  deriving DecidableEq, Repr

/-- The ABI list: functions and sources by category. -/
structure AbiList where
  unins : Name → Bool
  uninsSrc : Name → Bool
  functional : Name → Bool
  discard : Name → Bool
  custom : Name → Bool

variable (A : AbiList)

/-- `isInstrumented`, 1123-1129 with 285-310. -/
def inst (src n : Name) : Bool := !(A.uninsSrc src || A.unins n)

/-- `getWrapperKind`, 1135-1144. (Sources in the categories of wrappers are not modelled.) -/
def kind (n : Name) : WrapCall.Kind := WrapCall.wrapperKind (A.functional n) (A.discard n) (A.custom n)

/-- Prefix of instrumented functions, 1147. -/
def dfs (n : Name) : Name := ['d', 'f', 's', '$'] ++ n

/-- Prefix of wrappers, 1564. -/
def dfsw (n : Name) : Name := ['d', 'f', 's', 'w', '$'] ++ n

/-- The function with that name. -/
def Module.func (M : Module) (n : Name) : Option Func := M.funcs.find? fun F => F.name = n

/-- The body made by `buildWrapperFunction`, 1177-1194. -/
def wrapperBody (s : Sig) (n : Name) : List Ref := if s.vararg then [.stop] else [.call n]

/-- Aliases, 1466-1493: an alias of different instrumentedness than its function becomes a wrapper function. -/
def mixed (M : Module) (a : Alias) : Option Func :=
  match M.func a.base with
  | none => none
  | some F =>
    if inst A M.src a.name ≠ inst A M.src F.name then
      some { name := a.name, sig := F.sig, loc := a.loc, body := some (wrapperBody F.sig F.name) }
    else none

/-- `FnsToInstrument` before the loop, 1457-1460 and 1490: the functions and the wrappers in place of aliases. -/
def allFuncs (M : Module) : List Func := M.funcs ++ M.aliases.filterMap (mixed A M)

/-- `IsZeroArgsVoidRet`, 1506-1507. -/
def zeroArgs (s : Sig) : Bool := s.params = 0 && !s.vararg && s.void

/-- Functions that get a wrapper `dfsw$`, 1545. -/
def wrapped (src : Name) (F : Func) : Bool :=
  !inst A src F.name && (!zeroArgs F.sig || kind A F.name = .custom)

/-- What a use of a function becomes: its name after 1543, or the wrapper that replaces all its uses (1572-1574). -/
def useSym (src : Name) (F : Func) : Name :=
  if inst A src F.name then dfs F.name else if wrapped A src F then dfsw F.name else F.name

/-- The function with that name among those of the loop. -/
def look (M : Module) (n : Name) : Option Func := (allFuncs A M).find? fun F => F.name = n

/-- What a use of a name becomes: of a function as above; an alias that is left gets the prefix if it is
instrumented (1478-1479). -/
def sym (M : Module) (n : Name) : Name :=
  match look A M n with
  | some F => useSym A M.src F
  | none => if inst A M.src n then dfs n else n

/-- A use in the result: a call with labels in the TLS area, a call of a function as if it was not instrumented, a
call of `__dfsw_g` with labels as arguments, another use, a call of `__dfsan_vararg_wrapper`. -/
inductive ORef where
  | instr (s : Name)
  | native (s : Name)
  | custom (g : Name)
  | addr (s : Name)
  | stop
  deriving DecidableEq, Repr

/-- A use, rewritten: `visitCallBase`, 3082-3097, and `visitWrappedCallBase`, 2963-2985. `UnwrappedFnMap` (1576) has the
wrapped functions. -/
def useRef (M : Module) : Ref → ORef
  | .call g =>
    match look A M g with
    | some F =>
      if wrapped A M.src F then (if kind A g = .custom then .custom g else .native g) else .instr (sym A M g)
    | none => .instr (sym A M g)
  | .addr g => .addr (sym A M g)
  | .stop => .stop

/-- Where a function of the result comes from: it is a function of the program (by its name there), or a wrapper. -/
inductive Origin where
  | own (n : Name)
  | wrapper
  deriving DecidableEq, Repr

/-- A function of the result. `native`: it does not take labels from the TLS area (`FnsWithNativeABI`, 1584). -/
structure OFunc where
  name : Name
  loc : Bool
  sig : Sig
  native : Bool
  origin : Origin
  body : Option (List ORef)
  deriving DecidableEq, Repr

/-- A module of the result. -/
structure OModule where
  funcs : List OFunc
  aliases : List Alias
  deriving Repr

/-- Whether the function was in the program (and not made for an alias). -/
def own (M : Module) (F : Func) : Origin := if (M.func F.name).isSome then .own F.name else .wrapper

/-- One round of the loop over the functions, 1500-1601, followed by the instrumentation of their bodies, 1603-1629. -/
def outFuncs (M : Module) (F : Func) : List OFunc :=
  let body := F.body.map fun b => b.map (useRef A M)
  if inst A M.src F.name then
    [{ name := dfs F.name, loc := F.loc, sig := F.sig, native := false, origin := own M F, body := body }]
  else if wrapped A M.src F then
    [{ name := dfsw F.name, loc := F.loc, sig := F.sig, native := false, origin := .wrapper,
       body := some ((wrapperBody F.sig F.name).map (useRef A M)) },
     { name := F.name, loc := F.loc, sig := F.sig, native := true, origin := own M F, body := body }]
  else [{ name := F.name, loc := F.loc, sig := F.sig, native := false, origin := own M F, body := body }]

/-- Aliases that are left, 1478-1480; their function is a use like any other. -/
def outAlias (M : Module) (a : Alias) : List Alias :=
  if (mixed A M a).isSome then [] else [{ name := sym A M a.name, loc := a.loc, base := sym A M a.base }]

/-- `runImpl`, 1411-1660. -/
def run (M : Module) : OModule :=
  { funcs := (allFuncs A M).flatMap (outFuncs A M), aliases := M.aliases.flatMap (outAlias A M) }

end Verif.PassModule
