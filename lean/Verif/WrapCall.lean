import Verif.Spec.ExtCall
import Verif.PassIr
/-
Calls of functions in the ABI list, /repo/polytracker/src/passes/DataFlowSanitizer.cpp 822-863 (type of a custom
wrapper), 349-378 (attributes), 1135-1144 (kinds), 1166-1255 (wrappers and trampolines), 1545-1570 (which functions
get a wrapper), 2888-3100 (calls). Legacy labels and the TLS ABI; no origins, no invoke. Values are numbers; a label
pointer is given by what it points to.
-/
namespace Verif.WrapCall
open Verif.Spec

/-- The type of a parameter: a pointer to a function with `n` parameters, or anything else. -/
inductive PTy where
  | plain
  | fnPtr (n : Nat) (void : Bool)
  deriving DecidableEq

/-- The type of a function. -/
structure FnTy where
  params : List PTy
  vararg : Bool
  void : Bool
  deriving DecidableEq

/-- The type of a parameter of a custom wrapper: that of parameter `i` of the function, a trampoline for a
function pointer, `i8*`, a label, a pointer to labels. -/
inductive CTy where
  | same (i : Nat)
  | tramp (n : Nat) (void : Bool)
  | raw
  | label
  | labelPtr
  deriving DecidableEq

/-- The loop over the parameters in `getCustomFunctionType`, 830-843: types of the wrapper. -/
def fixedTypes : Nat → List PTy → List CTy
  | _, [] => []
  | i, .plain :: ps => .same i :: fixedTypes (i + 1) ps
  | i, .fnPtr n v :: ps => .tramp n v :: .raw :: fixedTypes (i + 1) ps

/-- The same loop: `ArgumentIndexMapping`; the first argument is `ArgTypes.size()`. -/
def indexMap : Nat → List PTy → List Nat
  | _, [] => []
  | k, .plain :: ps => k :: indexMap (k + 1) ps
  | k, .fnPtr _ _ :: ps => k :: indexMap (k + 2) ps

/-- `getCustomFunctionType`, 822-863. -/
def customType (T : FnTy) : List CTy :=
  fixedTypes 0 T.params ++ List.replicate T.params.length .label ++ (if T.vararg then [.labelPtr] else []) ++
  (if T.void then [] else [.labelPtr])

/-- `transformFunctionAttributes`, 349-376: `attrs` are the sets of attributes of the arguments of the call,
`sets` the number of attribute sets (it may exceed the number of arguments, then they are empty). -/
def transformAttrs {α : Type} (none : α) (T : FnTy) (sets : Nat) (attrs : Nat → α) : List α :=
  (List.zip (indexMap 0 T.params) (List.range T.params.length)).foldl (fun l p => l.set p.1 (attrs p.2))
    (List.replicate (customType T).length none) ++
  (List.range (sets - T.params.length)).map (fun i => attrs (T.params.length + i))

/-- An argument of the call of a custom wrapper: a value of the program, a trampoline, the function pointer as `i8*`,
a label, the array of labels "labelva", the slot "labelreturn". -/
inductive Arg where
  | val (v : Nat)
  | tramp (n : Nat) (void : Bool)
  | raw (v : Nat)
  | label (l : Nat)
  | vaLabels (ls : List Nat)
  | retSlot
  deriving DecidableEq

/-- The fixed arguments, 3008-3030. -/
def fixedArgs : List PTy → List Nat → List Arg
  | .plain :: ps, v :: vs => .val v :: fixedArgs ps vs
  | .fnPtr n b :: ps, v :: vs => .tramp n b :: .raw v :: fixedArgs ps vs
  | _, _ => []

/-- `addShadowArguments`, 2888-2925: `ls` are the labels of all arguments. -/
def shadowArgs (T : FnTy) (ls : List Nat) : List Arg :=
  (ls.take T.params.length).map .label ++
  (if T.vararg then [.vaLabels (ls.drop T.params.length)] else []) ++
  (if T.void then [] else [.retSlot])

/-- The arguments of the call, 3005-3041: fixed arguments, labels, variable arguments. -/
def customArgs (T : FnTy) (vs ls : List Nat) : List Arg :=
  fixedArgs T.params vs ++ shadowArgs T ls ++ (vs.drop T.params.length).map .val

/-- What a wrapper that is declared as documented (the parameters, a trampoline before each function pointer; a label
per parameter; the labels of the variable arguments; the place for the label of the result) finds as
parameters. -/
def takeFixed : List PTy → List Arg → Option (List Nat × List Arg)
  | [], as => some ([], as)
  | .plain :: ps, .val v :: as => (takeFixed ps as).map fun r => (v :: r.1, r.2)
  | .fnPtr n b :: ps, .tramp n' b' :: .raw v :: as =>
    if n = n' ∧ b = b' then (takeFixed ps as).map fun r => (v :: r.1, r.2) else none
  | _, _ => none

/-- The labels of the parameters. -/
def takeLabels : List PTy → List Arg → Option (List Nat × List Arg)
  | [], as => some ([], as)
  | _ :: ps, .label l :: as => (takeLabels ps as).map fun r => (l :: r.1, r.2)
  | _, _ => none

/-- The variable arguments. -/
def takeRest : List Arg → Option (List Nat)
  | [] => some []
  | .val v :: as => (takeRest as).map (v :: ·)
  | _ => none

/-- All parameters of the wrapper. -/
def takeArgs (T : FnTy) (as : List Arg) : Option LArgs :=
  (takeFixed T.params as).bind fun (vs, as) =>
  (takeLabels T.params as).bind fun (ls, as) =>
  (if T.vararg then
    match as with
    | .vaLabels ls' :: as => some (ls', as)
    | _ => none
   else some ([], as)).bind fun (ls', as) =>
  (if T.void then some as else
    match as with
    | .retSlot :: as => some as
    | _ => none).bind fun as =>
  (takeRest as).bind fun rs =>
  if T.vararg || rs.isEmpty then some ⟨vs.zip ls, rs.zip ls'⟩ else none

/-- The state: memory with its labels, `__dfsan_arg_tls` (by offset), `__dfsan_retval_tls`. -/
structure St where
  m : LMem
  argTls : Nat → Nat
  retTls : Nat

/-- A function of the program, instrumented: what it does to labelled values, its number of parameters, and what it
leaves in the TLS area of the arguments. -/
structure Fn where
  f : LFun
  nparams : Nat
  junk : List (Nat × Nat) → LMem → Nat → Nat

/-- The stores of the labels of the arguments before a call, 3108-3128; `off` is the offset, every label takes 4
bytes; it stops when the area is full. -/
def storeArgs : Nat → List Nat → (Nat → Nat) → Nat → Nat
  | _, [], tls => tls
  | off, l :: ls, tls =>
    if off + 4 > PassIr.argTLSSize then tls else storeArgs (off + 4) ls (fun o => if o = off then l else tls o)

/-- The label of parameter `i` in a function with `n` parameters: `getShadowForTLSArgument`, 1733-1762. -/
def argLabel (tls : Nat → Nat) (n i : Nat) : Nat :=
  match PassIr.argOffset 0 n i with
  | some off => tls off
  | none => 0

/-- A function of the program runs: its parameters get their labels from the TLS area, and the label of the
result goes there (2845-2870). -/
def enter (F : Fn) (vs : List Nat) (s : St) : Nat × St :=
  let args := (List.range F.nparams).map fun i => (vs.getD i 0, argLabel s.argTls F.nparams i)
  let r := F.f args s.m
  (r.1.1, { m := r.2, argTls := F.junk args s.m, retTls := r.1.2 })

/-- A call of a function of the program by its address, 3099-3165: the label of the result is loaded. -/
def callFn (F : Fn) (args : List (Nat × Nat)) (s : St) : (Nat × Nat) × St :=
  let r := enter F (args.map (·.1)) { s with argTls := storeArgs 0 (args.map (·.2)) s.argTls }
  ((r.1, r.2.retTls), r.2)

/-- A wrapper runs. Functions of the program are called through a trampoline (1199-1255), which calls the function by
its address with the labels it was given, and stores the label of the result for the wrapper. -/
def runW (fns : Nat → Fn) : WCode → St → (Nat × Option Nat) × St
  | .ret v l, s => ((v, l), s)
  | .mem f k, s => runW fns k { s with m := f s.m }
  | .look f k, s => runW fns (k (f s.m)) s
  | .call p args k, s =>
    let r := callFn (fns p) args s
    runW fns (k r.1.1 r.1.2) r.2

/-- A direct call of a custom function, 2985-3078; `slot` is what the slot "labelreturn" of the calling function holds.
Gives the value and the label of the result. A wrapper that is not declared as it is called: `none`. -/
def callCustom (fns : Nat → Fn) (T : FnTy) (W : LArgs → WCode) (vs ls : List Nat) (slot : Nat) (s : St) :
    Option ((Nat × Nat) × St) :=
  (takeArgs T (customArgs T vs ls)).map fun a =>
    let r := runW fns (W a) s
    ((r.1.1, if T.void then 0 else r.1.2.getD slot), r.2)

/-- A call of a custom function by its address (or by `invoke`): it is the wrapper made by `buildWrapperFunction`,
1166-1197, which is instrumented and calls the function itself. `slot` is its slot. For a function with
variable arguments it stops the process (`dfsan_vararg_wrapper`). -/
def callWrapped (fns : Nat → Fn) (T : FnTy) (W : LArgs → WCode) (vs ls : List Nat) (slot : Nat) (s : St) :
    Option ((Nat × Nat) × St) :=
  if T.vararg then none else
  let tls := storeArgs 0 ls s.argTls
  let n := T.params.length
  let ls' := (List.range n).map (argLabel tls n)
  (callCustom fns T W vs ls' slot { s with argTls := tls }).map fun r =>
    -- the wrapper returns: the label goes to the TLS area, from where the caller loads it
    if T.void then r else (r.1, { r.2 with retTls := r.1.2 })

/-- Code that is not instrumented: reads and writes memory, calls functions of the program by their address. -/
inductive NCode where
  | ret (v : Nat)
  | store (a v : Nat) (k : NCode)
  | load (a : Nat) (k : Nat → NCode)
  | call (p : Nat) (vs : List Nat) (k : Nat → NCode)

/-- It runs, and knows nothing of labels. -/
def runN (fns : Nat → Fn) : NCode → St → Nat × St
  | .ret v, s => (v, s)
  | .store a v k, s => runN fns k { s with m := { s.m with byte := fun x => if x = a then v else s.m.byte x } }
  | .load a k, s => runN fns (k (s.m.byte a)) s
  | .call p vs k, s =>
    let r := enter (fns p) vs s
    runN fns (k r.1) r.2

/-- `WrapperKind`. -/
inductive Kind where
  | warning | discard | functional | custom
  deriving DecidableEq

/-- `getWrapperKind`, 1135-1144, given in which categories the function is. -/
def wrapperKind (functional discard custom : Bool) : Kind :=
  if functional then .functional else if discard then .discard else if custom then .custom else .warning

/-- `combineOperandShadows`, 1950-1959; the operands are the arguments and the function, whose label is 0. -/
def combine (union : Nat → Nat → Nat) : List Nat → Nat
  | [] => 0
  | l :: ls => union (ls.foldl union l) 0

/-- A direct call of a function that is not custom, 2963-2984: the function itself is called, the label of the result is
0, or the union of those of the arguments (`visitInstOperands`). -/
def callNative (fns : Nat → Fn) (k : Kind) (union : Nat → Nat → Nat) (N : List Nat → NCode) (vs ls : List Nat)
    (s : St) : (Nat × Nat) × St :=
  let r := runN fns (N vs) s
  ((r.1, if k = .functional then combine union ls else 0), r.2)

/-- A direct call of a function in the list, 2955-3078 (`visitWrappedCallBase`): by its categories in the list. -/
def callListed (fns : Nat → Fn) (functional discard custom : Bool) (T : FnTy) (W : LArgs → WCode)
    (union : Nat → Nat → Nat) (N : List Nat → NCode) (vs ls : List Nat) (slot : Nat) (s : St) :
    Option ((Nat × Nat) × St) :=
  match wrapperKind functional discard custom with
  | .custom => callCustom fns T W vs ls slot s
  | k => some (callNative fns k union N vs ls s)

end Verif.WrapCall
