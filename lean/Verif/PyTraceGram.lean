import Verif.PyGrammar
/-
Model of `trace_to_grammar`, /repo/polytracker/grammars.py 1234-1331, up to the call of `verify` at its end, which
does not change the grammar (PyVerify). A trace is the sequence of control-flow events of one thread, nested by
functions; every function that is entered returns. Names of functions and of entries of basic blocks are numbers, 0 is
"<START>". `none` is an exception. Progress bars are not modelled.
-/
namespace Verif.PyTraceGram
open Verif.Spec Verif.PyGrammar

/-- What happens in one invocation of a function, /repo/polytracker/tracing.py 779-1010: entries of basic blocks with
`production_name` (grammars.py 1193-1197) and `consumed_tokens` (tracing.py 835-844), and calls with the name of the
function and what happens in it. -/
inductive Run where
  | done
  | block (name : Nat) (tokens : List (List Nat)) (rest : Run)
  | call (fn : Nat) (callee : Run) (rest : Run)
  deriving Repr

/-- The next event if it is a basic block: `entrypoint` of a function (tracing.py 660-668) and `returning_to` of a return
(871-877). -/
def Run.head : Run → Option Nat
  | .block n _ _ => some n
  | _ => none

/-- `next_basic_block_in_function`, tracing.py 805-822. -/
def Run.next : Run → Option Nat
  | .done => none
  | .block n _ _ => some n
  | .call _ _ r => r.next

/-- `touched_taint` (tracing.py 538-541) with `taints` (982-990) and `__iter__` (962-971), which has of the calls only
those right after a block (`called_function`, 798-804); the flag says that the last event was a block. -/
def Run.touched : Bool → Run → Bool
  | _, .done => false
  | _, .block _ ts r => !ts.isEmpty || r.touched true
  | first, .call _ c r => (first && c.head.isSome && c.touched false) || r.touched false

/-- A name as a sequence. -/
def opt : Option Nat → List Sym
  | none => []
  | some n => [.nt n]

/-- `production_name(called_function)` and `returning_to`, grammars.py 1287-1302; the argument is what comes after the
block. -/
def callSyms : Run → List Sym
  | .call f _ r => .nt f :: opt r.head
  | _ => []

/-- The rule of a block, grammars.py 1283-1307. -/
def blockSyms (ts : List (List Nat)) (r : Run) : List Sym := ts.map .term ++ (callSyms r ++ opt r.next)

/-- A rule for a name, grammars.py 1267-1273 and 1311-1317. -/
def put (g : Gram) (a : Nat) (s : List Sym) : Gram :=
  match g.prod a with
  | some p => g.addTo a p (Rule.new s)
  | none => g.newProd a (Rule.new s)

/-- `Production(grammar, name)` without rules, grammars.py 150-164; an exception if the name is there. -/
def putEmpty (g : Gram) (a : Nat) : Option Gram :=
  match g.prod a with
  | some _ => none
  | none => some { (g.setProd a ⟨[], true, none⟩) with order := g.order ++ [a] }

/-- The loop over the basic blocks, grammars.py 1275-1317, without `func_stack`. -/
def putBlocks : Run → Gram → Gram
  | .done, g => g
  | .block n ts r, g => putBlocks r (put g n (blockSyms ts r))
  | .call _ _ r, g => putBlocks r g

/-- The functions that an invocation has put on `func_stack` (grammars.py 1286-1287), with what they put there: the
last comes first. Each: grammars.py 1253-1317. -/
def calls : Bool → Run → Gram → Option Gram
  | _, .done, g => some g
  | _, .block _ _ r, g => calls true r g
  | first, .call f c r, g =>
    match calls false r g with
    | none => none
    | some g =>
      if first then
        match c.head with
        | none => none
        | some e => if c.touched false then calls false c (putBlocks c (put g f [.nt e])) else putEmpty g f
      else some g

/-- `trace_to_grammar`, grammars.py 1234-1331, without `verify`: the argument is `trace.entrypoint`, the name of the function and what
happens in it. -/
def traceToGrammar : Option (Nat × Run) → Option Gram
  | none => (putEmpty Gram.empty 0).map (fun g => { g with start := some 0 })
  | some (f, c) =>
    match c.head with
    | none => none
    | some e =>
      let g := { Gram.empty.newProd 0 (Rule.new [.nt f]) with start := some 0 }
      if c.touched false then calls false c (putBlocks c (put g f [.nt e])) else putEmpty g f

end Verif.PyTraceGram
