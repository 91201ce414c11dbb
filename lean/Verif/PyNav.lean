import Mathlib.Data.List.Basic
/-
Model of the questions between the control-flow events of a trace, /repo/polytracker/tracing.py 625-1010, 1186-1207. The
events of one thread that are control-flow events are a list; an event is its position. `next_control_flow_event` and
`previous_control_flow_event` (564-581) are the neighbours. `function_entry` of blocks and returns and `function_return` of
entries are abstract in /repo: here they are given, with the contract in PyNavSpec. The loops have as fuel the length of the
trace, which is enough since they only go forwards or only backwards (PyNavSpec).
-/
namespace Verif.PyNav

/-- FunctionEntry, BasicBlockEntry with its basic block, FunctionReturn, tracing.py 643, 779, 850; the others are CallUninst
and CallIndirect, 620-640. -/
inductive Ev where
  | enter
  | block (b : Nat)
  | ret
  | other
  deriving DecidableEq, Repr

/-- A trace: events, `function_entry` (tracing.py 595-599) and `function_return` (692-696). -/
structure Tr where
  evs : List Ev
  entry : Nat → Option Nat
  ret : Nat → Option Nat

/-- `FunctionEntry.entrypoint`, tracing.py 660-668; outside, `none` is ValueError. -/
def Tr.entrypoint (T : Tr) (e : Nat) : Option (Option Nat) :=
  match T.evs[e + 1]? with
  | some (.block _) => if T.entry (e + 1) = some e then some (some (e + 1)) else none
  | _ => some none

/-- `BasicBlockEntry.called_function`, tracing.py 798-804. -/
def Tr.called (T : Tr) (i : Nat) : Option Nat :=
  match T.evs[i + 1]? with
  | some .enter => some (i + 1)
  | _ => none

/-- `FunctionReturn.returning_to`, tracing.py 871-877. -/
def Tr.returningTo (T : Tr) (i : Nat) : Option Nat :=
  match T.evs[i + 1]? with
  | some (.block _) => some (i + 1)
  | _ => none

/-- The loop of `next_basic_block_in_function`, tracing.py 808-822. -/
def Tr.nextLoop (T : Tr) (i : Nat) : Nat → Nat → Option Nat
  | 0, _ => none
  | fuel + 1, j =>
    match T.evs[j]? with
    | none => none
    | some (.block _) => if T.entry j = T.entry i then some j else none
    | some .enter =>
      match T.ret j with
      | none => none
      | some k => T.nextLoop i fuel (k + 1)
    | some _ => none

/-- `next_basic_block_in_function`, tracing.py 805-822. -/
def Tr.nextBlock (T : Tr) (i : Nat) : Option Nat := T.nextLoop i T.evs.length (i + 1)

/-- The loop of `FunctionInvocation.basic_blocks`, tracing.py 978-981. -/
def Tr.blocksLoop (T : Tr) : Nat → Option Nat → List Nat
  | _, none => []
  | 0, some _ => []
  | fuel + 1, some i => i :: T.blocksLoop fuel (T.nextBlock i)

/-- `FunctionInvocation.basic_blocks`, tracing.py 973-981; `none` is ValueError. -/
def Tr.basicBlocks (T : Tr) (e : Nat) : Option (List Nat) := (T.entrypoint e).map (T.blocksLoop T.evs.length)

/-- `FunctionInvocation.__iter__`, tracing.py 962-971: the blocks (`inl`), and behind each the function it calls (`inr`). -/
def Tr.iter (T : Tr) (e : Nat) : Option (List (Nat ⊕ Nat)) :=
  (T.basicBlocks e).map fun l => l.flatMap fun i =>
    match T.called i with
    | none => [.inl i]
    | some j => [.inl i, .inr j]

/-- The loop of `FunctionInvocation.calls`, tracing.py 951-957. -/
def Tr.callsLoop (T : Tr) (e : Nat) : Nat → Nat → List Nat
  | 0, _ => []
  | fuel + 1, j =>
    if T.ret e = some j then []
    else
      match T.evs[j]? with
      | none => []
      | some .enter =>
        match T.ret j with
        | none => [j]
        | some k => j :: T.callsLoop e fuel (k + 1)
      | some _ => T.callsLoop e fuel (j + 1)

/-- `FunctionInvocation.calls`, tracing.py 947-957. -/
def Tr.calls (T : Tr) (e : Nat) : List Nat := T.callsLoop e T.evs.length (e + 1)

/-- The loop of `entry_count`, tracing.py 784-796, from the event `j - 1`. -/
def Tr.countLoop (T : Tr) (b : Nat) (e : Option Nat) : Nat → Nat → Nat
  | 0, _ => 0
  | _ + 1, 0 => 0
  | fuel + 1, j + 1 =>
    if e = some j then 0
    else
      match T.evs[j]? with
      | some .ret =>
        match T.entry j with
        | none => 0
        | some k => T.countLoop b e fuel k
      | some (.block b') => (if b' = b then 1 else 0) + T.countLoop b e fuel j
      | _ => T.countLoop b e fuel j

/-- `BasicBlockEntry.entry_count`, tracing.py 782-796, of an entry of the basic block `b`. -/
def Tr.entryCount (T : Tr) (i b : Nat) : Nat := T.countLoop b (T.entry i) T.evs.length i

/-- The loop of `FunctionEntry.caller`, tracing.py 648-658, from the event `j - 1`. -/
def Tr.callerLoop (T : Tr) : Nat → Nat → Option Nat
  | 0, _ => none
  | _ + 1, 0 => none
  | fuel + 1, j + 1 =>
    match T.evs[j]? with
    | some (.block _) => some j
    | some .ret =>
      match T.entry j with
      | none => none
      | some k => T.callerLoop fuel k
    | _ => T.callerLoop fuel j

/-- `FunctionEntry.caller`, tracing.py 645-658. -/
def Tr.caller (T : Tr) (e : Nat) : Option Nat := T.callerLoop T.evs.length e

/-- An answer, or a loop that does not end. -/
inductive Ans where
  | ans (r : Option Nat)
  | hangs
  deriving DecidableEq, Repr

/-- `next_function_entry(after)`, tracing.py 1196-1207: the loop never changes `next_event`. -/
def Tr.nextFunctionEntry (T : Tr) (a : Nat) : Ans :=
  let next := match T.ret a with
    | none => if a + 1 < T.evs.length then some (a + 1) else none
    | some k => T.returningTo k
  match next with
  | none => .ans none
  | some j => if T.evs[j]? = some .enter then .ans (some j) else .hangs

end Verif.PyNav
