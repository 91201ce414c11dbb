/-
Model of TDControlFlowLogSection, /repo/polytracker/taint_dag.py 190-262. Function ids are not
translated (funcmapping is None); translating is a lookup applied to each id.
-/
namespace Verif.Py

/-- Objects yielded by iteration, taint_dag.py 125-187. -/
inductive CfItem where
  | enter (callstack : List Nat)
  | leave (callstack : List Nat)
  | tainted (callstack : List Nat) (label : Nat)
  deriving DecidableEq, Repr

/-- `_decode_varint`, taint_dag.py 203-215. `bytes` is the buffer. -/
def decodeVarint (shift val : Nat) : List Nat → Nat × List Nat
  | [] => (val, [])
  | curr :: buffer =>
    let val := val ||| ((curr &&& 0x7F) <<< shift)
    if curr &&& 0x80 = 0 then (val, buffer) else decodeVarint (shift + 7) val buffer

theorem decodeVarint_length (bs : List Nat) : ∀ shift val,
    (decodeVarint shift val bs).2.length ≤ bs.length := by
  induction bs with
  | nil => intro s v; simp [decodeVarint]
  | cons b bs ih =>
    intro s v
    simp only [decodeVarint]
    split
    · simp
    · exact Nat.le_succ_of_le (ih _ _)

/-- `_align_callstack`, taint_dag.py 217-221: items yielded and the remaining stack. The stack is kept
with its top first (`callstack[-1]` is the head); items show it bottom first. `target = none` is
the dummy id -1. -/
def align (target : Option Nat) : List Nat → List CfItem × List Nat
  | [] => ([], [])
  | top :: rest =>
    if some top ≠ target then
      let (items, st) := align target rest
      (.leave (top :: rest).reverse :: items, st)
    else ([], top :: rest)

/-- `__iter__`, taint_dag.py 227-257, from a buffer and a call stack: the items yielded and whether
an exception (IndexError from `callstack.pop()`) ended the iteration. -/
def iter (buffer : List Nat) (callstack : List Nat) : List CfItem × Bool :=
  match buffer with
  | [] => ((align none callstack).1, false)
  | event :: buffer =>
    let fid := (decodeVarint 0 0 buffer).1
    let rest := (decodeVarint 0 0 buffer).2
    if event = 0 then
      let st := fid :: callstack
      let r := iter rest st
      (.enter st.reverse :: r.1, r.2)
    else if event = 1 then
      let a := align (some fid) callstack
      match a.2 with
      | [] => (a.1 ++ [.leave []], true)
      | top :: st =>
        let r := iter rest st
        (a.1 ++ .leave (top :: st).reverse :: r.1, r.2)
    else
      let a := align (some fid) callstack
      let label := (decodeVarint 0 0 rest).1
      let rest' := (decodeVarint 0 0 rest).2
      let r := iter rest' a.2
      (a.1 ++ .tainted a.2.reverse label :: r.1, r.2)
termination_by buffer.length
decreasing_by
  all_goals simp only [List.length_cons]
  · have := decodeVarint_length buffer 0 0
    omega
  · have := decodeVarint_length buffer 0 0
    omega
  · have h1 := decodeVarint_length buffer 0 0
    have h2 := decodeVarint_length (decodeVarint 0 0 buffer).2 0 0
    omega

end Verif.Py
