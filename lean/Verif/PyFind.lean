import Verif.PyRegions
/-
Searching tainted bytes for a byte sequence (polytracker/tracing.py 88-117, 286-308, 326-345). The
contents of inputs are a parameter; reading them is taken to succeed.
-/
namespace Verif.Py

/-- `TaintedRegion.value` (tracing.py 87-97). -/
def Region.value (content : InputRef → List Nat) (r : Region) : List Nat :=
  ((content r.source).drop r.offset).take r.length

/-- `TaintedRegion.__getitem__` for a slice with both bounds given and step 1 (tracing.py 101-113). -/
def Region.slice (r : Region) (start stop : Int) : Region :=
  let start := if start < 0 then max (r.length + start) 0 else start
  let stop := if stop < 0 then r.length + stop else stop
  if start ≥ stop ∨ start ≥ r.length ∨ stop ≤ 0 then ⟨r.source, r.offset, 0⟩
  else ⟨r.source, r.offset + start.toNat, (stop - start).toNat⟩

/-- Python's `bytes.find(sub, start)`; `none` is -1. (Built-in: the smallest index from `start` on at
which `sub` occurs.) -/
def bytesFind (s sub : List Nat) (start : Nat) : Option Nat :=
  (List.range (s.length + 1)).find? fun i => decide (start ≤ i) && decide ((s.drop i).take sub.length = sub)

/-- State of the generator `Taints.find` (tracing.py 286-308) between two values: the region being
searched with the variable `offset`, and the regions left. -/
structure FindState where
  cur : Option (Region × Nat)
  rest : List Region
  deriving DecidableEq

/-- The for loop of `Taints.find` (tracing.py 300-308) up to the next yield: regions are searched from
their start. -/
def findRest (content : InputRef → List Nat) (sub : List Nat) : List Region → Option (Region × FindState)
  | [] => none
  | r :: rest =>
    match bytesFind (r.value content) sub 0 with
    | some i => some (r.slice i (i + sub.length), ⟨some (r, i), rest⟩)
    | none => findRest content sub rest

/-- `next` on the generator: the while loop (tracing.py 302-308) goes on with the region and offset it
was at, then with the other regions. `none` is StopIteration. -/
def findNext (content : InputRef → List Nat) (sub : List Nat) (st : FindState) : Option (Region × FindState) :=
  match st.cur with
  | none => findRest content sub st.rest
  | some (r, off) =>
    match bytesFind (r.value content) sub off with
    | some i => some (r.slice i (i + sub.length), ⟨some (r, i), st.rest⟩)
    | none => findRest content sub st.rest

/-- `Taints.find` (tracing.py 286-308), the generator before its first value. -/
def Taints.find (t : Dict InputRef (List ByteOffset)) : FindState := ⟨none, Taints.regions t⟩

/-- The first `n` values of the generator. -/
def findTake (content : InputRef → List Nat) (sub : List Nat) : Nat → FindState → List Region
  | 0, _ => []
  | n + 1, st => match findNext content sub st with
    | none => []
    | some (r, st) => r :: findTake content sub n st

/-- `Taints.__contains__` (tracing.py 326-341). -/
def Taints.contains (content : InputRef → List Nat) (t : Dict InputRef (List ByteOffset)) (sub : List Nat) : Bool :=
  (findNext content sub (Taints.find t)).isSome

end Verif.Py
