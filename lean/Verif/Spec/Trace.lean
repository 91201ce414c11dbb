import Verif.Spec.History
import Verif.CfLog
/-
Specification of whole runs of the tracker: the calls made at its interface with their results, and
what each of the recorded facts should be according to that history. Histories are kept newest call
first. Nothing here refers to the tracker's state.
-/
namespace Verif

/-- A call at the tracker interface (/repo/polytracker/include/taintdag/polytracker.h 29-81). -/
inductive Call where
  | union (l r : Nat)
  | mark (l : Nat)
  /-- a file was opened; `size` is its size if it could be determined -/
  | openFile (fd : Int) (name : List Nat) (size : Option Nat)
  | closeFile (fd : Int)
  /-- `len` bytes were read from `fd`, into memory at `addr` if given, at file position `offset` if
  known -/
  | read (fd : Int) (addr offset : Option Nat) (len : Nat)
  /-- memory at `addr` was declared to be an input called `name` (command line, environment) -/
  | input (name : List Nat) (addr len : Nat)
  /-- `len` bytes of memory were written to `fd` -/
  | write (fd : Int) (offset : Option Nat) (addr len : Nat)
  /-- `len` bytes that all carry `label` were written to `fd` -/
  | writeLabel (fd : Int) (offset : Option Nat) (label len : Nat)
  /-- function and branch events of the control-flow log -/
  | cf (e : CfEvent)
  | fnEntry (name : List Nat)
  | fnExit (fn : Nat)
  /-- the instrumented program gives its byte at `addr` a label -/
  | store (addr label : Nat)
  deriving DecidableEq, Repr

/-- Result of a call. (`index` of openFile is not visible to the caller.) -/
inductive Ret where
  | unit
  | label (u : Nat)
  | range (r : Option (Nat × Nat))
  | index (i : Option Nat)
  deriving DecidableEq, Repr

namespace Spec

/-- A history, newest call first. -/
abbrev Trace := List (Call × Ret)

/-- The size recorded for inputs of unknown size. -/
def unknownSize : Nat := 2 ^ 64 - 1

/-- Inputs and outputs that were registered, oldest first: name, descriptor, size. -/
def registered : Trace → List (List Nat × Int × Nat)
  | [] => []
  | (.openFile fd name size, .index (some _)) :: h => registered h ++ [(name, fd, size.getD unknownSize)]
  | (.input name _ _, .range (some _)) :: h => registered h ++ [(name, -1, unknownSize)]
  | _ :: h => registered h

/-- The registered file a descriptor currently stands for: the latest one registered for it. -/
def owner (h : Trace) (fd : Int) : Option Nat :=
  (List.range (registered h).length).reverse.find? fun i =>
    ((registered h)[i]?.map fun e => e.2.1) == some fd

/-- Number of bytes read so far from input `i` by reads without known position. -/
def readPos : Trace → Nat → Nat
  | [], _ => 0
  | (.read fd _ none len, _) :: h, i => readPos h i + if owner h fd = some i then len else 0
  | _ :: h, i => readPos h i

/-- Number of bytes written so far to output `i` by writes without known position. -/
def writePos : Trace → Nat → Nat
  | [], _ => 0
  | (.write fd none _ len, _) :: h, i => writePos h i + if owner h fd = some i then len else 0
  | (.writeLabel fd none _ len, _) :: h, i => writePos h i + if owner h fd = some i then len else 0
  | _ :: h, i => writePos h i

/-- The label-store calls made by a history, oldest first. -/
def labelEvents : Trace → List Event
  | [] => []
  | (.union l r, .label u) :: h => labelEvents h ++ [.union l r u]
  | (.mark l, _) :: h => labelEvents h ++ [.mark l]
  | (.read fd _ off len, .range (some (first, _))) :: h =>
    match owner h fd with
    | some i => labelEvents h ++ [.source i (off.getD (readPos h i)) len first]
    | none => labelEvents h
  | (.input _ _ len, .range (some (first, _))) :: h =>
    labelEvents h ++ [.source (registered h).length 0 len first]
  | _ :: h => labelEvents h

/-- The label of the program's byte at an address. -/
def labelAt : Trace → Nat → Nat
  | [], _ => 0
  | (.store addr l, _) :: h, a => if a = addr then l else labelAt h a
  | (.read _ (some addr) _ len, .range (some (first, _))) :: h, a =>
    if addr ≤ a ∧ a < addr + len then first + (a - addr) else labelAt h a
  | (.input _ addr len, .range (some (first, _))) :: h, a =>
    if addr ≤ a ∧ a < addr + len then first + (a - addr) else labelAt h a
  | _ :: h, a => labelAt h a

/-- A tainted output byte: output, offset in it, label. -/
structure OutByte where
  out : Nat
  offset : Nat
  label : Nat
  deriving DecidableEq, Repr

/-- The tainted bytes among `len` bytes written at offset `off` of output `i`, where byte `k` has
label `lab k`. -/
def tainted (i off len : Nat) (lab : Nat → Nat) : List OutByte :=
  ((List.range len).filter fun k => lab k ≠ 0).map fun k => ⟨i, off + k, lab k⟩

/-- All tainted output bytes, oldest first. -/
def written : Trace → List OutByte
  | [] => []
  | (.write fd off addr len, _) :: h =>
    match owner h fd with
    | some i => written h ++ tainted i (off.getD (writePos h i)) len fun k => labelAt h (addr + k)
    | none => written h
  | (.writeLabel fd off l len, _) :: h =>
    match owner h fd with
    | some i => written h ++ tainted i (off.getD (writePos h i)) len fun _ => l
    | none => written h
  | _ :: h => written h

/-- Function names in order of their first entry. -/
def functions : Trace → List (List Nat)
  | [] => []
  | (.fnEntry name, _) :: h => if name ∈ functions h then functions h else functions h ++ [name]
  | _ :: h => functions h

/-- Function entries (true) and exits (false) with the index of the function, oldest first. -/
def fnEvents : Trace → List (Bool × Nat)
  | [] => []
  | (.fnEntry name, _) :: h => fnEvents h ++ [(true, (functions ((.fnEntry name, .unit) :: h)).idxOf name)]
  | (.fnExit i, _) :: h => fnEvents h ++ [(false, i)]
  | _ :: h => fnEvents h

/-- Events of the control-flow log, oldest first. -/
def cfEvents : Trace → List CfEvent
  | [] => []
  | (.cf e, _) :: h => cfEvents h ++ [e]
  | _ :: h => cfEvents h

end Spec
end Verif
