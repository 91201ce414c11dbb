import Verif.Base
/-
Model of the function ids of the control-flow pass and of the file that names them:
/repo/polytracker/src/passes/tainted_control_flow.cpp 25-63 and 76-89.
-/
namespace Verif
namespace FnIds

/-- std::ofstream on a new file: contents, write position, failbit. -/
structure OFile where
  bytes : List Nat
  pos : Nat
  fail : Bool
  deriving DecidableEq, Repr

/-- `file << s`: nothing happens once the failbit is set. -/
def OFile.put (f : OFile) (s : List Nat) : OFile :=
  if f.fail then f
  else { f with bytes := f.bytes.take f.pos ++ s ++ f.bytes.drop (f.pos + s.length), pos := f.pos + s.length }

/-- `file.seekp(-n, std::ios::cur)`: fails if the position would be negative. -/
def OFile.back (f : OFile) (n : Nat) : OFile :=
  if f.fail then f
  else if f.pos < n then { f with fail := true }
  else { f with pos := f.pos - n }

/-- Constructor of FunctionMappingJSONWriter, 29-32: the file contains `[`. -/
def newFile : OFile := OFile.put ⟨[], 0, false⟩ [91]

/-- `append`, 40-45: quote, name, quote, comma, newline. -/
def append (f : OFile) (name : List Nat) : OFile := ((f.put [34]).put name).put [34, 44, 10]

/-- Destructor, 34-38. -/
def close (f : OFile) : OFile := (f.back 2).put [10, 93, 10]

/-- A function of the module: its address and its name. -/
structure Fn where
  addr : Nat
  name : List Nat
  deriving DecidableEq, Repr

/-- State of the pass: `function_ids_`, `function_counter_`, the writer. -/
structure Pass where
  ids : List (Nat × Nat)
  counter : Nat
  file : OFile
  deriving DecidableEq, Repr

/-- TaintedControlFlowPass(), 190-193. -/
def new : Pass := ⟨[], 0, newFile⟩

/-- `m.find(key)`. -/
def find (key : Nat) : List (Nat × Nat) → Option Nat
  | [] => none
  | (k, v) :: m => if k = key then some v else find key m

/-- `get_or_add_mapping`, 52-63, and `get_function_id_const`, 76-84. The counter is a uint32_t. -/
def getId (P : Pass) (f : Fn) : Pass × Nat :=
  match find f.addr P.ids with
  | some i => (P, i)
  | none => (⟨(f.addr, P.counter) :: P.ids, (P.counter + 1) % 2 ^ 32, append P.file f.name⟩, P.counter)

/-- The ids used while instrumenting, for a sequence of requests (function entries, branches, returns). -/
def getIds (P : Pass) : List Fn → Pass × List Nat
  | [] => (P, [])
  | f :: fs =>
    let (P, i) := getId P f
    let (P, is) := getIds P fs
    (P, i :: is)

/-- The file functionid.json after the pass is destroyed. -/
def json (fs : List Fn) : List Nat := (close (getIds new fs).1.file).bytes

end FnIds
end Verif
