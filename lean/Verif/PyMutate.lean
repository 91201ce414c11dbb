import Mathlib.Data.Nat.Digits.Defs
import Mathlib.Data.List.Dedup
/-
Model of the tools that verify cavities by changing the input:
/repo/polytracker/mapping.py (the command `cavities`), /repo/build_in_docker/file_cavity_detection.py,
/repo/build_in_docker/mutate_cavities.py and /repo/build_in_docker/verify_cavities.py.

Text is a list of characters (numbers), bytes of files are `Fin 256`. `none` stands for an exception that is not
caught.

Simplified: the database of cavities is read before the file is changed (the code reads it along the way; this
makes a difference only if a row after the limit is malformed); `int` accepts an optional sign and ASCII
digits (not spaces around them and underscores between them); encoding and decoding of the text are left out;
timeouts, containers, temporary files and the sampling of bytes outside cavities are not modelled; reports of the
time are left out.
-/
namespace Verif
namespace Py
namespace Mutate

abbrev Text := List Nat
abbrev Data := List (Fin 256)

/-- A number as printed. -/
def dec (n : Nat) : Text := if n = 0 then [48] else (Nat.digits 10 n).reverse.map (· + 48)

/-- `print_cavity`, mapping.py 204-205. -/
def printCavity (path : Text) (r : Nat × Nat) : Text := path ++ [44] ++ dec r.1 ++ [44] ++ dec r.2 ++ [10]

/-- The command `cavities` without `--print-bytes`, mapping.py 203-214. -/
def printCavities (d : List (Text × List (Nat × Nat))) : Text := d.flatMap fun e => e.2.flatMap (printCavity e.1)

/-- What comes of the detection for a file, file_cavity_detection.py 339-387: the cavities of its trace, or
failure `k` of 1 to 4. -/
inductive Detected where
  | cavities (d : List (Text × List (Nat × Nat)))
  | failed (k : Nat)

/-- The text that `file_cavity_detection` returns, file_cavity_detection.py 349-387: for failures `name,-k,-k`. -/
def detection (name : Text) : Detected → Text
  | .cavities d => printCavities d
  | .failed k => name ++ [44, 45] ++ dec k ++ [44, 45] ++ dec k ++ [10]

/-- Reading in text mode: all ends of lines become newlines. -/
def universal : Text → Text
  | 13 :: 10 :: t => 10 :: universal t
  | 13 :: t => 10 :: universal t
  | c :: t => c :: universal t
  | [] => []

/-- States of `csv.reader` (Python's `_csv`, default dialect: comma, double quote, doubled quotes, not strict). -/
inductive CsvState where
  | startRecord
  | startField
  | inField
  | inQuoted
  | quoteInQuoted
  deriving DecidableEq

/-- The state, the field so far, the fields of the row so far. -/
structure Csv where
  st : CsvState
  field : Text
  row : List Text

def Csv.init : Csv := ⟨.startRecord, [], []⟩

/-- A character; the row, if it ends here. -/
def csvChar (s : Csv) (c : Nat) : Csv × Option (List Text) :=
  match s.st with
  | .startRecord =>
    if c = 10 then (.init, some [])
    else if c = 34 then (⟨.inQuoted, [], []⟩, none)
    else if c = 44 then (⟨.startField, [], [[]]⟩, none)
    else (⟨.inField, [c], []⟩, none)
  | .startField =>
    if c = 10 then (.init, some (s.row ++ [[]]))
    else if c = 34 then ({ s with st := .inQuoted }, none)
    else if c = 44 then ({ s with row := s.row ++ [[]] }, none)
    else ({ s with st := .inField, field := [c] }, none)
  | .inField =>
    if c = 10 then (.init, some (s.row ++ [s.field]))
    else if c = 44 then (⟨.startField, [], s.row ++ [s.field]⟩, none)
    else ({ s with field := s.field ++ [c] }, none)
  | .inQuoted =>
    if c = 34 then ({ s with st := .quoteInQuoted }, none)
    else ({ s with field := s.field ++ [c] }, none)
  | .quoteInQuoted =>
    if c = 34 then ({ s with st := .inQuoted, field := s.field ++ [c] }, none)
    else if c = 44 then (⟨.startField, [], s.row ++ [s.field]⟩, none)
    else if c = 10 then (.init, some (s.row ++ [s.field]))
    else ({ s with st := .inField, field := s.field ++ [c] }, none)

/-- The rows of a text; what is left at the end is a row too. -/
def csvRows : Csv → Text → List (List Text)
  | s, [] =>
    match s.st with
    | .startRecord => []
    | _ => [s.row ++ [s.field]]
  | s, c :: t =>
    match csvChar s c with
    | (s', some r) => r :: csvRows s' t
    | (s', none) => csvRows s' t

/-- Digits. -/
def pyNat (t : Text) : Option Nat :=
  if t ≠ [] ∧ ∀ c ∈ t, 48 ≤ c ∧ c ≤ 57 then some (t.foldl (fun a c => a * 10 + (c - 48)) 0) else none

/-- `int`. -/
def pyInt : Text → Option Int
  | 45 :: t => (pyNat t).map fun n => -(n : Int)
  | 43 :: t => (pyNat t).map fun n => (n : Int)
  | t => (pyNat t).map fun n => (n : Int)

/-- `iter_cavities`, mutate_cavities.py 49-57: the rows whose first field is the name. -/
def iterRows (name : Text) : List (List Text) → Option (List (Int × Int))
  | [] => some []
  | [] :: _ => none
  | (x :: xs) :: rows =>
    if x = name then
      match xs with
      | a :: b :: _ => do
        let i ← pyInt a
        let j ← pyInt b
        let rest ← iterRows name rows
        pure ((i, j) :: rest)
      | _ => none
    else iterRows name rows

def iterCavities (name : Text) (db : Text) : Option (List (Int × Int)) :=
  iterRows name (csvRows .init (universal db))

/-- An index of a slice of a sequence of length `n`. -/
def clamp (n : Nat) (i : Int) : Nat := if i < 0 then (i + n).toNat else min i.toNat n

/-- `data[i:j]`. -/
def getSlice (l : Data) (i j : Int) : Data := (l.drop (clamp l.length i)).take (clamp l.length j - clamp l.length i)

/-- `data[i:j] = xs`. -/
def setSlice (l : Data) (i j : Int) (xs : Data) : Data :=
  l.take (clamp l.length i) ++ xs ++ l.drop (max (clamp l.length i) (clamp l.length j))

/-- The complement of a byte. -/
def flipByte (b : Fin 256) : Fin 256 := 255 - b

/-- `method_zero`, `method_reverse`, `method_flip`, mutate_cavities.py 18-38. -/
def methodZero (c : Data) : Data := c.map fun _ => 0
def methodReverse (c : Data) : Data := c.reverse
def methodFlip (c : Data) : Data := c.map flipByte

/-- The loop of `mutate_cavities`, mutate_cavities.py 145-161; `i` ranges were seen, `n` changes made. -/
def mutateLoop (m : Data → Data) (limit skip : Int) : Nat → Nat → List (Int × Int) → Data → Data × Nat
  | _, n, [], data => (data, n)
  | i, n, (a, b) :: rs, data =>
    if (i : Int) < skip then mutateLoop m limit skip (i + 1) n rs data
    else if limit = -1 ∨ (n : Int) < limit then
      mutateLoop m limit skip (i + 1) (n + 1) rs (setSlice data a (b + 1) (m (getSlice data a (b + 1))))
    else (data, n)

/-- `mutate_cavities`, mutate_cavities.py 133-166: the changed file, `none` if there was nothing to change. -/
def mutateCavities (name db : Text) (m : Data → Data) (limit skip : Int) (data : Data) : Option (Option Data) :=
  (iterCavities name db).map fun rs =>
    let r := mutateLoop m limit skip 0 0 rs data
    if r.2 = 0 then none else some r.1

/-- What `verify_cavities` reports. -/
inductive Verdict where
  | noOriginal
  | emptyOriginal
  | noCavities
  | notMutated
  | noOutput
  | differ
  | ok
  deriving DecidableEq, Repr

/-- `verify_cavities`, verify_cavities.py 33-87, with `H` for the checksum and `tool` for the program that is run
on the changed file. -/
def verify {β : Type} [DecidableEq β] (H : Data → β) (tool : Data → Option Data) (orig : Option Data) (name db : Text)
    (m : Data → Data) (limit skip : Int) (data : Data) : Option Verdict :=
  match orig with
  | none => some .noOriginal
  | some out =>
    if out = [] then some .emptyOriginal
    else (mutateCavities name db m limit skip data).map fun
      | none => .noCavities
      | some data' =>
        if H data = H data' then .notMutated
        else match tool data' with
          | none => .noOutput
          | some out' => if H out ≠ H out' then .differ else .ok

/-- `iter_cavity_offsets` collected into a set, mutate_cavities.py 60-67, 72. -/
def cavityOffsets (name db : Text) : Option (List Int) :=
  (iterCavities name db).map fun rs =>
    (rs.flatMap fun r => (List.range (r.2 + 1 - r.1).toNat).map fun (k : Nat) => r.1 + (k : Int)).dedup

/-- `FileMutator.write_mutated` with `flip_restore`, mutate_cavities.py 102-126: what is written, and the buffer
afterwards. -/
def writeMutated (buf : Data) (o : Int) : Option (Data × Data) :=
  if o < 0 ∨ (buf.length : Int) ≤ o then none
  else (buf[o.toNat]?).map fun orig =>
    let mutated := buf.set o.toNat (flipByte orig)
    (mutated, mutated.set o.toNat orig)

/-- The counters of `verify_in_container`. -/
structure Stats where
  count : Nat := 0
  eq : Nat := 0
  diff : Nat := 0
  deriving DecidableEq, Repr

/-- `do_mutation`, verify_cavities.py 149-182. If the program leaves no output, the deletion of the output fails
(verify_cavities.py 180: `unlink` of a file that does not exist). -/
def doMutation {β : Type} [DecidableEq β] (H : Data → β) (tool : Data → Option Data) (want : β) :
    List Int → Data → Stats → Option (Stats × Data)
  | [], buf, c => some (c, buf)
  | o :: os, buf, c =>
    match writeMutated buf o with
    | none => none
    | some (written, buf') =>
      match tool written with
      | none => none
      | some out =>
        doMutation H tool want os buf'
          (if H out = want then { c with count := c.count + 1, eq := c.eq + 1 }
           else { c with count := c.count + 1, diff := c.diff + 1 })

/-- The statistics of the bytes in cavities, `verify_in_container`, verify_cavities.py 101-195; `none` inside: the
original output could not be generated. -/
def singleByte {β : Type} [DecidableEq β] (H : Data → β) (tool : Data → Option Data) (name db : Text) (data : Data) :
    Option (Option Stats) :=
  match tool data with
  | none => some none
  | some out =>
    match cavityOffsets name db with
    | none => none
    | some os =>
      (doMutation H tool (H out) (if os.any (fun x => 0 ≤ x) then os else []) data {}).map fun r => some r.1

end Mutate
end Py
end Verif
