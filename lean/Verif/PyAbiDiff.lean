/-
Model of /repo/polytracker/scripts/track_list_diff.py. Files are lists of lines as `readlines` gives them (none of them empty);
names of files and what is printed are not modelled, of blanks only those of ASCII.
-/
namespace Verif.PyAbiDiff

abbrev Line := List Char

/-- `str.split` for one character, used in lines 39 and 84. -/
def splitOn (c : Char) : Line → List Line
  | [] => [[]]
  | x :: xs =>
    if x = c then [] :: splitOn c xs
    else match splitOn c xs with
      | [] => [[x]]
      | y :: ys => (x :: y) :: ys

/-- Blanks for `str.strip`. -/
def blank (c : Char) : Bool := c = ' ' || c = '\t' || c = '\n' || c = '\r' || c = '\x0b' || c = '\x0c'

/-- `str.strip`, line 40. -/
def strip (w : Line) : Line := ((w.dropWhile blank).reverse.dropWhile blank).reverse

/-- UNINST, line 20. -/
def uninst : Line := "uninstrumented".toList

/-- Lines 37-40: `none` is an exception, `some none` a line that is skipped. -/
def parse (l : Line) : Option (Option (Line × Line)) :=
  match l with
  | [] => none
  | x :: _ =>
    if x ≠ 'f' then some none
    else match splitOn '=' (l.drop 4) with
      | [n, w] => some (some (n, strip w))
      | _ => none

/-- The two dictionaries of `analyze_abi_file`, lines 31-32; `true` is the message about multiple attributes. -/
structure Acc where
  conflicts : List (Line × Bool)
  attrs : List (Line × List Line)

/-- Assignment to a key. -/
def setKey (d : List (Line × Bool)) (k : Line) (v : Bool) : List (Line × Bool) :=
  if k ∈ d.map (·.1) then d.map fun e => if e.1 = k then (k, v) else e else d ++ [(k, v)]

/-- Lines 41-50. -/
def step (a : Acc) (e : Line × Line) : Acc :=
  if e.2 = uninst then a
  else match a.attrs.lookup e.1 with
    | some vs => { a with conflicts := setKey a.conflicts e.1 (decide (e.2 ∉ vs)) }
    | none => { a with attrs := a.attrs ++ [(e.1, [e.2])] }

/-- The loop of `analyze_abi_file`, lines 33-51. -/
def analyzeLoop : Acc → List Line → Option Acc
  | a, [] => some a
  | a, l :: ls =>
    match parse l with
    | none => none
    | some none => analyzeLoop a ls
    | some (some e) => analyzeLoop (step a e) ls

/-- analyze_abi_file. -/
def analyze (f : List Line) : Option Acc := analyzeLoop ⟨[], []⟩ f

/-- list_diff, lines 60-66. -/
def listDiff (xs ys : List Line) : Bool := xs.length != ys.length || xs.any fun x => decide (x ∉ ys)

/-- diff_conflicts, lines 130-135. -/
def diffs (a b : List (Line × List Line)) : List Line :=
  (a.filter fun e => match b.lookup e.1 with
    | none => false
    | some ws => listDiff e.2 ws).map (·.1)

/-- auto_resolve_conflicts, lines 78-89, for files that `analyze_abi_file` has read. -/
def resolve (f : List Line) (ds : List Line) : List Line :=
  f.map fun l => match parse l with
    | some (some e) => if e.1 ∈ ds then '#' :: l else l
    | _ => l

/-- How the program ends, with the files as they are then. -/
inductive Out where
  | crash
  | exit (status : Nat) (one two : List Line)

/-- main, lines 128-168, for files that exist. -/
def main (f g : List Line) (choose : Option Int) : Out :=
  match analyze f, analyze g with
  | some a, some b =>
    let ds := diffs a.attrs b.attrs
    match choose with
    | some k =>
      if k ≠ 1 ∧ k ≠ 2 then .exit 1 f g
      else if k = 1 then .exit 0 f (resolve g ds)
      else .exit 0 (resolve f ds) g
    | none => .exit (if a.conflicts.length > 0 ∨ b.conflicts.length > 0 ∨ ds.length > 0 then 1 else 0) f g
  | _, _ => .crash

end Verif.PyAbiDiff
