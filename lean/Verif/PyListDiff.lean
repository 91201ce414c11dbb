/-
Model of /repo/polytracker/scripts/list_diff.py: the lines of two ABI lists (as `readlines` gives them) to what is printed. That files
are missing is not modelled.
-/
namespace Verif.PyListDiff

abbrev Line := List Char

/-- `item[4:item.find("=")]`, list_diff.py 14-15 and 20-21; `find` gives -1 if there is none, and the last character is cut off. -/
def key (l : Line) : Line :=
  match l.findIdx? (· = '=') with
  | some i => (l.take i).drop 4
  | none => l.dropLast.drop 4

/-- The second loop, list_diff.py 17-25: the new items. -/
def newItems (mainItems : List Line) : List Line → List Line
  | [] => []
  | l :: ls => if key l ∈ mainItems then newItems mainItems ls else l :: newItems mainItems ls

/-- What is printed, list_diff.py 11-28: `print` adds a newline to that of the line. -/
def output (main cxx : List Line) : Line := (newItems (main.map key) cxx).flatMap fun l => l ++ ['\n']

end Verif.PyListDiff
