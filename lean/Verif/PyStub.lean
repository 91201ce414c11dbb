/-
Model of /repo/polytracker/scripts/create_stublist.py: the lines of readelf's output to the lines printed. That readelf fails or
the library is missing is not modelled, nor is the order of the sorted list (any order).
-/
namespace Verif.PyStub

abbrev Line := List Char

/-- `line[i:j]`. -/
def slice (l : Line) (i j : Nat) : Line := (l.drop i).take (j - i)

/-- `s.split("@")[0]`, create_stublist.py 36. -/
def beforeAt (s : Line) : Line := s.takeWhile (· ≠ '@')

/-- The test in create_stublist.py 31-35. -/
def isDefined (l : Line) : Bool :=
  (slice l 31 35 == "FUNC".toList || slice l 31 36 == "IFUNC".toList) && slice l 39 44 != "LOCAL".toList &&
    slice l 55 58 != "UND".toList

/-- defined_function_list, create_stublist.py 21-38. -/
def definedFunctions : List Line → List Line
  | [] => []
  | l :: ls => if isDefined l then beforeAt (l.drop 59) :: definedFunctions ls else definedFunctions ls

/-- `str.replace(pat, "")`; `skip` characters of an occurrence are left to pass over. -/
def remove (pat : Line) : Nat → Line → Line
  | _, [] => []
  | skip + 1, _ :: cs => remove pat skip cs
  | 0, c :: cs => if pat.isPrefixOf (c :: cs) then remove pat (pat.length - 1) cs else c :: remove pat 0 cs

/-- create_stublist.py 107-108. -/
def clean (f : Line) : Line := remove "dfs$".toList 0 (remove "dfsw$".toList 0 f)

/-- The two lines for a function, create_stublist.py 109-110. -/
def stub (f : Line) : List Line :=
  ["fun:".toList ++ clean f ++ "=uninstrumented".toList, "fun:".toList ++ clean f ++ "=discard".toList]

/-- What is printed, create_stublist.py 96-110; `order` is `list(set(functions))` sorted. -/
def output (order : List Line → List Line) (ls : List Line) : List Line := (order (definedFunctions ls)).flatMap stub

end Verif.PyStub
