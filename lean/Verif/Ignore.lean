/- Model of the ignore lists of the compiler passes.
Modelled: polytracker/src/passes/utils.cpp 20-53 (readIgnoreLists), function_tracing.cpp 42-47,
taint_tracking.cpp 118-123 (which functions are instrumented).
Simplified: characters instead of bytes; a file that cannot be opened is `none` (the error message is
dropped); reading never fails half way. -/
namespace Verif.Ignore

/-- `std::getline(fs, line)` until it fails (utils.cpp 29): the pieces between newlines; text after the
last newline is a line only if it is not empty. -/
def getlines (acc : List Char) : List Char → List (List Char)
  | [] => if acc = [] then [] else [acc]
  | '\n' :: cs => acc :: getlines [] cs
  | c :: cs => getlines (acc ++ [c]) cs

/-- `StringRef::startswith`. -/
def startswith (p s : List Char) : Bool := p.isPrefixOf s

/-- `StringRef::contains(StringRef)`. -/
def contains (p : List Char) : List Char → Bool
  | [] => p.isPrefixOf []
  | c :: cs => p.isPrefixOf (c :: cs) || contains p cs

/-- `StringRef::find(char)`; `none` is `npos`. -/
def find (c : Char) : List Char → Option Nat
  | [] => none
  | x :: xs => if x = c then some 0 else (find c xs).map (· + 1)

/-- `StringRef::slice(s, e)`. -/
def slice (s e : Nat) (l : List Char) : List Char := (l.take e).drop s

/-- The body of the loop, utils.cpp 29-48: the name the line contributes, if any. -/
def line (l : List Char) : Option (List Char) :=
  if startswith ['#'] l || l == ['\n'] then none
  else if contains ['m', 'a', 'i', 'n'] l then none
  else if !contains ['d', 'i', 's', 'c', 'a', 'r', 'd'] l then none
  else match find ':' l, find '=' l with
    | some s, some e => if s + 1 < e then some (slice (s + 1) e l) else none
    | _, _ => none

/-- `readIgnoreLists`, utils.cpp 20-53: the resulting set as a list. -/
def readIgnoreLists (files : List (Option (List Char))) : List (List Char) :=
  files.flatMap fun
    | none => []
    | some content => (getlines [] content).filterMap line

/-- FunctionTracingPass::run instruments the function (function_tracing.cpp 43-47). -/
def ftrace (files : List (Option (List Char))) (decl : Bool) (name : List Char) : Bool :=
  !(decl || (readIgnoreLists files).contains name)

/-- TaintTrackingPass::run instruments the function (taint_tracking.cpp 119-123). -/
def taint (files : List (Option (List Char))) (name : List Char) : Bool :=
  !(readIgnoreLists files).contains name

end Verif.Ignore
