/- Specification: ABI list files (the format of LLVM's special case lists restricted to `fun:` entries). -/
namespace Verif.Spec

/-- `l` is a line of the text: between newlines or the ends; the part after the last newline counts only
if it is not empty. -/
def IsLine (text l : List Char) : Prop :=
  '\n' ∉ l ∧ ∃ a b, text = a ++ l ++ b ∧ (a = [] ∨ ∃ a', a = a' ++ ['\n']) ∧
    ((b = [] ∧ l ≠ []) ∨ ∃ b', b = '\n' :: b')

/-- A pattern matches a name; `*` stands for any text. -/
inductive Glob : List Char → List Char → Prop
  | nil : Glob [] []
  | char {c p s} : c ≠ '*' → Glob p s → Glob (c :: p) (c :: s)
  | star {p t s} : Glob p s → Glob ('*' :: p) (t ++ s)

/-- Some line of a readable file is `fun:PATTERN=discard` and the pattern matches the name. -/
def Discarded (files : List (Option (List Char))) (name : List Char) : Prop :=
  ∃ text l pat, some text ∈ files ∧ IsLine text l ∧
    l = ['f', 'u', 'n', ':'] ++ pat ++ ['=', 'd', 'i', 's', 'c', 'a', 'r', 'd'] ∧ Glob pat name

/-- The text occurs in the other. -/
def Occurs (p s : List Char) : Prop := ∃ a b, s = a ++ p ++ b

/-- Lines as in the shipped lists: comments, blank lines, entries `fun:NAME=CATEGORY`, where the name has
neither `:`, `=` nor `*` and contains neither "main" nor "discard". -/
inductive Simple : List Char → Prop
  | blank : Simple []
  | comment (l) : Simple ('#' :: l)
  | entry (name category : List Char) : name ≠ [] → ':' ∉ name → '=' ∉ name → '*' ∉ name →
      ¬ Occurs ['m', 'a', 'i', 'n'] name → ¬ Occurs ['d', 'i', 's', 'c', 'a', 'r', 'd'] name →
      category ∈ [['u', 'n', 'i', 'n', 's', 't', 'r', 'u', 'm', 'e', 'n', 't', 'e', 'd'],
        ['d', 'i', 's', 'c', 'a', 'r', 'd'], ['c', 'u', 's', 't', 'o', 'm'],
        ['f', 'u', 'n', 'c', 't', 'i', 'o', 'n', 'a', 'l']] →
      Simple (['f', 'u', 'n', ':'] ++ name ++ ['='] ++ category)

end Verif.Spec
