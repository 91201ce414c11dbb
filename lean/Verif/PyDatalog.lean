import Verif.PyGrammar
import Verif.Spec.Datalog
/-
Model of the translation of grammars to Datalog, /repo/polytracker/datalog.py 1-240. A variable `chr(ord("a") + k)` is the
number `k`; `none` is an exception. Rules are visited in the order of the list (in Python in the order of a set; only the order
of the clauses depends on it). The declarations and the command that is commented out (243-299) are not modelled.
-/
namespace Verif.PyDatalog
open Verif.Spec Verif.Spec.Datalog Verif.PyGrammar

/-- `datalog_repl_match` on one character and characters that are left alone, datalog.py 19-28. -/
def escChar (c : Char) : List Char := if c.isAlphanum then [c] else '_' :: Nat.toDigits 10 c.toNat

/-- `get_valid_datalog_name`, datalog.py 27-28. -/
def validName (n : List Char) : List Char := 'G' :: 'E' :: 'N' :: '_' :: n.flatMap escChar

/-- The name of a variable, datalog.py 144-157, 177. -/
def varChar (k : Nat) : Char := Char.ofNat ('a'.toNat + k)

/-- `end_char` of DatalogRule and DatalogTrueFact, datalog.py 52-54, 92-95. -/
def endVar : Atom → Nat
  | .rel _ _ e => e
  | .tru v => v

/-- The loop over the bytes of a terminal, datalog.py 153-158. -/
def bytesLoop : List Nat → Nat → List Atom
  | [], _ => []
  | b :: bs, v => .rel (.byte b) v (v + 1) :: bytesLoop bs (v + 1)

/-- `DatalogRuleList.__init__`, datalog.py 136-161, on names of productions (none is TRUE_FACT_NAME) and terminals. -/
def bodyLoop : List Sym → Nat → List Atom
  | [], _ => []
  | .nt a :: s, v => .rel (.prod a) v (v + 1) :: bodyLoop s (v + 1)
  | .term bs :: s, v => bytesLoop bs v ++ bodyLoop s (v + bs.length)

/-- `DatalogClause.__init__`, datalog.py 169-173: the last variable of the body is put in the head; IndexError if the body
is empty. -/
def clause (a : Nat) (body : List Atom) : Option Clause :=
  match body.getLast? with
  | none => none
  | some x => some ⟨a, 0, endVar x, body⟩

/-- The clause of a rule, datalog.py 213-228. -/
def ruleClause (a : Nat) (s : List Sym) : Option Clause :=
  match s with
  | [] => clause a [.tru 0]
  | s => clause a (bodyLoop s 0)

/-- The loop over the rules of a production, datalog.py 211-228. -/
def rulesLoop (a : Nat) : List Rule → Option (List Clause)
  | [] => some []
  | r :: rs =>
    match ruleClause a r.seq, rulesLoop a rs with
    | some c, some cs => some (c :: cs)
    | _, _ => none

/-- The clauses of a production, datalog.py 202-228. -/
def prodClauses (a : Nat) (p : Prodn) : Option (List Clause) :=
  match p.rules with
  | [] => (clause a [.tru 0]).map ([·])
  | rs => rulesLoop a rs

/-- The loop of `extract_datalog_grammar`, datalog.py 191-228. -/
def programLoop (g : Gram) : List Nat → Option (List Clause)
  | [] => some []
  | a :: as =>
    match g.prod a with
    | none => none
    | some p =>
      match prodClauses a p, programLoop g as with
      | some cs, some ds => some (cs ++ ds)
      | _, _ => none

/-- `DatalogGrammar.clauses`, datalog.py 179-228. -/
def program (g : Gram) : Option (List Clause) := programLoop g g.order

end Verif.PyDatalog
