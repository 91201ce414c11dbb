import Verif.PyTree
/-
Model of the grammars, /repo/polytracker/grammars.py 50-390, 982-1230: rules, productions, grammars,
`simplify` and `parse_tree_to_grammar`. An object `Production` is found by its name. A Python set is a list
without repetitions; the order in which a set is iterated is unknown, `Iter` stands for any choice of
orders. `none` is an exception. `partial_match` is in PyPartial, `verify` and `dependency_graph` are in PyVerify.
Progress bars, `load` and everything after the first `return` of `simplify` (which is never reached) are not
modelled.
-/
namespace Verif.PyGrammar
open Verif.Spec Verif.PyTree

/-- `isinstance(t, Terminal)`. -/
def isTerm : Sym → Bool
  | .term _ => true
  | .nt _ => false

/-- The loop of `combine_terminals`, grammars.py 61-71; the first argument is `seq`, last element first. -/
def combineLoop : List Sym → List Sym → List Sym
  | acc, [] => acc.reverse
  | acc, .nt n :: s => combineLoop (.nt n :: acc) s
  | .term a :: acc, .term b :: s => combineLoop (.term (a ++ b) :: acc) s
  | acc, .term b :: s => combineLoop (.term b :: acc) s

/-- `Rule.combine_terminals`, grammars.py 60-71. -/
def combine (s : List Sym) : List Sym := combineLoop [] s

/-- `Rule`, grammars.py 54-58. -/
structure Rule where
  seq : List Sym
  hasTerm : Bool
  deriving DecidableEq

/-- `Rule.__init__`, grammars.py 55-58. -/
def Rule.new (s : List Sym) : Rule := ⟨combine s, (combine s).any isTerm⟩

/-- The names in a sequence: the symbols with `isinstance(v, NonTerminal)`. -/
def names : List Sym → List Nat
  | [] => []
  | .term _ :: s => names s
  | .nt n :: s => n :: names s

/-- `Rule.remove_sub_production`, grammars.py 79-84. `has_terminals` is not computed again. -/
def Rule.removeSub (r : Rule) (x : Nat) : Rule :=
  { r with seq := combine (r.seq.filter (fun s => decide (s ≠ .nt x))) }

/-- Replaces a name by a sequence. -/
def subst (x : Nat) (rep : List Sym) : List Sym → List Sym
  | [] => []
  | s :: ss => if s = .nt x then rep ++ subst x rep ss else s :: subst x rep ss

/-- `Rule.replace_sub_production` with a rule as replacement, grammars.py 86-105. `has_terminals` is not
computed again. -/
def Rule.replaceSub (r : Rule) (x : Nat) (rep : List Sym) : Rule × Bool :=
  if .nt x ∈ r.seq then ({ r with seq := combine (subst x rep r.seq) }, true) else (r, false)

/-- `self.rules.add(rule)`: equal rules (grammars.py 107-111) are those with equal sequences; the one
already there stays. -/
def addRule (rs : List Rule) (r : Rule) : List Rule :=
  if rs.any (fun q => decide (q.seq = r.seq)) then rs else rs ++ [r]

/-- `self.rules.remove(rule)`. -/
def delRule (rs : List Rule) (r : Rule) : List Rule := rs.filter (fun q => decide (q.seq ≠ r.seq))

/-- `Production`, grammars.py 149-164. `cpt` is `_can_produce_terminal`. -/
structure Prodn where
  rules : List Rule
  removable : Bool
  cpt : Option Bool

/-- `Production.__eq__`, grammars.py 376-377: the sets of rules are equal; names do not count. -/
def Prodn.same (p q : Prodn) : Bool :=
  p.rules.all (fun r => q.rules.any (fun r' => decide (r'.seq = r.seq))) &&
  q.rules.all (fun r => p.rules.any (fun r' => decide (r'.seq = r.seq)))

/-- `Grammar`, grammars.py 982-986: the keys of `productions` in order, the productions, the table
`used_by`, and the name of the start production. -/
structure Gram where
  order : List Nat
  prod : Nat → Option Prodn
  usedBy : Nat → List Nat
  start : Option Nat

/-- The grammar as a context-free grammar. -/
def Gram.cfg (g : Gram) : Cfg := fun a =>
  match g.prod a with
  | none => []
  | some p => p.rules.map (·.seq)

/-- Orders of iteration over sets of rules and of names. -/
structure Iter where
  rules : List Rule → List Rule
  names : List Nat → List Nat

/-- An iteration visits every element exactly once. -/
structure Iter.Ok (σ : Iter) : Prop where
  rules : ∀ l, (σ.rules l).Perm l
  names : ∀ l, (σ.names l).Perm l

/-- `set.add` on names. -/
def addName (l : List Nat) (n : Nat) : List Nat := if n ∈ l then l else l ++ [n]

/-- `set.remove` and `set.discard` on names. -/
def delName (l : List Nat) (n : Nat) : List Nat := l.filter (fun m => decide (m ≠ n))

/-- `self.used_by[v].add(user)` for the names of a sequence. -/
def addUses (u : Nat → List Nat) (user : Nat) : List Nat → Nat → List Nat
  | [] => u
  | v :: vs => addUses (fun m => if m = v then addName (u v) user else u m) user vs

/-- `self.used_by[v].remove(user)`, ignoring KeyError, for the names of a sequence. -/
def delUses (u : Nat → List Nat) (user : Nat) : List Nat → Nat → List Nat
  | [] => u
  | v :: vs => delUses (fun m => if m = v then delName (u v) user else u m) user vs

/-- Changes a production. -/
def Gram.setProd (g : Gram) (a : Nat) (p : Prodn) : Gram :=
  { g with prod := fun b => if b = a then some p else g.prod b }

/-- `Production.__init__` with one rule, grammars.py 150-164; the caller knows that the name is new. -/
def Gram.newProd (g : Gram) (a : Nat) (r : Rule) : Gram :=
  { (g.setProd a ⟨[r], true, none⟩) with
    order := g.order ++ [a], usedBy := addUses g.usedBy a (PyGrammar.names r.seq) }

/-- `Production.add`, grammars.py 356-365. -/
def Gram.addTo (g : Gram) (a : Nat) (p : Prodn) (r : Rule) : Gram :=
  if p.rules.any (fun q => decide (q.seq = r.seq)) then g
  else { (g.setProd a { p with rules := p.rules ++ [r] }) with
    usedBy := addUses g.usedBy a (PyGrammar.names r.seq) }

/-- `Production.remove_recursive_rules`, grammars.py 255-261. -/
def Prodn.dropRecursive (p : Prodn) (a : Nat) : Prodn :=
  { p with rules := p.rules.filter (fun r => decide (r.seq ≠ [.nt a])) }

/-- The loop over the rules in `Production.remove_sub_production`, grammars.py 320-325: rules that become
empty are dropped. -/
def removeSubLoop (x : Nat) : List Rule → List Rule → List Rule
  | acc, [] => acc
  | acc, r :: rs =>
    let r' := r.removeSub x
    removeSubLoop x (if r'.seq.isEmpty then acc else addRule acc r') rs

/-- `Production.remove_sub_production`, grammars.py 319-326, of the production `a`. -/
def Gram.removeSub (σ : Iter) (g : Gram) (a x : Nat) : Option Gram :=
  match g.prod a with
  | none => none
  | some p =>
    let g' := g.setProd a { p with rules := removeSubLoop x [] (σ.rules p.rules) }
    if a ∈ g.usedBy x then
      some { g' with usedBy := fun m => if m = x then delName (g.usedBy x) a else g.usedBy m }
    else none

/-- The loop over `list(self.rules)` in `Production.replace_sub_production`, grammars.py 338-341. -/
def replaceSubLoop (x : Nat) (rep : List Sym) : List Rule → List Rule → Bool → List Rule × Bool
  | [], rs, m => (rs, m)
  | r :: todo, rs, m =>
    let (r', m') := r.replaceSub x rep
    replaceSubLoop x rep todo (addRule (delRule rs r) r') (m' || m)

/-- `Production.replace_sub_production` with a rule as replacement, grammars.py 328-346, of the production
`a`. -/
def Gram.replaceSub (σ : Iter) (g : Gram) (a x : Nat) (rep : List Sym) : Option Gram :=
  match g.prod a with
  | none => none
  | some p =>
    let (rs, m) := replaceSubLoop x rep (σ.rules p.rules) p.rules false
    let g' := g.setProd a { p with rules := rs }
    if m then
      if a ∈ g.usedBy x then
        let u := fun m => if m = x then delName (g.usedBy x) a else g.usedBy m
        some { g' with usedBy := addUses u a (PyGrammar.names rep) }
      else none
    else some g'

/-- The loop over the users in `Grammar.remove`, grammars.py 1039-1041. -/
def Gram.removeFrom (σ : Iter) (x : Nat) : List Nat → Gram → Option Gram
  | [], g => some g
  | a :: as, g =>
    if a = x then g.removeFrom σ x as
    else
      match g.removeSub σ a x with
      | none => none
      | some g' => g'.removeFrom σ x as

/-- `Grammar.remove` of a production that is in the grammar, grammars.py 1020-1044. -/
def Gram.remove (σ : Iter) (g : Gram) (x : Nat) : Option Gram :=
  match g.prod x with
  | none => none
  | some p =>
    let u := delUses g.usedBy x (p.rules.flatMap (fun r => PyGrammar.names r.seq))
    match Gram.removeFrom σ x (σ.names (u x)) { g with usedBy := u } with
    | none => none
    | some g' => some { g' with
        order := g'.order.filter (fun a => decide (a ≠ x))
        prod := fun a => if a = x then none else g'.prod a
        usedBy := fun a => if a = x then [] else g'.usedBy a }

/-- The loop over the users of `x` in `simplify`, grammars.py 1110-1111. -/
def Gram.inlineInto (σ : Iter) (x : Nat) : List Nat → Gram → Option Gram
  | [], g => some g
  | a :: as, g =>
    match (g.prod x).bind (fun p => (σ.rules p.rules).head?) with
    | none => none
    | some r =>
      match g.replaceSub σ a x r.seq with
      | none => none
      | some g' => g'.inlineInto σ x as

/-- The body of the first loop of `simplify`, grammars.py 1105-1113; the flag is `modified`. -/
def Gram.inline (σ : Iter) (g : Gram) (x : Nat) : Option (Bool × Gram) :=
  match g.prod x with
  | none => none
  | some p =>
    let p' := p.dropRecursive x
    let g' := g.setProd x p'
    if p'.removable && p'.rules.length == 1 then
      if (g'.usedBy x).all (fun a => (g'.prod a).isSome) then
        match Gram.inlineInto σ x (σ.names (g'.usedBy x)) g' with
        | none => none
        | some g'' => (g''.remove σ x).map (true, ·)
      else none
    else some (false, g')

/-- The first loop of `simplify`, grammars.py 1098-1117. -/
def Gram.inlineAll (σ : Iter) : List Nat → Gram → Option (Bool × Gram)
  | [], g => some (false, g)
  | x :: xs, g =>
    match g.inline σ x with
    | none => none
    | some (m, g') => (g'.inlineAll σ xs).map (fun q => (m || q.1, q.2))

/-- `p._can_produce_terminal = True`. -/
def Gram.mark (g : Gram) (a : Nat) : Gram :=
  match g.prod a with
  | none => g
  | some p => g.setProd a { p with cpt := some true }

/-- `used_by_prod not in visited`. -/
def Gram.unvisited (g : Gram) (visited : List Nat) (a : Nat) : Bool :=
  match g.prod a with
  | none => false
  | some p => visited.all (fun v =>
      match g.prod v with
      | none => true
      | some q => !q.same p)

/-- The loop of `can_produce_terminal`, grammars.py 279-290. The queue has its last element first. -/
def Gram.cptLoop (σ : Iter) : Nat → Gram → List Nat → List Nat → Option Gram
  | 0, g, _, _ => some g
  | _ + 1, g, [], _ => some g
  | fuel + 1, g, a :: queue, visited =>
    if (g.usedBy a).all (fun b => (g.prod b).isSome) then
      let used := (σ.names (g.usedBy a)).filter (g.unvisited visited)
      Gram.cptLoop σ fuel (used.foldl Gram.mark g) (used.reverse ++ queue) (used ++ visited)
    else none

/-- `Production.can_produce_terminal`, grammars.py 263-293; every production is queued at most once. -/
def Gram.canProduceTerminal (σ : Iter) (g : Gram) (a : Nat) : Option (Bool × Gram) :=
  match g.prod a with
  | none => none
  | some p =>
    match p.cpt with
    | some b => some (b, g)
    | none =>
      let queue := g.order.filter (fun b =>
        match g.prod b with
        | none => false
        | some q => q.cpt.isNone && q.rules.any (·.hasTerm))
      match Gram.cptLoop σ (2 * g.order.length + 1) (queue.foldl Gram.mark g) queue.reverse queue with
      | none => none
      | some g' =>
        match g'.prod a with
        | none => none
        | some p' =>
          match p'.cpt with
          | some b => some (b, g')
          | none => some (false, g'.setProd a { p' with cpt := some false })

/-- The second loop of `simplify`, grammars.py 1118-1132. -/
def Gram.dropEmpty (σ : Iter) : List Nat → Gram → Option (Bool × Gram)
  | [], g => some (false, g)
  | x :: xs, g =>
    match g.prod x with
    | none => none
    | some p =>
      if p.removable then
        match g.canProduceTerminal σ x with
        | none => none
        | some (true, g') => g'.dropEmpty σ xs
        | some (false, g') =>
          match g'.remove σ x with
          | none => none
          | some g'' => (g''.dropEmpty σ xs).map (fun q => (true, q.2))
      else g.dropEmpty σ xs

/-- `Grammar.simplify`, grammars.py 1093-1133: what it returns, and the grammar afterwards. -/
def Gram.simplify (σ : Iter) (g : Gram) : Option (Bool × Gram) :=
  match g.inlineAll σ g.order with
  | none => none
  | some (m, g') => (g'.dropEmpty σ g'.order).map (fun q => (m || q.1, q.2))

/-- The name of a node other than a terminal: "<START>" or `production_name`, grammars.py 1193-1197,
1214-1217. -/
def prodName : Val → Nat
  | .start => 0
  | .term _ => 0
  | .bb n => n
  | .fn n => n

/-- One child in `parse_tree_to_grammar`, grammars.py 1206-1211. `production_name` of a `Start` raises
AttributeError. -/
def childSym : Val → Option Sym
  | .term b => some (.term b)
  | .start => none
  | .bb n => some (.nt n)
  | .fn n => some (.nt n)

/-- The sequence of a node, grammars.py 1206-1211. -/
def childSyms : List (Tree Val) → Option (List Sym)
  | [] => some []
  | t :: ts =>
    match childSym t.val with
    | none => none
    | some s => (childSyms ts).map (s :: ·)

/-- The body of the loop of `parse_tree_to_grammar`, grammars.py 1203-1226. -/
def addNode (g : Gram) (t : Tree Val) : Option Gram :=
  match t.val with
  | .term _ => some g
  | v =>
    match childSyms t.children with
    | none => none
    | some s =>
      let r := Rule.new s
      let a := prodName v
      match g.prod a with
      | some p => some (g.addTo a p r)
      | none =>
        let g' := g.newProd a r
        if a = 0 then some (g'.setProd 0 ⟨[r], false, none⟩) else some g'

/-- The loop of `parse_tree_to_grammar`, grammars.py 1203-1226. -/
def addNodes : List (Tree Val) → Gram → Option Gram
  | [], g => some g
  | t :: ts, g =>
    match addNode g t with
    | none => none
    | some g' => addNodes ts g'

/-- `Grammar.__init__`, grammars.py 983-986. -/
def Gram.empty : Gram := ⟨[], fun _ => none, fun _ => [], none⟩

/-- `parse_tree_to_grammar`, grammars.py 1200-1230; without a production "<START>" the last line raises
KeyError. -/
def extract (t : Tree Val) : Option Gram :=
  match addNodes (preorder t) Gram.empty with
  | none => none
  | some g => if (g.prod 0).isSome then some { g with start := some 0 } else none

end Verif.PyGrammar
