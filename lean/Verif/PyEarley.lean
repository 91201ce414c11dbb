import Verif.PyGrammar
/-
Model of the recogniser, /repo/polytracker/grammars.py 424-814, 953-976 and 988-992: `Grammar.match` and the Earley
parser behind it, up to the question whether there is a match (`Match.__bool__`). An exception is an `Err`;
`running` means that the given number of steps was not enough. The links from states to their predecessors
and completing states (`predecessors`, `completed_by`, `depth`) and the trees that `_Node` builds from them
are not modelled, nor are progress bars and Python's recursion limit.
-/
namespace Verif.PyEarley
open Verif.Spec Verif.PyGrammar

/-- Exceptions, and the end of the steps. -/
inductive Err where
  | key | index | runtime | value | running
  deriving DecidableEq

/-- The class of a state, with the fields that only this class has: `Prediction`, `EmptyProduction`,
`Completion`, `ScannedTerminal`. -/
inductive Kind where
  | pred
  | empty (name : Nat)
  | compl
  | scanned (bytes : List Nat)
  deriving DecidableEq

/-- `EarleyState`, grammars.py 424-443, and its subclasses. The field `prediction` is given by its production,
its `expected` (a whole rule) and its index; its `parsed` is always empty. -/
structure EState where
  kind : Kind
  pname : Nat
  pexp : List Sym
  pidx : Nat
  parsed : List Sym
  expected : List Sym
  index : Nat
  deriving DecidableEq

/-- Equality of productions, grammars.py 376-377: the same rules. -/
def sameProd (g : Gram) (a b : Nat) : Bool :=
  decide (a = b) ||
  match g.prod a, g.prod b with
  | some p, some q => p.same q
  | _, _ => false

/-- The parts of `__eq__` that are special to a class, grammars.py 537-542, 590-595. -/
def Kind.same (g : Gram) : Kind → Kind → Bool
  | .pred, .pred => true
  | .empty a, .empty b => sameProd g a b
  | .compl, .compl => true
  | .scanned a, .scanned b => decide (a = b)
  | _, _ => false

/-- `__eq__` of states, grammars.py 465-471, 504-513, 537-542, 590-595. -/
def EState.same (g : Gram) (s t : EState) : Bool :=
  s.kind.same g t.kind && decide (s.index = t.index) && decide (s.parsed = t.parsed) &&
  decide (s.expected = t.expected) && decide (s.pidx = t.pidx) && decide (s.pexp = t.pexp) &&
  sameProd g s.pname t.pname

/-- `EarleyQueue`, grammars.py 606-614. `elements` are the elements of `queue`. -/
structure EQueue where
  queue : List EState
  waiting : Nat → List EState
  completed : Nat → List (EState × List Nat)

/-- A new queue. -/
def EQueue.empty : EQueue := ⟨[], fun _ => [], fun _ => []⟩

/-- `EarleyParser`, grammars.py 681-705: the grammar, which remembers what can produce terminals, the queues,
and `last_k_with_match` plus one. -/
structure PS where
  g : Gram
  q : Nat → EQueue
  last : Nat

/-- Orders of iteration over sets: of rules and names in the grammar, of states, of positions. -/
structure EIter extends Iter where
  states : List EState → List EState
  ints : List Nat → List Nat

/-- An iteration visits every element exactly once. -/
structure EIter.Ok (σ : EIter) : Prop where
  iter : σ.toIter.Ok
  states : ∀ l, (σ.states l).Perm l
  ints : ∀ l, (σ.ints l).Perm l

/-- Changes a queue. -/
def PS.setQ (st : PS) (k : Nat) (Q : EQueue) : PS := { st with q := fun j => if j = k then Q else st.q j }

/-- The state made in `complete_state`, grammars.py 620-625. -/
def advance (s c : EState) : EState :=
  { s with kind := .compl, parsed := s.parsed ++ c.parsed, expected := s.expected.tail }

/-- `self.waiting_for[x].add(state)`. -/
def EQueue.wait (g : Gram) (Q : EQueue) (x : Nat) (s : EState) : EQueue :=
  { Q with waiting := fun y => if y = x then
      (if (Q.waiting x).any (s.same g) then Q.waiting x else Q.waiting x ++ [s]) else Q.waiting y }

/-- `EarleyQueue.add`, grammars.py 628-642, of the queue `k`, with the calls of `complete_state` (616-626) in
it. The first argument bounds the depth of the recursion; every call makes `expected` shorter, so the length
of `expected` is enough. The element that is equal and already there stays. -/
def add (σ : EIter) : Nat → PS → Nat → EState → PS
  | d, st, k, s =>
    let found := (st.q k).queue.find? (s.same st.g)
    let s' := found.getD s
    let st1 := if found.isSome then st else st.setQ k { st.q k with queue := (st.q k).queue ++ [s] }
    match s'.expected with
    | .nt x :: _ =>
      let st2 := st1.setQ k ((st1.q k).wait st1.g x s')
      match d with
      | 0 => st2
      | d + 1 => ((st2.q k).completed x).foldl
          (fun st e => (σ.ints e.2).foldl (fun st j => add σ d st j (advance s' e.1)) st) st2
    | _ => st1

/-- `add` with enough depth. -/
def PS.add (σ : EIter) (st : PS) (k : Nat) (s : EState) : PS := PyEarley.add σ s.expected.length st k s

/-- The loop over the rules in `_predict`, grammars.py 785-789. -/
def predictRules (σ : EIter) (x k : Nat) : List Rule → PS → PS
  | [], st => st
  | r :: rs, st => predictRules σ x k rs (st.add σ k ⟨.pred, x, r.seq, k, [], r.seq, k⟩)

/-- `_predict`, grammars.py 773-789. -/
def predict (σ : EIter) (st : PS) (k : Nat) (s : EState) (x : Nat) : Except Err PS :=
  match st.g.canProduceTerminal σ.toIter x with
  | none => .error .key
  | some (false, g') =>
    .ok ({ st with g := g' }.add σ k ⟨.empty x, s.pname, s.pexp, s.pidx, [], [], k⟩)
  | some (true, g') =>
    match g'.prod x with
    | none => .error .key
    | some p => .ok (predictRules σ x k (σ.rules p.rules) { st with g := g' })

/-- `_scan`, grammars.py 791-804, and the change of `last_k_with_match`, 743-747; `nq` is the number of
queues. -/
def scan (σ : EIter) (nq : Nat) (w : List Nat) (st : PS) (k : Nat) (s : EState) (b : List Nat) : Except Err PS :=
  if b.isPrefixOf (w.drop k) then
    if k + b.length < nq then
      let st' := st.add σ (k + b.length)
        { s with kind := .scanned b, parsed := s.parsed ++ [.term b], expected := s.expected.tail }
      .ok { st' with last := Nat.max st'.last (k + b.length) }
    else .error .index
  else .ok st

/-- `already_completed[completed.production.name][completed].add(k)`. -/
def EQueue.record (g : Gram) (Q : EQueue) (c : EState) (k : Nat) : EQueue :=
  let l := Q.completed c.pname
  { Q with completed := fun y => if y = c.pname then
      (if l.any (fun e => c.same g e.1) then l.map (fun e => if c.same g e.1 then (e.1, addName e.2 k) else e)
       else l ++ [(c, [k])])
    else Q.completed y }

/-- The loop in `_complete`, grammars.py 810-813: if the set that is iterated gets larger, Python raises
RuntimeError. -/
def completeLoop (σ : EIter) (k : Nat) (c : EState) : List EState → PS → Except Err PS
  | [], st => .ok st
  | s :: ss, st =>
    let st' := st.add σ k (advance s c)
    if ((st'.q c.index).waiting c.pname).length = ((st.q c.index).waiting c.pname).length then
      completeLoop σ k c ss st'
    else .error .runtime

/-- `_complete`, grammars.py 806-813. -/
def complete (σ : EIter) (st : PS) (k : Nat) (c : EState) : Except Err PS :=
  let st1 := st.setQ c.index ((st.q c.index).record st.g c k)
  completeLoop σ k c (σ.states ((st1.q c.index).waiting c.pname)) st1

/-- The body of the loop over a queue in `parse`, grammars.py 733-749. -/
def step (σ : EIter) (nq : Nat) (w : List Nat) (st : PS) (k : Nat) (s : EState) : Except Err PS :=
  match s.expected with
  | [] => complete σ st k s
  | .nt x :: _ => if s.kind = .pred ∧ s.parsed ≠ [] then .ok st else predict σ st k s x
  | .term b :: _ => scan σ nq w st k s b

/-- The loop over a queue that may grow, grammars.py 673-678, 732-749. -/
def loop (σ : EIter) (nq : Nat) (w : List Nat) (k : Nat) : Nat → Nat → PS → Except Err PS
  | 0, i, st => if (st.q k).queue.length ≤ i then .ok st else .error .running
  | fuel + 1, i, st =>
    match (st.q k).queue[i]? with
    | none => .ok st
    | some s => match step σ nq w st k s with
      | .error e => .error e
      | .ok st' => loop σ nq w k fuel (i + 1) st'

/-- The loop over the positions, grammars.py 729-749. -/
def positions (σ : EIter) (fuel nq : Nat) (w : List Nat) : List Nat → PS → Except Err PS
  | [], st => .ok st
  | k :: ks, st =>
    if k < nq then
      match loop σ nq w k fuel 0 st with
      | .error e => .error e
      | .ok st' => positions σ fuel nq w ks st'
    else .error .index

/-- The start of `parse`, grammars.py 714-727. -/
def startStates (σ : EIter) (a : Nat) : List Rule → PS → PS
  | [], st => st
  | r :: rs, st => startStates σ a rs (st.add σ 0 ⟨.pred, a, r.seq, 0, [], r.seq, 0⟩)

/-- `parse`, grammars.py 711-756, for the bytes `w` with `nq` queues. -/
def parse (σ : EIter) (fuel : Nat) (g : Gram) (a nq : Nat) (w : List Nat) : Except Err PS :=
  match g.prod a with
  | none => .error .key
  | some p =>
    let st := startStates σ a (σ.rules p.rules) ⟨g, fun _ => EQueue.empty, 0⟩
    match positions σ fuel nq w (List.range (w.length + 1)) st with
    | .error e => .error e
    | .ok st' => if st'.last < w.length then .error .value else .ok st'

/-- `end_states`, grammars.py 707-709. -/
def endStates (st : PS) (a nq : Nat) : List EState :=
  (st.q (nq - 1)).queue.filter (fun s => s.expected.isEmpty && sameProd st.g s.pname a)

/-- `bool(grammar.match(sentence))`, grammars.py 958-976, 988-992: whether there is an end state. The number
of queues is the length of the sentence plus one (grammars.py 701-703); for a sentence of type str it is the
number of its characters that counts. -/
def matchesWith (σ : EIter) (fuel : Nat) (g : Gram) (a nq : Nat) (w : List Nat) : Except Err Bool :=
  match parse σ fuel g a nq w with
  | .error e => .error e
  | .ok st => .ok (!(endStates st a nq).isEmpty)

/-- `bool(grammar.match(sentence))` for a sentence of type bytes. -/
def matchBytes (σ : EIter) (fuel : Nat) (g : Gram) (a : Nat) (w : List Nat) : Except Err Bool :=
  matchesWith σ fuel g a (w.length + 1) w

end Verif.PyEarley
