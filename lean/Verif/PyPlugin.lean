/-
Model of the registration of commands, subcommands and extensions, /repo/polytracker/plugins.py 97-359, and of the exit status,
/repo/polytracker/__main__.py 40-49. A class is a number. Only classes that are not abstract are there (abstract ones register
nothing), and each statement has a new number. `parent_type` is in the body or in a direct base, as `_lookup_class_property` (245-255)
requires. One base class that is a command; abstract parents and the parsers are not modelled.
-/
namespace Verif.PyPlugin

abbrev Str := List Char

/-- Command, CommandExtension and Subcommand, plugins.py 238, 301, 338. -/
inductive Kind where
  | command
  | extension
  | subcommand
  deriving DecidableEq, Repr

/-- A class statement: what its body defines, its `parent_type`, and the class it is derived from if that is a command too. -/
structure Decl where
  id : Nat
  kind : Kind
  name : Option Str
  pluginName : Option Str
  help : Bool
  parent : Option Nat
  base : Option Nat

/-- A class: the attributes `name` and `plugin_name` as `getattr` sees them, and the classes in which attributes are looked up,
itself first. -/
structure Cls where
  kind : Kind
  name : Option Str
  pluginName : Option Str
  mro : List Nat

/-- PLUGINS, COMMANDS, and the attributes `extension_types` and `subcommand_types` of the classes themselves. -/
structure State where
  classes : Nat → Option Cls
  plugins : List (Str × Nat)
  commands : Str → Option Nat
  exts : Nat → Option (List Nat)
  subs : Nat → Option (List Nat)

/-- Nothing is defined. -/
def State.empty : State := ⟨fun _ => none, [], fun _ => none, fun _ => none, fun _ => none⟩

/-- The class whose list is found. -/
def owner (lists : Nat → Option (List Nat)) (mro : List Nat) : Option Nat := mro.find? fun c => (lists c).isSome

/-- `self.extension_types` and `self.subcommand_types` read, plugins.py 179-184, 187-193. -/
def seen (lists : Nat → Option (List Nat)) (mro : List Nat) : List Nat :=
  match owner lists mro with
  | none => []
  | some o => (lists o).getD []

/-- `__init_subclass__`, plugins.py 304-323 and 341-359: a list is made at the parent if none is found, and appended to. -/
def attach (lists : Nat → Option (List Nat)) (mro : List Nat) (parent id : Nat) : Nat → Option (List Nat) :=
  let o := (owner lists mro).getD parent
  fun c => if c = o then some ((lists o).getD [] ++ [id]) else lists c

/-- `__init_subclass__` of a class statement; `none` is TypeError. -/
def initSubclass (st : State) (d : Decl) : Option State :=
  match d.kind with
  | .command => some st
  | k =>
    match d.parent with
    | none => none
    | some p =>
      match st.classes p with
      | none => none
      | some c =>
        if c.kind = .extension then none
        else if k = .extension then some { st with exts := attach st.exts c.mro p d.id }
        else some { st with subs := attach st.subs c.mro p d.id }

/-- The name under which it is registered, plugins.py 112-117 and 287-292; `none` is an exception. -/
def pluginNameOf (st : State) (d : Decl) : Option Str :=
  match d.pluginName, d.kind with
  | some n, _ => some n
  | none, .command => d.name
  | none, _ =>
    match d.parent, d.name with
    | some p, some n =>
      match st.classes p with
      | none => none
      | some c =>
        match c.pluginName, c.name with
        | some q, _ => some (q ++ '_' :: n)
        | none, some q => some (q ++ '_' :: n)
        | none, none => none
    | _, _ => none

/-- The class as it is once it is there. -/
def clsOf (st : State) (d : Decl) : Cls :=
  match d.base.bind st.classes with
  | none => ⟨d.kind, d.name, d.pluginName, [d.id]⟩
  | some b => ⟨d.kind, d.name <|> b.name, d.pluginName <|> b.pluginName, d.id :: b.mro⟩

/-- A class statement: `__init_subclass__`, then the metaclasses, plugins.py 109-129, 261-293. `false` is an exception; what
was changed before it stays. -/
def define (st : State) (d : Decl) : Bool × State :=
  match initSubclass st d with
  | none => (false, st)
  | some st =>
    match pluginNameOf st d with
    | none => (false, st)
    | some n =>
      if n ∈ st.plugins.map (·.1) then (false, st)
      else
        let st := { st with plugins := st.plugins ++ [(n, d.id)] }
        let made := { st with classes := fun c => if c = d.id then some (clsOf st d) else st.classes c }
        if d.kind = .command then
          match d.help, d.name with
          | true, some m => (true, { made with commands := fun x => if x = m then some d.id else st.commands x })
          | _, _ => (false, st)
        else (true, made)

/-- Class statements one after the other (exceptions are caught). -/
def defineAll : State → List Decl → State
  | st, [] => st
  | st, d :: ds => defineAll (define st d).2 ds

/-- What `run` of a command returns; `True` and `False` are the integers 1 and 0. -/
inductive Ret where
  | none
  | int (n : Int)
  | obj (truthy : Bool)

/-- The exit status, __main__.py 40-49. -/
def status : Ret → Int
  | .none => 0
  | .int n => n
  | .obj true => 0
  | .obj false => 1

/-- `run` as seen from outside, plugins.py 212-222: with extensions it is `_run`, which returns nothing. -/
def runRet (st : State) (c : Cls) (r : Ret) : Ret := if (seen st.exts c.mro).isEmpty then r else .none

end Verif.PyPlugin
