import Verif.PassModule
/-
What the uses of functions in a program mean before the data-flow pass, and what a linker may make of the symbols after
it. Independent of how the pass finds new names.
-/
namespace Verif.PassModule

/-! ### Before the pass -/

/-- The definitions of a module: name, whether it is local, and the function it is. -/
def Module.defs (M : Module) : List (Name × Bool × Name) :=
  (M.funcs.filter fun F => F.body.isSome).map (fun F => (F.name, F.loc, F.name)) ++
    M.aliases.map (fun a => (a.name, a.loc, a.base))

/-- What a use stands for: function `n` of module `j`, a function of a library, a wrapper `__dfsw_n`. -/
inductive Target where
  | fn (j : Nat) (n : Name)
  | lib (n : Name)
  | custom (n : Name)
  deriving DecidableEq, Repr

/-- The function a name in module `i` of a program stands for. -/
inductive Stands (P : List Module) (i : Nat) (g : Name) : Target → Prop where
  | loc {M n} : P[i]? = some M → (g, true, n) ∈ M.defs → Stands P i g (.fn i n)
  | ext {M j N n} : P[i]? = some M → (∀ n, (g, true, n) ∉ M.defs) → P[j]? = some N → (g, false, n) ∈ N.defs →
      Stands P i g (.fn j n)
  | lib {M} : P[i]? = some M → (∀ n, (g, true, n) ∉ M.defs) →
      (∀ (j : Nat) (N : Module), P[j]? = some N → ∀ n, (g, false, n) ∉ N.defs) → Stands P i g (.lib g)

/-- Listed as custom, and not as functional or discarded, which are looked at before. -/
abbrev ListedCustom (A : AbiList) (g : Name) : Prop := A.custom g = true ∧ A.functional g = false ∧ A.discard g = false

/-- What a use of `g` should come to: calls of functions that the list gives to wrappers (and no other list entry takes
away again) go to the wrapper, all others to the function. -/
inductive Expect (A : AbiList) (P : List Module) (i : Nat) (g : Name) : Target → Prop where
  | custom : A.unins g = true → ListedCustom A g → Expect A P i g (.custom g)
  | alias {j n} : ¬ (A.unins g = true ∧ ListedCustom A g) → Stands P i g (.fn j n) → A.unins n = true → ListedCustom A n →
      Expect A P i g (.custom n)
  | fn {j n} : ¬ (A.unins g = true ∧ ListedCustom A g) → Stands P i g (.fn j n) →
      ¬ (A.unins n = true ∧ ListedCustom A n) → Expect A P i g (.fn j n)
  | lib : ¬ (A.unins g = true ∧ ListedCustom A g) → Stands P i g (.lib g) → Expect A P i g (.lib g)

/-! ### After the pass -/

/-- A definition of a module of the result. -/
inductive ODef where
  | fn (F : OFunc)
  | alias (a : Alias)
  deriving Repr

def ODef.name : ODef → Name
  | .fn F => F.name
  | .alias a => a.name

def ODef.loc : ODef → Bool
  | .fn F => F.loc
  | .alias a => a.loc

/-- The definitions of a module of the result. -/
def OModule.defs (O : OModule) : List ODef :=
  (O.funcs.filter fun F => F.body.isSome).map .fn ++ O.aliases.map .alias

/-- What a linker does: a symbol that has a local definition in a module means that one there; else it means one of the
definitions that are not local, if there is any. -/
structure Links (Q : List OModule) (L : Nat → Name → Option (Nat × ODef)) : Prop where
  here : ∀ (i : Nat) (O : OModule) (d : ODef), Q[i]? = some O → d ∈ O.defs → d.loc = true → L i d.name = some (i, d)
  found : ∀ (i : Nat) (O : OModule) (s : Name) (j : Nat) (d : ODef), Q[i]? = some O →
    (∀ d ∈ O.defs, d.name = s → d.loc = false) → L i s = some (j, d) →
    d.name = s ∧ d.loc = false ∧ ∃ O', Q[j]? = some O' ∧ d ∈ O'.defs
  missing : ∀ (i : Nat) (O : OModule) (s : Name), Q[i]? = some O → L i s = none →
    ∀ (j : Nat) (O' : OModule) (d : ODef), Q[j]? = some O' → d ∈ O'.defs → d.name = s → d.loc = true

/-- The symbol of a use. -/
def ORef.sym : ORef → Option Name
  | .instr s => some s
  | .native s => some s
  | .addr s => some s
  | _ => none

/-- A use of the same kind of another symbol. -/
def ORef.at (s : Name) : ORef → ORef
  | .instr _ => .instr s
  | .native _ => .native s
  | .addr _ => .addr s
  | r => r

/-- No labels to pass: no parameters and no result. -/
abbrev Sig.Silent (s : Sig) : Prop := s.params = 0 ∧ s.vararg = false ∧ s.void = true

/-- Caller and callee agree on how labels are passed: in the TLS area, or not at all. (Addresses are called by the program
with labels in the TLS area.) There is nothing to pass for a function without parameters and result. -/
def Agree (r : ORef) (F : OFunc) : Prop :=
  F.sig.Silent ∨ (F.native = true ↔ ∃ s, r = .native s)

/-- What a use in module `i` of the linked result `Q` comes to, through aliases and wrappers. Functions of libraries take no
labels. -/
inductive Leads (Q : List OModule) (L : Nat → Name → Option (Nat × ODef)) : Nat → ORef → Target → Prop where
  | custom {i g} : Leads Q L i (.custom g) (.custom g)
  | lib {i r s} : r.sym = some s → L i s = none →
      ((∃ x, r = .native x) ∨ ∃ O F, Q[i]? = some O ∧ F ∈ O.funcs ∧ F.name = s ∧ F.sig.Silent) → Leads Q L i r (.lib s)
  | own {i r s j F n} : r.sym = some s → L i s = some (j, .fn F) → F.origin = .own n → F.body.isSome = true → Agree r F →
      Leads Q L i r (.fn j n)
  | wrapper {i r s j F r' t} : r.sym = some s → L i s = some (j, .fn F) → F.origin = .wrapper → F.body = some [r'] →
      Agree r F → Leads Q L j r' t → Leads Q L i r t
  | alias {i r s j a t} : r.sym = some s → L i s = some (j, .alias a) → Leads Q L j (r.at a.base) t → Leads Q L i r t

/-! ### Programs -/

/-- The type of a name in a module. -/
def Module.sig (M : Module) (g : Name) : Option Sig :=
  match M.func g with
  | some F => some F.sig
  | none => ((M.aliases.find? fun a => a.name = g).bind fun a => M.func a.base).map (·.sig)

/-- Local names. -/
def Module.isLoc (M : Module) (g : Name) : Bool :=
  M.funcs.any (fun F => F.name = g && F.loc) || M.aliases.any (fun a => a.name = g && a.loc)

/-- No name begins with a prefix that the pass uses. -/
def Plain (n : Name) : Prop := ∀ m, n ≠ dfs m ∧ n ≠ dfsw m

/-- A module as the compiler makes it. -/
structure Module.Ok (M : Module) : Prop where
  names : (M.funcs.map (·.name) ++ M.aliases.map (·.name)).Nodup
  plain : ∀ n ∈ M.funcs.map (·.name) ++ M.aliases.map (·.name), Plain n
  locDef : ∀ F ∈ M.funcs, F.loc = true → F.body.isSome = true
  base : ∀ a ∈ M.aliases, ∃ F ∈ M.funcs, F.name = a.base ∧ F.body.isSome = true
  declared : ∀ F ∈ M.funcs, ∀ b, F.body = some b → ∀ r ∈ b, ∀ g, r = .call g ∨ r = .addr g →
    g ∈ M.funcs.map (·.name) ++ M.aliases.map (·.name)

/-- A program as the linker accepts it: names that are not local have one definition and one type. -/
structure Linkable (P : List Module) : Prop where
  ok : ∀ (i : Nat) (M : Module), P[i]? = some M → M.Ok
  unique : ∀ (i j : Nat) (M N : Module) (g m n : Name), P[i]? = some M → P[j]? = some N → (g, false, m) ∈ M.defs →
    (g, false, n) ∈ N.defs → i = j
  sigs : ∀ (i j : Nat) (M N : Module) (g : Name) (s t : Sig), P[i]? = some M → P[j]? = some N → M.isLoc g = false →
    N.isLoc g = false → M.sig g = some s → N.sig g = some t → s = t

/-- The list fits the program: sources are not listed; functions that are not defined in the program are listed;
aliases are not listed together with their function; functions with variable arguments have no alias of the other kind
and are only called directly if they are listed. -/
structure Covers (A : AbiList) (P : List Module) : Prop where
  src : ∀ n, A.uninsSrc n = false
  closed : ∀ (i : Nat) (M : Module) (F : Func), P[i]? = some M → F ∈ M.funcs → F.body = none → A.unins F.name = false →
    ∃ (j : Nat) (N : Module) (n : Name), P[j]? = some N ∧ (F.name, false, n) ∈ N.defs
  alias : ∀ (i : Nat) (M : Module) (a : Alias), P[i]? = some M → a ∈ M.aliases →
    ¬ (A.unins a.name = true ∧ A.unins a.base = true)
  vararg : ∀ (i : Nat) (M : Module) (a : Alias) (F : Func), P[i]? = some M → a ∈ M.aliases → F ∈ M.funcs → F.name = a.base →
    F.sig.vararg = true → A.unins a.name = A.unins a.base
  addr : ∀ (i : Nat) (M : Module) (F : Func) (b : List Ref) (g : Name) (s : Sig), P[i]? = some M → F ∈ M.funcs → F.body = some b →
    Ref.addr g ∈ b → M.sig g = some s → s.vararg = true → A.unins g = false

end Verif.PassModule
