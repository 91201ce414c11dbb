import Verif.AbiData
import Verif.Spec.Link
/- What is assumed of ABI list, libraries and programs at the link, stated with the tables of the files. -/
namespace Verif.Libs
open PassModule

/-- Category of a name in the list as the pass reads it. -/
def has (A : AbiList) : Cat → Name → Bool
  | .unins => A.unins
  | .custom => A.custom
  | .discard => A.discard
  | .functional => A.functional

/-- The pass runs with the shipped list (and others, that have no custom functions and do not name those of the table). -/
structure Reads (A : AbiList) : Prop where
  src : ∀ n, A.uninsSrc n = false
  lines : ∀ g ∈ relevant, ∀ c, has A c g = true ↔ (g, c) ∈ shipped
  custom : ∀ g, g ∉ relevant → A.custom g = false

/-- The libraries have the wrappers of their source files, other libraries have none. -/
structure Ships (B : LinkLibs) : Prop where
  poly : ∀ g (f : String), (∃ m ∈ B.poly, m.file = chars f ∧ dfswSym g ∈ m.defs) ↔ (g, f) ∈ polyWrappers
  polyFiles : ∀ m ∈ B.poly, ∃ f, m.file = chars f
  rt : ∀ g, (∃ m ∈ B.rt, dfswSym g ∈ m.defs) ↔ g ∈ rtWrappers
  others : ∀ a ∈ B.user ++ [B.cxx, B.cxxabi], ∀ m ∈ a, ∀ g, dfswSym g ∉ m.defs

/-- The program does not use the prefix of the wrappers itself. -/
def Unprefixed (P : List Module) : Prop :=
  ∀ M ∈ P, ∀ n ∈ M.funcs.map (·.name) ++ M.aliases.map (·.name), ∀ g, n ≠ dfswSym g

end Verif.Libs
