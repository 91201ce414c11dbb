/- Specification: how the docker command line is read, for the options of `docker run` that matter here. -/
namespace Verif.Spec.Docker

abbrev Str := List Char

/-- What is asked for: the options, the image and the command in the container. -/
structure Inv where
  workdir : Option Str
  tty : Bool
  rm : Bool
  mounts : List Str
  env : List Str
  image : Str
  args : List Str
  deriving DecidableEq, Repr

/-- `Reads s i`: after `docker run`, `s` asks for `i`. Options end at the first argument that does not begin with a hyphen. -/
inductive Reads : List Str → Inv → Prop
  | image {x : Str} {args : List Str} : x.head? ≠ some '-' → Reads (x :: args) ⟨none, false, false, [], [], x, args⟩
  | workdir {d : Str} {s : List Str} {i : Inv} : Reads s i → i.workdir = none →
      Reads (("-w=".toList ++ d) :: s) { i with workdir := some d }
  | tty {s : List Str} {i : Inv} : Reads s i → Reads ("-it".toList :: s) { i with tty := true }
  | rm {s : List Str} {i : Inv} : Reads s i → Reads ("--rm".toList :: s) { i with rm := true }
  | mount {m : Str} {s : List Str} {i : Inv} : Reads s i → Reads ("-v".toList :: m :: s) { i with mounts := m :: i.mounts }
  | env {e : Str} {s : List Str} {i : Inv} : Reads s i → Reads ("-e".toList :: e :: s) { i with env := e :: i.env }

/-- The text before the first `c` and the text behind it. -/
def cut (c : Char) : Str → Option (Str × Str)
  | [] => none
  | d :: s => if d = c then some ([], s) else (cut c s).map fun p => (d :: p.1, p.2)

/-- A variable and its value: `name=value`. -/
def setting (e : Str) : Option (Str × Str) := cut '=' e

/-- A directory outside, one inside and a mode: `source:target:mode`. -/
def mounted (m : Str) : Option (Str × Str × Str) :=
  match cut ':' m with
  | none => none
  | some (s, r) =>
    match cut ':' r with
    | none => none
    | some (t, mode) => some (s, t, mode)

end Verif.Spec.Docker
