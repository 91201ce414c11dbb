/-
Model of DockerContainer, /repo/polytracker/containerization.py 87-233. Strings are lists of characters. The images that the
Docker client lists, the files and their times, and what building and pulling lead to are parameters. `rebuild`, `pull` and
the Dockerfile only with their effect on the images.
-/
namespace Verif.PyDocker

abbrev Str := List Char

/-- A file below the root of the sources, with `st_mtime`; `py` if the suffix is ".py", `cached` if "__pycache__" is in the
path. -/
structure Src where
  name : Nat
  py : Bool
  cached : Bool
  mtime : Nat
  deriving DecidableEq, Repr

/-- The times "Created" in the history of the image of this name if there is one; the Dockerfile and setup.py if both exist;
the files below polytracker. -/
structure World where
  image : Option (List Nat)
  top : Option (Src × Src)
  files : List Src

/-- The loop of `last_build_time`, containerization.py 137-142. -/
def maxLoop : Option Nat → List Nat → Option Nat
  | t, [] => t
  | none, c :: cs => maxLoop (some c) cs
  | some t, c :: cs => maxLoop (some (if c > t then c else t)) cs

/-- `last_build_time`, containerization.py 126-142. -/
def lastBuild (w : World) : Option Nat :=
  match w.image with
  | none => none
  | some h => maxLoop none h

/-- What `out_of_date_sources` computes, containerization.py 104-123. -/
def computeOod (w : World) : List Src :=
  match lastBuild w with
  | none => []
  | some b =>
    match w.top with
    | none => []
    | some (d, s) => (d :: s :: w.files.filter (fun p => !p.cached && !p.py)).filter (fun p => decide (p.mtime > b))

/-- `out_of_date_sources` with `_out_of_date_sources`, containerization.py 101-124: the answer and what is remembered. -/
def ood (w : World) (memo : Option (List Src)) : List Src × Option (List Src) :=
  match memo with
  | some l => (l, some l)
  | none => (computeOod w, some (computeOod w))

/-- `v.replace('"', '\\"')`, containerization.py 207. -/
def escape (v : Str) : Str := v.flatMap fun c => if c = '"' then ['\\', '"'] else [c]

/-- The arguments given to docker, containerization.py 191-213, without "/usr/bin/env" in front. -/
def cmdArgs (interactive remove : Bool) (mounts env : List (Str × Str)) (image : Str) (args : List Str) : List Str :=
  ["docker".toList, "run".toList, "-w=/workdir".toList] ++ (if interactive then ["-it".toList] else []) ++
  (if remove then ["--rm".toList] else []) ++
  mounts.flatMap (fun m => ["-v".toList, m.1 ++ ':' :: (m.2 ++ ":cached".toList)]) ++
  env.flatMap (fun e => ["-e".toList, e.1 ++ '=' :: escape e.2]) ++ image :: args

/-- How `run` ends: docker is called, or an exception is raised. -/
inductive Out where
  | docker (cmd : List Str)
  | missing
  | outOfDate (l : List Src)
  | streams
  deriving DecidableEq

/-- `run`, containerization.py 144-219. `after` is the world after building or pulling; `given` says that a stream is given.
The result has also the world and what is remembered. -/
def run (w after : World) (memo : Option (List Src)) (build check interactive remove given : Bool)
    (mounts env : List (Str × Str)) (image : Str) (args : List Str) : Out × World × Option (List Src) :=
  let rest (w : World) (memo : Option (List Src)) : Out × World × Option (List Src) :=
    if interactive && given then (.streams, w, memo)
    else (.docker (cmdArgs interactive remove mounts env image args), w, memo)
  match w.image with
  | none =>
    if build then
      match after.image with
      | none => (.missing, after, memo)
      | some _ => rest after memo
    else (.missing, w, memo)
  | some _ =>
    if check then
      match ood w memo with
      | ([], memo) => rest w memo
      | (l, memo) => (.outOfDate l, w, memo)
    else rest w memo

end Verif.PyDocker
