/-
Specification: files and descriptors as POSIX describes them (open, openat, close, dup, lseek, read,
pread, write), for one process. Nothing here refers to PolyTracker.

Simplified: paths are byte strings that are not resolved any further (no directories, no links); of the
permission bits only the owner's read bit is looked at; reads return as many bytes as there are; contents
of pipes, sockets and terminals are given in advance and what is written to them is not read back.
-/
namespace Verif.Spec

/-- A file, or something that is read like one. -/
structure INode where
  data : List Nat
  mode : Nat
  /-- a regular file; otherwise a pipe, terminal or socket, whose bytes are consumed by reading -/
  regular : Bool
  deriving DecidableEq, Repr

/-- An open file description. -/
structure OpenFile where
  node : Nat
  /-- file position; for streams the number of bytes read through the description -/
  pos : Nat
  /-- for streams, the number of bytes written through the description -/
  wpos : Nat
  append : Bool
  deriving DecidableEq, Repr

structure OFlags where
  creat : Bool := false
  trunc : Bool := false
  append : Bool := false
  deriving DecidableEq, Repr

structure FileSys where
  /-- permissions are not checked -/
  root : Bool
  umask : Nat
  names : List Nat → Option Nat
  nodes : List INode
  files : List OpenFile
  fds : List (Option Nat)

/-- What a program asks for. Buffers are addresses; a write also gives the bytes found there. -/
inductive FileOp where
  | opn (path : List Nat) (fl : OFlags) (mode : Nat)
  | openat (path : List Nat) (fl : OFlags) (mode : Nat)
  | close (fd : Nat)
  | dup (fd : Nat)
  | lseek (fd pos : Nat)
  | read (fd buf n : Nat)
  | pread (fd buf n off : Nat)
  | write (fd buf : Nat) (bytes : List Nat)
  deriving DecidableEq, Repr

/-- What comes back: the result, for reads the bytes. `size` is not given to the program: after an open,
the size of the file of that name. -/
structure FObs where
  ret : Int
  data : List Nat := []
  size : Option Nat := none
  deriving DecidableEq, Repr

namespace FileSys

/-- Description and file behind a descriptor. -/
def file (K : FileSys) (fd : Nat) : Option (Nat × OpenFile × INode) :=
  match K.fds[fd]? with
  | some (some o) =>
    match K.files[o]? with
    | some f =>
      match K.nodes[f.node]? with
      | some nd => some (o, f, nd)
      | none => none
    | none => none
  | _ => none

/-- The lowest free descriptor. -/
def lowest (K : FileSys) : Nat := K.fds.findIdx (·.isNone)

/-- Bind the lowest free descriptor. -/
def install (K : FileSys) (o : Nat) : FileSys :=
  { K with fds := if K.lowest < K.fds.length then K.fds.set K.lowest (some o) else K.fds ++ [some o] }

/-- The size of the regular file of that name. -/
def sizeOf (K : FileSys) (path : List Nat) : Option Nat :=
  match K.names path with
  | some n =>
    match K.nodes[n]? with
    | some nd => if nd.regular then some nd.data.length else none
    | none => none
  | none => none

/-- The owner may read. -/
def readable (mode : Nat) : Bool := mode.testBit 8

/-- Permission bits of a new file. -/
def newMode (umask mode : Nat) : Nat := (mode &&& 0o7777) &&& (0o7777 ^^^ (umask &&& 0o7777))

/-- A new description of the file, at position 0. -/
def attach (K : FileSys) (node : Nat) (fl : OFlags) : FileSys :=
  install { K with files := K.files ++ [{ node := node, pos := 0, wpos := 0, append := fl.append }] } K.files.length

/-- The file loses its contents. -/
def cut (K : FileSys) (node : Nat) (nd : INode) : FileSys :=
  { K with nodes := K.nodes.set node { nd with data := [] } }

/-- A new file. -/
def create (K : FileSys) (path : List Nat) (mode : Nat) : FileSys :=
  { K with nodes := K.nodes ++ [{ data := [], mode := newMode K.umask mode, regular := true }],
           names := fun p => if p = path then some K.nodes.length else K.names p }

/-- open and openat. -/
def opn (K : FileSys) (path : List Nat) (fl : OFlags) (mode : Nat) : FileSys × FObs :=
  match K.names path with
  | some n =>
    match K.nodes[n]? with
    | some nd =>
      if K.root || readable nd.mode then
        let K1 := if fl.trunc && nd.regular then K.cut n nd else K
        let K2 := K1.attach n fl
        (K2, { ret := K.lowest, size := K2.sizeOf path })
      else (K, { ret := -1 })
    | none => (K, { ret := -1 })
  | none =>
    if fl.creat then
      let K1 := (K.create path mode).attach K.nodes.length fl
      (K1, { ret := K.lowest, size := K1.sizeOf path })
    else (K, { ret := -1 })

/-- Change a description. -/
def setFile (K : FileSys) (o : Nat) (f : OpenFile) : FileSys := { K with files := K.files.set o f }

/-- Change the contents of a file. -/
def setData (K : FileSys) (n : Nat) (nd : INode) (data : List Nat) : FileSys :=
  { K with nodes := K.nodes.set n { nd with data := data } }

/-- Contents after writing at a position; a gap is filled with zeros. -/
def splice (data : List Nat) (pos : Nat) (bytes : List Nat) : List Nat :=
  (data ++ List.replicate (pos - data.length) 0).take pos ++ bytes ++ data.drop (pos + bytes.length)

def step (K : FileSys) : FileOp → FileSys × FObs
  | .opn path fl mode => K.opn path fl mode
  | .openat path fl mode => K.opn path fl mode
  | .close fd =>
    match K.fds[fd]? with
    | some (some _) => ({ K with fds := K.fds.set fd none }, { ret := 0 })
    | _ => (K, { ret := -1 })
  | .dup fd =>
    match K.fds[fd]? with
    | some (some o) => (K.install o, { ret := K.lowest })
    | _ => (K, { ret := -1 })
  | .lseek fd pos =>
    match K.file fd with
    | some (o, f, nd) =>
      if nd.regular then (K.setFile o { f with pos := pos }, { ret := pos }) else (K, { ret := -1 })
    | none => (K, { ret := -1 })
  | .read fd _ n =>
    match K.file fd with
    | some (o, f, nd) =>
      if nd.regular then
        let got := (nd.data.drop f.pos).take n
        (K.setFile o { f with pos := f.pos + got.length }, { ret := got.length, data := got })
      else
        let got := nd.data.take n
        ((K.setFile o { f with pos := f.pos + got.length }).setData f.node nd (nd.data.drop n),
          { ret := got.length, data := got })
    | none => (K, { ret := -1 })
  | .pread fd _ n off =>
    match K.file fd with
    | some (_, _, nd) =>
      if nd.regular then
        let got := (nd.data.drop off).take n
        (K, { ret := got.length, data := got })
      else (K, { ret := -1 })
    | none => (K, { ret := -1 })
  | .write fd _ bytes =>
    match K.file fd with
    | some (o, f, nd) =>
      if nd.regular then
        let at_ := if f.append then nd.data.length else f.pos
        ((K.setFile o { f with pos := at_ + bytes.length }).setData f.node nd (splice nd.data at_ bytes),
          { ret := bytes.length })
      else (K.setFile o { f with wpos := f.wpos + bytes.length }, { ret := bytes.length })
    | none => (K, { ret := -1 })

/-- What lseek(fd, 0, SEEK_CUR) returns. -/
def tell (K : FileSys) (fd : Nat) : Int :=
  match K.file fd with
  | some (_, f, nd) => if nd.regular then f.pos else -1
  | none => -1

/-- Several operations, oldest first. -/
def run (K : FileSys) : List FileOp → FileSys × List FObs
  | [] => (K, [])
  | op :: ops =>
    let (K, o) := K.step op
    let (K, os) := K.run ops
    (K, o :: os)

/-- Every descriptor refers to a description, every description and name to a file. -/
structure WF (K : FileSys) : Prop where
  fds : ∀ (fd o : Nat), K.fds[fd]? = some (some o) → o < K.files.length
  files : ∀ f ∈ K.files, f.node < K.nodes.length
  names : ∀ p n, K.names p = some n → n < K.nodes.length

/-- The same files except for their permission bits. -/
structure Alike (K L : FileSys) : Prop where
  root : K.root = L.root
  umask : K.umask = L.umask
  names : K.names = L.names
  files : K.files = L.files
  fds : K.fds = L.fds
  nodes : K.nodes.map (fun nd => (nd.data, nd.regular)) = L.nodes.map (fun nd => (nd.data, nd.regular))

end FileSys

/-- What happened so far, newest first. -/
abbrev FHist := List (FileOp × FObs)

/-- The path and size with which the descriptor was opened, if what it stands for now was opened with
open (rather than inherited, or made by openat or dup) and not closed since. -/
def openedAs : FHist → Nat → Option (List Nat × Option Nat)
  | [], _ => none
  | (.opn path _ _, o) :: E, fd => if o.ret = fd then some (path, o.size) else openedAs E fd
  | (.openat _ _ _, o) :: E, fd => if o.ret = fd then none else openedAs E fd
  | (.dup _, o) :: E, fd => if o.ret = fd then none else openedAs E fd
  | (.close f, o) :: E, fd => if f = fd ∧ o.ret = 0 then none else openedAs E fd
  | _ :: E, fd => openedAs E fd

/-- The descriptor was not duplicated since it was opened. -/
def alone : FHist → Nat → Bool
  | [], _ => true
  | (.opn _ _ _, o) :: E, fd => if o.ret = fd then true else alone E fd
  | (.dup f, _) :: E, fd => if f = fd then false else alone E fd
  | _ :: E, fd => alone E fd

end Verif.Spec
