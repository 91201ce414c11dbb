/-
Specification of streams (C library, stdio.h): what reading and writing through a FILE does to the file or pipe behind
it. Nothing here refers to PolyTracker.
-/
namespace Verif
namespace Spec

/-- A stream and the file behind it. -/
structure Strm where
  /-- a file with positions, else a pipe or terminal -/
  regular : Bool := true
  /-- opened for appending: all writing goes to the end -/
  append : Bool := false
  /-- the contents of the file, or all the bytes that arrive -/
  data : List Nat
  /-- number of the next byte -/
  pos : Nat := 0
  /-- bytes pushed back, next one first -/
  back : List Nat := []
  /-- bytes written, if there are no positions -/
  out : List Nat := []
  deriving DecidableEq, Repr

/-- Calls of a program that concern streams; streams are named by their descriptors. -/
inductive StdOp where
  /-- fopen and fopen64 give a stream; `size` is the size of the file, if known -/
  | fopen (fd : Nat) (path : List Nat) (s : Strm) (size : Option Nat)
  /-- fdopen, freopen, tmpfile and popen -/
  | adopt (fd : Nat) (s : Strm)
  /-- pipes and terminals deliver `avail` bytes before the end (for files this means nothing) -/
  | fread (fd buf size count avail : Nat)
  /-- getc, fgetc, getchar and the like -/
  | getc (fd avail : Nat)
  | fgets (fd buf n avail : Nat)
  /-- getline, getdelim and fscanf that take up to `n` bytes -/
  | scan (fd n avail : Nat)
  | ungetc (fd b : Nat)
  | fseek (fd pos : Nat)
  /-- fwrite of items of `size` bytes of which `k` are taken -/
  | fwrite (fd buf size : Nat) (bytes : List Nat) (k : Nat)
  /-- putc and fputc of a character that has the label `label` -/
  | putc (fd : Nat) (ch : Int) (label : Nat)
  /-- fputs, puts, putchar and fprintf that write these bytes -/
  | puts (fd : Nat) (bytes : List Nat)
  | fclose (fd : Nat)
  deriving DecidableEq, Repr

/-- What the program sees. -/
structure StdObs where
  ret : Int
  /-- the bytes placed in the buffer; the pushed or read character -/
  data : List Nat := []
  deriving DecidableEq, Repr

namespace Strm

/-- The bytes that can be read. -/
def next (s : Strm) (avail : Nat) : List Nat :=
  s.back ++ if s.regular then s.data.drop s.pos else (s.data.drop s.pos).take avail

/-- `n` bytes were read. -/
def skip (s : Strm) (n : Nat) : Strm := { s with back := s.back.drop n, pos := s.pos + (n - s.back.length) }

/-- ftello: bytes pushed back count backwards; there is no position in pipes, and none before the first byte. -/
def tell (s : Strm) : Int := if s.regular && decide (s.back.length ≤ s.pos) then ((s.pos - s.back.length : Nat) : Int) else -1

/-- Up to and including the first newline, at most `n` bytes (C standard 7.21.7.2). -/
def line : Nat → List Nat → List Nat
  | 0, _ => []
  | _ + 1, [] => []
  | n + 1, b :: s => if b = 10 then [b] else b :: line n s

/-- Where writing begins. -/
def writeAt (s : Strm) : Nat := if s.append then s.data.length else s.pos

/-- Bytes are written. -/
def emit (s : Strm) (bytes : List Nat) : Strm :=
  if s.regular then
    { s with
      data := (s.data ++ List.replicate (s.writeAt - s.data.length) 0).take s.writeAt ++ bytes ++
        s.data.drop (s.writeAt + bytes.length)
      pos := s.writeAt + bytes.length, back := [] }
  else { s with out := s.out ++ bytes }

end Strm

/-- The streams of a program by descriptor. -/
abbrev StdSys := List (Nat × Strm)

namespace StdSys

def get (K : StdSys) (fd : Nat) : Option Strm := (K.find? fun x => x.1 = fd).map (·.2)

def del (K : StdSys) (fd : Nat) : StdSys := K.filter fun x => x.1 ≠ fd

def put (K : StdSys) (fd : Nat) (s : Strm) : StdSys := (fd, s) :: K.del fd

/-- An operation on a stream, which fails if there is none. -/
def on (K : StdSys) (fd : Nat) (f : Strm → Strm × StdObs) : StdSys × StdObs :=
  match K.get fd with
  | some s => (K.put fd (f s).1, (f s).2)
  | none => (K, { ret := -1 })

/-- The library and the kernel, without PolyTracker. -/
def step (K : StdSys) : StdOp → StdSys × StdObs
  | .fopen fd _ s _ => (K.put fd s, { ret := fd })
  | .adopt fd s => (K.put fd s, { ret := fd })
  | .fread fd _ size count avail => K.on fd fun s =>
    let got := (s.next avail).take (size * count)
    (s.skip got.length, { ret := (got.length / size : Nat), data := got })
  | .getc fd avail => K.on fd fun s => match s.next avail with
    | [] => (s, { ret := -1 })
    | b :: _ => (s.skip 1, { ret := b, data := [b] })
  | .fgets fd _ n avail => K.on fd fun s =>
    let got := Strm.line (n - 1) (s.next avail)
    (s.skip got.length, { ret := got.length, data := got })
  | .scan fd n avail => K.on fd fun s =>
    let got := (s.next avail).take n
    (s.skip got.length, { ret := got.length, data := got })
  | .ungetc fd b => K.on fd fun s => ({ s with back := b :: s.back }, { ret := b, data := [b] })
  | .fseek fd pos => K.on fd fun s => if s.regular then ({ s with pos := pos, back := [] }, { ret := 0 }) else (s, { ret := -1 })
  | .fwrite fd _ size bytes k => K.on fd fun s => (s.emit (bytes.take (size * k)), { ret := k })
  | .putc fd ch _ => K.on fd fun s => (s.emit [(ch % 256).toNat], { ret := ch % 256 })
  | .puts fd bytes => K.on fd fun s => (s.emit bytes, { ret := bytes.length })
  | .fclose fd => match K.get fd with
    | some _ => (K.del fd, { ret := 0 })
    | none => (K, { ret := -1 })

/-- Several calls, oldest first. -/
def run (K : StdSys) : List StdOp → StdSys × List StdObs
  | [] => (K, [])
  | op :: ops => (run (K.step op).1 ops).map id fun os => (K.step op).2 :: os

end StdSys

/-- Calls made, newest first. -/
abbrev StdHist := List (StdOp × StdObs)

/-- The file that a stream stands for, if it came from fopen: path and size. -/
def fopened : StdHist → Nat → Option (List Nat × Option Nat)
  | [], _ => none
  | (.fopen fd path _ size, _) :: E, fd' => if fd = fd' then some (path, size) else fopened E fd'
  | (.adopt fd _, _) :: E, fd' => if fd = fd' then none else fopened E fd'
  | (.fclose fd, _) :: E, fd' => if fd = fd' then none else fopened E fd'
  | _ :: E, fd' => fopened E fd'

/-- A call that takes bytes in a way that can be seen from its result: whole items, lines without zero bytes. -/
def evenOp (fd' : Nat) : StdOp × StdObs → Bool
  | (.fread fd _ size _ _, o) => decide (fd ≠ fd') || decide (o.ret.toNat * size = o.data.length)
  | (.fgets fd _ _ _, o) => decide (fd ≠ fd') || decide (0 ∉ o.data)
  | (.scan fd _ _, _) | (.ungetc fd _, _) => decide (fd ≠ fd')
  | _ => true

/-- Since the stream was opened, bytes were taken only in such ways. -/
def evenIn : StdHist → Nat → Bool
  | [], _ => true
  | (.fopen fd path s size, o) :: E, fd' => if fd = fd' then true else evenOp fd' (.fopen fd path s size, o) && evenIn E fd'
  | x :: E, fd' => evenOp fd' x && evenIn E fd'

/-- A call that writes bytes in a way that PolyTracker can see. -/
def evenOutOp (fd' : Nat) : StdOp × StdObs → Bool
  | (.putc fd ch _, _) => decide (fd ≠ fd') || decide (0 ≤ ch ∧ ch < 256)
  | (.puts fd _, _) => decide (fd ≠ fd')
  | _ => true

/-- Since the stream was opened, bytes were written only by fwrite and by putc of characters in 0..255. -/
def evenOut : StdHist → Nat → Bool
  | [], _ => true
  | (.fopen fd path s size, o) :: E, fd' => if fd = fd' then true else evenOutOp fd' (.fopen fd path s size, o) && evenOut E fd'
  | x :: E, fd' => evenOutOp fd' x && evenOut E fd'

end Spec
end Verif
