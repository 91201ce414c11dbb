/-
Specification of connections: what peers send and get, and which calls of a program take part. Nothing here
refers to PolyTracker.
-/
namespace Verif
namespace Spec

/-- An IPv4 address and a port. -/
structure Endpoint where
  a : Nat
  b : Nat
  c : Nat
  d : Nat
  port : Nat
  deriving DecidableEq, Repr

/-- Octets and port fit their types. -/
def Endpoint.Ok (e : Endpoint) : Prop := e.a < 256 ∧ e.b < 256 ∧ e.c < 256 ∧ e.d < 256 ∧ e.port < 65536

instance (e : Endpoint) : Decidable e.Ok := inferInstanceAs (Decidable (_ ∧ _))

/-- Decimal digits of a number as characters. -/
def digitsOf (n : Nat) : List Nat := (Nat.toDigits 10 n).map Char.toNat

/-- a.b.c.d:port -/
def Endpoint.text (e : Endpoint) : List Nat :=
  digitsOf e.a ++ 46 :: (digitsOf e.b ++ 46 :: (digitsOf e.c ++ 46 :: (digitsOf e.d ++ 58 :: digitsOf e.port)))

/-- The name of a connection: "socket:" local "-" remote. -/
def connName (l r : Endpoint) : List Nat := [115, 111, 99, 107, 101, 116, 58] ++ (l.text ++ 45 :: r.text)

/-- The bytes of a `sockaddr_in`: family (little endian), port (big endian), address, padding (ip(7)). -/
def Endpoint.sockaddr (e : Endpoint) : List Nat :=
  [2, 0, e.port / 256, e.port % 256, e.a, e.b, e.c, e.d, 0, 0, 0, 0, 0, 0, 0, 0]

/-- What is at the ends of a socket. -/
inductive Ends where
  /-- IPv4; `there`: the other side is still connected -/
  | inet (loc rem : Endpoint) (there : Bool)
  /-- another address family (IPv6: 10, unix: 1) -/
  | other (family : Nat)
  deriving DecidableEq, Repr

/-- A connected socket. -/
structure Sock where
  ends : Ends
  /-- bytes arrive as a stream, else as messages -/
  stream : Bool := true
  /-- all the bytes the other side sends -/
  inc : List Nat
  /-- how many of them were taken -/
  pos : Nat := 0
  /-- the bytes that were sent to the other side -/
  out : List Nat := []
  deriving DecidableEq, Repr

/-- Calls of a program that concern sockets, with what the network does. -/
inductive NetOp where
  /-- accept or accept4 give the new descriptor `fd` for a connection; the address of the other side is placed at
  `addr`; `size` is the size of a file with the name of the connection, if there is one -/
  | accept (fd addr : Nat) (s : Sock) (size : Option Nat)
  /-- connect: done on return (`now`), or in progress -/
  | connect (fd : Nat) (s : Sock) (now : Bool) (size : Option Nat)
  /-- recv, recvfrom (and read, without flags) of up to `n` bytes into `buf`; the flags are MSG_PEEK and MSG_TRUNC;
  `avail` bytes are there, or are in the next message -/
  | recv (fd buf n : Nat) (peek trunc : Bool) (avail : Nat)
  /-- recvmsg, recvmmsg and readv -/
  | recvmsg (fd n avail : Nat)
  /-- send (and write); the network takes `k` of the bytes -/
  | send (fd buf : Nat) (bytes : List Nat) (k : Nat)
  /-- sendto, sendmsg and writev -/
  | sendto (fd : Nat) (bytes : List Nat) (k : Nat)
  | close (fd : Nat)
  deriving DecidableEq, Repr

/-- What the program sees. -/
structure NetObs where
  ret : Int
  /-- the bytes placed in the buffer -/
  data : List Nat := []
  deriving DecidableEq, Repr

/-- The sockets of a program by descriptor. -/
abbrev NetSys := List (Nat × Sock)

namespace NetSys

def get (K : NetSys) (fd : Nat) : Option Sock := (K.find? fun x => x.1 = fd).map (·.2)

def del (K : NetSys) (fd : Nat) : NetSys := K.filter fun x => x.1 ≠ fd

def put (K : NetSys) (fd : Nat) (s : Sock) : NetSys := (fd, s) :: K.del fd

/-- The bytes at hand. -/
def unit (s : Sock) (avail : Nat) : List Nat := (s.inc.drop s.pos).take avail

/-- The bytes that reach the buffer. Streams are not copied with MSG_TRUNC (tcp(7)). -/
def placed (s : Sock) (n : Nat) (trunc : Bool) (avail : Nat) : List Nat :=
  if s.stream && trunc then [] else (unit s avail).take n

/-- The result: with MSG_TRUNC messages report their real length (recv(2)). -/
def result (s : Sock) (n : Nat) (trunc : Bool) (avail : Nat) : Nat :=
  if !s.stream && trunc then (unit s avail).length else ((unit s avail).take n).length

/-- The bytes that are gone afterwards: what does not fit is lost for messages. -/
def gone (s : Sock) (n : Nat) (avail : Nat) : Nat :=
  if s.stream then ((unit s avail).take n).length else (unit s avail).length

/-- The network and the kernel, without PolyTracker. -/
def step (K : NetSys) : NetOp → NetSys × NetObs
  | .accept fd _ s _ => (K.put fd { s with pos := 0, out := [] },
      { ret := fd, data := match s.ends with | .inet _ r _ => r.sockaddr | .other f => [f % 256, f / 256] })
  | .connect fd s now _ => (K.put fd { s with pos := 0, out := [] }, { ret := if now then 0 else -1 })
  | .recv fd _ n peek trunc avail => match K.get fd with
    | some s => (K.put fd { s with pos := if peek then s.pos else s.pos + gone s n avail },
        { ret := result s n trunc avail, data := placed s n trunc avail })
    | none => (K, { ret := -1 })
  | .recvmsg fd n avail => match K.get fd with
    | some s => (K.put fd { s with pos := s.pos + gone s n avail },
        { ret := result s n false avail, data := placed s n false avail })
    | none => (K, { ret := -1 })
  | .send fd _ bytes k => match K.get fd with
    | some s => (K.put fd { s with out := s.out ++ bytes.take k }, { ret := (bytes.take k).length })
    | none => (K, { ret := -1 })
  | .sendto fd bytes k => match K.get fd with
    | some s => (K.put fd { s with out := s.out ++ bytes.take k }, { ret := (bytes.take k).length })
    | none => (K, { ret := -1 })
  | .close fd => match K.get fd with
    | some _ => (K.del fd, { ret := 0 })
    | none => (K, { ret := -1 })

/-- Several calls, oldest first. -/
def run (K : NetSys) : List NetOp → NetSys × List NetObs
  | [] => (K, [])
  | op :: ops => (run (K.step op).1 ops).map id fun os => (K.step op).2 :: os

end NetSys

/-- Calls made, newest first. -/
abbrev NetHist := List (NetOp × NetObs)

/-- The connection that a descriptor got by accept or by a connect that was done on return, both with IPv4, and still
has. -/
def joinedAs : NetHist → Nat → Option (Endpoint × Endpoint × Option Nat)
  | [], _ => none
  | (.accept fd _ s size, _) :: E, fd' =>
    if fd = fd' then (match s.ends with | .inet l r _ => some (l, r, size) | .other _ => none) else joinedAs E fd'
  | (.connect fd s now size, _) :: E, fd' =>
    if fd = fd' then
      (match s.ends, now with | .inet l r _, true => some (l, r, size) | _, _ => none)
    else joinedAs E fd'
  | (.close fd, _) :: E, fd' => if fd = fd' then none else joinedAs E fd'
  | _ :: E, fd' => joinedAs E fd'

/-- Since the descriptor got its connection, bytes were taken only by recv and the like, without flags, and messages only
into buffers that were large enough. -/
def plainIn (stream : Bool) : NetHist → Nat → Bool
  | [], _ => true
  | (.accept fd _ _ _, _) :: E, fd' => if fd = fd' then true else plainIn stream E fd'
  | (.connect fd _ _ _, _) :: E, fd' => if fd = fd' then true else plainIn stream E fd'
  | (.recv fd _ n peek trunc avail, _) :: E, fd' =>
    (if fd = fd' then !peek && !trunc && (stream || decide (avail ≤ n)) else true) && plainIn stream E fd'
  | (.recvmsg fd _ _, _) :: E, fd' => decide (fd ≠ fd') && plainIn stream E fd'
  | _ :: E, fd' => plainIn stream E fd'

/-- Since the descriptor got its connection, bytes were sent only by send and write. -/
def plainOut : NetHist → Nat → Bool
  | [], _ => true
  | (.accept fd _ _ _, _) :: E, fd' => if fd = fd' then true else plainOut E fd'
  | (.connect fd _ _ _, _) :: E, fd' => if fd = fd' then true else plainOut E fd'
  | (.sendto fd _ _, _) :: E, fd' => decide (fd ≠ fd') && plainOut E fd'
  | _ :: E, fd' => plainOut E fd'

end Spec
end Verif
