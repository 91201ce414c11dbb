import Verif.Files
import Verif.Startup
import Verif.Spec.Net
/-
A program working with sockets through the wrappers of /repo/polytracker/src/taint_sources/taint_sources.cpp
(accept, accept4, connect, recv, recvfrom) and write_taints.cpp (send). recvmsg, recvmmsg, readv, sendto, sendmsg and
writev are `uninstrumented` without `custom` in /repo/polytracker/custom_abi/dfsan_abilist.txt (3147, 3148, 3138, 3245, 3246,
3731), so the program calls the C library directly.

The network is `Spec.NetSys`. lseek fails for sockets.
-/
namespace Verif
open Spec
namespace Net

/-- `ntohs` of the two bytes of a port in memory, on a little-endian machine: load, then swap. -/
def ntohs (b0 b1 : Nat) : Nat :=
  let x := b0 + 256 * b1
  x % 256 * 256 + x / 256

/-- `inet_ntop(AF_INET, …)` on the four bytes of an address (C library: "%u.%u.%u.%u"). -/
def inetNtop (b0 b1 b2 b3 : Nat) : List Nat :=
  Startup.decimal b0 ++ [46] ++ Startup.decimal b1 ++ [46] ++ Startup.decimal b2 ++ [46] ++ Startup.decimal b3

/-- `connect_name`, taint_sources.cpp 414-450, on the results of getsockname and getpeername: the bytes written to
`local_addr` and `remote_addr`, `none` if the call fails. -/
def connectName (loc rem : Option (List Nat)) : Res (Option (List Nat)) :=
  match loc with
  | none => .fatal
  | some m =>
    if m.getD 0 0 + 256 * m.getD 1 0 ≠ 2 then .ok none
    else match rem with
      | none => .fatal
      | some p => .ok (some (Startup.chars ['s', 'o', 'c', 'k', 'e', 't', ':'] ++
          inetNtop (m.getD 4 0) (m.getD 5 0) (m.getD 6 0) (m.getD 7 0) ++ [58] ++
          Startup.decimal (ntohs (m.getD 2 0) (m.getD 3 0)) ++ [45] ++
          inetNtop (p.getD 4 0) (p.getD 5 0) (p.getD 6 0) (p.getD 7 0) ++ [58] ++
          Startup.decimal (ntohs (p.getD 2 0) (p.getD 3 0))))

/-- What getsockname finds. (It does not fail for a socket the kernel just gave out.) -/
def sockname : Ends → Option (List Nat)
  | .inet l _ _ => some l.sockaddr
  | .other f => some [f % 256, f / 256]

/-- What getpeername finds: it fails if the other side is gone (ENOTCONN). -/
def peername : Ends → Option (List Nat)
  | .inet _ r there => if there then some r.sockaddr else none
  | .other f => some [f % 256, f / 256]

/-- The common part of the wrappers of accept, accept4 and connect, taint_sources.cpp 460-464, 477-481, 494-498.
`open_file` (polytracker.cpp 29-42) asks for the size of a file of that name. -/
def register (T : Tracker) (fd : Nat) (s : Sock) (size : Option Nat) : Res Tracker := do
  match ← connectName (sockname s.ends) (peername s.ends) with
  | some name =>
    let (T, _) ← T.openFile fd name size
    return T
  | none => return T

/-- One call of the instrumented program. accept: taint_sources.cpp 453-485; connect: 487-501; recv, recvfrom:
503-519 with 113-140; send: write_taints.cpp 98-107 with 49-57; close: taint_sources.cpp 201-210. -/
def step (K : NetSys) (T : Tracker) (op : NetOp) : Res (NetSys × Tracker × NetObs) :=
  let (K', o) := K.step op
  match op with
  | .accept fd _ s size => (if o.ret ≥ 0 then register T fd s size else .ok T) >>= fun T => .ok (K', T, o)
  | .connect fd s _ size => (if o.ret = 0 then register T fd s size else .ok T) >>= fun T => .ok (K', T, o)
  | .recv fd buf _ _ _ _ => do
    let (T, _) ← Wrap.read T fd buf (-1) o.ret
    return (K', T, o)
  | .send fd buf _ _ => do
    let (T, _) ← Wrap.write T fd buf (-1) o.ret
    return (K', T, o)
  | .close fd => if o.ret = 0 then .ok (K', T.closeFile fd, o) else .ok (K', T, o)
  | _ => .ok (K', T, o)

/-- Limits: addresses and descriptors fit their types, connections find room in the tables of the trace file, positions
stay below 2^54. -/
def Fits (K : NetSys) (T : Tracker) (op : NetOp) : Prop :=
  match op with
  | .accept fd _ s size | .connect fd s _ size => fd < 2 ^ 31 ∧ size.getD 0 < 2 ^ 64 ∧ T.sources.length < T.cfg.srcCap ∧
      match s.ends with
      | .inet l r _ => l.Ok ∧ r.Ok ∧ T.strings.size + ((connName l r).length + 3) / 2 * 2 ≤ T.cfg.strSize
      | .other f => f ≠ 2 ∧ f < 65536
  | .recv fd _ _ _ _ _ => ∀ i, T.mappingIdx fd = some i → T.rd i + (K.step op).2.ret.toNat ≤ 2 ^ 54
  | .send fd _ _ _ => ∀ i, T.mappingIdx fd = some i → T.wr i + (K.step op).2.ret.toNat ≤ 2 ^ 54
  | _ => True

/-- Calls at the tracker that do not concern sockets. -/
def Aside (K : NetSys) : Call → Prop
  | .openFile fd _ _ | .read fd _ _ _ | .write fd _ _ _ | .writeLabel fd _ _ _ => ∀ n : Nat, (K.get n).isSome = true → fd ≠ n
  | _ => True

/-- The instrumented program, started in `K₀`, `T₀`, made the calls `E` (newest first) among other things. -/
inductive Exec (K₀ : NetSys) (T₀ : Tracker) : NetHist → NetSys → Tracker → Prop
  | nil : Exec K₀ T₀ [] K₀ T₀
  | net {E K T op K' T' o} : Exec K₀ T₀ E K T → Fits K T op → step K T op = .ok (K', T', o) →
      Exec K₀ T₀ ((op, o) :: E) K' T'
  | call {E K T c r T'} : Exec K₀ T₀ E K T → Aside K c → T.Allowed c → T.exec c = .ok (T', r) →
      Exec K₀ T₀ E K T'

end Net
end Verif
