import Verif.OutParam
import Verif.Spec.Signal
/-
Model of the wrapper of sigaction and of the handlers it installs,
/repo/polytracker/src/compiler-rt/lib/dfsan/dfsan_custom.cpp 1590-1700. `sigaction` is `custom` in the
ABI lists; `signal` is only `uninstrumented`, so its wrapper is not called and it goes to the kernel.

The kernel (Spec/Signal) is the environment. The lock (57-79) makes calls of the wrapper atomic with
respect to each other and to signals of the calling thread; `begin'` and `finish` separate the two halves
of the wrapper for signals of other threads. Not modelled: origins, `SignalHandlerScope` (a counter).
-/
namespace Verif
namespace Sig

open Spec.Signal OutParam

/-- Addresses of `SignalHandler` and `SignalAction`. -/
structure Code where
  sigHandler : Nat
  sigAction : Nat

/-- Thread-local label state: `__dfsan_arg_tls` by byte offset and `__dfsan_retval_tls`, dfsan.cpp 61-65. -/
structure Tls where
  arg : Nat → Nat
  ret : Nat → Nat

/-- Kernel, `sigactions` (dfsan_custom.cpp 1623), and the label state of the thread. -/
structure St where
  kern : Kernel
  table : Nat → Nat
  tls : Tls

/-- `kMaxSignals`, dfsan_custom.cpp 1622. -/
def kMaxSignals : Int := 1024

/-- What a handler of the program is given: the labels of its arguments. -/
abbrev ArgLabels := List Nat

/-- `dfsan_clear_arg_tls(0, n)`, dfsan.cpp 922-924. -/
def clearArgs (n : Nat) (t : Tls) : Tls := { t with arg := fun o => if o < n then 0 else t.arg o }

/-- `dfsan_clear_thread_local_state`, dfsan.cpp 927-936, run when a handler returns
(`ScopedClearThreadLocalState`, dfsan_custom.cpp 1614-1618). -/
def clearTls (_ : Tls) : Tls := ⟨fun _ => 0, fun _ => 0⟩

/-- First half of `__dfsw_sigaction`, dfsan_custom.cpp 1662-1680: the old and new table, and the action
for the kernel. -/
def begin' (code : Code) (S : St) (signum : Int) (act : Option Action) :
    Res (Nat × St × Option Action) :=
  if ¬ signum < kMaxSignals then .fatal
  else if signum < 0 then .ub
  else
    let oldCb := S.table signum.toNat
    match act with
    | none => .ok (oldCb, S, none)
    | some a =>
      if a.handler ≠ 1 ∧ a.handler ≠ 0 then
        .ok (oldCb, { S with table := fun i => if i = signum.toNat then a.handler else S.table i },
          some { a with handler := if a.siginfo then code.sigAction else code.sigHandler })
      else .ok (oldCb, S, some a)

/-- The old action as reported, dfsan_custom.cpp 1684-1692. -/
def restore (code : Code) (oldCb : Nat) (o : Action) : Action :=
  if o.siginfo then (if o.handler = code.sigAction then { o with handler := oldCb } else o)
  else if o.handler = code.sigHandler then { o with handler := oldCb } else o

/-- Second half of `__dfsw_sigaction`, dfsan_custom.cpp 1682-1699. -/
def finish (code : Code) (allowed : Int → Bool → Bool) (signum : Int) (wantOld : Bool)
    (b : Nat × St × Option Action) : St × Obs :=
  let r := b.2.1.kern.sigaction allowed signum b.2.2 wantOld
  ({ b.2.1 with kern := r.1 }, .result r.2.1 (r.2.2.map (restore code b.1)))

/-- `__dfsw_sigaction`, dfsan_custom.cpp 1656-1700. -/
def sigactionW (code : Code) (allowed : Int → Bool → Bool) (S : St) (signum : Int) (act : Option Action)
    (wantOld : Bool) : Res (St × Obs) := do
  let b ← begin' code S signum act
  .ok (finish code allowed signum wantOld b)

/-- `SignalHandler` (dfsan_custom.cpp 1625-1639) and `SignalAction` (1641-1654) up to the call of the
program's function, with the labels of its arguments. When the table holds one of the two functions
themselves, they call each other without end. -/
def enter (code : Code) (S : St) (signum : Int) (siginfo : Bool) : Res (St × Obs × ArgLabels) :=
  let tls := clearArgs (if siginfo then 3 * 4 else 4) S.tls
  let cb := S.table signum.toNat
  if cb = code.sigHandler ∨ cb = code.sigAction then .hang
  else .ok ({ S with tls }, .called cb siginfo, if siginfo then [tls.arg 0, tls.arg 4, tls.arg 8] else [tls.arg 0])

/-- Delivery of a signal to the instrumented program: the kernel calls what was installed. A function
installed without the wrapper is called with the labels that happen to be in `__dfsan_arg_tls`. -/
def deliver (code : Code) (S : St) (signum : Int) : Res (St × Obs × ArgLabels) :=
  let r := S.kern.deliver signum
  let S := { S with kern := r.1 }
  match r.2 with
  | .called h si =>
    if h = code.sigHandler then enter code S signum false
    else if h = code.sigAction then enter code S signum true
    else .ok (S, .called h si, if si then [S.tls.arg 0, S.tls.arg 4, S.tls.arg 8] else [S.tls.arg 0])
  | o => .ok (S, o, [])

/-- Return from a handler, dfsan_custom.cpp 1614-1618. -/
def leave (S : St) : St := { S with tls := clearTls S.tls }

/-- One operation of the instrumented program; between the operations it may do anything to its label
state (`work`). -/
def step (code : Code) (allowed : Int → Bool → Bool) (work : Tls → Tls) (S : St) :
    SigOp → Res (St × Obs × ArgLabels)
  | .sigaction s act w => do
    let (S, o) ← sigactionW code allowed { S with tls := work S.tls } s act w
    .ok (S, o, [])
  | .deliver s => deliver code { S with tls := work S.tls } s

/-- All observations of a sequence of operations, with the labels of handler arguments. -/
def run (code : Code) (allowed : Int → Bool → Bool) : St → List ((Tls → Tls) × SigOp) →
    Res (List (Obs × ArgLabels))
  | _, [] => .ok []
  | S, op :: ops => do
    let (S, o) ← step code allowed op.1 S op.2
    let os ← run code allowed S ops
    .ok (o :: os)

/-- The uninstrumented `signal`: it replaces the handler and returns the old one. -/
def rawSignal (S : St) (signum : Int) (handler : Nat) : St × Nat :=
  ({ S with kern := fun s => if s = signum then ⟨handler, false, false, 0⟩ else S.kern s },
    (S.kern signum).handler)

/-- Labels of memory set by `__dfsw_sigaction`, dfsan_custom.cpp 1694-1696; sizeof(struct sigaction) = 152. -/
def sigactionMem (page : Nat) (m : Mem) (oldact : Nat) : Res Mem := clearIf page m oldact 152

/-- Labels of memory set by `SignalAction`, dfsan_custom.cpp 1647-1648; sizeof(siginfo_t) = 128,
sizeof(ucontext_t) = 968. -/
def signalActionMem (page : Nat) (m : Mem) (si uc : Nat) : Res Mem := do
  let m ← setAt page m 0 si 128
  setAt page m 0 uc 968

end Sig
end Verif
