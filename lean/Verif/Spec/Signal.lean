/-
Reference for C59: the kernel's signal dispositions as a program sees them (sigaction(2), signal(7)),
independent of the wrapper.
-/
namespace Verif
namespace Spec
namespace Signal

/-- `struct sigaction`: the handler (0 = SIG_DFL, 1 = SIG_IGN, else a function), SA_SIGINFO, SA_RESETHAND,
and the remaining flags and mask. -/
structure Action where
  handler : Nat
  siginfo : Bool
  oneshot : Bool
  rest : Nat
deriving DecidableEq

/-- Disposition of every signal number. -/
abbrev Kernel := Int → Action

/-- What a program can observe: the result of `sigaction` with the old action, if asked for; what happens
when a signal is delivered: the default, nothing, or a call of a handler with one or with three
arguments. -/
inductive Obs where
  | result (ret : Int) (old : Option Action)
  | byDefault
  | ignored
  | called (handler : Nat) (siginfo : Bool)
deriving DecidableEq

/-- `sigaction(signum, act, wantOld ? &old : NULL)`. `allowed s set`: is `s` a signal whose action may be
read (`set` = false) or changed (`set` = true)? -/
def Kernel.sigaction (allowed : Int → Bool → Bool) (k : Kernel) (signum : Int) (act : Option Action)
    (wantOld : Bool) : Kernel × Int × Option Action :=
  if allowed signum act.isSome then
    (match act with
      | some a => fun s => if s = signum then a else k s
      | none => k, 0, if wantOld then some (k signum) else none)
  else (k, -1, none)

/-- Delivery of a signal: SA_RESETHAND restores the default when a handler is called. -/
def Kernel.deliver (k : Kernel) (signum : Int) : Kernel × Obs :=
  match (k signum).handler with
  | 0 => (k, .byDefault)
  | 1 => (k, .ignored)
  | h => (if (k signum).oneshot then fun s => if s = signum then { k s with handler := 0 } else k s else k,
      .called h (k signum).siginfo)

/-- What a program with signals does. -/
inductive SigOp where
  | sigaction (signum : Int) (act : Option Action) (wantOld : Bool)
  | deliver (signum : Int)

/-- One operation of the program without instrumentation. -/
def Kernel.step (allowed : Int → Bool → Bool) (k : Kernel) : SigOp → Kernel × Obs
  | .sigaction s act w =>
    let r := k.sigaction allowed s act w
    (r.1, .result r.2.1 r.2.2)
  | .deliver s => k.deliver s

/-- All observations of a sequence of operations. -/
def Kernel.run (allowed : Int → Bool → Bool) : Kernel → List SigOp → List Obs
  | _, [] => []
  | k, op :: ops => (k.step allowed op).2 :: Kernel.run allowed (k.step allowed op).1 ops

end Signal
end Spec
end Verif
