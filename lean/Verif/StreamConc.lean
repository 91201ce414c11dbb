import Verif.Tracker
/-
Concurrent use of the stream offsets, /repo/polytracker/include/taintdag/stream_offset.h 22-42. Each
slot is a std::atomic and `increase` is a single fetch_add, so a step of a thread is one whole
`increase`. Everything else a thread does around it (stream reads are `source_taint`, polytracker.cpp
76-108) does not touch the offsets.
-/
namespace Verif
namespace Stream

/-- One completed `increase`: which thread, which source, returned offset, requested length. -/
structure Done where
  thread : Nat
  idx : Nat
  start : Nat
  len : Nat
  deriving DecidableEq, Repr

/-- Offsets, the calls each thread has yet to make (source, length), completed calls oldest first. -/
structure State where
  offs : Nat → Nat
  todo : Nat → List (Nat × Nat)
  log : List Done

/-- Thread `t` performs its next call. -/
inductive Step : State → State → Prop where
  | call {s t idx len rest offs' o} :
    s.todo t = (idx, len) :: rest →
    Tracker.increase s.offs idx len = .ok (offs', o) →
    Step s { offs := offs', todo := fun u => if u = t then rest else s.todo u,
             log := s.log ++ [⟨t, idx, o, len⟩] }

/-- Any number of steps of any threads. -/
inductive Steps : State → State → Prop where
  | refl {s} : Steps s s
  | tail {s s' s''} : Steps s s' → Step s' s'' → Steps s s''

/-- Start: all offsets are 0 (stream_offset.h 40, value-initialised). -/
def start (progs : Nat → List (Nat × Nat)) : State := ⟨fun _ => 0, progs, []⟩

end Stream
end Verif
