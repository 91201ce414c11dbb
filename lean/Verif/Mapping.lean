import Verif.ShadowMem
import Verif.Wrappers
/-
Mapping and unmapping of memory: the interceptors of
/repo/polytracker/src/compiler-rt/lib/dfsan/dfsan_interceptors.cpp, their composition with the wrappers
of /repo/polytracker/src/taint_sources/taint_sources.cpp, and the part of the client interface of
/repo/polytracker/src/compiler-rt/lib/dfsan/dfsan.cpp that hands out labels and clears all of them.

Which of them a call in an instrumented program reaches is decided by
/repo/polytracker/custom_abi/dfsan_abilist.txt (identical entries in polytracker_abilist.txt):
mmap and munmap are `custom` (20-23), so the wrapper is called, and the mmap it calls is the interceptor;
mmap64 (2717) and mremap (2739) are only `uninstrumented`, so the function itself is called (C68): for
mmap64 this is the interceptor, for mremap, which is not intercepted, the C library.

Simplifications: the kernel's choice of an address and its success are parameters; what it does to the
bytes of the mapping is not modelled, except for mremap. Interceptors running before the shadow memory
is set up are not modelled.
-/
namespace Verif
namespace DfsanMem

/-- Interceptor of `mmap`, dfsan_interceptors.cpp 31-46, and of `mmap64`, 48-54. `res` is the address of
the mapping, `none` for -1. -/
def mmapIntercepted (page : Nat) (m : Mem) (length : Nat) (res : Option Nat) : Res Mem :=
  match res with
  | some a => setLabel page m 0 a (roundUpTo length page)
  | none => .ok m

/-- Interceptor of `munmap`, dfsan_interceptors.cpp 56-61. -/
def munmapIntercepted (page : Nat) (m : Mem) (addr length : Nat) (ret : Int) : Res Mem :=
  if ret ≠ -1 then setLabel page m 0 addr (roundUpTo length page) else .ok m

/-- `dfsan_flush`, dfsan.cpp 969-972: the region from `ShadowAddr()` to `UnusedAddr()` is mapped anew and
reads as zero. `dfsan_init` calls it (979). -/
def flush (m : Mem) : Mem := fun x => if kShadowAddr ≤ x ∧ x < kUnionTableAddr then 0 else m x

/-- `mremap` moving a mapping of `n` bytes from `old` to `new`: not intercepted, so no label is touched.
Of the kernel's work only the content of the new place is modelled. -/
def mremap (m : Mem) (old new n : Nat) : Mem := fun x => if new ≤ x ∧ x < new + n then m (old + (x - new)) else m x

/-- What can happen to the labels of memory: a mapping, an unmapping, a label written by a wrapper or by
the program, a call of `dfsan_flush`. -/
inductive MapEvent where
  | mmap (length : Nat) (res : Option Nat)
  | munmap (addr length : Nat) (ret : Int)
  | label (l addr n : Nat)
  | flush
  deriving Repr, DecidableEq

/-- One event. -/
def mapStep (page : Nat) (m : Mem) : MapEvent → Res Mem
  | .mmap length res => mmapIntercepted page m length res
  | .munmap addr length ret => munmapIntercepted page m addr length ret
  | .label l addr n => setLabel page m l addr n
  | .flush => .ok (DfsanMem.flush m)

/-- The events in order. -/
def mapRun (page : Nat) : List MapEvent → Mem → Res Mem
  | [], m => .ok m
  | e :: rest, m => do
    let m ← mapStep page m e
    mapRun page rest m

end DfsanMem

namespace Wrap

/-- The interceptor of mmap on the labels of bytes (dfsan_interceptors.cpp 43-44, 51-52). -/
def mmapCleared (page : Nat) (T : Tracker) (length : Nat) : Option Nat → Tracker
  | some a => { T with shadow := setAll T.shadow 0 a (DfsanMem.roundUpTo length page) }
  | none => T

/-- A call of `mmap` in an instrumented program: `__dfsw_mmap`, taint_sources.cpp 354-367, whose call in
358 is the interceptor. -/
def mmapCall (page : Nat) (T : Tracker) (fd : Int) (length : Nat) (offset : Int) (res : Option Nat) :
    Res (Tracker × Option Nat × Nat) :=
  mmap (mmapCleared page T length res) fd length offset res

/-- A call of `mmap64` in an instrumented program: the interceptor alone. The label of the returned
pointer is that of an uninstrumented function, 0 (C68). -/
def mmap64Call (page : Nat) (T : Tracker) (length : Nat) (res : Option Nat) : Tracker × Option Nat × Nat :=
  (mmapCleared page T length res, res, 0)

/-- A call of `munmap` in an instrumented program: `__dfsw_munmap`, taint_sources.cpp 369-378, whose call
in 374 is the interceptor (dfsan_interceptors.cpp 56-61). -/
def munmapCall (page : Nat) (T : Tracker) (addr length : Nat) (ret : Int) : Tracker × Int × Nat :=
  munmap (if ret ≠ -1 then { T with shadow := setAll T.shadow 0 addr (DfsanMem.roundUpTo length page) } else T)
    addr length ret

/-- `dfsan_create_label`, dfsan.cpp 304-314: `last` is `__dfsan_last_label` (44), a 32-bit counter that
starts at 0. The results are the counter and the label; running out of labels ends the program
(`dfsan_check_label`, 192-197). -/
def createLabel (last : Nat) : Res (Nat × Nat) :=
  let label := (last + 1) % 2 ^ 32
  if label = 2 ^ 32 - 1 then .fatal else .ok (label, label)

/-- `dfsan_get_label_count`, dfsan.cpp 777-783. -/
def labelCount (last : Nat) : Nat := last

/-- `n` calls of dfsan_create_label: the counter and the labels in order. -/
def createLabels : Nat → Nat → Res (Nat × List Nat)
  | last, 0 => .ok (last, [])
  | last, n + 1 => do
    let (last, l) ← createLabel last
    let (last, ls) ← createLabels last n
    return (last, l :: ls)

end Wrap
end Verif
