import Verif.Tracker
/-
The bytes of the trace file: /repo/polytracker/include/taintdag/outputfile.h, storage.h and the
entry types of the sections. The file is memory-mapped shared (storage.h 65-72), so the file always
has the contents of the mapped memory; it is created empty and extended with zeros (storage.h 25-36).
Integers are little endian and structures have the x86-64 layout.
-/
namespace Verif
namespace File

/-- Contents of padding bytes of the structures with padding (SinkLogEntry, Event), by entry number.
The theorems hold whatever they are. -/
structure Pads where
  sink : Nat → Nat × Nat × Nat
  event : Nat → Nat

/-- SourceEntry, /repo/polytracker/include/taintdag/taint_source.h 23-45: uint32_t, int32_t, uint64_t. -/
def encSource (e : SourceEntry) : List Nat :=
  le 4 e.nameOff ++ le 4 (e.fd % 2 ^ 32).toNat ++ le 8 e.size

/-- SinkLogEntry, /repo/polytracker/include/taintdag/sink.h 19-23: int64_t, uint32_t, uint8_t, three
bytes of padding. -/
def encSink (p : Nat × Nat × Nat) (e : SinkEntry) : List Nat :=
  le 8 e.offset ++ le 4 e.label ++ le 1 e.sink ++ [p.1, p.2.1, p.2.2]

/-- Event, /repo/polytracker/include/taintdag/fntrace.h 17-22: uint8_t, a byte of padding, uint16_t. -/
def encEvent (p : Nat) (e : FnEvent) : List Nat := le 1 e.kind ++ [p] ++ le 2 e.fn

/-- The eight sections: contents from the beginning of the section up to its used size or beyond (the
rest of the allocation is zero), and the value of `size()`. -/
def contents (pads : Pads) (T : Tracker) : List (List Nat × Nat) :=
  [(T.sources.flatMap encSource, 16 * T.sources.length),
   (T.labels.words.flatMap (le 8), 8 * T.labels.words.length),
   (T.strings.mem, T.strings.size),
   ((T.sinks.zipIdx.flatMap fun p => encSink (pads.sink p.2) p.1), 16 * T.sinks.length),
   (T.index.buckets.flatMap (le 8), T.index.size),
   (T.fns.flatMap (le 4), 4 * T.fns.length),
   ((T.events.zipIdx.flatMap fun p => encEvent (pads.event p.2) p.1), 4 * T.events.length),
   (T.cflog.mem, T.cflog.size)]

/-- SectionMeta, outputfile.h 58-70. -/
def encMeta (s : SecSpec) (offset size : Nat) : List Nat :=
  le 4 s.tag ++ le 4 s.align ++ le 8 offset ++ le 8 size

/-- The magic number, outputfile.h 82. -/
def magic (specs : List SecSpec) : Nat := (specs.map (·.tag)).sum ^^^ specs.length

/-- FileHeader, outputfile.h 73-100, with given offsets and sizes. -/
def header (specs : List SecSpec) (os : List (Nat × Nat)) : List Nat :=
  [84, 68, 65, 71] ++ le 2 (magic specs) ++ le 2 specs.length ++
    (specs.zip os).flatMap fun p => encMeta p.1 p.2.1 p.2.2

/-- Memory of one section: contents followed by zeros. -/
def padTo (n : Nat) (bs : List Nat) : List Nat := bs ++ List.replicate (n - bs.length) 0

/-- The mapped memory after the header: sections placed by do_allocation (outputfile.h 142-149), the
allocation pointer being at address `p`. -/
def body (p : Nat) : List (SecSpec × List Nat) → List Nat
  | [] => []
  | (s, bs) :: rest =>
    List.replicate (p % s.align) 0 ++ (padTo s.alloc bs ++ body (p + p % s.align + s.alloc) rest)

/-- Offsets recorded by do_allocation, outputfile.h 147. -/
def offsets (c : Config) (base : Nat) : List Nat := (Layout.begins base c.specs).map (· - base)

/-- The file while the tracker is in state `T`, with given values in the size fields. -/
def image (pads : Pads) (c : Config) (base : Nat) (T : Tracker) (sizes : List Nat) : List Nat :=
  let bytes := header c.specs ((offsets c base).zip sizes) ++
    body (base + Layout.headerSize c.specs) (c.specs.zip ((contents pads T).map (·.1)))
  bytes ++ List.replicate (Layout.required c.specs - bytes.length) 0

/-- The file before the destructor: all sizes are zero (outputfile.h 95-99). -/
def running (pads : Pads) (c : Config) (base : Nat) (T : Tracker) : List Nat :=
  image pads c base T (List.replicate 8 0)

/-- The file while the destructor runs (outputfile.h 119-131), after the first `k` sizes have been
stored. The destructor is run by polytracker_end, /repo/polytracker/src/polytracker/main.cpp 98-107,
which is registered with atexit (main.cpp 165). -/
def closing (pads : Pads) (c : Config) (base : Nat) (T : Tracker) (k : Nat) : List Nat :=
  image pads c base T (((contents pads T).map (·.2)).take k ++ List.replicate (8 - k) 0)

/-- The file after an orderly end. -/
def closed (pads : Pads) (c : Config) (base : Nat) (T : Tracker) : List Nat :=
  image pads c base T ((contents pads T).map (·.2))

end File
end Verif
