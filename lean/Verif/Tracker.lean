import Verif.Dfsan
import Verif.Bitmap
import Verif.StringTable
import Verif.CfLog
import Verif.Layout
/-
Model of the tracker object, /repo/polytracker/src/taintdag/polytracker.cpp and
/repo/polytracker/include/taintdag/polytracker.h, with the sections it owns.

Sections of fixed-size entries are lists of entries with a capacity (C15 relates them to bytes:
entry `i` occupies bytes `i*es .. i*es+es-1`, its index is `i`, and an entry is refused exactly when
the section is full). The string table and the control-flow log are byte sections.
-/
namespace Verif

/-- SourceEntry, /repo/polytracker/include/taintdag/taint_source.h 23-45. -/
structure SourceEntry where
  nameOff : Nat
  fd : Int
  size : Nat
  deriving DecidableEq, Repr

/-- SourceEntry::InvalidSize, taint_source.h 25. -/
def invalidSize : Nat := 2 ^ 64 - 1

/-- SourceEntry::InvalidFD, taint_source.h 28. -/
def invalidFd : Int := -1

/-- SinkLogEntry, /repo/polytracker/include/taintdag/sink.h 19-23. The offset is an int64_t, kept
modulo 2^64. -/
structure SinkEntry where
  offset : Nat
  label : Nat
  sink : Nat
  deriving DecidableEq, Repr

/-- Event, /repo/polytracker/include/taintdag/fntrace.h 17-22 (kind: 0 entry, 1 exit). -/
structure FnEvent where
  kind : Nat
  fn : Nat
  deriving DecidableEq, Repr

/-- Section sizes, in entries, bits or bytes. -/
structure Config where
  srcCap : Nat
  labelCap : Nat
  strSize : Nat
  sinkCap : Nat
  indexCap : Nat
  fnCap : Nat
  evCap : Nat
  logSize : Nat
  deriving DecidableEq, Repr

namespace Config

/-- The configuration of polytracker.h 91-98; see `Layout.shipped` for the individual sources. -/
def shipped : Config :=
  { srcCap := 255, labelCap := 2 ^ 31, strSize := 0x100000, sinkCap := 0x100000, indexCap := 2 ^ 31,
    fnCap := 65535, evCap := 0xffffffff, logSize := 1024 * 1024 * 1024 }

/-- The section list of ConcreteOutputFile, polytracker.h 96-98, for given sizes. -/
def specs (c : Config) : List SecSpec :=
  [{ tag := 1, align := 8, alloc := c.srcCap * 16 },
   { tag := 2, align := 8, alloc := c.labelCap * 8 },
   { tag := 3, align := 2, alloc := c.strSize },
   { tag := 4, align := 8, alloc := c.sinkCap * 16 },
   { tag := 5, align := 8, alloc := Bitmap.allocationSize 64 c.indexCap },
   { tag := 6, align := 4, alloc := c.fnCap * 4 },
   { tag := 7, align := 2, alloc := c.evCap * 4 },
   { tag := 8, align := 1, alloc := c.logSize }]

end Config

/-- class PolyTracker, polytracker.h 29-106, with the sections of its output file. -/
structure Tracker where
  cfg : Config
  sources : List SourceEntry
  labels : Labels
  strings : Section
  sinks : List SinkEntry
  index : Bitmap
  /-- name offsets of the functions, fnmapping.h 23-27 -/
  fns : List Nat
  /-- `mappings`, fnmapping.h 47; keyed by the characters of the name. (The code keys it by a
  string_view of the caller's memory, which the caller must keep unchanged; the instrumentation
  passes string constants.) -/
  fnMap : List (List Nat × Nat)
  events : List FnEvent
  cflog : Section
  /-- stream_read_offsets_, stream_write_offsets_, polytracker.h 104-105 -/
  rd : Nat → Nat
  wr : Nat → Nat
  /-- labels of the program's bytes -/
  shadow : Shadow

namespace Tracker

/-- Start address of section `k`, outputfile.h 142-149. -/
def beginOf (c : Config) (base k : Nat) : Nat := ((Layout.begins base c.specs)[k]?).getD 0

/-- Constructor, polytracker.cpp 22-23 and outputfile.h 103-117, on a fresh file mapped at `base`.
FixedSizeAlloc ends the program if its memory is misaligned (section.h 109-118; sizes are multiples
of the entry size by construction here), StringTable if it is too large for its offsets. -/
def init (c : Config) (base : Nat) : Res Tracker :=
  if (c.specs.zip (Layout.begins base c.specs)).any (fun p => p.1.tag ∈ [1, 2, 4, 6, 7] ∧ p.2 % p.1.align ≠ 0)
  then .fatal
  else do
    let strings ← StrTab.new (beginOf c base 2) c.strSize
    return { cfg := c, sources := [], labels := Labels.init c.labelCap, strings := strings, sinks := [],
             index := Bitmap.empty 64 c.indexCap, fns := [], fnMap := [], events := [],
             cflog := Section.new (beginOf c base 7) c.logSize,
             rd := fun _ => 0, wr := fun _ => 0, shadow := fun _ => 0 }

/-- `Sources::add_source`, taint_source.h 71-84. The index is converted to uint8_t. -/
def addSource (T : Tracker) (name : List Nat) (fd : Int) (size : Nat) : Res (Tracker × Option Nat) := do
  let (S, off) ← StrTab.addString T.strings name
  let T := { T with strings := S }
  match off with
  | none => return (T, none)
  | some off =>
    if T.sources.length + 1 ≤ T.cfg.srcCap then
      return ({ T with sources := T.sources ++ [{ nameOff := off, fd := fd, size := size }] },
              some (T.sources.length % 256))
    else return (T, none)

/-- `find_reverse_if` on the reversed entries, taint_source.h 98-106. -/
def findRev (fd : Int) : List SourceEntry → Option Nat
  | [] => none
  | s :: rest => if s.fd = fd then some rest.length else findRev fd rest

/-- `Sources::mapping_idx`, taint_source.h 86-92. -/
def mappingIdx (T : Tracker) (fd : Int) : Option Nat :=
  (findRev fd T.sources.reverse).map (· % 256)

/-- `StreamOffset::increase` with 256 slots, /repo/polytracker/include/taintdag/stream_offset.h 29-36. -/
def increase (o : Nat → Nat) (idx len : Nat) : Res ((Nat → Nat) × Nat) :=
  if idx ≥ 256 then .fatal
  else .ok (fun i => if i = idx then (o idx + len) % 2 ^ 64 else o i, o idx)

/-- `open_file`, polytracker.cpp 29-41; `size` is the result of file_size (none: error). The result of
add_source is dropped by the code; it is returned here so that properties can mention it. -/
def openFile (T : Tracker) (fd : Int) (name : List Nat) (size : Option Nat) :
    Res (Tracker × Option Nat) := T.addSource name fd (size.getD invalidSize)

/-- `close_file`, polytracker.cpp 43-46. -/
def closeFile (T : Tracker) (_fd : Int) : Tracker := T

/-- The loop of create_source_taint, polytracker.cpp 62-65. -/
def setLabels (sh : Shadow) (addr lbl : Nat) : Nat → Shadow
  | 0 => sh
  | n + 1 => setLabels (Dfsan.upd sh addr lbl) (addr + 1) (lbl + 1) n

/-- Marking memory, if there is any (polytracker.cpp 59-65). -/
def markMem (sh : Shadow) (addr : Option Nat) (lbl len : Nat) : Shadow :=
  match addr with
  | some a => setLabels sh a lbl len
  | none => sh

/-- `create_source_taint`, polytracker.cpp 48-67; `addr = none` is the variant without memory used by
the second `source_taint` (polytracker.cpp 101-105). -/
def createSourceTaint (T : Tracker) (src : Nat) (addr : Option Nat) (len offset : Nat) :
    Res (Tracker × (Nat × Nat)) := do
  let (L, rng) ← T.labels.createSourceLabels src offset len
  let B ← T.index.setRange rng.1 len
  return ({ T with labels := L, index := B, shadow := markMem T.shadow addr rng.1 len }, rng)

/-- The offset used by both overloads of source_taint, polytracker.cpp 80-82, 99-101: the given one
or the stream position, which advances. -/
def sourceOffset (T : Tracker) (idx : Nat) (offset : Option Nat) (len : Nat) : Res (Tracker × Nat) :=
  match offset with
  | some o => .ok (T, o)
  | none => do
    let (rd, o) ← increase T.rd idx len
    return ({ T with rd := rd }, o)

/-- Both overloads of `source_taint`, polytracker.cpp 76-108 (the one without memory inlines
create_source_taint without its loop). `offset = none` is an invalid Offset. -/
def sourceTaint (T : Tracker) (fd : Int) (addr : Option Nat) (offset : Option Nat) (len : Nat) :
    Res (Tracker × Option (Nat × Nat)) :=
  match T.mappingIdx fd with
  | none => .ok (T, none)
  | some i => do
    let (T, off) ← T.sourceOffset i offset len
    let (T, rng) ← T.createSourceTaint i addr len off
    return (T, some rng)

/-- `create_taint_source`, polytracker.cpp 114-123. -/
def createTaintSource (T : Tracker) (name : List Nat) (addr len : Nat) :
    Res (Tracker × Option (Nat × Nat)) := do
  let (T, i) ← T.addSource name invalidFd invalidSize
  match i with
  | none => return (T, none)
  | some i =>
    let (T, rng) ← T.createSourceTaint i (some addr) len 0
    return (T, some rng)

/-- `log_single`, sink.h 35-37: silently does nothing when the section is full. -/
def logSingle (T : Tracker) (offset label sink : Nat) : Tracker :=
  if T.sinks.length + 1 ≤ T.cfg.sinkCap then
    { T with sinks := T.sinks ++ [{ offset := offset % 2 ^ 64, label := label, sink := sink }] }
  else T

/-- Loop of taint_sink, polytracker.cpp 146-151. -/
def sinkLoop (idx : Nat) : Nat → Nat → Nat → Tracker → Res Tracker
  | _, _, 0, T => .ok T
  | addr, off, n + 1, T => do
    let (L, lbl) ← Dfsan.readLabel true T.labels T.shadow addr 1
    let T := { T with labels := L }
    let T := if lbl > 0 then T.logSingle off lbl idx else T
    sinkLoop idx (addr + 1) (off + 1) n T

/-- The offset used by both overloads of taint_sink, polytracker.cpp 143-145, 160-162. -/
def sinkOffset (T : Tracker) (idx : Nat) (offset : Option Nat) (len : Nat) : Res (Tracker × Nat) :=
  match offset with
  | some o => .ok (T, o)
  | none => do
    let (wr, o) ← increase T.wr idx len
    return ({ T with wr := wr }, o)

/-- `taint_sink` for memory, polytracker.cpp 125-153. -/
def taintSink (T : Tracker) (fd : Int) (offset : Option Nat) (addr len : Nat) : Res Tracker :=
  match T.mappingIdx fd with
  | none => .ok T
  | some idx => do
    let (T, off) ← T.sinkOffset idx offset len
    sinkLoop idx addr off len T

/-- Loop of the second taint_sink, polytracker.cpp 167-170. -/
def sinkSame (idx label off : Nat) : Nat → Nat → Tracker → Tracker
  | _, 0, T => T
  | i, n + 1, T => sinkSame idx label off (i + 1) n (T.logSingle (off + i) label idx)

/-- `taint_sink` for a label, polytracker.cpp 155-172. -/
def taintSinkLabel (T : Tracker) (fd : Int) (offset : Option Nat) (label len : Nat) : Res Tracker :=
  match T.mappingIdx fd with
  | none => .ok T
  | some idx => do
    let (T, off) ← T.sinkOffset idx offset len
    if label = 0 then return T
    else return sinkSame idx label off 0 len T

/-- `union_labels`, polytracker.cpp 25-27. -/
def unionLabels (T : Tracker) (l r : Nat) : Res (Tracker × Nat) := do
  let (L, u) ← T.labels.unionTaint l r
  return ({ T with labels := L }, u)

/-- `affects_control_flow`, polytracker.cpp 174-176. -/
def affectsControlFlow (T : Tracker) (l : Nat) : Res Tracker := do
  let L ← T.labels.affectsControlFlow l
  return { T with labels := L }

/-- `log_tainted_control_flow`, `enter_function`, `leave_function`, polytracker.cpp 178-188. -/
def logCf (T : Tracker) (e : CfEvent) : Res Tracker := do
  let S ← CfLog.log T.cflog e
  return { T with cflog := S }

/-- `mappings.find(name)`, fnmapping.cpp 27-29. -/
def findFn (name : List Nat) : List (List Nat × Nat) → Option Nat
  | [] => none
  | (n, i) :: rest => if n = name then some i else findFn name rest

/-- `Functions::add_mapping`, /repo/polytracker/src/taintdag/fnmapping.cpp 22-43. The index is
converted to uint16_t. -/
def addMapping (T : Tracker) (name : List Nat) : Res (Tracker × Option Nat) :=
  match findFn name T.fnMap with
  | some i => .ok (T, some i)
  | none => do
    let (S, off) ← StrTab.addString T.strings name
    let T := { T with strings := S }
    match off with
    | none => return (T, none)
    | some off =>
      if T.fns.length + 1 ≤ T.cfg.fnCap then
        let i := T.fns.length % 2 ^ 16
        return ({ T with fns := T.fns ++ [off], fnMap := T.fnMap ++ [(name, i)] }, some i)
      else return (T, none)

/-- `Events::log_fn_event`, /repo/polytracker/src/taintdag/fntrace.cpp 17-22. -/
def logEvent (T : Tracker) (kind fn : Nat) : Res Tracker :=
  if T.events.length + 1 ≤ T.cfg.evCap then
    .ok { T with events := T.events ++ [{ kind := kind, fn := fn }] }
  else .fatal

/-- `function_entry`, polytracker.cpp 190-199. -/
def functionEntry (T : Tracker) (name : List Nat) : Res (Tracker × Nat) := do
  let (T, i) ← T.addMapping name
  match i with
  | none => .fatal
  | some i =>
    let T ← T.logEvent 0 i
    return (T, i)

/-- `function_exit`, polytracker.cpp 201-204. -/
def functionExit (T : Tracker) (i : Nat) : Res Tracker := T.logEvent 1 i

end Tracker
end Verif
