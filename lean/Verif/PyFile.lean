import Verif.Bytes
import Verif.PyCfLog
/-
Model of the trace reader: TDFile and its sections, /repo/polytracker/taint_dag.py 46-586. The file
is the list of its bytes. `none` means that a Python exception is raised.
-/
namespace Verif.Py

/-- `mem[a:b]` for non-negative bounds. -/
def slice (m : List Nat) (a b : Nat) : List Nat := (m.take b).drop a

/-- `c_uintN.from_buffer_copy(m, off).value`; ValueError if there are not enough bytes. -/
def uint (n off : Nat) (m : List Nat) : Option Nat :=
  if off + n ≤ m.length then some (unle ((m.drop off).take n)) else none

/-- Unsigned field of `n` bytes at `off` of a structure. -/
def fld (n off : Nat) (m : List Nat) : Nat := unle ((m.drop off).take n)

/-- Value of a signed field of `8*k` bits. -/
def signed (k v : Nat) : Int := if v < 2 ^ (8 * k - 1) then v else (v : Int) - 2 ^ (8 * k)

/-- TDFileMeta, taint_dag.py 46-57. -/
structure Meta where
  tdag : List Nat
  magic : Nat
  count : Nat
  deriving DecidableEq, Repr

/-- TDSectionMeta, taint_dag.py 63-75. -/
structure SecMeta where
  tag : Nat
  align : Nat
  offset : Nat
  size : Nat
  deriving DecidableEq, Repr

/-- `TDSectionMeta.from_buffer_copy(buffer, off)`. -/
def readSecMeta (m : List Nat) (off : Nat) : Option SecMeta :=
  if off + 24 ≤ m.length then
    let b := m.drop off
    some ⟨fld 4 0 b, fld 4 4 b, fld 8 8 b, fld 8 16 b⟩
  else none

/-- The loops `for offset in range(0, len(section), size): yield S.from_buffer_copy(section, offset)`
(taint_dag.py 91-93, 275-277, 324-326, 333-335). -/
def enumStructs {α : Type} (size : Nat) (dec : List Nat → α) (m : List Nat) : Option (List α) :=
  (List.range ((m.length + size - 1) / size)).mapM fun i =>
    if i * size + size ≤ m.length then some (dec ((m.drop (i * size)).take size)) else none

/-- TDFDHeader, taint_dag.py 338-351. -/
structure FdHeader where
  nameOffset : Nat
  fd : Int
  size : Nat
  deriving DecidableEq, Repr

/-- Fields of TDFDHeader. -/
def decFd (b : List Nat) : FdHeader := ⟨fld 4 0 b, signed 4 (fld 4 4 b), fld 8 8 b⟩

/-- TDSink, taint_dag.py 406-410. -/
structure Sink where
  offset : Int
  label : Nat
  fdidx : Nat
  deriving DecidableEq, Repr

/-- Fields of TDSink (16 bytes with padding). -/
def decSink (b : List Nat) : Sink := ⟨signed 8 (fld 8 0 b), fld 4 8 b, fld 1 12 b⟩

/-- TDEvent, taint_dag.py 416-421: kind and function index (4 bytes with padding). -/
def decEvent (b : List Nat) : Nat × Nat := (fld 1 0 b, fld 2 2 b)

/-- Continuation byte of UTF-8. -/
def cont (b : Nat) : Bool := 0x80 ≤ b ∧ b ≤ 0xBF

/-- Whether bytes are valid UTF-8, i.e. whether `str(bytes, "utf-8")` succeeds (the table of RFC 3629
section 4). -/
def utf8 : List Nat → Bool
  | [] => true
  | a :: r =>
    if a < 0x80 then utf8 r
    else match r with
      | [] => false
      | b :: r =>
        if 0xC2 ≤ a ∧ a ≤ 0xDF then cont b && utf8 r
        else match r with
          | [] => false
          | c :: r =>
            if a = 0xE0 then (decide (0xA0 ≤ b ∧ b ≤ 0xBF) && cont c) && utf8 r
            else if a = 0xED then (decide (0x80 ≤ b ∧ b ≤ 0x9F) && cont c) && utf8 r
            else if 0xE1 ≤ a ∧ a ≤ 0xEF then (cont b && cont c) && utf8 r
            else match r with
              | [] => false
              | d :: r =>
                if a = 0xF0 then (decide (0x90 ≤ b ∧ b ≤ 0xBF) && cont c && cont d) && utf8 r
                else if 0xF1 ≤ a ∧ a ≤ 0xF3 then (cont b && cont c && cont d) && utf8 r
                else if a = 0xF4 then (decide (0x80 ≤ b ∧ b ≤ 0x8F) && cont c && cont d) && utf8 r
                else false

/-- `TDStringSection.read_string`, taint_dag.py 107-113. A Python string is represented by its UTF-8
bytes. -/
def readString (sec : List Nat) (off : Nat) : Option (List Nat) := do
  let n ← uint 2 off sec
  guard (off + 2 + n ≤ sec.length)
  let s := slice sec (off + 2) (off + 2 + n)
  guard (utf8 s = true)
  return s

/-- `s.split("/")`. -/
def splitSlash : List Nat → List (List Nat)
  | [] => [[]]
  | b :: r =>
    if b = 47 then [] :: splitSlash r
    else match splitSlash r with
      | [] => [[b]]
      | w :: ws => (b :: w) :: ws

/-- `"/".join(ws)`. -/
def joinSlash : List (List Nat) → List Nat
  | [] => []
  | [w] => w
  | w :: ws => w ++ 47 :: joinSlash ws

/-- `str(Path(s))` on POSIX (pathlib.PurePosixPath): empty and "." components are dropped, a leading
slash is kept, exactly two leading slashes are kept as they are, the empty path is ".". -/
def pathStr (s : List Nat) : List Nat :=
  let root := if (s.takeWhile (· = 47)).length = 2 then [47, 47]
    else if (s.takeWhile (· = 47)).length = 0 then [] else [47]
  let parts := (splitSlash (s.dropWhile (· = 47))).filter fun w => w ≠ [] ∧ w ≠ [46]
  let r := root ++ joinSlash parts
  if r = [] then [46] else r

/-- TDFile after its constructor, taint_dag.py 440-492: `sections_by_type` (each section as its
slice of the file) and the lists of headers. Paths are represented by `str(path)`. -/
structure TDFile where
  filemeta : Meta
  source : Option (List Nat) := none
  label : Option (List Nat) := none
  string : Option (List Nat) := none
  sink : Option (List Nat) := none
  index : Option (List Nat) := none
  fn : Option (List Nat) := none
  event : Option (List Nat) := none
  cflog : Option (List Nat) := none
  fdHeaders : List (List Nat × FdHeader) := []
  fnHeaders : List (List Nat × Nat) := []
  deriving DecidableEq, Repr

/-- One iteration of the section loop, taint_dag.py 456-485. -/
def addSection (m : List Nat) (F : TDFile) (h : SecMeta) : Option TDFile :=
  let s := slice m h.offset (h.offset + h.size)
  match h.tag with
  | 1 => some { F with source := some s }
  | 2 => some { F with label := some s }
  | 3 => some { F with string := some s }
  | 4 => some { F with sink := some s }
  | 5 => if s.length % 8 = 0 then some { F with index := some s } else none
  | 6 => some { F with fn := some s }
  | 7 => some { F with event := some s }
  | 8 => some { F with cflog := some s }
  | _ => none

/-- The section loop: `k` iterations starting with the header at `off`. -/
def addSections (m : List Nat) : Nat → Nat → TDFile → Option TDFile
  | 0, _, F => some F
  | k + 1, off, F => do
    let h ← readSecMeta m off
    let F ← addSection m F h
    addSections m k (off + 24) F

/-- `read_fd_headers`, taint_dag.py 497-505. -/
def readFdHeaders (F : TDFile) : Option (List (List Nat × FdHeader)) := do
  let sources ← F.source
  let strings ← F.string
  let hs ← enumStructs 16 decFd sources
  hs.mapM fun h => do
    let n ← readString strings h.nameOffset
    return (pathStr n, h)

/-- `read_fn_headers`, taint_dag.py 507-515. -/
def readFnHeaders (F : TDFile) : Option (List (List Nat × Nat)) := do
  let fns ← F.fn
  let strings ← F.string
  let hs ← enumStructs 4 (fld 4 0) fns
  hs.mapM fun o => do
    let n ← readString strings o
    return (n, o)

/-- `TDFile(file)`, taint_dag.py 440-492. (mmap of an empty file raises; TDFileMeta needs 8 bytes.) -/
def parse (m : List Nat) : Option TDFile := do
  guard (8 ≤ m.length)
  let filemeta : Meta := ⟨m.take 4, fld 2 4 m, fld 2 6 m⟩
  let F ← addSections m filemeta.count 8 { filemeta := filemeta }
  let fd ← readFdHeaders F
  let fn ← readFnHeaders F
  return { F with fdHeaders := fd, fnHeaders := fn }

namespace TDFile

/-- `label_count`, taint_dag.py 523-527 and 129-130. -/
def labelCount (F : TDFile) : Option Nat := do
  let s ← F.label
  return s.length / 8

/-- `read_node`, taint_dag.py 529-537 and 126-127; the dictionary only caches the result. -/
def readNode (F : TDFile) (label : Nat) : Option Nat := do
  let s ← F.label
  uint 8 (label * 8) s

/-- `sinks`, taint_dag.py 566-570. -/
def sinks (F : TDFile) : Option (List Sink) := do
  let s ← F.sink
  enumStructs 16 decSink s

/-- `events`, taint_dag.py 575-579. -/
def events (F : TDFile) : Option (List (Nat × Nat)) := do
  let s ← F.event
  enumStructs 4 decEvent s

/-- The loop of `enumerate_set_bits`, taint_dag.py 292-307, over the buckets; the running index is
`index`. -/
def setBits : Nat → List Nat → List Nat
  | _, [] => []
  | index, bucket :: rest =>
    if bucket = 0 then setBits (index + 64) rest
    else ((List.range 64).filter fun i => (bucket >>> i) &&& 1 = 1).map (index + ·) ++
      setBits (index + 64) rest

/-- `input_labels`, taint_dag.py 517-521. -/
def inputLabels (F : TDFile) : Option (List Nat) := do
  let s ← F.index
  let bs ← enumStructs 8 (fld 8 0) s
  return setBits 0 bs

/-- Iteration over the control-flow log section, taint_dag.py 226-258. -/
def cfItems (F : TDFile) : Option (List CfItem × Bool) := do
  let s ← F.cflog
  return iter s []

end TDFile

/-- TDNode and its subclasses, taint_dag.py 358-403. -/
inductive Node where
  | untainted
  | source (idx offset : Nat) (cf : Bool)
  | range (first last : Nat) (cf : Bool)
  | union (left right : Nat) (cf : Bool)
  deriving DecidableEq, Repr

/-- Decoding of a word in `decode_node`, taint_dag.py 544-559. -/
def decodeWord (v : Nat) : Node :=
  let st := (v >>> 63) &&& 1
  let cf : Bool := (v >>> 62) &&& 1 ≠ 0
  if st ≠ 0 then
    .source (v &&& 0xFF) ((v >>> 8) &&& ((1 <<< 54) - 1)) cf
  else
    let v1 := (v >>> 31) &&& 0x7FFFFFFF
    let v2 := v &&& 0x7FFFFFFF
    if v1 > v2 then .union v1 v2 cf else .range v1 v2 cf

/-- `decode_node`, taint_dag.py 539-559. -/
def TDFile.decodeNode (F : TDFile) (label : Nat) : Option Node :=
  if label = 0 then some .untainted
  else do
    let v ← F.readNode label
    return decodeWord v

end Verif.Py
