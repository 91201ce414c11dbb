import Verif.PyDict
/-
Grouping tainted byte offsets into regions (polytracker/tracing.py 71-330, polytracker/inputs.py 26-80,
polytracker/cfg.py 71-83).
-/
namespace Verif.Py

/-- An input: what its equality and order look at (inputs.py 71-79: `uid` and `path`; the order of
regions uses `uid`). The uid is the file descriptor (taint_dag.py 760-761), so two different files that
were open one after the other can have the same one. Paths are byte strings. Its contents are a parameter of `TaintedRegion.value`. -/
structure InputRef where
  uid : Int
  path : List Nat
  deriving DecidableEq

/-- `ByteOffset` (tracing.py 150-154): an input and an offset; its length is always 1. Offsets are
natural numbers. -/
structure ByteOffset where
  source : InputRef
  offset : Nat
  deriving DecidableEq

/-- `TaintedRegion` (tracing.py 71-86). -/
structure Region where
  source : InputRef
  offset : Nat
  length : Nat
  deriving DecidableEq

/-- `TaintedRegion.__lt__` (tracing.py 138-147), as "not greater": tuples of uid, offset and length
compared lexicographically; all lengths are 1. -/
def ByteOffset.le (a b : ByteOffset) : Bool :=
  a.source.uid < b.source.uid || (a.source.uid == b.source.uid && a.offset ≤ b.offset)

/-- `sorted` on byte offsets (stable). -/
def sortOffsets (l : List ByteOffset) : List ByteOffset := l.mergeSort ByteOffset.le

/-- One collected value, `set.add`: sets are lists without repetition, newest last. -/
def addNew {α : Type} [DecidableEq α] (s : List α) (x : α) : List α := if x ∈ s then s else s ++ [x]

/-- `Taints.__init__` (tracing.py 218-230), the grouping loop. -/
def groupBySource : List ByteOffset → Dict InputRef (List ByteOffset) → Dict InputRef (List ByteOffset)
  | [], d => d
  | o :: l, d => groupBySource l (d.set o.source (addNew ((d.get o.source).getD []) o))

/-- `Taints.__init__` (tracing.py 218-230): group, then sort each group. -/
def Taints.mk (l : List ByteOffset) : Dict InputRef (List ByteOffset) :=
  (groupBySource l []).map fun p => (p.1, sortOffsets p.2)

/-- `Taints.__iter__` (tracing.py 351-361). -/
def Taints.iter (t : Dict InputRef (List ByteOffset)) : List ByteOffset := t.flatMap (·.2)

/-- `Taints.__len__` (tracing.py 347-349). -/
def Taints.len (t : Dict InputRef (List ByteOffset)) : Nat := (t.map (·.2.length)).sum

/-- `Taints.from_source` (tracing.py 236-238). -/
def Taints.fromSource (t : Dict InputRef (List ByteOffset)) (s : InputRef) : Dict InputRef (List ByteOffset) :=
  Taints.mk ((t.get s).getD [])

/-- The loop of `Taints.to_regions` (tracing.py 262-284); the result is the list of yielded regions.
`last_offset.offset != offset.offset - 1` is written with an addition. A region is yielded after its
last change, so yielding the object or its value is the same. -/
def regionLoop (lastInput : Option InputRef) (lastOffset : Option Nat) (region : Option Region) :
    List ByteOffset → List Region
  | [] => region.toList
  | o :: l =>
    let new := match lastInput with
      | none => false
      | some i => decide (i ≠ o.source) || (match lastOffset with
        | none => false
        | some p => decide (p + 1 ≠ o.offset))
    let lastInput' := match lastInput with
      | none => some o.source
      | some i => some i
    let out := if new then region.toList else []
    let region' := if new then none else region
    let region'' := match region' with
      | none => (⟨o.source, o.offset, 1⟩ : Region)
      | some r => ⟨r.source, r.offset, r.length + 1⟩
    out ++ regionLoop lastInput' (some o.offset) (some region'') l

/-- `Taints.to_regions` (tracing.py 257-284). -/
def toRegions (l : List ByteOffset) (isSorted : Bool) : List Region :=
  regionLoop none none none (if isSorted then l else sortOffsets l)

/-- `Taints.regions` (tracing.py 240-255). -/
def Taints.regions (t : Dict InputRef (List ByteOffset)) : List Region := toRegions (Taints.iter t) true

/-- `TaintDiff._diff` and `bytes_only_in_first` (tracing.py 174-186): the sorted difference of the two
sets. Python's set order, which matters only for offsets that compare equal, is taken to be the order
of the first collection. `bytes_only_in_second` is the same with the collections exchanged. -/
def TaintDiff.onlyInFirst (t1 t2 : Dict InputRef (List ByteOffset)) : List ByteOffset :=
  sortOffsets ((Taints.iter t1).filter fun o => decide (o ∉ Taints.iter t2))

/-- `TaintDiff.regions_only_in_first` (tracing.py 187-190). -/
def TaintDiff.regionsOnlyInFirst (t1 t2 : Dict InputRef (List ByteOffset)) : List Region :=
  toRegions (TaintDiff.onlyInFirst t1 t2) true

/-- `FunctionInfo.tainted_chunks` (cfg.py 71-83), the loop; `st` is `(start_offset, last_offset)` once
the first offset was seen. -/
def chunkLoop (st : Option (Nat × Nat)) : List Nat → List (Nat × Nat)
  | [] => match st with
    | none => []
    | some (start, last) => [(start, last + 1)]
  | o :: l => match st with
    | none => chunkLoop (some (o, o)) l
    | some (start, last) =>
      if o ≠ last ∧ o ≠ last + 1 then (start, last + 1) :: chunkLoop (some (o, o)) l
      else chunkLoop (some (start, o)) l

/-- `FunctionInfo.tainted_chunks` (cfg.py 71-83). -/
def taintedChunks (l : List Nat) : List (Nat × Nat) :=
  chunkLoop none (l.mergeSort fun a b => decide (a ≤ b))

/-- `FunctionInfo.input_chunks` and `cmp_chunks` (cfg.py 85-93): the chunks of every source. -/
def sourceChunks (d : Dict (List Nat) (List Nat)) : List (List Nat × (Nat × Nat)) :=
  d.flatMap fun p => (taintedChunks p.2).map fun c => (p.1, c)

end Verif.Py
