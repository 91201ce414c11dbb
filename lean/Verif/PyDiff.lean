import Verif.PyRegions
/-
Differences of two traces (polytracker/diffing.py 15-70 and 121-299) and the picture of a difference
(polytracker/visualizations.py 10-33).
-/
namespace Verif.Py

/-! ### print_file_context -/

/-- How one byte is written (diffing.py 44-55). -/
def shownByte (b : Nat) : List Char :=
  if b = 10 then ['\\', 'n']
  else if b = 13 then ['\\', 'r']
  else if b = 92 then ['\\', '\\']
  else if b = 9 then ['\\', 't']
  else if 32 ≤ b ∧ b ≤ 126 then [Char.ofNat b]
  else ['\\', 'x', Nat.digitChar (b / 16), Nat.digitChar (b % 16)]

/-- The variables of the loop (diffing.py 40-42) and the text written. -/
structure CtxState where
  start : Int
  len : Int
  written : Nat
  out : List Char

/-- The loop over the bytes (diffing.py 43-61); `before` is `extra_context_before`, `i` the index. -/
def ctxLoop (before length : Nat) : Nat → List Nat → CtxState → CtxState
  | _, [], s => s
  | i, b :: bs, s =>
    let s1 : CtxState := if i = before then { s with start := s.written } else s
    let s2 : CtxState := if i = before + length then { s1 with len := s1.written - s1.start } else s1
    ctxLoop before length (i + 1) bs
      { s2 with written := s2.written + (shownByte b).length, out := s2.out ++ shownByte b }

/-- The note about bytes that are not highlighted (diffing.py 62-65). -/
def moreNote (extra : Nat) : List Char :=
  if extra = 0 then [] else
    (" [ … plus " ++ toString extra ++ " additional byte" ++ (if extra > 1 then "s" else "") ++ " … ]").toList

/-- `print_file_context` (diffing.py 15-70): the text written. The file's content is a list of bytes. -/
def printFileContext (content : List Nat) (offset length ctx maxHl : Nat) (indent : List Char) : List Char :=
  let extra := if length > maxHl then length - maxHl else 0
  let len := if length > maxHl then maxHl else length
  let before0 := ctx / 2
  let ctxBytes := if extra > 0 then before0 else ctx
  let before := if offset < before0 then offset else before0
  let start := offset - before
  let data := (content.drop start).take (len + ctxBytes)
  let s := ctxLoop before len 0 data ⟨-1, -1, 0, []⟩
  let hl : Int := if s.len < 0 ∧ 0 ≤ s.start then s.written - s.start else s.len
  indent ++ '@' :: (toString offset).toList ++ '\n' :: indent ++ s.out ++ moreNote extra ++ ['\n'] ++
    (if 0 < hl then
      indent ++ List.replicate s.start.toNat ' ' ++ List.replicate hl.toNat '^' ++ ['\n']
     else [])

/-! ### TraceDiff -/

/-- A function of a trace: its index, its name and the offsets it touched (tracing.py 371-424). The traces
that TDFile gives do not list their functions (taint_dag.py 622-626) and `Function` has no `get_taints`
(diffing.py 189): this is for traces and functions that have these methods, `get_taints` being `taints`. -/
structure TFunc where
  index : Nat
  name : List Nat
  offsets : List ByteOffset
  deriving DecidableEq

/-- `get_taints().regions()` of a function. -/
def TFunc.regions (f : TFunc) : List Region := Taints.regions (Taints.mk f.offsets)

/-- An interval of a tree: first offset and one past the last. -/
abbrev Ival := Nat × Nat

/-- The regions of a trace's functions for one input (diffing.py 183-192), as the set of intervals in the
input's tree. -/
def addedIvals (fs : List TFunc) (s : InputRef) : List Ival :=
  (((fs.flatMap TFunc.regions).filter fun r => decide (r.source = s)).map
    fun r => (r.offset, r.offset + r.length)).foldl addNew []

/-- The order of intervals (first offset, then end). -/
def Ival.le (a b : Ival) : Bool := a.1 < b.1 || (a.1 == b.1 && a.2 ≤ b.2)

/-- The loop of `IntervalTree.merge_overlaps` (intervaltree; not part of /repo): from left to right, an
interval that begins before the end of the last merged one (`strict`), or at the end at the latest, is merged
with it. Which of the two depends on the library's version; `strict` is a parameter. -/
def mergeLoop (strict : Bool) : Ival → List Ival → List Ival
  | last, [] => [last]
  | last, iv :: l =>
    if (if strict then iv.1 < last.2 else iv.1 ≤ last.2) then mergeLoop strict (last.1, max last.2 iv.2) l
    else last :: mergeLoop strict iv l

/-- `IntervalTree.merge_overlaps` (see `mergeLoop`). -/
def mergeOverlaps (strict : Bool) (t : List Ival) : List Ival :=
  match t.mergeSort Ival.le with
  | [] => []
  | iv :: l => mergeLoop strict iv l

/-- `_first_intervals[source]` and `_second_intervals[source]` after merging (diffing.py 183-207). -/
def traceIvals (strict : Bool) (fs : List TFunc) (s : InputRef) : List Ival := mergeOverlaps strict (addedIvals fs s)

/-- The keys of `_first_intervals`: inputs with a region (diffing.py 189-190). -/
def hasSource (fs : List TFunc) (s : InputRef) : Bool :=
  (fs.flatMap TFunc.regions).any fun r => decide (r.source = s)

/-- `IntervalTree.remove_overlap(begin, end)` (intervaltree): removes every interval that has a point in
common with the range, as a whole. -/
def removeOverlap (t : List Ival) (iv : Ival) : List Ival :=
  t.filter fun j => !(decide (j.1 < iv.2) && decide (iv.1 < j.2))

/-- `_bytes_only_in_first[source]` (diffing.py 211-222 and 242-244); nothing if there is no such key.
`_bytes_only_in_second` is the same with the traces exchanged. -/
def bytesOnlyInFirst (strict : Bool) (fs1 fs2 : List TFunc) (s : InputRef) : List Ival :=
  if hasSource fs1 s then
    if hasSource fs2 s then (traceIvals strict fs2 s).foldl removeOverlap (traceIvals strict fs1 s)
    else traceIvals strict fs1 s
  else []

/-- The inputs that are keys. -/
def sourcesOf (fs : List TFunc) : List InputRef := ((fs.flatMap TFunc.regions).map (·.source)).foldl addNew []

/-- `input_chunks_only_in_first` (diffing.py 249-259). -/
def chunksOnlyInFirst (strict : Bool) (fs1 fs2 : List TFunc) : List Region :=
  (sourcesOf fs1).flatMap fun s => ((bytesOnlyInFirst strict fs1 fs2 s).mergeSort Ival.le).map
    fun iv => ⟨s, iv.1, iv.2 - iv.1⟩

/-- `functions_only_in_first` (diffing.py 169-174): functions are compared by their index
(tracing.py 416-422). -/
def functionsOnlyInFirst (fs1 fs2 : List TFunc) : List TFunc :=
  fs1.filter fun f => !(fs2.any fun g => decide (g.index = f.index))

/-- `functions_in_both`, the names (diffing.py 154-164). -/
def namesInBoth (fs1 fs2 : List TFunc) : List (List Nat) :=
  ((fs1.map (·.name)).filter fun n =>
    !((functionsOnlyInFirst fs1 fs2 ++ functionsOnlyInFirst fs2 fs1).any fun f => decide (f.name = n))).foldl addNew []

/-- `TraceDiff.__bool__` (diffing.py 298-299). -/
def tracesDiffer (fs1 fs2 : List TFunc) : Bool :=
  !(functionsOnlyInFirst fs1 fs2).isEmpty || !(functionsOnlyInFirst fs2 fs1).isEmpty

/-- Whether `__str__` says that both traces consumed the same byte regions (diffing.py 423-427), with
`has_input_chunks_only_in_first` (273-277). -/
def saysSameBytes (strict : Bool) (fs1 fs2 : List TFunc) : Bool :=
  (chunksOnlyInFirst strict fs1 fs2).isEmpty && (chunksOnlyInFirst strict fs2 fs1).isEmpty

/-! ### The picture -/

inductive Colour where
  | white | blue | red | black
  deriving DecidableEq

/-- An image: size and the colour of column and row. -/
structure Image where
  width : Nat
  height : Nat
  pixel : Nat → Nat → Colour

/-- `putpixel`: an error outside the image. -/
def Image.put (im : Image) (x y : Nat) (c : Colour) : Option Image :=
  if x < im.width ∧ y < im.height then
    some { im with pixel := fun x' y' => if x' = x ∧ y' = y then c else im.pixel x' y' }
  else none

/-- The loop that makes the image high enough (visualizations.py 18-19). The width is at least 1. -/
def growHeight (n w h : Nat) : Nat :=
  if 0 < w ∧ w * h < n then growHeight n w (h + 1) else h
termination_by n - w * h
decreasing_by
  rename_i hc
  rw [Nat.mul_add]
  omega

/-- One byte of `file_diff` (visualizations.py 22-32). -/
def putByte (inFirst inSecond : Nat → Bool) (im : Image) (i : Nat) : Option Image :=
  if inFirst i && inSecond i then some im
  else im.put (i % im.width) (i / im.width)
    (if inFirst i then .blue else if inSecond i then .red else .black)

/-- `file_diff` (visualizations.py 10-33). `h0` and `w0` are the values computed with floating point
numbers (lines 16 and 17), before the maximum with 1; they are any numbers. -/
def fileDiff (n h0 w0 : Nat) (inFirst inSecond : Nat → Bool) : Option Image :=
  let w := max w0 1
  let h := growHeight n w (max h0 1)
  (List.range n).foldlM (putByte inFirst inSecond) ⟨w, h, fun _ _ => .white⟩

/-- `to_image` (diffing.py 285-296): the loop over the inputs returns in its first round; `size` gives the
sizes of the inputs, `dims` the numbers computed from them. -/
def toImage (strict : Bool) (fs1 fs2 : List TFunc) (sources : List InputRef) (size : InputRef → Nat)
    (dims : Nat → Nat × Nat) : Option (Option Image) :=
  match sources with
  | [] => some none
  | s :: _ => (fileDiff (size s) (dims (size s)).1 (dims (size s)).2
      (fun o => hasSource fs1 s && (traceIvals strict fs1 s).any fun iv => decide (iv.1 ≤ o) && decide (o < iv.2))
      (fun o => hasSource fs2 s && (traceIvals strict fs2 s).any fun iv => decide (iv.1 ≤ o) && decide (o < iv.2))).map some

end Verif.Py
