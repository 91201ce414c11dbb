import Verif.PyFile
import Verif.PyDict
/-
Model of the input/output mapping and of file cavities, /repo/polytracker/mapping.py 20-151. `none`
means that a Python exception is raised or that the iteration bound of the model is exceeded (the
theorems show that it is not). Progress bars (tqdm) are left out. Python sets are lists without
order; marker arrays are lists of 0 and 1.
-/
namespace Verif.Py

/-- What `dfs_walk` pushes for a node, mapping.py 45-51. The head of the list is the top of the
stack (the last pushed). -/
def pushed : Node → List Nat
  | .union left right _ => [right, left]
  | .range first last _ => (List.range' first (last + 1 - first)).reverse
  | _ => []

/-- `dfs_walk` together with the loop that consumes it, mapping.py 24-51. `body` is the body of the
consuming loop: it runs after the label was added to `seen` and before the children are pushed, and
may change `seen`. -/
def dfs (F : TDFile) {σ : Type} (body : σ → List Nat → Nat → Node → Option (σ × List Nat)) :
    Nat → List Nat → List Nat → σ → Option (σ × List Nat)
  | 0, _, _, _ => none
  | _ + 1, [], seen, s => some (s, seen)
  | k + 1, l :: stack, seen, s =>
    if l ∈ seen then dfs F body k stack seen s
    else do
      let n ← F.decodeNode l
      let (s, seen) ← body s (l :: seen) l n
      dfs F body k (pushed n ++ stack) seen s

/-- A path with an offset. -/
abbrev FileOffset := List Nat × Int

/-- `result[key].add(v)` of a defaultdict(set). -/
def addTo (d : Dict FileOffset (List FileOffset)) (key v : FileOffset) : Dict FileOffset (List FileOffset) :=
  let s := (d.get key).getD []
  d.set key (if v ∈ s then s else v :: s)

/-- Body of the inner loop of `mapping`, mapping.py 56-60. -/
def mapBody (F : TDFile) (s : Sink) (d : Dict FileOffset (List FileOffset)) (seen : List Nat) (_ : Nat) (n : Node) :
    Option (Dict FileOffset (List FileOffset) × List Nat) :=
  match n with
  | .source idx off _ => do
    let sp ← F.fdHeaders[s.fdidx]?
    let np ← F.fdHeaders[idx]?
    return (addTo d (np.1, (off : Int)) (sp.1, s.offset), seen)
  | _ => some (d, seen)

/-- The loop over the sinks in `mapping`, mapping.py 55-60. -/
def mapSinks (F : TDFile) (fuel : Nat) : List Sink → Dict FileOffset (List FileOffset) →
    Option (Dict FileOffset (List FileOffset))
  | [], d => some d
  | s :: ss, d => do
    let (d, _) ← dfs F (mapBody F s) fuel [s.label] [] d
    mapSinks F fuel ss d

/-- `mapping`, mapping.py 53-62. -/
def mapping (F : TDFile) (fuel : Nat) : Option (Dict FileOffset (List FileOffset)) := do
  let ss ← F.sinks
  mapSinks F fuel ss []

/-- `marker_to_ranges`, mapping.py 64-77, from position `i` on. -/
def rangesFrom : Nat → Option Nat → List Nat → List (Nat × Nat)
  | _, none, [] => []
  | i, some s, [] => [(s, i)]
  | i, start, v :: m =>
    if v = 0 then rangesFrom (i + 1) (some (start.getD i)) m
    else match start with
      | some s => (s, i) :: rangesFrom (i + 1) none m
      | none => rangesFrom (i + 1) none m

/-- `marker_to_ranges`. -/
def markerToRanges (m : List Nat) : List (Nat × Nat) := rangesFrom 0 none m

/-- `b.ljust(n, b"\0")`. -/
def ljust (v : List Nat) (n : Nat) : List Nat := v ++ List.replicate (n - v.length) 0

/-- The marker array of a source, created if there is none, mapping.py 98-107. -/
def markerOf (F : TDFile) (m : Dict Nat (List Nat)) (idx off : Nat) : Option (List Nat) :=
  match m.get idx with
  | some v => some v
  | none => (F.fdHeaders[idx]?).map fun h =>
    List.replicate (if h.2.size = 0xFFFFFFFFFFFFFFFF then off + 1 else h.2.size) 0

/-- Body of the first loop of `file_cavities`, mapping.py 91-115. -/
def sweepStep (F : TDFile) (m : Dict Nat (List Nat)) (label : Nat) : Option (Dict Nat (List Nat)) := do
  match ← F.decodeNode label with
  | .source idx off cf =>
    let marker ← markerOf F m idx off
    let marker := if marker.length ≤ off then ljust marker (off + 1) else marker
    return m.set idx (if cf then marker.set off 1 else marker)
  | _ => none

/-- The first loop of `file_cavities`. -/
def sweep (F : TDFile) : List Nat → Dict Nat (List Nat) → Option (Dict Nat (List Nat))
  | [], m => some m
  | l :: ls, m => do
    let m ← sweepStep F m l
    sweep F ls m

/-- `markers[idx][off] = 1`. -/
def markByte (m : Dict Nat (List Nat)) (idx off : Nat) : Option (Dict Nat (List Nat)) := do
  let v ← m.get idx
  guard (off < v.length)
  return m.set idx (v.set off 1)

/-- `affects_control_flow` of a node. -/
def Node.cf : Node → Bool
  | .untainted => false
  | .source _ _ cf => cf
  | .range _ _ cf => cf
  | .union _ _ cf => cf

/-- Body of the inner loop over `dfs_walk` in `file_cavities`, mapping.py 131-139. -/
def cavBody (m : Dict Nat (List Nat)) (seen : List Nat) (_ : Nat) (n : Node) : Option (Dict Nat (List Nat) × List Nat) :=
  match n with
  | .source idx off _ => do
    let m ← markByte m idx off
    return (m, seen)
  | .union left right true => some (m, right :: left :: seen)
  | .range first last true => some (m, List.range' first (last + 1 - first) ++ seen)
  | _ => some (m, seen)

/-- Body of the loop over the sinks in `file_cavities`, mapping.py 121-139. -/
def cavSink (F : TDFile) (fuel : Nat) (s : Sink) (m : Dict Nat (List Nat)) (seen : List Nat) : Option (Dict Nat (List Nat) × List Nat) := do
  let sn ← F.decodeNode s.label
  if sn.cf then return (m, seen)
  else match sn with
    | .source idx off _ => do
      let m ← markByte m idx off
      return (m, seen)
    | _ => dfs F cavBody fuel [s.label] seen m

/-- The loop over the sinks. -/
def cavSinks (F : TDFile) (fuel : Nat) : List Sink → Dict Nat (List Nat) → List Nat → Option (Dict Nat (List Nat))
  | [], m, _ => some m
  | s :: ss, m, seen => do
    let (m, seen) ← cavSink F fuel s m seen
    cavSinks F fuel ss m seen

/-- The loop that merges the arrays of files opened several times, mapping.py 142-149. -/
def merge (F : TDFile) : Dict Nat (List Nat) → Dict (List Nat) (List Nat) → Option (Dict (List Nat) (List Nat))
  | [], r => some r
  | (k, v) :: ms, r => do
    let h ← F.fdHeaders[k]?
    merge F ms (match r.get h.1 with
      | some w => r.set h.1 (List.zipWith (· ||| ·) w v)
      | none => r.set h.1 v)

/-- `file_cavities`, mapping.py 79-151. -/
def fileCavities (F : TDFile) (fuel : Nat) : Option (Dict (List Nat) (List (Nat × Nat))) := do
  let ls ← F.inputLabels
  let m ← sweep F ls []
  let ss ← F.sinks
  let m ← cavSinks F fuel ss m []
  let r ← merge F m []
  return r.map fun p => (p.1, markerToRanges p.2)

end Verif.Py
