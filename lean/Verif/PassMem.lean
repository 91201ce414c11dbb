import Verif.Dfsan
import Verif.ShadowMem
/-
Model of the code that the pass /repo/polytracker/src/passes/DataFlowSanitizer.cpp inserts for load and
store instructions, run on the byte-level memory of `Verif.ShadowMem`. The options have their
defaults: 32-bit shadows (782-783), no fast labels, no origins, alignments not preserved. `avoid` is
`AvoidNewBlocks` (591), which is set for functions with more than 1000 basic blocks.
Not modelled: the shortcut for allocas that do not escape (2202-2214), the
shortcut for constant memory (2216-2231, zero label) and atomic accesses.
-/
namespace Verif
namespace DfsanMem

open Mem

/-- The labels at shadow address `p`, `n` of them. -/
def labelsAt (m : Mem) (p n : Nat) : List Nat := (List.range n).map (fun i => m.read32 (p + 4 * i))

/-- The run-time code of `combineShadows` for two shadow values, DataFlowSanitizer.cpp 1898-1929: a
comparison followed by a call of `__dfsan_union` (1910-1928), or, when blocks are avoided, a call of
`dfsan_union` (1902-1909; it is the function behind `DFSanCheckedUnionFn`, 1278-1279). -/
def combineCode (avoid started : Bool) (L : Labels) (l1 l2 : Nat) : Res (Labels × Nat) :=
  if avoid then Dfsan.union started L l1 l2
  else if l1 ≠ l2 then Dfsan.union' started L l1 l2 else .ok (L, l1)

/-- The comparisons of the second and later wide shadows in `loadLegacyShadowFast`, 2170-2182:
`n` further 64-bit words, the first at `p`. -/
def wideEq (m : Mem) (w : Nat) : Nat → Nat → Bool
  | _, 0 => true
  | p, n + 1 => if w = m.read64 p then wideEq m w (p + 8) n else false

/-- `loadLegacyShadowFast`, 2115-2191, for an even number of bytes: compare the two labels of the first
wide shadow by rotating it, then the other wide shadows with the first; if all agree the answer is the
low half, otherwise `__dfsan_union_load` is called. -/
def loadFast (started : Bool) (L : Labels) (m : Mem) (p size : Nat) : Res (Labels × Nat) :=
  let w := m.read64 p
  let trunc := w % 2 ^ 32
  let shl := w <<< 32 % 2 ^ 64
  let shr := w >>> (64 - 32)
  let rot := shl ||| shr
  if w = rot ∧ wideEq m w (p + 8) ((size - 1) / 2) = true then .ok (L, trunc)
  else Dfsan.unionLoad started L (labelsAt m p size)

/-- `loadShadowOrigin`, 2196-2302: the label of the bytes `[addr, addr + size)`. -/
def loadShadow (avoid started : Bool) (L : Labels) (m : Mem) (addr size : Nat) :
    Res (Labels × Nat) :=
  if size = 0 then .ok (L, 0)
  else
    let p := passShadow addr
    if size = 1 then .ok (L, m.read32 p)
    else if size = 2 then combineCode avoid started L (m.read32 p) (m.read32 (p + 4))
    else
      let shadowSize := size * 4
      let hasSizeForFastPath := shadowSize % 8 == 0 || shadowSize == 4
      if !avoid && hasSizeForFastPath then loadFast started L m p size
      else Dfsan.unionLoad started L (labelsAt m p size)

/-- `visitLoadInst`, 2322-2374: the label given to the loaded value, `ptrLabel` being the label of the
address (ClCombinePointerLabelsOnLoad is true by default, 191-195). -/
def loadInst (avoid started : Bool) (L : Labels) (m : Mem) (addr size ptrLabel : Nat) :
    Res (Labels × Nat) :=
  if size = 0 then .ok (L, 0) else do
  let (L, l) ← loadShadow avoid started L m addr size
  combineCode avoid started L l ptrLabel

/-- Storing a vector of eight copies of the label. -/
def writeVec (m : Mem) (p label : Nat) : Mem :=
  (List.range 8).foldl (fun m i => m.write32 (p + 4 * i) label) m

/-- The vector loop of `storePrimitiveShadowOrigin`, 2536-2543. `off` counts vectors; it is an
`unsigned` argument of CreateConstGEP1_32. The result has the offset and the size left. -/
def storeVecs (p label : Nat) : Nat → Nat → Nat → Mem → Mem × Nat × Nat
  | 0, off, left, m => (m, off, left)
  | fuel + 1, off, left, m =>
    if 8 ≤ left then
      storeVecs p label fuel (off + 1) (left - 8) (writeVec m (p + 32 * (off % 2 ^ 32)) label)
    else (m, off, left)

/-- The single-label loop of `storePrimitiveShadowOrigin`, 2545-2551. -/
def storeSingles (p label : Nat) : Nat → Nat → Mem → Mem
  | _, 0, m => m
  | off, left + 1, m =>
    storeSingles p label (off + 1) left (m.write32 (p + 4 * (off % 2 ^ 32)) label)

/-- `storePrimitiveShadowOrigin`, 2484-2557: the bytes `[addr, addr + size)` get the label. With the
constant zero label `storeZeroPrimitiveShadow` (2469-2482) stores one zero of `32 * size` bits; it is
written here as a store of zero bytes. -/
def storeShadow (constZero : Bool) (m : Mem) (addr size label : Nat) : Mem :=
  let p := passShadow addr
  if constZero then fillBytes 0 p (4 * size) m
  else
    let (m, off, left) := storeVecs p label size 0 size m
    storeSingles p label (off * 8) left m

/-- Writing an integer of `size` bytes, little endian. -/
def writeInt (m : Mem) (a size v : Nat) : Mem :=
  fun x => if a ≤ x ∧ x < a + size then v / 256 ^ (x - a) % 256 else m x

/-- `visitStoreInst`, 2576-2625, for a non-atomic store, followed by the instruction itself. The label
of the address is not added (ClCombinePointerLabelsOnStore is false by default, 199-203). -/
def storeInst (constZero : Bool) (m : Mem) (addr size v label : Nat) : Mem :=
  if size = 0 then m
  else writeInt (storeShadow constZero m addr size label) addr size v

end DfsanMem
end Verif
