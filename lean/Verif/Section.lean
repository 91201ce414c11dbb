import Verif.Base
/-
Model of SectionBase and FixedSizeAlloc, /repo/polytracker/include/taintdag/section.h.

A section owns `mem` (its bytes) starting at address `base`; `pos` is write_it_ - mem_.begin().
Addresses and sizes are 64 bits wide. The mutex makes each call atomic (the context object keeps the
lock until the entry is constructed), so calls are modelled as functions; C34 treats interleavings
of whole tracker operations.
-/
namespace Verif

structure Section where
  base : Nat
  mem : List Nat
  pos : Nat
  deriving DecidableEq, Repr

namespace Section

/-- Constructor, section.h 29; memory of a fresh file is zero. -/
def new (base size : Nat) : Section := { base, mem := List.replicate size 0, pos := 0 }

/-- `size()`, section.h 32-35. -/
def size (S : Section) : Nat := S.pos

/-- `write(n)`, section.h 54-71: reserves `n` bytes, returning the offset of the span. The address
`write_it_ + n` is computed modulo 2^64. -/
def write (S : Section) (n : Nat) : Option (Section × Nat) :=
  let newWrite := (S.base + S.pos + n) % 2 ^ 64
  if newWrite > S.base + S.mem.length ∨ newWrite < S.base + S.pos then none
  else some ({ S with pos := S.pos + n }, S.pos)

/-- `offset(p)`, section.h 86-91: the position of address `p`; ends the program if it lies outside. -/
def offset (S : Section) (p : Nat) : Res Nat :=
  if p < S.base ∨ S.base + S.mem.length ≤ p then .fatal else .ok (p - S.base)

/-- Storing bytes at a position. -/
def store (mem : List Nat) (at_ : Nat) (bs : List Nat) : List Nat :=
  mem.take at_ ++ bs ++ mem.drop (at_ + bs.length)

/-- Reserving room for `bs` and filling it: `write` followed by the stores of the caller through
the returned context (this is how every section stores data). Returns the offset. -/
def append (S : Section) (bs : List Nat) : Option (Section × Nat) :=
  match S.write bs.length with
  | none => none
  | some (S', off) => some ({ S' with mem := store S'.mem off bs }, off)

/-- `construct`, section.h 138-147, for an entry whose representation is `bs` (length entry_size).
Returns the address of the entry. -/
def construct (S : Section) (bs : List Nat) : Option (Section × Nat) :=
  match S.append bs with
  | none => none
  | some (S', off) => some (S', S.base + off)

/-- `construct_range`, section.h 151-170, with entries `gen 0, gen 1, ...` of `es` bytes each. Returns
address and entry count of the resulting span. The byte count is computed modulo 2^64; if it is not
a multiple of the entry size the loop steps over its end. -/
def constructRange (S : Section) (es n : Nat) (gen : Nat → List Nat) :
    Res (Option (Section × Nat × Nat)) :=
  let memSize := es * n % 2 ^ 64
  match S.write memSize with
  | none => .ok none
  | some (S', off) =>
    if memSize % es ≠ 0 then .ub
    else
      let bs := (List.range (memSize / es)).flatMap gen
      .ok (some ({ S' with mem := store S'.mem off bs }, S.base + off, n))

/-- `index(e)`, section.h 173-176. -/
def index (S : Section) (es p : Nat) : Res Nat := do
  let o ← S.offset p
  return o / es

/-- `count()`, section.h 179. -/
def count (S : Section) (es : Nat) : Nat := S.size / es

end Section
end Verif
