import Verif.Base
/-
Model of the 64-bit taint words:
/repo/polytracker/include/taintdag/taint.h, include/taintdag/encoding.h,
src/taintdag/encoding.cpp.

Integers are natural numbers; the C++ shifts below never shift a set bit out of 64 bits because
the operands are masked first (the one unmasked operand, `rt.last`, is at most 32 bits wide), so
no reduction modulo 2^64 is needed.
-/
namespace Verif

/-- `label_bits`, taint.h 41. -/
def labelBits : Nat := 31
/-- `max_label`, taint.h 42 (also `label_mask`, taint.h 46). -/
def maxLabel : Nat := 2 ^ 31 - 1
/-- `max_source_index` / `source_index_mask`, taint.h 51-52. -/
def maxSourceIndex : Nat := 2 ^ 8 - 1
/-- `max_source_offset`, taint.h 57-58 (54 bits). -/
def maxSourceOffset : Nat := 2 ^ 54 - 1
/-- `source_taint_bit_shift`, taint.h 31. -/
def sourceTaintShift : Nat := 63
/-- `affects_control_flow_shift`, taint.h 32. -/
def cfShift : Nat := 62
/-- `mask_affects_control_flow`, taint.h 34-35: all ones except bit 62. -/
def maskCf : Nat := 2 ^ 64 - 1 - 2 ^ 62

/-- `Taint`, taint.h 76-143: variant of SourceTaint / RangeTaint / UnionTaint, each with the
`affects_control_flow` flag of `TaintBase`. Labels and offsets are the unsigned values of the
C++ fields. -/
inductive Taint where
  | source (cf : Bool) (index offset : Nat)
  | range (cf : Bool) (first last : Nat)
  | union (cf : Bool) (lower higher : Nat)
  deriving DecidableEq, Repr

/-- Constructor of `UnionTaint`, taint.h 118-132: stores the two labels ordered. The asserts are
the predicate `Spec.LegalTaint` below; they are proved never to fire (C05). -/
def mkUnion (cf : Bool) (label1 label2 : Nat) : Taint :=
  if label1 < label2 then .union cf label1 label2 else .union cf label2 label1

/-- `static_cast<storage_t>(bool)`. -/
def boolBit (b : Bool) : Nat := if b then 1 else 0

/-- `encode`, encoding.cpp 26-56. -/
def encode : Taint → Nat
  | .source cf idx off =>
    ((1 <<< sourceTaintShift ||| boolBit cf <<< cfShift) ||| (off &&& maxSourceOffset) <<< 8)
      ||| (idx &&& maxSourceIndex)
  | .range cf first last =>
    (boolBit cf <<< cfShift ||| last) ||| (first &&& maxLabel) <<< labelBits
  | .union cf lower higher =>
    (boolBit cf <<< cfShift ||| (maxLabel &&& higher) <<< labelBits) ||| (lower &&& maxLabel)

/-- `is_source_taint`, encoding.cpp 81-83. -/
def isSourceTaint (e : Nat) : Bool := (e >>> sourceTaintShift) &&& 1 == 1

/-- `check_affects_control_flow`, encoding.cpp 89-91. -/
def checkCf (e : Nat) : Bool := (e >>> cfShift) &&& 1 == 1

/-- `add_affects_control_flow`, encoding.cpp 85-87. -/
def addCf (e : Nat) : Nat := e ||| 1 <<< cfShift

/-- `equal_ignore_cf`, encoding.h 34-36. -/
def equalIgnoreCf (e1 e2 : Nat) : Bool := (e1 &&& maskCf) == (e2 &&& maskCf)

/-- `decode`, encoding.cpp 58-79. Equal halves call `error_exit`. -/
def decode (e : Nat) : Res Taint :=
  let cf := checkCf e
  if isSourceTaint e then
    .ok (.source cf (e &&& maxSourceIndex) ((e >>> 8) &&& maxSourceOffset))
  else
    let a := (e >>> labelBits) &&& maxLabel
    let b := e &&& maxLabel
    if a = b then .fatal
    else if a < b then .ok (.range cf a b)
    else .ok (mkUnion cf a b)

end Verif
