import Verif.Section
import Verif.Bytes
/-
Model of StringTableBase<uint32_t, uint16_t>, /repo/polytracker/include/taintdag/string_table.h.
Strings are lists of bytes.
-/
namespace Verif
namespace StrTab

/-- sizeof(length_t). -/
def lenSize : Nat := 2

/-- max_string_len, string_table.h 34-36: min(65535, 2^32-1-2). -/
def maxLen : Nat := 65535

/-- `allocated_len`, string_table.h 129-135. -/
def allocatedLen (len : Nat) : Nat :=
  let req := len + lenSize
  if req % 2 ≠ 0 then req + (2 - req % 2) else req

/-- Constructor, string_table.h 42-48: ends the program for a range larger than offset_t. -/
def new (base size : Nat) : Res Section :=
  if size > 2 ^ 32 - 1 then .fatal else .ok (Section.new base size)

/-- `add_string`, string_table.h 54-75. -/
def addString (S : Section) (s : List Nat) : Res (Section × Option Nat) :=
  if s.length > maxLen then .fatal
  else match S.write (allocatedLen s.length) with
    | none => .ok (S, none)
    | some (S', off) => do
      let S' := { S' with mem := Section.store S'.mem off (le lenSize s.length ++ s) }
      let o ← S'.offset (S'.base + off)
      return (S', some (o % 2 ^ 32))

/-- `curr_len` of an iterator at position `at_`, string_table.h 119-121. -/
def lenAt (S : Section) (at_ : Nat) : Res Nat := do
  let b0 ← getRes S.mem at_
  let b1 ← getRes S.mem (at_ + 1)
  return unle [b0, b1]

/-- `operator*` of an iterator, string_table.h 104-107: bytes of the string at position `at_`.
Reading outside the section memory is undefined. -/
def deref (S : Section) (at_ : Nat) : Res (List Nat) := do
  let n ← lenAt S at_
  if at_ + lenSize + n ≤ S.mem.length then
    return (S.mem.drop (at_ + lenSize)).take n
  else .ub

/-- `from_offset`, string_table.h 79-81. -/
def fromOffset (S : Section) (ofs : Nat) : Res (List Nat) := deref S ofs

/-- `for (auto s : table)`: from `at_` to `end()`, string_table.h 112-126; gives up after `fuel`
steps. -/
def iterFrom (S : Section) : Nat → Nat → Res (List (List Nat))
  | fuel, at_ =>
    if at_ = S.size then .ok []
    else match fuel with
      | 0 => .hang
      | fuel + 1 => do
        let s ← deref S at_
        let n ← lenAt S at_
        let rest ← iterFrom S fuel (at_ + allocatedLen n)
        return s :: rest

/-- Iteration from begin() to end(). Every step advances by at least two bytes. -/
def strings (S : Section) : Res (List (List Nat)) := iterFrom S S.size 0

end StrTab
end Verif
