/-
UTF-8, independent of the reader model: the encoding of Unicode scalar values.
-/
namespace Verif
namespace Spec

/-- Unicode scalar values: code points that are not surrogates. -/
def Scalar (c : Nat) : Prop := c < 0x110000 ∧ ¬ (0xD800 ≤ c ∧ c ≤ 0xDFFF)

/-- The UTF-8 encoding of a code point. -/
def encodeChar (c : Nat) : List Nat :=
  if c < 0x80 then [c]
  else if c < 0x800 then [0xC0 + c / 64, 0x80 + c % 64]
  else if c < 0x10000 then [0xE0 + c / 4096, 0x80 + c / 64 % 64, 0x80 + c % 64]
  else [0xF0 + c / 262144, 0x80 + c / 4096 % 64, 0x80 + c / 64 % 64, 0x80 + c % 64]

/-- The bytes are the UTF-8 encoding of some text. -/
def IsUtf8 (bs : List Nat) : Prop := ∃ cs : List Nat, (∀ c ∈ cs, Scalar c) ∧ bs = cs.flatMap encodeChar

end Spec
end Verif
