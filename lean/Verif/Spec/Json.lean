import Verif.PyFile
/-
Specification: JSON texts that are arrays of strings (RFC 8259), over UTF-8 bytes. `none` means that the
text is not such an array. A \u escape is turned into the UTF-8 encoding of that code unit (surrogate
pairs are not combined; no theorem depends on it).
-/
namespace Verif.Spec.Json

/-- White space, RFC 8259 section 2. -/
def isWs (b : Nat) : Bool := b = 0x20 ∨ b = 0x09 ∨ b = 0x0A ∨ b = 0x0D

/-- Skip white space. -/
def skipWs : List Nat → List Nat
  | [] => []
  | b :: r => if isWs b then skipWs r else b :: r

/-- Value of a hexadecimal digit. -/
def hex (b : Nat) : Option Nat :=
  if 48 ≤ b ∧ b ≤ 57 then some (b - 48)
  else if 97 ≤ b ∧ b ≤ 102 then some (b - 87)
  else if 65 ≤ b ∧ b ≤ 70 then some (b - 55)
  else none

/-- UTF-8 encoding of a 16-bit code unit. -/
def unit (c : Nat) : List Nat :=
  if c < 0x80 then [c]
  else if c < 0x800 then [0xC0 + c / 64, 0x80 + c % 64]
  else [0xE0 + c / 4096, 0x80 + c / 64 % 64, 0x80 + c % 64]

/-- The character after a backslash, RFC 8259 section 7. -/
def simpleEscape (e : Nat) : Option Nat :=
  if e = 0x22 ∨ e = 0x5C ∨ e = 0x2F then some e
  else if e = 98 then some 8
  else if e = 102 then some 12
  else if e = 110 then some 10
  else if e = 114 then some 13
  else if e = 116 then some 9
  else none

/-- The rest of a string after its opening quote: its value and the text after the closing quote. -/
def str : List Nat → Option (List Nat × List Nat)
  | [] => none
  | 0x22 :: r => some ([], r)
  | 0x5C :: 117 :: a :: b :: c :: d :: r => do
    let a ← hex a
    let b ← hex b
    let c ← hex c
    let d ← hex d
    let (s, r) ← str r
    return (unit (((a * 16 + b) * 16 + c) * 16 + d) ++ s, r)
  | 0x5C :: e :: r => do
    let e ← simpleEscape e
    let (s, r) ← str r
    return (e :: s, r)
  | b :: r =>
    if b < 0x20 ∨ b = 0x5C then none
    else do
      let (s, r) ← str r
      return (b :: s, r)

/-- The elements of a non-empty array, up to and including the closing bracket; at most `n`. -/
def elems : Nat → List Nat → Option (List (List Nat) × List Nat)
  | 0, _ => none
  | n + 1, t =>
    match skipWs t with
    | 0x22 :: r => do
      let (s, r) ← str r
      match skipWs r with
      | 0x2C :: r => do
        let (ss, r) ← elems n r
        return (s :: ss, r)
      | 0x5D :: r => return ([s], r)
      | _ => none
    | _ => none

/-- An array of strings followed by nothing but white space. -/
def array (t : List Nat) : Option (List (List Nat)) :=
  if Py.utf8 t = false then none
  else match skipWs t with
    | 0x5B :: r =>
      match skipWs r with
      | 0x5D :: r => if skipWs r = [] then some [] else none
      | _ => do
        let (ss, r) ← elems t.length r
        if skipWs r = [] then return ss else none
    | _ => none

end Verif.Spec.Json
