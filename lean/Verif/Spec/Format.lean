import Verif.Spec.Labels
/-
Reference for formatted output (C17 7.21.6.1, 7.21.6.5): a format is a sequence of items, each of which
turns its arguments into text; the output is the concatenation. Every byte of the output has the label
of the data it was made from.
-/
namespace Verif
namespace Spec

/-- Part of a format: literal text, `%%`, a conversion of a value (`%d`, `%5.2f`, `%lx`, `%*d`, ...),
and a conversion of a string. `mods` are the characters between `%` and the conversion letter. -/
inductive Item where
  | lit (t : List Nat)
  | pct
  | val (mods : List Nat) (c : Nat)
  | str (mods : List Nat)

namespace Item

/-- The characters of the item. -/
def fmt : Item → List Nat
  | lit t => t
  | pct => [37, 37]
  | val mods c => 37 :: (mods ++ [c])
  | str mods => 37 :: (mods ++ [115])

/-- Flags, digits, `.`, `*` and length modifiers: `-+ #0'I`, `0`..`9`, `.`, `*`, `hlqjztL`. -/
def IsMod (c : Nat) : Prop :=
  c ∈ [45, 43, 32, 35, 39, 73, 48, 49, 50, 51, 52, 53, 54, 55, 56, 57, 46, 42, 104, 108, 113, 106, 122,
    116, 76]

/-- Conversion letters of integers: d i o u x X. -/
def IsInt (c : Nat) : Prop := c ∈ [100, 105, 111, 117, 120, 88]

/-- Other letters that convert one value: c p and a A e E f F g G. -/
def IsOther (c : Nat) : Prop := c ∈ [99, 112, 97, 65, 101, 69, 102, 70, 103, 71]

/-- The item is an item of the language of formats. -/
def Ok : Item → Prop
  | lit t => t ≠ [] ∧ ∀ c ∈ t, c ≠ 37 ∧ c ≠ 0
  | pct => True
  | val mods c => (∀ x ∈ mods, IsMod x) ∧ (IsInt c ∨ IsOther c)
  | str mods => ∀ x ∈ mods, IsMod x

def isLit : Item → Bool
  | lit _ => true
  | _ => false

end Item

/-- A format: items, with literal text not cut into pieces. -/
def Format : List Item → Prop
  | [] => True
  | [i] => i.Ok
  | i :: j :: is => i.Ok ∧ ¬ (i.isLit = true ∧ j.isLit = true) ∧ Format (j :: is)

/-- The argument slot `v` read as an `int`. -/
def asInt (v : Nat) : Int := Int.bmod v (2 ^ 32)

/-- The argument is 64 bits wide: integers with a length modifier l, ll, q, j, z or t, pointers, floating
point values (the bit pattern). -/
def wide (mods : List Nat) (c : Nat) : Bool :=
  if c ∈ [100, 105, 111, 117, 120, 88] then
    mods.getLast? ∈ [some 108, some 113, some 106, some 122, some 116]
  else c ≠ 99

/-- Value of the argument slot `v` for the conversion. -/
def argVal (mods : List Nat) (c v : Nat) : Int := if wide mods c then (v : Int) else asInt v

/-- The C library, formatting one item alone: text made from the format and the arguments (which may
point to memory), or `none` for an error. -/
abbrev CLib := (Nat → Nat) → List Nat → List Int → Option (List Nat)

/-- Text without directives is copied, `%%` gives `%`. -/
structure CLib.Faithful (lib : CLib) : Prop where
  lit : ∀ m t, (∀ c ∈ t, c ≠ 37) → lib m t [] = some t
  pct : ∀ m, lib m [37, 37] [] = some [37]

/-- The library converts to `t`, whatever application memory contains in `[lo, hi)`: the data the
conversion uses are not there. -/
def Converts (lib : CLib) (m : Nat → Nat) (lo hi : Nat) (f : List Nat) (vals : List Int) (t : List Nat) :
    Prop :=
  ∀ m', (∀ a, IsApp a → ¬ (lo ≤ a ∧ a < hi) → m' a = m a) → lib m' f vals = some t

/-- The text is a verbatim copy of memory at `p` (string conversions without padding), which is outside
`[lo, hi)`. -/
structure Verbatim (m : Nat → Nat) (lo hi p : Nat) (t : List Nat) : Prop where
  bytes : ∀ i, i < t.length → t[i]? = some (m (p + i))
  app : 0x700000008000 ≤ p
  end' : p + t.length ≤ 0x800000000000
  outside : p + t.length ≤ lo ∨ hi ≤ p

/-- What an item makes of its arguments (pairs of slot and label): text and labels of the text. Items
have at most one `*`, with a non-negative argument. `verb` asks for string conversions to be
verbatim. -/
inductive Yields (lib : CLib) (m lab : Nat → Nat) (lo hi : Nat) (verb : Bool) :
    Item → List (Nat × Nat) → List Nat → List Nat → Prop where
  | lit (t) : Yields lib m lab lo hi verb (.lit t) [] t (List.replicate t.length 0)
  | pct : Yields lib m lab lo hi verb .pct [] [37] [0]
  | val (mods : List Nat) (c v l : Nat) (t : List Nat) : 42 ∉ mods →
    Converts lib m lo hi (Item.val mods c).fmt [argVal mods c v] t →
    Yields lib m lab lo hi verb (.val mods c) [(v, l)] t (List.replicate t.length l)
  | valStar (mods : List Nat) (c w lw v l : Nat) (t : List Nat) : mods.count 42 = 1 → 0 ≤ asInt w →
    Converts lib m lo hi (Item.val mods c).fmt [asInt w, argVal mods c v] t →
    Yields lib m lab lo hi verb (.val mods c) [(w, lw), (v, l)] t (List.replicate t.length l)
  | str (mods : List Nat) (p l : Nat) (t : List Nat) : 42 ∉ mods →
    Converts lib m lo hi (Item.str mods).fmt [(p : Int)] t →
    (verb = true → Verbatim m lo hi p t) →
    Yields lib m lab lo hi verb (.str mods) [(p, l)] t ((List.range t.length).map fun i => lab (p + i))
  | strStar (mods : List Nat) (w lw p l : Nat) (t : List Nat) : mods.count 42 = 1 → 0 ≤ asInt w →
    Converts lib m lo hi (Item.str mods).fmt [asInt w, (p : Int)] t →
    (verb = true → Verbatim m lo hi p t) →
    Yields lib m lab lo hi verb (.str mods) [(w, lw), (p, l)] t
      ((List.range t.length).map fun i => lab (p + i))

/-- The output of a format: texts and labels one after the other, arguments taken in order. -/
inductive Output (lib : CLib) (m lab : Nat → Nat) (lo hi : Nat) (verb : Bool) :
    List Item → List (Nat × Nat) → List Nat → List Nat → Prop where
  | nil : Output lib m lab lo hi verb [] [] [] []
  | cons {i is a as t ts l ls} : Yields lib m lab lo hi verb i a t l →
    Output lib m lab lo hi verb is as ts ls →
    Output lib m lab lo hi verb (i :: is) (a ++ as) (t ++ ts) (l ++ ls)

end Spec
end Verif
