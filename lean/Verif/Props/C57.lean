import Verif.FormatLemmas
/- C57: sprintf and snprintf: text and labels of the formatted output. -/
namespace Verif
open Spec DfsanMem Fmt

namespace Fmt

theorem fmt_pos {i : Item} (h : i.Ok) : 1 ≤ i.fmt.length := by
  cases i with
  | lit t =>
    cases t with
    | nil => exact absurd rfl h.1
    | cons c t => simp [Item.fmt]
  | pct => simp [Item.fmt]
  | val mods c => simp [Item.fmt]
  | str mods => simp [Item.fmt]

theorem items_le : ∀ {items : List Item}, Format items → items.length ≤ (items.flatMap Item.fmt).length
  | [], _ => Nat.zero_le _
  | i :: is, h => by
    obtain ⟨h1, h2⟩ := Format.tail h
    have := fmt_pos h1
    have := items_le h2
    simp only [List.length_cons, List.flatMap_cons, List.length_append]
    omega

theorem toInt32_small {n : Nat} (h : n < 2 ^ 31) : toInt32 n = n := by
  unfold toInt32
  rw [if_pos (by omega)]
  omega

theorem format_run {k : Nat} (hk : k ≤ 40) {lib : CLib} (hlib : lib.Faithful) {m : Mem}
    {verb : Bool} {str size : Nat} (hstr : 0x700000008000 ≤ str)
    {items : List Item} {as : List (Nat × Nat)} {t ls : List Nat} (hf : Format items) (hne : items ≠ [])
    (ho : Output lib m (labelOf m) str (str + min size (t.length + 1)) verb items as t ls)
    (hlab : ∀ x ∈ as, x.2 < 2 ^ 32) (hend : str + t.length < 0x800000000000) (ht : t.length < 2 ^ 31) :
    ∃ m', formatBuffer lib (2 ^ k) m str size (items.flatMap Item.fmt) (as.map Prod.fst) (as.map Prod.snd)
        = .ok ⟨t.length, some 0, m'⟩ ∧ Emits verb size str 0 m t ls m' := by
  obtain ⟨m', e, h⟩ := items_run hk (lib := lib) hlib (size := size) (A := []) (B := []) (tail := [])
    hstr (Or.inl rfl) ((items.flatMap Item.fmt).length - items.length + 1) ho hf
    ⟨m, 0, as.map Prod.fst, as.map Prod.snd⟩ (by simp) (by simp) hlab (by simpa using hend)
    (by simp only []; omega) (fun _ _ _ => rfl) (fun _ _ _ _ _ => rfl)
  rcases h with ⟨h, -⟩ | ⟨-, h⟩
  · exact absurd h hne
  refine ⟨m', ?_, h⟩
  have := items_le hf
  unfold formatBuffer
  rw [show (items.flatMap Item.fmt).length + 1
    = items.length + ((items.flatMap Item.fmt).length - items.length + 1) by omega]
  rw [List.append_nil] at e
  rw [e]
  show Res.ok (Out.mk (toInt32 (0 + t.length)) (some 0) m') = _
  rw [Nat.zero_add, toInt32_small ht]

end Fmt

/-- The text of `snprintf`, for every size of the buffer: the result is the length of the whole text, the
buffer holds its beginning, as far as it fits, and a terminator; nothing else in application memory
changes, and the label of the result is 0. (Formats with at least one item, without `%n`, with at most one
`*` per item and no negative width.) -/
theorem C57_text_partial (k : Nat) (hk : k ≤ 40) (lib : CLib) (hlib : lib.Faithful) (m : Mem)
    (str size : Nat) (hstr : 0x700000008000 ≤ str)
    (items : List Item) (as : List (Nat × Nat)) (t ls : List Nat) (hf : Format items) (hne : items ≠ [])
    (ho : Output lib m (labelOf m) str (str + min size (t.length + 1)) false items as t ls)
    (hlab : ∀ x ∈ as, x.2 < 2 ^ 32) (hend : str + t.length < 0x800000000000) (ht : t.length < 2 ^ 31) :
    ∃ m', formatBuffer lib (2 ^ k) m str size (items.flatMap Item.fmt) (as.map Prod.fst) (as.map Prod.snd)
        = .ok ⟨t.length, some 0, m'⟩ ∧
      (∀ i, i < min t.length (size - 1) → t[i]? = some (m' (str + i))) ∧
      (0 < size → m' (str + min t.length (size - 1)) = 0) ∧
      (∀ a, IsApp a → ¬ (str ≤ a ∧ a < str + min size (t.length + 1)) → m' a = m a) := by
  obtain ⟨m', e, h1, h2, h3, -, -⟩ := format_run hk hlib (size := size) hstr hf hne ho hlab hend ht
  have hav : numAvail size 0 = size := by unfold numAvail; split <;> omega
  rw [hav] at h1 h2 h3
  refine ⟨m', e, fun i hi => ?_, fun hp => ?_, fun a ha hn => h3 a ha (by omega)⟩
  · have := h1 i hi
    rw [Nat.add_zero] at this
    rw [this, List.getD_eq_getElem?_getD, List.getElem?_eq_getElem (by omega)]
    rfl
  · have := h2 (by omega)
    rwa [Nat.add_zero] at this

/-- The labels, when the text fits: every byte of the output has the label of the argument it was
converted from, bytes of `%s` the label of the very byte of the string, literal text 0; all other labels,
also that of the terminator, stay. (Without padded strings.) -/
theorem C57_labels_partial (k : Nat) (hk : k ≤ 40) (lib : CLib) (hlib : lib.Faithful) (m : Mem)
    (str size : Nat) (hstr : 0x700000008000 ≤ str)
    (items : List Item) (as : List (Nat × Nat)) (t ls : List Nat) (hf : Format items) (hne : items ≠ [])
    (ho : Output lib m (labelOf m) str (str + min size (t.length + 1)) true items as t ls)
    (hlab : ∀ x ∈ as, x.2 < 2 ^ 32) (hend : str + t.length < 0x800000000000) (ht : t.length < 2 ^ 31)
    (hfit : t.length < size) :
    ∃ m', formatBuffer lib (2 ^ k) m str size (items.flatMap Item.fmt) (as.map Prod.fst) (as.map Prod.snd)
        = .ok ⟨t.length, some 0, m'⟩ ∧ ls.length = t.length ∧
      (∀ i, i < t.length → ls[i]? = some (labelOf m' (str + i))) ∧
      (∀ a, IsApp a → ¬ (str ≤ a ∧ a < str + t.length) → labelOf m' a = labelOf m a) := by
  obtain ⟨m', e, -, -, -, h4, h5⟩ := format_run hk hlib (size := size) hstr hf hne ho hlab hend ht
  have hlen : ls.length = t.length := by
    clear e h4 h5 ht hend hlab hfit hne hf
    generalize str + min size (t.length + 1) = hi at ho
    induction ho with
    | nil => rfl
    | cons hy _ ih => rw [List.length_append, List.length_append, yields_length hy, ih]
  refine ⟨m', e, hlen, fun i hi => ?_, fun a ha hn => h5 rfl (by omega) a ha (by omega)⟩
  have := h4 rfl (by omega) i hi
  rw [Nat.add_zero] at this
  rw [this, List.getD_eq_getElem?_getD, List.getElem?_eq_getElem (by omega)]
  rfl

/-- `sprintf`: text, terminator and labels. -/
theorem C57_sprintf_partial (k : Nat) (hk : k ≤ 40) (lib : CLib) (hlib : lib.Faithful) (m : Mem)
    (str : Nat) (hstr : 0x700000008000 ≤ str)
    (items : List Item) (as : List (Nat × Nat)) (t ls : List Nat) (hf : Format items) (hne : items ≠ [])
    (ho : Output lib m (labelOf m) str (str + t.length + 1) true items as t ls)
    (hlab : ∀ x ∈ as, x.2 < 2 ^ 32) (hend : str + t.length < 0x800000000000) (ht : t.length < 2 ^ 31) :
    ∃ m', sprintfW lib (2 ^ k) m str (items.flatMap Item.fmt) (as.map Prod.fst) (as.map Prod.snd)
        = .ok ⟨t.length, some 0, m'⟩ ∧
      (∀ i, i < t.length → t[i]? = some (m' (str + i)) ∧ ls[i]? = some (labelOf m' (str + i))) ∧
      m' (str + t.length) = 0 ∧
      (∀ a, IsApp a → ¬ (str ≤ a ∧ a ≤ str + t.length) → m' a = m a ∧ labelOf m' a = labelOf m a) := by
  have hmin : str + min (2 ^ 64 - 1) (t.length + 1) = str + t.length + 1 := by omega
  have ho' := ho
  rw [← hmin] at ho'
  obtain ⟨m', e, h1, h2, h3, h4, h5⟩ := format_run hk hlib (size := 2 ^ 64 - 1) hstr hf hne ho' hlab hend ht
  obtain ⟨m'', e', hlen, h6, h7⟩ := C57_labels_partial k hk lib hlib m str (2 ^ 64 - 1) hstr items as t ls hf hne
    ho' hlab hend ht (by omega)
  have hm : m'' = m' := by
    rw [e] at e'
    injection e' with e'
    injection e' with _ _ e'
    exact e'.symm
  subst hm
  have hav : numAvail (2 ^ 64 - 1) 0 = 2 ^ 64 - 1 := by decide
  rw [hav] at h1 h2 h3
  refine ⟨m'', e, fun i hi => ⟨?_, h6 i hi⟩, ?_, fun a ha hn => ⟨h3 a ha (by omega), h7 a ha (by omega)⟩⟩
  · have := h1 i (by omega)
    rw [Nat.add_zero] at this
    rw [this, List.getD_eq_getElem?_getD, List.getElem?_eq_getElem hi]
    rfl
  · have := h2 (by omega)
    rwa [Nat.add_zero, show min t.length (2 ^ 64 - 1 - 1) = t.length by omega] at this

/-- `%n` at the end of a format: the number of characters so far is stored as an `int`, and its label is
cleared (with the labels of the four bytes behind it). -/
theorem C57_count_partial (k : Nat) (hk : k ≤ 40) (lib : CLib) (hlib : lib.Faithful) (m : Mem)
    (str size : Nat) (hstr : 0x700000008000 ≤ str)
    (items : List Item) (as : List (Nat × Nat)) (t ls : List Nat) (hf : Format items)
    (ho : Output lib m (labelOf m) str (str + min size (t.length + 1)) false items as t ls)
    (hlab : ∀ x ∈ as, x.2 < 2 ^ 32) (hend : str + t.length < 0x800000000000) (ht : t.length < 2 ^ 31)
    (p l : Nat) (hp : 0x700000008000 ≤ p) (hp8 : p + 8 < 0x800000000000) :
    ∃ m', formatBuffer lib (2 ^ k) m str size (items.flatMap Item.fmt ++ [37, 110]) (as.map Prod.fst ++ [p])
          (as.map Prod.snd ++ [l])
        = .ok ⟨t.length, some 0, m'⟩ ∧
      m'.read32 p = t.length ∧ (∀ i, i < 8 → labelOf m' (p + i) = 0) ∧
      (∀ a, IsApp a → ¬ (str ≤ a ∧ a < str + min size (t.length + 1)) → ¬ (p ≤ a ∧ a < p + 4) →
        m' a = m a) := by
  obtain ⟨m1, e, h⟩ := items_run hk (lib := lib) hlib (size := size) (A := [p]) (B := [l]) (tail := [37, 110])
    hstr (Or.inr ⟨_, rfl⟩) ((items.flatMap Item.fmt).length - items.length + 3) ho hf
    ⟨m, 0, as.map Prod.fst ++ [p], as.map Prod.snd ++ [l]⟩ rfl rfl hlab (by simpa using hend)
    (by simp only []; omega) (fun _ _ _ => rfl) (fun _ _ _ _ _ => rfl)
  obtain ⟨m', e2, h1, h2⟩ := setLabel_app' (k := k) (l := 0) (a := p) (n := 8)
    (m1.write32 p (t.length % 2 ^ 32)) hk (by omega) hp hp8
  refine ⟨m', ?_, ?_, fun i hi => ?_, fun a ha hn hnp => ?_⟩
  · have := items_le hf
    unfold formatBuffer
    rw [List.length_append, show (items.flatMap Item.fmt).length + [37, 110].length + 1
      = items.length + ((items.flatMap Item.fmt).length - items.length + 3) by
        simp only [List.length_cons, List.length_nil]; omega, e]
    have hstep : (if (37 : Nat) ≠ 37 then literal lib (2 ^ k) str size 37 [110] ⟨m1, 0 + t.length, [p], [l]⟩
        else directive lib (2 ^ k) str size [37] [110] (-1) ⟨m1, 0 + t.length, [p], [l]⟩)
        = .ok (((0 : Nat) : Int), ⟨m', 0 + t.length, [], []⟩, []) := by
      rw [if_neg (by decide), directive]
      show (countConv (2 ^ k) ⟨m1, 0 + t.length, [p], [l]⟩ >>= _) = _
      unfold countConv vaArg
      simp only [Res.bind_ok, Nat.zero_add, e2, List.drop_succ_cons, List.drop_zero]
      rfl
    rw [show (items.flatMap Item.fmt).length - items.length + 3
      = ((items.flatMap Item.fmt).length - items.length + 2) + 1 from rfl, loop_step hstep]
    show Res.ok (Out.mk (toInt32 (0 + t.length + 0)) (some 0) m') = _
    rw [Nat.zero_add, Nat.add_zero, toInt32_small ht]
  · rw [read32_congr (fun x x1 x2 => h2 x ⟨by omega, by omega⟩), read32_write32 _ _ _ (by omega)]
    omega
  · rw [h1 _ ⟨by omega, by omega⟩]
    unfold fill
    rw [if_pos (by omega)]
  · rw [h2 a ha, write32_out (by omega)]
    rcases h with ⟨-, h⟩ | ⟨-, h⟩
    · rw [h]
    · have hav : numAvail size 0 = size := by unfold numAvail; split <;> omega
      exact h.rest a ha (by rw [hav]; simp only []; omega)

/-! ### Where the wrappers differ from the library -/

/-- Decimal digits of a number. -/
def exDigits (n : Nat) : List Nat := (Nat.toDigits 10 n).map Char.toNat

/-- A small C library: literal text, `%%`, `%s`, `%5s` and `%d`. -/
def exLib : CLib := fun m f vals =>
  if f.contains 37 = false then (if vals = [] then some f else none)
  else match f, vals with
    | [37, 37], [] => some [37]
    | [37, 115], [p] => some (((List.range 64).map fun i => m (p.toNat + i)).takeWhile (· ≠ 0))
    | [37, 53, 115], [p] =>
      let s := ((List.range 64).map fun i => m (p.toNat + i)).takeWhile (· ≠ 0)
      some (List.replicate (5 - s.length) 32 ++ s)
    | [37, 100], [v] => some (if v < 0 then 45 :: exDigits v.natAbs else exDigits v.natAbs)
    | _, _ => none

theorem exLib_faithful : exLib.Faithful := by
  refine ⟨fun m t h => ?_, fun _ => rfl⟩
  unfold exLib
  have : t.contains 37 = false := by
    simp only [List.contains_eq_mem, decide_eq_false_iff_not]
    exact fun hc => h 37 hc rfl
  rw [if_pos this, if_pos rfl]

/-- A string of `n` letters at 0x700000020000, all with label 7; 0 elsewhere. -/
def exFmtMem (n : Nat) : Mem := fun a =>
  if 0x700000020000 ≤ a ∧ a < 0x700000020000 + n then 120
  else if 0x80000 ≤ a ∧ a < 0x80000 + 4 * n ∧ a % 4 = 0 then 7 else 0

theorem Res.exists_ok {α : Type} {r : Res α} {P : α → Prop} [DecidablePred P]
    (h : (match r with | .ok o => decide (P o) | _ => false) = true) : ∃ o, r = .ok o ∧ P o := by
  cases r with
  | ok o => exact ⟨o, rfl, by simpa using h⟩
  | fatal => exact absurd h (by simp)
  | ub => exact absurd h (by simp)
  | hang => exact absurd h (by simp)

/-- A truncated text. `snprintf(buf, 8, "%s", s)` with a string of 20 tainted characters stores seven of
them, but labels twelve bytes: the four bytes behind the buffer, which it does not write, become tainted.
With ten characters it labels only the first two of the seven, with eight none. -/
theorem C57_truncated_refuted :
    (∃ o, formatBuffer exLib 4096 (exFmtMem 20) 0x700000010000 8 [37, 115] [0x700000020000] [0] = .ok o ∧
      o.ret = 20 ∧ labelOf (exFmtMem 20) 0x700000010008 = 0 ∧
      labelOf o.m 0x700000010008 = 7 ∧ labelOf o.m 0x70000001000b = 7) ∧
    (∃ o, formatBuffer exLib 4096 (exFmtMem 10) 0x700000010000 8 [37, 115] [0x700000020000] [0] = .ok o ∧
      o.ret = 10 ∧ o.m 0x700000010006 = 120 ∧ labelOf o.m 0x700000010001 = 7 ∧
      labelOf o.m 0x700000010002 = 0 ∧ labelOf o.m 0x700000010006 = 0) ∧
    (∃ o, formatBuffer exLib 4096 (exFmtMem 8) 0x700000010000 8 [37, 115] [0x700000020000] [0] = .ok o ∧
      o.ret = 8 ∧ o.m 0x700000010000 = 120 ∧ labelOf o.m 0x700000010000 = 0) :=
  ⟨Res.exists_ok (by decide +kernel), Res.exists_ok (by decide +kernel), Res.exists_ok (by decide +kernel)⟩

/-- An empty format stores no terminator: the buffer keeps its content. -/
theorem C57_empty_refuted (lib : CLib) (page : Nat) (m : Mem) (str size : Nat) :
    formatBuffer lib page m str size [] [] [] = .ok ⟨0, some 0, m⟩ := rfl

/-- A padded string: `sprintf(buf, "%5s", "xx")` gives three blanks and the string; the labels of the
string go to the first two blanks and the string itself is unlabelled. -/
theorem C57_padded_refuted :
    ∃ o, sprintfW exLib 4096 (exFmtMem 2) 0x700000010000 [37, 53, 115] [0x700000020000] [0] = .ok o ∧
      o.ret = 5 ∧ o.m 0x700000010000 = 32 ∧ labelOf o.m 0x700000010000 = 7 ∧
      o.m 0x700000010003 = 120 ∧ labelOf o.m 0x700000010003 = 0 :=
  Res.exists_ok (by decide +kernel)

/-- `%*.*d`: the first of the two arguments for width and precision is ignored. -/
theorem C57_stars_refuted (lib : CLib) (page : Nat) (m : Mem) (str size w w' q v : Nat)
    (labels : List Nat) :
    formatBuffer lib page m str size [37, 42, 46, 42, 100] [w, q, v] labels
      = formatBuffer lib page m str size [37, 42, 46, 42, 100] [w', q, v] labels := by
  have h : ∀ w, oneChunk lib page str size 37 [42, 46, 42, 100] ⟨m, 0, [w, q, v], labels⟩
      = directive lib page str size [42, 46, 42, 37] [100] (toInt32 q)
        ⟨m, 0, [v], (labels.drop 1).drop 1⟩ := by
    intro w
    unfold oneChunk
    rw [if_neg (by decide), star_step lib page str size (w := w) (A := [q, v]) rfl,
      mod_step lib page str size (by simp [Item.IsMod]) (by decide),
      star_step lib page str size (w := q) (A := [v]) rfl]
  unfold formatBuffer
  simp only [List.length_cons, List.length_nil, loop, h]

/-- `%*d` with a negative width (left-justified output): the library is called without the width. -/
theorem C57_negative_refuted (lib : CLib) (page : Nat) (m : Mem) (str size w v l l' : Nat)
    (hw : asInt w < 0) :
    formatBuffer lib page m str size [37, 42, 100] [w, v] [l', l]
      = (valueConv lib page str size [37, 42, 100] (-1) .w32 ⟨m, 0, [v], [l]⟩ >>= fun p =>
        if p.1 < 0 then .ok ⟨p.1, none, p.2.m⟩ else .ok ⟨toInt32 (p.2.off + p.1.toNat), some 0, p.2.m⟩) := by
  have h : valueConv lib page str size [37, 42, 100] (toInt32 w) .w32 ⟨m, 0, [v], [l]⟩
      = valueConv lib page str size [37, 42, 100] (-1) .w32 ⟨m, 0, [v], [l]⟩ := by
    unfold valueConv vaArg
    simp only [Res.bind_ok]
    have : ∀ x, formatArgs (toInt32 w) x = formatArgs (-1) x := fun x => by
      unfold formatArgs
      rw [toInt32_asInt, if_neg (by omega), if_neg (by omega)]
    rw [this]
  rw [← h]
  show ((valueConv lib page str size [37, 42, 100] (toInt32 w) .w32 ⟨m, 0, [v], [l]⟩ >>= fun p =>
    Res.ok (p.1, p.2, [])) >>= _) = _
  cases valueConv lib page str size [37, 42, 100] (toInt32 w) .w32 ⟨m, 0, [v], [l]⟩ <;> rfl

/-- `%n` clears the labels of eight bytes, though it stores four: here the labels of tainted characters
behind the counter are lost. -/
theorem C57_count_refuted :
    labelOf (exFmtMem 8) 0x700000020004 = 7 ∧
    ∃ o, sprintfW exLib 4096 (exFmtMem 8) 0x700000010000 [97, 37, 110] [0x700000020000] [0] = .ok o ∧
      o.m.read32 0x700000020000 = 1 ∧ o.m 0x700000020004 = 120 ∧ labelOf o.m 0x700000020004 = 0 :=
  ⟨by decide +kernel, Res.exists_ok (by decide +kernel)⟩

/-- The terminator keeps the label its position had before. -/
theorem C57_terminator_refuted :
    ∃ o, sprintfW exLib 4096 (exFmtMem 8) 0x700000020000 [97] [] [] = .ok o ∧
      o.m 0x700000020000 = 97 ∧ labelOf o.m 0x700000020000 = 0 ∧
      o.m 0x700000020001 = 0 ∧ labelOf o.m 0x700000020001 = 7 :=
  Res.exists_ok (by decide +kernel)

/-- When the library reports an error, the label of the result is not stored: the caller reads whatever
its slot contained. -/
theorem C57_error_refuted (k : Nat) (hk : k ≤ 40) (m : Mem) (str size v l : Nat) (hl : l < 2 ^ 32)
    (hstr : IsApp str) :
    ∃ m', formatBuffer (fun _ _ _ => none) (2 ^ k) m str size [37, 100] [v] [l] = .ok ⟨-1, none, m'⟩ := by
  obtain ⟨m', e, -⟩ := setLabel_app' (k := k) (l := l) (a := str) (n := 0) m hk hl hstr.1 hstr.2
  refine ⟨m', ?_⟩
  unfold formatBuffer
  simp only [List.length_cons, List.length_nil, loop]
  have h : oneChunk (fun _ _ _ => none) (2 ^ k) str size 37 [100] ⟨m, 0, [v], [l]⟩
      = .ok (-1, ⟨m', 0, [], []⟩, []) := by
    unfold oneChunk
    rw [if_neg (by decide), directive]
    show (valueConv (fun _ _ _ => none) (2 ^ k) str size [37, 100] (-1) .w32 ⟨m, 0, [v], [l]⟩ >>= _) = _
    have : valueConv (fun _ _ _ => none) (2 ^ k) str size [37, 100] (-1) .w32 ⟨m, 0, [v], [l]⟩
        = .ok (-1, ⟨m', 0, [], []⟩) := by
      show (setLabel (2 ^ k) m l str 0 >>= fun m => Res.ok (-1, (⟨m, 0, [], []⟩ : St))) = _
      rw [e]
      rfl
    rw [this]
    rfl
  rw [h]
  rfl

/-! ### Example -/

/-- `sprintf(buf, "n=%d, %s%%", 42, "xxx")` meets the hypotheses; the 42 has label 9. -/
def exItems : List Item := [.lit [110, 61], .val [] 100, .lit [44, 32], .str [], .pct]

def exArgs : List (Nat × Nat) := [(42, 9), (0x700000020000, 3)]

example : Format exItems ∧
    Output exLib (exFmtMem 3) (labelOf (exFmtMem 3)) 0x700000010000 0x70000001000b true exItems exArgs
      [110, 61, 52, 50, 44, 32, 120, 120, 120, 37] [0, 0, 9, 9, 0, 0, 7, 7, 7, 0] := by
  have hd : ∀ m', exLib m' (Item.val [] 100).fmt [argVal [] 100 42] = some [52, 50] := fun _ => by
    show some _ = some _
    exact congrArg some (by decide +kernel)
  have hs : Converts exLib (exFmtMem 3) 0x700000010000 0x70000001000b (Item.str []).fmt
      [((0x700000020000 : Nat) : Int)] [120, 120, 120] := by
    intro m' h
    have e : ∀ i, i < 64 → m' (0x700000020000 + i) = exFmtMem 3 (0x700000020000 + i) :=
      fun i hi => h _ ⟨by omega, by omega⟩ (by omega)
    have e2 : (List.range 64).map (fun i => m' (0x700000020000 + i))
        = (List.range 64).map (fun i => exFmtMem 3 (0x700000020000 + i)) :=
      List.map_congr_left (fun i hi => e i (List.mem_range.1 hi))
    show some (((List.range 64).map fun i => m' (0x700000020000 + i)).takeWhile (· ≠ 0)) = _
    rw [e2]
    decide +kernel
  refine ⟨⟨⟨by decide, by decide⟩, by decide, ⟨by simp, Or.inl (by simp [Item.IsInt])⟩, by decide,
    ⟨by decide, by decide⟩,
    by decide, (fun x hx => absurd hx (by simp)), by decide, trivial⟩, ?_⟩
  refine Output.cons (a := []) (t := [110, 61]) (l := [0, 0]) (.lit _) ?_
  refine Output.cons (a := [(42, 9)]) (t := [52, 50]) (l := [9, 9]) (.val _ _ _ _ _ (by simp)
    (fun m' _ => hd m')) ?_
  refine Output.cons (a := []) (t := [44, 32]) (l := [0, 0]) (.lit _) ?_
  refine Output.cons (a := [(0x700000020000, 3)]) (t := [120, 120, 120]) (l := [7, 7, 7]) ?_ ?_
  · have := Yields.str (lib := exLib) (m := exFmtMem 3) (lab := labelOf (exFmtMem 3)) (verb := true)
      [] 0x700000020000 3 [120, 120, 120] (by simp) hs
      (fun _ => ⟨by decide +kernel, by omega, by simp, by simp⟩)
    rwa [show ((List.range ([120, 120, 120] : List Nat).length).map fun i =>
      labelOf (exFmtMem 3) (0x700000020000 + i)) = [7, 7, 7] by decide +kernel] at this
  refine Output.cons (a := []) (t := [37]) (l := [0]) .pct Output.nil

/-- The wrapper on this call, computed. -/
example : ∃ o, sprintfW exLib 4096 (exFmtMem 3) 0x700000010000 (exItems.flatMap Item.fmt) [42, 0x700000020000]
      [9, 3] = .ok o ∧ o.ret = 10 ∧
      (List.range 11).map (fun i => o.m (0x700000010000 + i))
        = [110, 61, 52, 50, 44, 32, 120, 120, 120, 37, 0] ∧
      (List.range 11).map (fun i => labelOf o.m (0x700000010000 + i)) = [0, 0, 9, 9, 0, 0, 7, 7, 7, 0, 0] :=
  Res.exists_ok (by decide +kernel)

end Verif
