import Verif.CopyLemmas
/- C37: copied data keeps its labels. -/
namespace Verif
open DfsanMem

attribute [local irreducible] shadowFor

/-- `memmove`, for every overlap: each destination byte carries the value and the label its source
byte had before the call, every other application byte keeps both. -/
theorem C37_memmove (m : Mem) {d s n : Nat} (hd : 0x700000008000 ≤ d) (hs : 0x700000008000 ≤ s)
    (hdn : d + n ≤ 0x800000000000) (hsn : s + n ≤ 0x800000000000) :
    ∃ m', dfsanMemmove m d s n = .ok m' ∧
      (∀ b, Spec.IsApp b → m' b = Spec.copy m d s n b) ∧
      (∀ b, Spec.IsApp b → labelOf m' b = Spec.copy (labelOf m) d s n b) :=
  memmove_both hd hs hdn hsn

/-- `memcpy` of ranges that do not overlap (overlapping ranges are undefined in C). -/
theorem C37_memcpy (m : Mem) {d s n : Nat} (hd : 0x700000008000 ≤ d) (hs : 0x700000008000 ≤ s)
    (hdn : d + n ≤ 0x800000000000) (hsn : s + n ≤ 0x800000000000) (hdis : d + n ≤ s ∨ s + n ≤ d) :
    (∀ b, Spec.IsApp b → dfsanMemcpy m d s n b = Spec.copy m d s n b) ∧
      (∀ b, Spec.IsApp b → labelOf (dfsanMemcpy m d s n) b = Spec.copy (labelOf m) d s n b) :=
  dfsanMemcpy_spec hd hs hdn hsn hdis

/-- `memcpy` and `memmove` instructions of instrumented code, with a 64-bit length. -/
theorem C37_instruction (m : Mem) {d s n : Nat} (move : Bool) (hd : 0x700000008000 ≤ d)
    (hs : 0x700000008000 ≤ s) (hdn : d + n ≤ 0x800000000000) (hsn : s + n ≤ 0x800000000000)
    (hdis : move = false → d + n ≤ s ∨ s + n ≤ d) :
    ∃ m', memTransfer move 64 m d s n = .ok m' ∧
      (∀ b, Spec.IsApp b → m' b = Spec.copy m d s n b) ∧
      (∀ b, Spec.IsApp b → labelOf m' b = Spec.copy (labelOf m) d s n b) := by
  have hp : ∀ a, passShadow a = shadowFor a := by
    intro a
    unfold passShadow shadowFor
    rw [Nat.shiftLeft_eq]
    rfl
  unfold memTransfer
  rw [hp, hp]
  cases move with
  | true => exact memmove_both hd hs hdn hsn
  | false => exact ⟨_, rfl, dfsanMemcpy_spec hd hs hdn hsn (hdis rfl)⟩

/-- With a 32-bit length the multiplication by the label size overflows: 2^30 bytes are copied without
any of their labels. -/
theorem C37_instruction_refuted (m : Mem) (d s : Nat) :
    ∃ m', memTransfer false 32 m d s (2 ^ 30) = .ok m' ∧ m' = memcpy m d s (2 ^ 30) := by
  refine ⟨_, rfl, ?_⟩
  rw [show 2 ^ 30 * 4 % 2 ^ 32 = 0 by decide]
  rfl

/-- `strcpy` of a string that does not overlap the destination. -/
theorem C37_strcpy (m : Mem) {d s len : Nat} (hstr : Spec.IsStr m s len) (hd : 0x700000008000 ≤ d)
    (hs : 0x700000008000 ≤ s) (hdn : d + (len + 1) ≤ 0x800000000000)
    (hsn : s + (len + 1) ≤ 0x800000000000) (hdis : d + (len + 1) ≤ s ∨ s + (len + 1) ≤ d) :
    ∃ m', strcpyW m d s = .ok m' ∧
      (∀ b, Spec.IsApp b → m' b = Spec.copy m d s (len + 1) b) ∧
      (∀ b, Spec.IsApp b → labelOf m' b = Spec.copy (labelOf m) d s (len + 1) b) := by
  have ed := shadow_sum (show 0x700000000000 ≤ d by omega) (by omega)
  have es := shadow_sum (show 0x700000000000 ≤ s by omega) (by omega)
  obtain ⟨j1, j2⟩ := copy_data (m := m) (s := s) hd (fun x => memcpy_eq m hdis x)
  have hkeep : ∀ i, i ≤ len → memcpy m d s (len + 1) (s + i) = m (s + i) := by
    intro i hi
    rw [memcpy_eq m hdis, if_neg (by omega)]
  have hstr2 : Spec.IsStr (memcpy m d s (len + 1)) s len :=
    ⟨by rw [hkeep len (by omega)]; exact hstr.nul,
      fun i hi => by rw [hkeep i (by omega)]; exact hstr.nonzero i hi⟩
  obtain ⟨k1, k2⟩ := copy_shadow (m := memcpy m d s (len + 1)) hd hs hdn hsn
    (fun x => memcpy_eq _ (d := shadowFor d) (s := shadowFor s) (n := 4 * (len + 1)) (by omega) x)
  refine ⟨memcpy (memcpy m d s (len + 1)) (shadowFor d) (shadowFor s) (4 * (len + 1)), ?_, ?_, ?_⟩
  · simp only [strcpyW, strlen_str hstr (by omega), Res.bind_ok, strlen_str hstr2 (by omega)]
    rw [show 4 * (len + 1) % 2 ^ 64 = 4 * (len + 1) by omega]
  · intro b hb
    rw [k2 b hb, j2]
  · intro b hb
    rw [k1 b hb]
    unfold Spec.copy
    split
    · exact j1 _ ⟨by omega, by omega⟩
    · exact j1 _ hb

/-- `strncpy` with a source string shorter than `n`: the string and its terminator are copied with
their labels, the rest of the destination becomes zero without labels. -/
theorem C37_strncpy_pad (m : Mem) {k d s n len : Nat} (hk : k ≤ 40) (hstr : Spec.IsStr m s len)
    (hlen : len < n) (hd : 0x700000008000 ≤ d) (hs : 0x700000008000 ≤ s)
    (hdn : d + n < 0x800000000000) (hsn : s + (len + 1) ≤ 0x800000000000)
    (hdis : d + n ≤ s ∨ s + (len + 1) ≤ d) :
    ∃ m', strncpyW (2 ^ k) m d s n = .ok m' ∧
      (∀ b, Spec.IsApp b → m' b =
        Spec.fill (Spec.copy m d s (len + 1)) (d + len + 1) (n - len - 1) 0 b) ∧
      (∀ b, Spec.IsApp b → labelOf m' b =
        Spec.fill (Spec.copy (labelOf m) d s (len + 1)) (d + len + 1) (n - len - 1) 0 b) := by
  obtain ⟨k1, k2⟩ := dfsanMemcpy_spec (m := m) hd hs (show d + (len + 1) ≤ 0x800000000000 by omega) hsn
    (by omega)
  have hm := memset_zero (dfsanMemcpy m d s (len + 1)) (d + len + 1) (n - len - 1)
  obtain ⟨m', e, l1, l2⟩ := setLabel_app'
    (memset (dfsanMemcpy m d s (len + 1)) (d + len + 1) 0 (n - len - 1)) hk (show 0 < 2 ^ 32 by decide)
    (show 0x700000008000 ≤ d + len + 1 by omega)
    (show d + len + 1 + (n - len - 1) < 0x800000000000 by omega)
  refine ⟨m', ?_, ?_, ?_⟩
  · simp only [strncpyW, strlen_str hstr (by omega), Res.bind_ok]
    rw [if_pos hlen]
    exact e
  · intro b hb
    rw [l2 b hb, hm]
    unfold Spec.fill
    split
    · rfl
    · exact k1 b hb
  · intro b hb
    rw [l1 b hb]
    unfold Spec.fill
    split
    · rfl
    · rw [← k2 b hb]
      unfold labelOf
      apply read32_congr
      obtain ⟨b1, b2⟩ := hb
      have eb := shadow_sum (show 0x700000000000 ≤ b by omega) (by omega)
      intro x h1 h2
      rw [hm, if_neg (by omega)]

/-- `strncpy` with a source string of at least `n` characters: `n` bytes are copied with their
labels. -/
theorem C37_strncpy_full (m : Mem) {k d s n len : Nat} (hstr : Spec.IsStr m s len)
    (hlen : n ≤ len) (hl : len < 2 ^ 64) (hd : 0x700000008000 ≤ d) (hs : 0x700000008000 ≤ s)
    (hdn : d + n ≤ 0x800000000000) (hsn : s + n ≤ 0x800000000000) (hdis : d + n ≤ s ∨ s + n ≤ d) :
    ∃ m', strncpyW (2 ^ k) m d s n = .ok m' ∧
      (∀ b, Spec.IsApp b → m' b = Spec.copy m d s n b) ∧
      (∀ b, Spec.IsApp b → labelOf m' b = Spec.copy (labelOf m) d s n b) := by
  refine ⟨dfsanMemcpy m d s n, ?_, dfsanMemcpy_spec hd hs hdn hsn hdis⟩
  simp only [strncpyW, strlen_str hstr hl, Res.bind_ok]
  rw [if_neg (by omega)]

/-- The source of `strncpy` need not be terminated within its first `n` characters, but the wrapper
searches on for a terminator: with none in memory it does not stop. -/
theorem C37_strncpy_refuted (m : Mem) (page d s n : Nat) (h : ∀ i, m (s + i) ≠ 0) :
    strncpyW page m d s n = .hang := by
  simp only [strncpyW, strlen, strlenLoop_hang m s h, Res.bind_hang]

/-- `strdup`; `p` is the block returned by `malloc`. -/
theorem C37_strdup (m : Mem) {p s len : Nat} (hstr : Spec.IsStr m s len) (hd : 0x700000008000 ≤ p)
    (hs : 0x700000008000 ≤ s) (hdn : p + (len + 1) ≤ 0x800000000000)
    (hsn : s + (len + 1) ≤ 0x800000000000) (hdis : p + (len + 1) ≤ s ∨ s + (len + 1) ≤ p) :
    ∃ m', strdupW m s p = .ok m' ∧
      (∀ b, Spec.IsApp b → m' b = Spec.copy m p s (len + 1) b) ∧
      (∀ b, Spec.IsApp b → labelOf m' b = Spec.copy (labelOf m) p s (len + 1) b) := by
  refine ⟨_, ?_, dfsanMemcpy_spec hd hs hdn hsn hdis⟩
  simp only [strdupW, strlen_str hstr (by omega), Res.bind_ok]

/-- What PolyTracker's `strcat` does: the data is appended, but the labels of the copied bytes are
ignored. The last byte of the old destination and the copied bytes (without terminator) all get the
label of the source pointer. -/
theorem C37_strcat_exact (m : Mem) {k d s dl sl srcLabel : Nat} (hk : k ≤ 40) (hl : srcLabel < 2 ^ 32)
    (hds : Spec.IsStr m d dl) (hss : Spec.IsStr m s sl) (hdl : dl < 2 ^ 31) (hd : 0x700000008000 < d)
    (hs : 0x700000008000 ≤ s) (hdn : d + (dl + sl + 1) ≤ 0x800000000000)
    (hsn : s + (sl + 1) ≤ 0x800000000000)
    (hdis : d + (dl + sl + 1) ≤ s ∨ s + (sl + 1) ≤ d) :
    ∃ m', strcatW (2 ^ k) m d s srcLabel = .ok m' ∧
      (∀ b, Spec.IsApp b → m' b = Spec.copy m (d + dl) s (sl + 1) b) ∧
      (∀ b, Spec.IsApp b → labelOf m' b =
        Spec.fill (labelOf m) (d + dl - 1) (sl + 1) srcLabel b) := by
  have hcur : toInt32 ((dl + 2 ^ 64 - 1) % 2 ^ 64) = (dl : Int) - 1 := by
    unfold toInt32
    split <;> omega
  obtain ⟨j1, j2⟩ := copy_data (m := m) (d := d + dl) (s := s) (n := sl + 1) (by omega)
    (fun x => memcpy_eq m (by omega) x)
  have hstr : Spec.IsStr (memcpy m (d + dl) s (sl + 1)) d (dl + sl) := by
    constructor
    · rw [j2, Spec.copy, if_pos (by omega), show s + (d + (dl + sl) - (d + dl)) = s + sl by omega]
      exact hss.nul
    · intro i hi
      rw [j2, Spec.copy]
      split
      · rw [show s + (d + i - (d + dl)) = s + (i - dl) by omega]
        exact hss.nonzero _ (by omega)
      · exact hds.nonzero i (by omega)
  obtain ⟨m', e, l1, l2⟩ := setLabel_app' (memcpy m (d + dl) s (sl + 1)) hk hl
    (show 0x700000008000 ≤ d + dl - 1 by omega) (show d + dl - 1 + (sl + 1) < 0x800000000000 by omega)
  refine ⟨m', ?_, ?_, ?_⟩
  · simp only [strcatW, strlen_str hds (by omega), strlen_str hss (by omega), Res.bind_ok,
      strlen_str hstr (by omega), hcur]
    have a1 : (((d : Int) + ((dl : Int) - 1)) % 2 ^ 64).toNat = d + dl - 1 := by omega
    have a2 : ((((dl + sl : Nat) : Int) - ((dl : Int) - 1)) % 2 ^ 64).toNat = sl + 1 := by omega
    rw [a1, a2]
    exact e
  · intro b hb
    rw [l2 b hb, j2]
  · intro b hb
    rw [l1 b hb]
    unfold Spec.fill
    split
    · rfl
    · exact j1 b hb

/-- Two strings "a" (label 6) and "b" (label 5) in otherwise empty memory. -/
def exStrings : Mem :=
  Mem.write32 (Mem.write32 (Mem.set (Mem.set (fun _ => 0) 0x700000010000 97) 0x700000020000 98)
    0x40000 6) 0x80000 5

theorem exStrings_facts : Spec.IsStr exStrings 0x700000010000 1 ∧ Spec.IsStr exStrings 0x700000020000 1 ∧
    labelOf exStrings 0x700000010000 = 6 ∧ labelOf exStrings 0x700000020000 = 5 ∧
    labelOf exStrings 0x700000010001 = 0 := by
  refine ⟨⟨by decide +kernel, ?_⟩, ⟨by decide +kernel, ?_⟩, ?_, ?_, ?_⟩
  · intro i hi
    have : i = 0 := by omega
    subst this
    decide +kernel
  · intro i hi
    have : i = 0 := by omega
    subst this
    decide +kernel
  all_goals unfold labelOf shadowFor; decide +kernel

/-- The claim is false for `strcat`: the appended byte loses its label 5, and the destination's last
byte loses its label 6, although it was not written. -/
theorem C37_strcat_refuted : ∃ (m m' : Mem) (d s : Nat), Spec.IsStr m d 1 ∧ Spec.IsStr m s 1 ∧
    strcatW 4096 m d s 0 = .ok m' ∧ m' (d + 1) = m s ∧
    labelOf m s = 5 ∧ labelOf m' (d + 1) = 0 ∧ labelOf m d = 6 ∧ labelOf m' d = 0 := by
  obtain ⟨f1, f2, f3, f4, f5⟩ := exStrings_facts
  obtain ⟨m', h1, h2, h3⟩ := C37_strcat_exact exStrings (k := 12) (srcLabel := 0) (by decide) (by decide)
    f1 f2 (by decide) (by decide) (by decide) (by decide) (by decide) (by decide)
  refine ⟨exStrings, m', _, _, f1, f2, h1, ?_, f4, ?_, f3, ?_⟩
  · rw [h2 _ (by unfold Spec.IsApp; decide)]
    rfl
  · rw [h3 _ (by unfold Spec.IsApp; decide)]
    rfl
  · rw [h3 _ (by unfold Spec.IsApp; decide)]
    rfl

/-- The runtime's own `strcat`, which PolyTracker's replaces, keeps the labels of the appended
characters. It does not copy the label of the terminator. -/
theorem C37_strcat_dfsan_partial (m : Mem) {d s dl sl : Nat} (hds : Spec.IsStr m d dl)
    (hss : Spec.IsStr m s sl) (hd : 0x700000008000 ≤ d) (hs : 0x700000008000 ≤ s)
    (hdn : d + (dl + sl + 1) ≤ 0x800000000000) (hsn : s + (sl + 1) ≤ 0x800000000000)
    (hdis : d + (dl + sl + 1) ≤ s ∨ s + (sl + 1) ≤ d) :
    ∃ m', strcatDfsan m d s = .ok m' ∧
      (∀ b, Spec.IsApp b → m' b = Spec.copy m (d + dl) s (sl + 1) b) ∧
      (∀ b, Spec.IsApp b → labelOf m' b = Spec.copy (labelOf m) (d + dl) s sl b) := by
  have ed := shadow_sum (show 0x700000000000 ≤ d + dl by omega) (by omega)
  have es := shadow_sum (show 0x700000000000 ≤ s by omega) (by omega)
  have hdis2 : d + dl + (sl + 1) ≤ s ∨ s + (sl + 1) ≤ d + dl := by omega
  obtain ⟨j1, j2⟩ := copy_data (m := m) (d := d + dl) (s := s) (n := sl + 1) (by omega)
    (fun x => memcpy_eq m hdis2 x)
  have hkeep : ∀ i, i ≤ sl → memcpy m (d + dl) s (sl + 1) (s + i) = m (s + i) := by
    intro i hi
    rw [memcpy_eq m hdis2, if_neg (by omega)]
  have hstr2 : Spec.IsStr (memcpy m (d + dl) s (sl + 1)) s sl :=
    ⟨by rw [hkeep sl (by omega)]; exact hss.nul,
      fun i hi => by rw [hkeep i (by omega)]; exact hss.nonzero i hi⟩
  obtain ⟨k1, k2⟩ := copy_shadow (m := memcpy m (d + dl) s (sl + 1)) (d := d + dl) (s := s) (n := sl)
    (by omega) hs (by omega) (by omega)
    (fun x => memcpy_eq _ (d := shadowFor (d + dl)) (s := shadowFor s) (n := 4 * sl) (by omega) x)
  refine ⟨memcpy (memcpy m (d + dl) s (sl + 1)) (shadowFor (d + dl)) (shadowFor s) (4 * sl), ?_, ?_, ?_⟩
  · simp only [strcatDfsan, strlen_str hds (by omega), strlen_str hss (by omega), Res.bind_ok,
      strlen_str hstr2 (by omega)]
    rw [show sl * 4 % 2 ^ 64 = 4 * sl by omega]
  · intro b hb
    rw [k2 b hb, j2]
  · intro b hb
    rw [k1 b hb]
    unfold Spec.copy
    split
    · exact j1 _ ⟨by omega, by omega⟩
    · exact j1 _ hb

theorem labelOf_lt {m : Mem} (hm : ∀ x, m x < 256) (a : Nat) : labelOf m a < 2 ^ 32 := by
  unfold labelOf Mem.read32
  have h0 := hm (shadowFor a)
  have h1 := hm (shadowFor a + 1)
  have h2 := hm (shadowFor a + 2)
  have h3 := hm (shadowFor a + 3)
  generalize m (shadowFor a) = w0 at *
  generalize m (shadowFor a + 1) = w1 at *
  generalize m (shadowFor a + 2) = w2 at *
  generalize m (shadowFor a + 3) = w3 at *
  omega

theorem setEach_spec {k : Nat} (hk : k ≤ 40) : ∀ (ls : List Nat) (a : Nat) (m : Mem),
    (∀ l ∈ ls, l < 2 ^ 32) → 0x700000008000 ≤ a → a + ls.length < 0x800000000000 →
    ∃ m', setEach (2 ^ k) a ls m = .ok m' ∧
      (∀ b, Spec.IsApp b → labelOf m' b = if a ≤ b ∧ b < a + ls.length then ls.getD (b - a) 0
        else labelOf m b) ∧
      (∀ b, Spec.IsApp b → m' b = m b) := by
  intro ls
  induction ls with
  | nil =>
    intro a m _ _ _
    refine ⟨m, rfl, fun b _ => ?_, fun _ _ => rfl⟩
    rw [if_neg (by simp only [List.length_nil]; omega)]
  | cons l ls ih =>
    intro a m hls ha hn
    simp only [List.length_cons] at hn ⊢
    obtain ⟨m1, e1, l1, d1⟩ := setLabel_app' m hk (hls l (by simp)) ha (show a + 1 < _ by omega)
    obtain ⟨m2, e2, l2, d2⟩ := ih (a + 1) m1 (fun x hx => hls x (by simp [hx])) (by omega) (by omega)
    refine ⟨m2, ?_, ?_, fun b hb => by rw [d2 b hb, d1 b hb]⟩
    · simp only [setEach, e1, Res.bind_ok, e2]
    · intro b hb
      rw [l2 b hb, l1 b hb]
      unfold Spec.fill
      by_cases h1 : a + 1 ≤ b ∧ b < a + 1 + ls.length
      · rw [if_pos h1, if_pos (by omega), show b - a = (b - (a + 1)) + 1 by omega, List.getD_cons_succ]
      · rw [if_neg h1]
        by_cases h2 : b = a
        · subst h2
          rw [if_pos (by omega), if_pos (by omega), Nat.sub_self, List.getD_cons_zero]
        · rw [if_neg (by omega), if_neg (by omega)]

/-- `realloc` that moves the block: the labels move with the data. Missing for the full claim: the
number of bytes handled is the new size, not the size of the old block, so bytes that were not copied
are labelled too (`C37_realloc_refuted`); and a failing `realloc` (`C37_realloc_null_refuted`).
`mr` is the memory left by the C library's `realloc`, which does not touch shadow memory. -/
theorem C37_realloc_partial (m mr : Mem) {k ptr n q : Nat} (hk : k ≤ 40) (hm : ∀ x, m x < 256)
    (hp : ptr ≠ 0) (hq : 0x700000008000 ≤ q) (hqn : q + n < 0x800000000000) (hne : q ≠ ptr)
    (hmr : ∀ b, Spec.IsApp b → labelOf mr b = labelOf m b) :
    ∃ m', reallocW (2 ^ k) m mr ptr n q = .ok m' ∧
      (∀ b, Spec.IsApp b → labelOf m' b = Spec.copy (labelOf m) q ptr n b) ∧
      (∀ b, Spec.IsApp b → m' b = mr b) := by
  unfold reallocW
  simp only [hp, hne, ne_eq, not_false_eq_true, true_and, if_true]
  rw [if_neg (by omega)]
  have hsh : (if 0 < n then (List.range n).map (fun i => labelOf m (ptr + i)) else []) =
      (List.range n).map (fun i => labelOf m (ptr + i)) := by
    split
    · rfl
    · rw [show n = 0 by omega]; rfl
  rw [hsh]
  obtain ⟨m', e, l1, d1⟩ := setEach_spec hk ((List.range n).map (fun i => labelOf m (ptr + i))) q mr
    (by
      intro l hl
      obtain ⟨i, -, rfl⟩ := List.mem_map.1 hl
      exact labelOf_lt hm _) hq (by simpa using hqn)
  refine ⟨m', e, ?_, d1⟩
  intro b hb
  rw [l1 b hb]
  unfold Spec.copy
  simp only [List.length_map, List.length_range]
  split
  · rename_i hc
    rw [List.getD_eq_getElem?_getD, List.getElem?_map, List.getElem?_range (by omega)]
    rfl
  · exact hmr b hb

/-- `realloc` that keeps the block in place changes no label. -/
theorem C37_realloc_inplace (m mr : Mem) (page ptr n : Nat) : reallocW page m mr ptr n ptr = .ok mr := by
  unfold reallocW
  simp

/-- A freshly allocated block: `malloc` through `realloc(NULL, n)` sets no labels. -/
theorem C37_realloc_fresh (m mr : Mem) (page n q : Nat) : reallocW page m mr 0 n q = .ok mr := by
  unfold reallocW
  simp [setEach]

/-- The claim is false for a growing `realloc`: a block of one byte moves and grows to two bytes. The
second byte of the new block, to which nothing was copied, takes over the label of the byte that
followed the old block. -/
theorem C37_realloc_refuted : ∃ (m m' : Mem) (ptr q : Nat),
    reallocW 4096 m (m.set q (m ptr)) ptr 2 q = .ok m' ∧ labelOf m (ptr + 1) = 6 ∧
    labelOf m (q + 1) = 0 ∧ labelOf m' (q + 1) = 6 := by
  obtain ⟨f1, f2, f3, f4, f5⟩ := exStrings_facts
  have hm : ∀ x, exStrings x < 256 := by
    intro x
    unfold exStrings Mem.write32 Mem.set
    repeat' split
    all_goals first | decide | exact Nat.zero_lt_succ _
  obtain ⟨m', h1, h2, -⟩ := C37_realloc_partial exStrings (exStrings.set 0x700000030000
    (exStrings 0x70000000ffff)) (k := 12) (ptr := 0x70000000ffff) (n := 2) (q := 0x700000030000) (by decide)
    hm (by decide) (by decide) (by decide) (by decide) (by
      rintro b ⟨b1, b2⟩
      have eb := shadow_sum (show 0x700000000000 ≤ b by omega) (by omega)
      apply read32_congr
      intro x x1 x2
      unfold Mem.set
      rw [if_neg (by omega)])
  refine ⟨exStrings, m', 0x70000000ffff, 0x700000030000, h1, f3, ?_, ?_⟩
  · unfold labelOf shadowFor; decide +kernel
  · rw [h2 _ (by unfold Spec.IsApp; decide)]
    exact f3

/-- The claim is false when `realloc` fails: instead of handing the null pointer to the program, the
wrapper accesses the shadow of the null page. -/
theorem C37_realloc_null_refuted (m mr : Mem) (page ptr n : Nat) (hp : ptr ≠ 0) (hn : 0 < n) :
    reallocW page m mr ptr n 0 = .ub := by
  unfold reallocW
  simp only [hp, hn, ne_eq, not_false_eq_true, and_self, if_true]
  rw [if_pos (fun h => hp h.symm), if_pos]
  refine ⟨trivial, ?_⟩
  intro h
  have := congrArg List.length h
  simp at this
  omega

/-- Overlapping `memmove` by one byte, both directions, in a memory with labels. -/
example : ∃ m', dfsanMemmove exStrings 0x700000010001 0x700000010000 2 = .ok m' ∧
    m' 0x700000010001 = 97 ∧ labelOf m' 0x700000010001 = 6 ∧ labelOf m' 0x700000010000 = 6 := by
  obtain ⟨m', h1, h2, h3⟩ := C37_memmove exStrings (d := 0x700000010001) (s := 0x700000010000) (n := 2)
    (by decide) (by decide) (by decide) (by decide)
  obtain ⟨f1, f2, f3, f4, f5⟩ := exStrings_facts
  refine ⟨m', h1, ?_, ?_, ?_⟩
  · rw [h2 _ (by unfold Spec.IsApp; decide)]; decide +kernel
  · rw [h3 _ (by unfold Spec.IsApp; decide)]; exact f3
  · rw [h3 _ (by unfold Spec.IsApp; decide)]; exact f3

end Verif
