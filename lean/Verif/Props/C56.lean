import Verif.CustomCmpLemmas
/- C56: library functions that compare, search and convert: labels and values of their results. -/
namespace Verif
open Spec Labels CustomCmp DfsanMem

/-- The two strings at `s1` and `s2`, or a buffer at `s`, as functions of the position. -/
def at' (m : Mem) (s : Nat) : Nat → Nat := fun i => m (s + i)

/-- `memcmp` and `bcmp`: the label of the result denotes exactly the labels of the bytes that the
comparison has to look at (nothing with strict data dependencies); the value is a comparison in the
order of signed characters. At most `2 n` labels are made, and it fails only if these do not fit. -/
theorem C56_memcmp (cap : Nat) (started strict : Bool) (L : Labels) (hL : InUse cap started L) (m : Mem)
    (hm : ∀ a, m a < 256) (sh : Shadow) (hsh : ∀ a, sh a < L.words.length) (s1 s2 n : Nat) :
    Gives cap (if strict then 0 else 2 * n) L
      (fun b => strict = false ∧ ∃ i, MemLooks (at' m s1) (at' m s2) n i ∧
        (Denotes L.graph (sh (s1 + i)) b ∨ Denotes L.graph (sh (s2 + i)) b))
      (Compares signedLt id (at' m s1) (at' m s2) (MemLooks (at' m s1) (at' m s2) n))
      (memcmpW strict started L m sh s1 s2 n) := by
  obtain ⟨h1, h2⟩ := memcmpLoop_spec hm s1 s2 n n 0 (by omega) (fun j hj => absurd hj (by omega))
  have hpos : (memcmpLoop m s1 s2 n 0).1 ≤ n := by
    apply Nat.not_lt.1
    intro hlt
    exact absurd ((h1 n).2 hlt).1 (Nat.lt_irrefl n)
  have hV : Compares signedLt id (at' m s1) (at' m s2) (MemLooks (at' m s1) (at' m s2) n)
      (memcmpLoop m s1 s2 n 0).2 := by
    rcases h2 with ⟨hr, heq⟩ | ⟨p, hp, heq, hpn, hne, hr⟩
    · rw [hr]
      refine ⟨⟨fun _ i hi => heq i hi.1, fun _ => rfl⟩, fun i hi hlt => ?_, fun i hi hlt => ?_⟩
      · have := heq i hi.1
        simp only [at', id, this] at hlt
        exact absurd hlt (Nat.lt_irrefl _)
      · have := heq i hi.1
        simp only [at', id, this] at hlt
        exact absurd hlt (Nat.lt_irrefl _)
    · rw [hr]
      exact compares_of_last (key := id) (fun i => hm _) (fun i => hm _)
        (fun j => (h1 j).trans (by rw [hp])) heq
  refine Gives.congr (S := _) (V := _)
    (((memcmpLabel_combines (strict := strict) hL (s1 := s1) (s2 := s2)
      (pos := (memcmpLoop m s1 s2 n 0).1) hsh).gives hV).mono ?_) ?_ (fun v h => h)
  · cases strict <;> simp; omega
  · intro b
    simp only [← h1]; rfl

theorem str_gives {cap : Nat} {started strict : Bool} {L : Labels} (hL : InUse cap started L) {m : Mem}
    {f : Nat → Int} {key : Nat → Nat} (hkey : ∀ a, key (m a) < 256) (hf : ∀ a, f (m a) = schar (key (m a)))
    {sh : Shadow} (hsh : ∀ a, sh a < L.words.length) {s1 s2 : Nat} {n : Option Nat} (hn : n ≠ some 0)
    {B : Nat} (hB : ¬ StrLooks key (at' m s1) (at' m s2) n B) (hB64 : B ≤ 2 ^ 64) :
    Gives cap (if strict then 0 else 2 * B) L
      (fun b => strict = false ∧ ∃ i, StrLooks key (at' m s1) (at' m s2) n i ∧
        (Denotes L.graph (sh (s1 + i)) b ∨ Denotes L.graph (sh (s2 + i)) b))
      (Compares signedLt key (at' m s1) (at' m s2) (StrLooks key (at' m s1) (at' m s2) n))
      (strncmpLoop m f s1 s2 (n.getD 0) (2 ^ 64) 0 >>= fun p =>
        memcmpLabel strict started L sh s1 s2 p.1 >>= fun q => .ok (q.1, q.2, p.2)) := by
  have hff : ∀ a b, f (m a) = f (m b) ↔ key (m a) = key (m b) := fun a b => by
    rw [hf, hf, schar_inj (hkey a) (hkey b)]
  obtain ⟨p, h1, h2⟩ := strncmpLoop_spec f key hff s1 s2 n hn B hB (2 ^ 64) 0 (by omega)
    ⟨fun N hN => by
      subst hN
      exact Nat.pos_of_ne_zero (fun h => hn (by rw [h])), fun j hj => absurd hj (by omega)⟩
  rw [h1]
  simp only [Res.bind_ok]
  have hpB : p + 1 ≤ B := by
    apply Nat.not_lt.1
    intro hlt
    exact hB ((h2 B).2 hlt)
  refine Gives.congr (((memcmpLabel_combines (strict := strict) hL (s1 := s1) (s2 := s2)
      (pos := p + 1) hsh).gives (V := Compares signedLt key (at' m s1) (at' m s2)
        (StrLooks key (at' m s1) (at' m s2) n)) ?_).mono ?_) ?_ (fun v h => h)
  · rw [hf, hf]
    exact compares_of_last (fun i => hkey _) (fun i => hkey _) h2
      (fun j hj => (((h2 p).2 (by omega)).2 j hj).1)
  · cases strict <;> simp; omega
  · intro b
    simp only [← h2]; rfl

/-- `strcmp`. The strings differ or end before position `B`. -/
theorem C56_strcmp (cap : Nat) (started strict : Bool) (L : Labels) (hL : InUse cap started L) (m : Mem)
    (hm : ∀ a, m a < 256) (sh : Shadow) (hsh : ∀ a, sh a < L.words.length) (s1 s2 B : Nat)
    (hB : ¬ StrLooks id (at' m s1) (at' m s2) none B) (hB64 : B ≤ 2 ^ 64) :
    Gives cap (if strict then 0 else 2 * B) L
      (fun b => strict = false ∧ ∃ i, StrLooks id (at' m s1) (at' m s2) none i ∧
        (Denotes L.graph (sh (s1 + i)) b ∨ Denotes L.graph (sh (s2 + i)) b))
      (Compares signedLt id (at' m s1) (at' m s2) (StrLooks id (at' m s1) (at' m s2) none))
      (strcmpW strict started L m sh s1 s2) :=
  str_gives hL (key := id) (fun a => hm a) (fun a => rfl) hsh (n := none) (by simp) hB hB64

/-- `strcasecmp`: characters are compared in lower case. -/
theorem C56_strcasecmp (cap : Nat) (started strict : Bool) (L : Labels) (hL : InUse cap started L)
    (m : Mem) (hm : ∀ a, m a < 256) (sh : Shadow) (hsh : ∀ a, sh a < L.words.length) (s1 s2 B : Nat)
    (hB : ¬ StrLooks lower (at' m s1) (at' m s2) none B) (hB64 : B ≤ 2 ^ 64) :
    Gives cap (if strict then 0 else 2 * B) L
      (fun b => strict = false ∧ ∃ i, StrLooks lower (at' m s1) (at' m s2) none i ∧
        (Denotes L.graph (sh (s1 + i)) b ∨ Denotes L.graph (sh (s2 + i)) b))
      (Compares signedLt lower (at' m s1) (at' m s2) (StrLooks lower (at' m s1) (at' m s2) none))
      (strcasecmpW strict started L m sh s1 s2) :=
  str_gives hL (key := lower) (fun a => lower_lt (hm a)) (fun a => lowerChar_eq (hm a)) hsh
    (n := none) (by simp) hB hB64

/-- `strncmp`: no string needs to end, the limit is enough. -/
theorem C56_strncmp (cap : Nat) (started strict : Bool) (L : Labels) (hL : InUse cap started L) (m : Mem)
    (hm : ∀ a, m a < 256) (sh : Shadow) (hsh : ∀ a, sh a < L.words.length) (s1 s2 n : Nat)
    (hn : n < 2 ^ 64) :
    Gives cap (if strict then 0 else 2 * n) L
      (fun b => strict = false ∧ ∃ i, StrLooks id (at' m s1) (at' m s2) (some n) i ∧
        (Denotes L.graph (sh (s1 + i)) b ∨ Denotes L.graph (sh (s2 + i)) b))
      (Compares signedLt id (at' m s1) (at' m s2) (StrLooks id (at' m s1) (at' m s2) (some n)))
      (strncmpW strict started L m sh s1 s2 n) := by
  by_cases h0 : n = 0
  · subst h0
    have hno : ∀ i, ¬ StrLooks id (at' m s1) (at' m s2) (some 0) i := fun i h =>
      absurd (h.1 0 rfl) (by omega)
    exact Or.inl ⟨L, 0, 0, [], rfl, ⟨⟨fun _ i hi => absurd hi (hno i), fun _ => rfl⟩,
      fun i hi => absurd hi (hno i), fun i hi => absurd hi (hno i)⟩, .nil _, hL.good.wf.nonempty,
      fun b => ⟨fun h => absurd h (denotes_zero hL.good b), fun ⟨_, i, hi, _⟩ => absurd hi (hno i)⟩,
      by omega, .nil⟩
  · unfold strncmpW
    rw [if_neg h0]
    exact str_gives hL (key := id) (fun a => hm a) (fun a => rfl) hsh (n := some n)
      (fun h => h0 (Option.some.inj h)) (fun h => absurd (h.1 n rfl) (by omega)) (by omega)

/-- `strncasecmp`. -/
theorem C56_strncasecmp (cap : Nat) (started strict : Bool) (L : Labels) (hL : InUse cap started L)
    (m : Mem) (hm : ∀ a, m a < 256) (sh : Shadow) (hsh : ∀ a, sh a < L.words.length) (s1 s2 n : Nat)
    (hn : n < 2 ^ 64) :
    Gives cap (if strict then 0 else 2 * n) L
      (fun b => strict = false ∧ ∃ i, StrLooks lower (at' m s1) (at' m s2) (some n) i ∧
        (Denotes L.graph (sh (s1 + i)) b ∨ Denotes L.graph (sh (s2 + i)) b))
      (Compares signedLt lower (at' m s1) (at' m s2) (StrLooks lower (at' m s1) (at' m s2) (some n)))
      (strncasecmpW strict started L m sh s1 s2 n) := by
  by_cases h0 : n = 0
  · subst h0
    have hno : ∀ i, ¬ StrLooks lower (at' m s1) (at' m s2) (some 0) i := fun i h =>
      absurd (h.1 0 rfl) (by omega)
    exact Or.inl ⟨L, 0, 0, [], rfl, ⟨⟨fun _ i hi => absurd hi (hno i), fun _ => rfl⟩,
      fun i hi => absurd hi (hno i), fun i hi => absurd hi (hno i)⟩, .nil _, hL.good.wf.nonempty,
      fun b => ⟨fun h => absurd h (denotes_zero hL.good b), fun ⟨_, i, hi, _⟩ => absurd hi (hno i)⟩,
      by omega, .nil⟩
  · unfold strncasecmpW
    rw [if_neg h0]
    exact str_gives hL (key := lower) (fun a => lower_lt (hm a)) (fun a => lowerChar_eq (hm a)) hsh
      (n := some n) (fun h => h0 (Option.some.inj h)) (fun h => absurd (h.1 n rfl) (by omega)) (by omega)

/-- A comparison in the order of signed characters is the comparison of the C standard if the bytes
looked at are below 0x80 (or each pair is on the same side of it). -/
theorem C56_order_partial (key : Nat → Nat) (x y : Nat → Nat) (looks : Nat → Prop) (r : Int)
    (hx : ∀ i, looks i → key (x i) < 256 ∧ key (y i) < 256)
    (hs : ∀ i, looks i → (key (x i) < 128 ↔ key (y i) < 128))
    (h : Compares signedLt key x y looks r) : Compares unsignedLt key x y looks r := by
  refine ⟨h.zero, fun i hi hlt => h.neg i hi ?_, fun i hi hlt => h.pos i hi ?_⟩
  · have h1 := hx i hi
    have h2 := hs i hi
    unfold unsignedLt at hlt
    unfold signedLt
    omega
  · have h1 := hx i hi
    have h2 := hs i hi
    unfold unsignedLt at hlt
    unfold signedLt
    omega

/-- If the first pair of bytes that differs has one byte below and one byte from 0x80 on, the result has
the wrong sign. -/
theorem C56_order_refuted (key : Nat → Nat) (x y : Nat → Nat) (looks : Nat → Prop) (r : Int) (i : Nat)
    (hi : looks i) (hx : 128 ≤ key (x i)) (hx' : key (x i) < 256) (hy : key (y i) < 128)
    (h : Compares signedLt key x y looks r) : r < 0 ∧ ¬ Compares unsignedLt key x y looks r := by
  have hr : r < 0 := h.neg i hi (by unfold signedLt; omega)
  refine ⟨hr, fun h' => ?_⟩
  have := h'.pos i hi (by unfold unsignedLt; omega)
  omega

/-- So the instrumented program orders "é" (0xC3 0xA9 in UTF-8) before "z", unlike the original one:
`strcmp` returns a negative number. -/
theorem C56_strcmp_refuted : ∃ (m : Mem) (v : Int), (∀ a, m a < 256) ∧
    IsStr m 100 2 ∧ IsStr m 200 1 ∧
    (∀ started L sh, strcmpW true started L m sh 100 200 = .ok (L, 0, v)) ∧
    ¬ Compares unsignedLt id (at' m 100) (at' m 200) (StrLooks id (at' m 100) (at' m 200) none) v := by
  let m : Mem := fun a => if a = 100 then 0xC3 else if a = 101 then 0xA9 else if a = 200 then 122 else 0
  refine ⟨m, schar 0xC3 - schar 122, ?_, ⟨rfl, ?_⟩, ⟨rfl, ?_⟩, fun _ _ _ => rfl, fun h => ?_⟩
  · intro a; show (if _ then _ else _) < 256; split <;> (try split) <;> (try split) <;> omega
  · intro i hi
    rcases (by omega : i = 0 ∨ i = 1) with rfl | rfl <;> decide
  · intro i hi
    have : i = 0 := by omega
    subst this; decide
  · have := h.pos 0 ⟨fun N hN => (by cases hN), fun j hj => absurd hj (by omega)⟩
      (show (122 : Nat) < 195 by omega)
    exact absurd this (by decide)

/-- `strlen`: the length; its label denotes the labels of the string and its terminator (nothing with
strict data dependencies). -/
theorem C56_strlen (cap : Nat) (started strict : Bool) (L : Labels) (hL : InUse cap started L) (m : Mem)
    (sh : Shadow) (hsh : ∀ a, sh a < L.words.length) (s len : Nat) (hs : IsStr m s len)
    (hlen : len < 2 ^ 64) :
    Gives cap (if strict then 0 else len) L
      (fun b => strict = false ∧ ∃ i, i ≤ len ∧ Denotes L.graph (sh (s + i)) b)
      (fun v => v = len) (strlenW strict started L m sh s) := by
  unfold strlenW
  rw [strlen_str hs hlen]
  cases strict with
  | true =>
    exact Or.inl ⟨L, 0, len, [], rfl, rfl, .nil _, hL.good.wf.nonempty,
      fun b => by simp [denotes_zero hL.good b], by simp, .nil⟩
  | false =>
    refine Gives.congr ((hL.read (sh := sh) (addr := s) (size := len + 1) (fun i _ => hsh _)).gives
      (V := fun v => v = len) rfl) (fun b => ?_) (fun v h => h)
    simp only [true_and, Nat.lt_succ_iff]

/-! ### Searching -/

theorem strchrLoop_spec {m : Mem} (s : Nat) (c : Int) (len : Nat)
    (hs : IsStr m s len) : ∀ fuel i, i ≤ len → len < i + fuel →
    (∀ j, j < i → schar (m (s + j)) ≠ c) →
    ∃ p, p ≤ len ∧ strchrLoop m s c fuel i =
      .ok (p + 1, if m (s + p) = 0 ∧ c ≠ 0 then none else some p) ∧
      (∀ j, j < p → schar (m (s + j)) ≠ c) ∧ (schar (m (s + p)) = c ∨ p = len) := by
  intro fuel
  induction fuel with
  | zero => intro i h1 h2; omega
  | succ fuel ih =>
    intro i h1 h2 h3
    unfold strchrLoop
    split
    · rename_i h
      refine ⟨i, h1, rfl, h3, ?_⟩
      rcases h with h | h
      · exact Or.inl h
      · refine Or.inr (Classical.byContradiction fun hne => hs.nonzero i (by omega) h)
    · rename_i h
      simp only [not_or] at h
      refine ih (i + 1) ?_ (by omega) (fun j hj => ?_)
      · apply Classical.byContradiction
        intro hlt
        have : i = len := by omega
        subst this
        exact h.2 hs.nul
      · rcases Nat.lt_succ_iff_lt_or_eq.1 hj with hlt | rfl
        · exact h3 j hlt
        · exact h.1

theorem schar_eq_iff {b : Nat} (hb : b < 256) {c : Int} (h1 : -128 ≤ c) (h2 : c < 128) :
    schar b = c ↔ (b : Int) = c % 256 := by
  unfold schar
  split <;> omega

/-- `strchr` with a character argument in the range of `char`: the position is right; the label is that
of the pointer argument (strict), or denotes the labels of the characters looked at and of both
arguments. -/
theorem C56_strchr_partial (cap : Nat) (started strict : Bool) (L : Labels) (hL : InUse cap started L)
    (m : Mem) (hm : ∀ a, m a < 256) (sh : Shadow) (hsh : ∀ a, sh a < L.words.length) (s len : Nat)
    (hs : IsStr m s len) (hlen : len < 2 ^ 64) (c : Int) (hc1 : -128 ≤ c) (hc2 : c < 128)
    (sLabel cLabel : Nat) (hsl : sLabel < L.words.length) (hcl : cLabel < L.words.length) :
    Gives cap (if strict then 0 else len + 3) L
      (fun b => Denotes L.graph sLabel b ∨ (strict = false ∧ (Denotes L.graph cLabel b ∨
        ∃ i, (∀ j, j < i → m (s + j) ≠ 0 ∧ (m (s + j) : Int) ≠ c % 256) ∧
          Denotes L.graph (sh (s + i)) b)))
      (StrChr (at' m s) c) (strchrW strict started L m sh s c sLabel cLabel) := by
  obtain ⟨p, hp, h1, h2, h3⟩ := strchrLoop_spec s c len hs (2 ^ 64) 0 (by omega) (by omega)
    (fun j hj => absurd hj (by omega))
  have hV : StrChr (at' m s) c (if m (s + p) = 0 ∧ c ≠ 0 then none else some p) := by
    split
    · rename_i h
      refine ⟨p, h.1, fun j hj => ?_⟩
      rcases Nat.lt_or_eq_of_le hj with hj | rfl
      · exact fun hh => h2 j hj ((schar_eq_iff (hm _) hc1 hc2).2 hh)
      · have := h.1
        show ((m (s + j) : Nat) : Int) ≠ _
        omega
    · rename_i h
      refine ⟨?_, fun j hj => ⟨fun hh => h2 j hj ((schar_eq_iff (hm _) hc1 hc2).2 hh),
        hs.nonzero j (by omega)⟩⟩
      rcases h3 with h3 | rfl
      · exact (schar_eq_iff (hm _) hc1 hc2).1 h3
      · have h0 := hs.nul
        have : c = 0 := Classical.byContradiction fun hc => h ⟨h0, hc⟩
        subst this
        simp [at', h0]
  have hlooks : ∀ i, (∀ j, j < i → m (s + j) ≠ 0 ∧ (m (s + j) : Int) ≠ c % 256) ↔ i < p + 1 := by
    intro i
    constructor
    · intro h
      apply Classical.byContradiction
      intro hlt
      have hh := h p (by omega)
      rcases h3 with h3 | rfl
      · exact hh.2 ((schar_eq_iff (hm _) hc1 hc2).1 h3)
      · exact hh.1 hs.nul
    · intro h j hj
      exact ⟨hs.nonzero j (by omega), fun hh => h2 j (by omega) ((schar_eq_iff (hm _) hc1 hc2).2 hh)⟩
  unfold strchrW
  rw [h1]
  simp only [Res.bind_ok]
  cases strict with
  | true =>
    exact Or.inl ⟨L, sLabel, _, [], rfl, hV, .nil _, hsl, fun b => by simp, by simp, .nil⟩
  | false =>
    refine Gives.congr (((bytesAnd2_combines hL (sh := sh) (s := s) (len := p + 1) (fun i => hsh _) hsl
      hcl).gives hV).mono (by simp; omega)) (fun b => ?_) (fun v h => h)
    simp only [true_and, hlooks]
    constructor
    · rintro (h | h | h)
      · exact Or.inr (Or.inr h)
      · exact Or.inl h
      · exact Or.inr (Or.inl h)
    · rintro (h | h | h)
      · exact Or.inr (Or.inl h)
      · exact Or.inr (Or.inr h)
      · exact Or.inl h

/-- With a character argument outside the range of `char` -- for instance `strchr(s, 0xE9)`, or the value
of an `unsigned char` variable -- `strchr` finds nothing, although the C standard converts the argument
to `char` first. And with strict data dependencies the null result is labelled like the pointer
argument, whereas the other searches label it 0. -/
theorem C56_strchr_refuted :
    (∀ (m : Mem) (started : Bool) (L : Labels) (sh : Shadow) (s len : Nat) (c : Int) (sLabel cLabel : Nat),
      (∀ a, m a < 256) → IsStr m s len → len < 2 ^ 64 → (c < -128 ∨ 128 ≤ c) →
      strchrW true started L m sh s c sLabel cLabel = .ok (L, sLabel, none)) ∧
    (∃ m : Mem, (∀ a, m a < 256) ∧ IsStr m 100 1 ∧ StrChr (at' m 100) 0xE9 (some 0) ∧
      ¬ StrChr (at' m 100) 0xE9 none) := by
  constructor
  · intro m started L sh s len c sLabel cLabel hm hs hlen hc
    have hne : ∀ a, schar (m a) ≠ c := by
      intro a
      have := hm a
      unfold schar
      split <;> omega
    obtain ⟨p, hp, h1, h2, h3⟩ := strchrLoop_spec s c len hs (2 ^ 64) 0 (by omega) (by omega)
      (fun j hj => absurd hj (by omega))
    unfold strchrW
    rw [h1]
    have hpl : p = len := h3.resolve_left (hne _)
    subst hpl
    have hc0 : c ≠ 0 := by omega
    simp [hs.nul, hc0]
  · refine ⟨fun a => if a = 100 then 0xE9 else 0, fun a => by dsimp only; split <;> omega, ⟨rfl, ?_⟩, ?_, ?_⟩
    · intro i hi
      have : i = 0 := by omega
      subst this; decide
    · exact ⟨by decide, fun j hj => absurd hj (by omega)⟩
    · rintro ⟨k, hk, h⟩
      exact h 0 (by omega) (by decide)

theorem memchrLoop_spec (m : Mem) (s : Nat) (c : Int) (n : Nat) : ∀ k i, i + k = n →
    (∀ j, j < i → (m (s + j) : Int) ≠ c % 256) → MemChr (at' m s) c n (memchrLoop m s c k i) := by
  intro k
  induction k with
  | zero =>
    intro i hi h
    have : i = n := by omega
    subst this
    exact h
  | succ k ih =>
    intro i hi h
    unfold memchrLoop
    split
    · rename_i he
      exact ⟨by omega, he, h⟩
    · rename_i hne
      refine ih (i + 1) (by omega) (fun j hj => ?_)
      rcases Nat.lt_succ_iff_lt_or_eq.1 hj with hlt | rfl
      · exact h j hlt
      · exact hne

/-- `memchr`: the position; the label of the pointer argument if something was found (strict), or the
labels of the bytes looked at and of the pointer and character arguments. -/
theorem C56_memchr (cap : Nat) (started strict : Bool) (L : Labels) (hL : InUse cap started L) (m : Mem)
    (sh : Shadow) (hsh : ∀ a, sh a < L.words.length) (s n : Nat) (c : Int)
    (sLabel cLabel : Nat) (hsl : sLabel < L.words.length) (hcl : cLabel < L.words.length) :
    Gives cap (if strict then 0 else n + 2) L
      (fun b => (strict = true ∧ (∃ i, MemChr (at' m s) c n (some i)) ∧ Denotes L.graph sLabel b) ∨
        (strict = false ∧ (Denotes L.graph sLabel b ∨ Denotes L.graph cLabel b ∨
          ∃ i, i < n ∧ (∀ j, j < i → (m (s + j) : Int) ≠ c % 256) ∧ Denotes L.graph (sh (s + i)) b)))
      (MemChr (at' m s) c n) (memchrW strict started L m sh s c n sLabel cLabel) := by
  have hV := memchrLoop_spec m s c n n 0 (by omega) (fun j hj => absurd hj (by omega))
  unfold memchrW
  generalize memchrLoop m s c n 0 = r at hV ⊢
  cases strict with
  | true =>
    cases r with
    | none =>
      refine Or.inl ⟨L, 0, none, [], rfl, hV, .nil _, hL.good.wf.nonempty, fun b => ?_, by simp, .nil⟩
      constructor
      · intro h; exact absurd h (denotes_zero hL.good b)
      · rintro (⟨-, ⟨i, hi, he, -⟩, -⟩ | ⟨h, -⟩)
        · exact absurd he (hV i hi)
        · cases h
    | some p =>
      refine Or.inl ⟨L, sLabel, some p, [], rfl, hV, .nil _, hsl, fun b => ?_, by simp, .nil⟩
      constructor
      · intro h; exact Or.inl ⟨rfl, ⟨p, hV⟩, h⟩
      · rintro (⟨-, -, h⟩ | ⟨h, -⟩)
        · exact h
        · cases h
  | false =>
    cases r with
    | none =>
      refine Gives.congr (((bytesAnd2_combines hL (sh := sh) (s := s) (len := n) (fun i => hsh _) hsl
        hcl).gives hV).mono (by simp)) (fun b => ?_) (fun v h => h)
      constructor
      · rintro (⟨i, hi, h⟩ | h | h)
        · exact Or.inr ⟨rfl, Or.inr (Or.inr ⟨i, hi, fun j hj => hV j (by omega), h⟩)⟩
        · exact Or.inr ⟨rfl, Or.inl h⟩
        · exact Or.inr ⟨rfl, Or.inr (Or.inl h)⟩
      · rintro (⟨h, -⟩ | ⟨-, h | h | ⟨i, hi, -, h⟩⟩)
        · cases h
        · exact Or.inr (Or.inl h)
        · exact Or.inr (Or.inr h)
        · exact Or.inl ⟨i, hi, h⟩
    | some p =>
      obtain ⟨hp, he, hne⟩ := hV
      refine Gives.congr (((bytesAnd2_combines hL (sh := sh) (s := s) (len := p + 1) (fun i => hsh _) hsl
        hcl).gives (V := MemChr (at' m s) c n) (v := some p) ⟨hp, he, hne⟩).mono (by simp; omega))
        (fun b => ?_) (fun v h => h)
      constructor
      · rintro (⟨i, hi, h⟩ | h | h)
        · exact Or.inr ⟨rfl, Or.inr (Or.inr ⟨i, by omega, fun j hj => hne j (by omega), h⟩)⟩
        · exact Or.inr ⟨rfl, Or.inl h⟩
        · exact Or.inr ⟨rfl, Or.inr (Or.inl h)⟩
      · rintro (⟨h, -⟩ | ⟨-, h | h | ⟨i, hi, hj, h⟩⟩)
        · cases h
        · exact Or.inr (Or.inl h)
        · exact Or.inr (Or.inr h)
        · refine Or.inl ⟨i, ?_, h⟩
          apply Classical.byContradiction
          intro hlt
          exact hj p (by omega) he

theorem strrchrLoop_spec (m : Mem) (s : Nat) (c : Int) (len : Nat) : ∀ k, k ≤ len + 1 →
    (∀ j, k ≤ j → j ≤ len → (m (s + j) : Int) ≠ c % 256) →
    StrRChr (at' m s) len c (strrchrLoop m s c k) := by
  intro k
  induction k with
  | zero =>
    intro _ h j hj
    exact h j (by omega) hj
  | succ k ih =>
    intro hk h
    unfold strrchrLoop
    split
    · rename_i he
      exact ⟨by omega, he, fun j h1 h2 => h j h1 h2⟩
    · rename_i hne
      refine ih (by omega) (fun j h1 h2 => ?_)
      rcases Nat.lt_or_eq_of_le h1 with h1 | rfl
      · exact h j h1 h2
      · exact hne

/-- `strrchr`: the last occurrence; labels as for `memchr`, the whole string being looked at. -/
theorem C56_strrchr (cap : Nat) (started strict : Bool) (L : Labels) (hL : InUse cap started L) (m : Mem)
    (sh : Shadow) (hsh : ∀ a, sh a < L.words.length) (s len : Nat) (hs : IsStr m s len)
    (hlen : len < 2 ^ 64) (c : Int) (sLabel cLabel : Nat) (hsl : sLabel < L.words.length)
    (hcl : cLabel < L.words.length) :
    Gives cap (if strict then 0 else len + 3) L
      (fun b => (strict = true ∧ (∃ i, StrRChr (at' m s) len c (some i)) ∧ Denotes L.graph sLabel b) ∨
        (strict = false ∧ (Denotes L.graph sLabel b ∨ Denotes L.graph cLabel b ∨
          ∃ i, i ≤ len ∧ Denotes L.graph (sh (s + i)) b)))
      (StrRChr (at' m s) len c) (strrchrW strict started L m sh s c sLabel cLabel) := by
  have hV := strrchrLoop_spec m s c len (len + 1) (by omega) (fun j h1 h2 => absurd h1 (by omega))
  unfold strrchrW
  rw [strlen_str hs hlen]
  simp only [Res.bind_ok]
  generalize strrchrLoop m s c (len + 1) = r at hV ⊢
  cases strict with
  | true =>
    cases r with
    | none =>
      refine Or.inl ⟨L, 0, none, [], rfl, hV, .nil _, hL.good.wf.nonempty, fun b => ?_, by simp, .nil⟩
      constructor
      · intro h; exact absurd h (denotes_zero hL.good b)
      · rintro (⟨-, ⟨i, hi, he, -⟩, -⟩ | ⟨h, -⟩)
        · exact absurd he (hV i hi)
        · cases h
    | some p =>
      refine Or.inl ⟨L, sLabel, some p, [], rfl, hV, .nil _, hsl, fun b => ?_, by simp, .nil⟩
      constructor
      · intro h; exact Or.inl ⟨rfl, ⟨p, hV⟩, h⟩
      · rintro (⟨-, -, h⟩ | ⟨h, -⟩)
        · exact h
        · cases h
  | false =>
    refine Gives.congr (((bytesAnd2_combines hL (sh := sh) (s := s) (len := len + 1) (fun i => hsh _) hsl
      hcl).gives hV).mono (by simp)) (fun b => ?_) (fun v h => h)
    constructor
    · rintro (⟨i, hi, h⟩ | h | h)
      · exact Or.inr ⟨rfl, Or.inr (Or.inr ⟨i, by omega, h⟩)⟩
      · exact Or.inr ⟨rfl, Or.inl h⟩
      · exact Or.inr ⟨rfl, Or.inr (Or.inl h)⟩
    · rintro (⟨h, -⟩ | ⟨-, h | h | ⟨i, hi, h⟩⟩)
      · cases h
      · exact Or.inr (Or.inl h)
      · exact Or.inr (Or.inr h)
      · exact Or.inl ⟨i, by omega, h⟩

theorem agree_iff (m : Mem) (a b : Nat) : ∀ k, agree m a b k = true ↔ ∀ j, j < k → m (a + j) = m (b + j) := by
  intro k
  induction k with
  | zero => simp [agree]
  | succ k ih =>
    simp only [agree, Bool.and_eq_true, beq_iff_eq, ih]
    constructor
    · rintro ⟨h1, h2⟩ j hj
      rcases Nat.lt_succ_iff_lt_or_eq.1 hj with hlt | rfl
      · exact h2 j hlt
      · exact h1
    · intro h
      exact ⟨h k (by omega), fun j hj => h j (by omega)⟩

theorem strstrLoop_spec (m : Mem) (h n hl nl : Nat) : ∀ k i, i + k = hl + 1 - nl →
    (∀ j, j < i → ¬ OccursAt (at' m h) hl (at' m n) nl j) →
    StrStr (at' m h) hl (at' m n) nl (strstrLoop m h n nl k i) := by
  intro k
  induction k with
  | zero =>
    intro i hi hno j hj
    have : j < i := by
      have := hj.1
      omega
    exact hno j this hj
  | succ k ih =>
    intro i hi hno
    unfold strstrLoop
    split
    · rename_i he
      have := (agree_iff m (h + i) n nl).1 he
      exact ⟨⟨by omega, fun j hj => by simp only [at']; rw [← this j hj, Nat.add_assoc]⟩, hno⟩
    · rename_i hne
      refine ih (i + 1) (by omega) (fun j hj hoc => ?_)
      rcases Nat.lt_succ_iff_lt_or_eq.1 hj with hlt | rfl
      · exact hno j hlt hoc
      · refine hne ((agree_iff m (h + j) n nl).2 (fun k hk => ?_))
        have := hoc.2 k hk
        simp only [at'] at this
        rw [← this, Nat.add_assoc]

theorem StrStr.unique {x y : Nat → Nat} {lx ly : Nat} {r r' : Option Nat} (h : StrStr x lx y ly r)
    (h' : StrStr x lx y ly r') : r = r' := by
  cases r with
  | none =>
    cases r' with
    | none => rfl
    | some j => exact absurd h'.1 (h j)
  | some i =>
    cases r' with
    | none => exact absurd h.1 (h' i)
    | some j =>
      have h1 := h'.2 i
      have h2 := h.2 j
      by_cases hij : i < j
      · exact absurd h.1 (h1 hij)
      · by_cases hji : j < i
        · exact absurd h'.1 (h2 hji)
        · rw [show i = j by omega]

/-- `strstr`: the first occurrence; the label of the pointer argument if there is one (strict), or the
labels of the pointer arguments, of the needle, and of the haystack up to the end of the occurrence (all
of it if there is none). -/
theorem C56_strstr (cap : Nat) (started strict : Bool) (L : Labels) (hL : InUse cap started L) (m : Mem)
    (sh : Shadow) (hsh : ∀ a, sh a < L.words.length) (h n hl nl : Nat) (hs : IsStr m h hl)
    (hn : IsStr m n nl) (hhl : hl < 2 ^ 64) (hnl : nl < 2 ^ 64) (hLabel nLabel : Nat)
    (h1 : hLabel < L.words.length) (h2 : nLabel < L.words.length) :
    Gives cap (if strict then 0 else hl + nl + 5) L
      (fun b => (strict = true ∧ (∃ p, StrStr (at' m h) hl (at' m n) nl (some p)) ∧
          Denotes L.graph hLabel b) ∨
        (strict = false ∧ (Denotes L.graph hLabel b ∨ Denotes L.graph nLabel b ∨
          (∃ i, i ≤ nl ∧ Denotes L.graph (sh (n + i)) b) ∨
          (∃ p i, StrStr (at' m h) hl (at' m n) nl (some p) ∧ i < p + nl ∧
            Denotes L.graph (sh (h + i)) b) ∨
          (StrStr (at' m h) hl (at' m n) nl none ∧ ∃ i, i ≤ hl ∧ Denotes L.graph (sh (h + i)) b))))
      (StrStr (at' m h) hl (at' m n) nl) (strstrW strict started L m sh h n hLabel nLabel) := by
  have hV := strstrLoop_spec m h n hl nl (hl + 1 - nl) 0 (by omega) (fun j hj => absurd hj (by omega))
  unfold strstrW
  rw [strlen_str hs hhl, strlen_str hn hnl]
  simp only [Res.bind_ok]
  generalize strstrLoop m h n nl (hl + 1 - nl) 0 = r at hV ⊢
  cases strict with
  | true =>
    cases r with
    | none =>
      refine Or.inl ⟨L, 0, none, [], rfl, hV, .nil _, hL.good.wf.nonempty, fun b => ?_, by simp, .nil⟩
      constructor
      · intro h; exact absurd h (denotes_zero hL.good b)
      · rintro (⟨-, ⟨p, hp⟩, -⟩ | ⟨h, -⟩)
        · exact absurd (StrStr.unique (r := some p) (r' := none) hp hV) (by simp)
        · cases h
    | some p =>
      refine Or.inl ⟨L, hLabel, some p, [], rfl, hV, .nil _, h1, fun b => ?_, by simp, .nil⟩
      constructor
      · intro h; exact Or.inl ⟨rfl, ⟨p, hV⟩, h⟩
      · rintro (⟨-, -, h⟩ | ⟨h, -⟩)
        · exact h
        · cases h
  | false =>
    cases r with
    | none =>
      refine Gives.congr (((bytes2And2_combines hL (sh := sh) (s := h) (len := hl + 1) (t := n)
        (tlen := nl + 1) hsh h1 h2).gives hV).mono (by simp; omega)) (fun b => ?_) (fun v h => h)
      constructor
      · rintro (⟨i, hi, h⟩ | ⟨i, hi, h⟩ | h | h)
        · exact Or.inr ⟨rfl, Or.inr (Or.inr (Or.inr (Or.inr ⟨hV, i, by omega, h⟩)))⟩
        · exact Or.inr ⟨rfl, Or.inr (Or.inr (Or.inl ⟨i, by omega, h⟩))⟩
        · exact Or.inr ⟨rfl, Or.inl h⟩
        · exact Or.inr ⟨rfl, Or.inr (Or.inl h)⟩
      · rintro (⟨h, -⟩ | ⟨-, h | h | ⟨i, hi, h⟩ | ⟨p, i, hp, -⟩ | ⟨-, i, hi, h⟩⟩)
        · cases h
        · exact Or.inr (Or.inr (Or.inl h))
        · exact Or.inr (Or.inr (Or.inr h))
        · exact Or.inr (Or.inl ⟨i, by omega, h⟩)
        · exact absurd (StrStr.unique (r := some p) (r' := none) hp hV) (by simp)
        · exact Or.inl ⟨i, by omega, h⟩
    | some p =>
      have hle := hV.1.1
      refine Gives.congr (((bytes2And2_combines hL (sh := sh) (s := h) (len := p + nl) (t := n)
        (tlen := nl + 1) hsh h1 h2).gives (V := StrStr (at' m h) hl (at' m n) nl) (v := some p)
        hV).mono (by simp; omega)) (fun b => ?_) (fun v h => h)
      constructor
      · rintro (⟨i, hi, h⟩ | ⟨i, hi, h⟩ | h | h)
        · exact Or.inr ⟨rfl, Or.inr (Or.inr (Or.inr (Or.inl ⟨p, i, hV, hi, h⟩)))⟩
        · exact Or.inr ⟨rfl, Or.inr (Or.inr (Or.inl ⟨i, by omega, h⟩))⟩
        · exact Or.inr ⟨rfl, Or.inl h⟩
        · exact Or.inr ⟨rfl, Or.inr (Or.inl h)⟩
      · rintro (⟨h, -⟩ | ⟨-, h | h | ⟨i, hi, h⟩ | ⟨q, i, hq, hi, h⟩ | ⟨hq, -⟩⟩)
        · cases h
        · exact Or.inr (Or.inr (Or.inl h))
        · exact Or.inr (Or.inr (Or.inr h))
        · exact Or.inr (Or.inl ⟨i, by omega, h⟩)
        · have := StrStr.unique (r := some q) (r' := some p) hq hV
          cases this
          exact Or.inl ⟨i, hi, h⟩
        · exact absurd (StrStr.unique (r := none) (r' := some p) hq hV) (by simp)

theorem occurs_iff (m : Mem) (a b : Nat) : ∀ k, occurs m a b k = true ↔ ∃ j, j < k ∧ m (a + j) = b := by
  intro k
  induction k with
  | zero => simp [occurs]
  | succ k ih =>
    simp only [occurs, Bool.or_eq_true, beq_iff_eq, ih]
    constructor
    · rintro (h | ⟨j, hj, h⟩)
      · exact ⟨k, by omega, h⟩
      · exact ⟨j, by omega, h⟩
    · rintro ⟨j, hj, h⟩
      rcases Nat.lt_succ_iff_lt_or_eq.1 hj with hlt | rfl
      · exact Or.inr ⟨j, hlt, h⟩
      · exact Or.inl h

theorem strpbrkLoop_spec (m : Mem) (s acc sl al : Nat) : ∀ k i, i + k = sl →
    (∀ j, j < i → ∀ k, k < al → m (acc + k) ≠ m (s + j)) →
    StrPBrk (at' m s) sl (at' m acc) al (strpbrkLoop m s acc al k i) := by
  intro k
  induction k with
  | zero =>
    intro i hi h
    have : i = sl := by omega
    subst this
    exact h
  | succ k ih =>
    intro i hi h
    unfold strpbrkLoop
    split
    · rename_i he
      exact ⟨by omega, (occurs_iff m acc _ al).1 he, h⟩
    · rename_i hne
      refine ih (i + 1) (by omega) (fun j hj k hk => ?_)
      rcases Nat.lt_succ_iff_lt_or_eq.1 hj with hlt | rfl
      · exact h j hlt k hk
      · exact fun hh => hne ((occurs_iff m acc _ al).2 ⟨k, hk, hh⟩)

/-- `strpbrk`: the first character of the string that is in the set; the label of the pointer argument if
there is one (strict), or the labels of the pointer arguments, the set, and the characters looked at. -/
theorem C56_strpbrk (cap : Nat) (started strict : Bool) (L : Labels) (hL : InUse cap started L) (m : Mem)
    (sh : Shadow) (hsh : ∀ a, sh a < L.words.length) (s acc sl al : Nat) (hs : IsStr m s sl)
    (ha : IsStr m acc al) (hsl : sl < 2 ^ 64) (hal : al < 2 ^ 64) (sLabel accLabel : Nat)
    (h1 : sLabel < L.words.length) (h2 : accLabel < L.words.length) :
    Gives cap (if strict then 0 else sl + al + 5) L
      (fun b => (strict = true ∧ (∃ p, StrPBrk (at' m s) sl (at' m acc) al (some p)) ∧
          Denotes L.graph sLabel b) ∨
        (strict = false ∧ (Denotes L.graph sLabel b ∨ Denotes L.graph accLabel b ∨
          (∃ i, i ≤ al ∧ Denotes L.graph (sh (acc + i)) b) ∨
          (∃ i, i ≤ sl ∧ (∀ j, j < i → ∀ k, k < al → m (acc + k) ≠ m (s + j)) ∧
            Denotes L.graph (sh (s + i)) b))))
      (StrPBrk (at' m s) sl (at' m acc) al) (strpbrkW strict started L m sh s acc sLabel accLabel) := by
  have hV := strpbrkLoop_spec m s acc sl al sl 0 (by omega) (fun j hj => absurd hj (by omega))
  unfold strpbrkW
  rw [strlen_str hs hsl, strlen_str ha hal]
  simp only [Res.bind_ok]
  generalize strpbrkLoop m s acc al sl 0 = r at hV ⊢
  cases strict with
  | true =>
    cases r with
    | none =>
      refine Or.inl ⟨L, 0, none, [], rfl, hV, .nil _, hL.good.wf.nonempty, fun b => ?_, by simp, .nil⟩
      constructor
      · intro h; exact absurd h (denotes_zero hL.good b)
      · rintro (⟨-, ⟨p, hp, ⟨k, hk, he⟩, -⟩, -⟩ | ⟨h, -⟩)
        · exact absurd he (hV p hp k hk)
        · cases h
    | some p =>
      refine Or.inl ⟨L, sLabel, some p, [], rfl, hV, .nil _, h1, fun b => ?_, by simp, .nil⟩
      constructor
      · intro h; exact Or.inl ⟨rfl, ⟨p, hV⟩, h⟩
      · rintro (⟨-, -, h⟩ | ⟨h, -⟩)
        · exact h
        · cases h
  | false =>
    cases r with
    | none =>
      refine Gives.congr (((bytes2And2_combines hL (sh := sh) (s := s) (len := sl + 1) (t := acc)
        (tlen := al + 1) hsh h1 h2).gives hV).mono (by simp; omega)) (fun b => ?_) (fun v h => h)
      constructor
      · rintro (⟨i, hi, h⟩ | ⟨i, hi, h⟩ | h | h)
        · exact Or.inr ⟨rfl, Or.inr (Or.inr (Or.inr ⟨i, by omega, fun j hj => hV j (by omega), h⟩))⟩
        · exact Or.inr ⟨rfl, Or.inr (Or.inr (Or.inl ⟨i, by omega, h⟩))⟩
        · exact Or.inr ⟨rfl, Or.inl h⟩
        · exact Or.inr ⟨rfl, Or.inr (Or.inl h)⟩
      · rintro (⟨h, -⟩ | ⟨-, h | h | ⟨i, hi, h⟩ | ⟨i, hi, -, h⟩⟩)
        · cases h
        · exact Or.inr (Or.inr (Or.inl h))
        · exact Or.inr (Or.inr (Or.inr h))
        · exact Or.inr (Or.inl ⟨i, by omega, h⟩)
        · exact Or.inl ⟨i, by omega, h⟩
    | some p =>
      obtain ⟨hp, ⟨k, hk, he⟩, hne⟩ := hV
      refine Gives.congr (((bytes2And2_combines hL (sh := sh) (s := s) (len := p + 1) (t := acc)
        (tlen := al + 1) hsh h1 h2).gives (V := StrPBrk (at' m s) sl (at' m acc) al) (v := some p)
        ⟨hp, ⟨k, hk, he⟩, hne⟩).mono (by simp; omega)) (fun b => ?_) (fun v h => h)
      constructor
      · rintro (⟨i, hi, h⟩ | ⟨i, hi, h⟩ | h | h)
        · exact Or.inr ⟨rfl, Or.inr (Or.inr (Or.inr ⟨i, by omega, fun j hj => hne j (by omega), h⟩))⟩
        · exact Or.inr ⟨rfl, Or.inr (Or.inr (Or.inl ⟨i, by omega, h⟩))⟩
        · exact Or.inr ⟨rfl, Or.inl h⟩
        · exact Or.inr ⟨rfl, Or.inr (Or.inl h)⟩
      · rintro (⟨h, -⟩ | ⟨-, h | h | ⟨i, hi, h⟩ | ⟨i, hi, hj, h⟩⟩)
        · cases h
        · exact Or.inr (Or.inr (Or.inl h))
        · exact Or.inr (Or.inr (Or.inr h))
        · exact Or.inr (Or.inl ⟨i, by omega, h⟩)
        · refine Or.inl ⟨i, ?_, h⟩
          apply Classical.byContradiction
          intro hlt
          exact hj p (by omega) k hk he

/-! ### Converting -/

/-- What converting stores: the end pointer, if it is asked for, and no label. -/
structure StoresEnd (m : Mem) (endptr nptr e : Nat) (m' : Mem) : Prop where
  stored : endptr ≠ 0 → m'.read64 endptr = nptr + e
  other : ∀ a, (endptr = 0 ∨ a < endptr ∨ endptr + 8 ≤ a) → m' a = m a
  labels : ∀ a, IsApp a → labelOf m' a = labelOf m a

theorem read64_write64 (m : Mem) (a v : Nat) (hv : v < 2 ^ 64) : (m.write64 a v).read64 a = v := by
  unfold Mem.write64 Mem.read64
  rw [read32_write32 _ _ _ (Nat.mod_lt _ (by omega)),
    read32_congr (m := m.write32 a (v % 2 ^ 32)) (fun x h1 h2 => write32_out (by omega)),
    read32_write32 _ _ _ (Nat.mod_lt _ (by omega))]
  omega

theorem storeEnd_spec {m : Mem} {endptr nptr e : Nat}
    (hend : endptr = 0 ∨ (IsApp endptr ∧ endptr + 8 ≤ 0x800000000000)) (hv : nptr + e < 2 ^ 64) :
    StoresEnd m endptr nptr e (storeEnd m endptr nptr e) := by
  unfold storeEnd
  split
  · rename_i h
    obtain ⟨hA, hE⟩ := hend.resolve_left h
    refine ⟨fun _ => read64_write64 m _ _ hv, fun a ha => write64_out (ha.resolve_left h), ?_⟩
    rintro a ⟨h1, h2⟩
    have eb := shadow_sum (show 0x700000000000 ≤ a by omega) (by omega)
    have := hA.1
    exact read32_congr (fun x hx1 hx2 => write64_out (by omega))
  · rename_i h
    refine ⟨fun h' => absurd h' h, fun a _ => rfl, fun a _ => rfl⟩

/-- The number of labels read: the prefix, and the terminator if the conversion stopped there. -/
theorem convLen_spec {m : Mem} {nptr : Nat} (e : Nat) :
    e + (if m (nptr + e) ≠ 0 then 0 else 1) ≤ e + 1 ∧
    ∀ i, i < e + (if m (nptr + e) ≠ 0 then 0 else 1) ↔ (i < e ∨ i = e ∧ m (nptr + e) = 0) := by
  by_cases h : m (nptr + e) = 0
  · rw [if_neg (fun h' => h' h)]
    exact ⟨by omega, fun i => by omega⟩
  · rw [if_pos h]
    exact ⟨by omega, fun i => by omega⟩

/-- `strtol`, `strtoll`, `strtoul`, `strtoull`: the value of the library function; if a prefix of `e > 0`
bytes was converted, its label denotes the label of the base, the labels of the prefix and that of the
terminator if the conversion stopped there; otherwise it is untainted. The end pointer is stored without
its label. This does not depend on the strictness flag. -/
theorem C56_strtol {α : Type} (cap : Nat) (started : Bool) (L : Labels) (hL : InUse cap started L)
    (m : Mem) (nptr endptr e : Nat) (v : α) (baseLabel : Nat) (hb : baseLabel < L.words.length)
    (hsh : ∀ i, i ≤ e → labelOf m (nptr + i) < L.words.length)
    (hn : 0x700000008000 ≤ nptr) (he : nptr + e < 0x800000000000)
    (hend : endptr = 0 ∨ (IsApp endptr ∧ endptr + 8 ≤ 0x800000000000))
    (hdis : nptr + e < endptr ∨ endptr + 8 ≤ nptr + e) :
    Gives cap (e + 1) L
      (fun b => 0 < e ∧ (Denotes L.graph baseLabel b ∨ ∃ i, (i < e ∨ i = e ∧ m (nptr + e) = 0) ∧
        Denotes L.graph (labelOf m (nptr + i)) b))
      (fun r => r.1 = v ∧ StoresEnd m endptr nptr e r.2)
      (strtolW started L m nptr endptr e v baseLabel) := by
  have hs := storeEnd_spec (m := m) (e := e) (nptr := nptr) hend (by omega)
  have hbyte : storeEnd m endptr nptr e (nptr + e) = m (nptr + e) := hs.other _ (by omega)
  have hlab : ∀ i, i ≤ e → labelOf (storeEnd m endptr nptr e) (nptr + i) = labelOf m (nptr + i) :=
    fun i hi => hs.labels _ ⟨by omega, by omega⟩
  unfold strtolW
  generalize storeEnd m endptr nptr e = m' at hs hbyte hlab
  have key : CombinesTo cap (e + 1) L
      (fun b => 0 < e ∧ (Denotes L.graph baseLabel b ∨ ∃ i, (i < e ∨ i = e ∧ m (nptr + e) = 0) ∧
        Denotes L.graph (labelOf m (nptr + i)) b))
      (strtolongLabel started L m' (labelOf m') nptr e baseLabel) := by
    unfold strtolongLabel
    by_cases he0 : 0 < e
    · rw [if_pos he0, hbyte]
      obtain ⟨hle1, hlook⟩ := convLen_spec (m := m) (nptr := nptr) e
      generalize e + (if m (nptr + e) ≠ 0 then 0 else 1) = k at hle1 hlook
      refine CombinesTo.mono (n := (k - 1) + 1) (CombinesTo.bind hL (hL.read (sh := labelOf m')
        (addr := nptr) (size := k) (fun i hi => ?_))
        (fun L1 u hL1 hle hold hu hd => (hL1.union (Nat.lt_of_lt_of_le hb hle) hu).congr
          (fun b => ?_))) (by omega)
      · rw [hlab i (by omega)]; exact hsh i (by omega)
      · rw [hold baseLabel b hb, hd]
        simp only [he0, true_and, ← hlook]
        constructor
        · rintro (h | ⟨i, hi, h⟩)
          · exact Or.inl h
          · rw [hlab i (by omega)] at h; exact Or.inr ⟨i, hi, h⟩
        · rintro (h | ⟨i, hi, h⟩)
          · exact Or.inl h
          · rw [← hlab i (by omega)] at h; exact Or.inr ⟨i, hi, h⟩
    · rw [if_neg he0]
      exact Or.inl ⟨L, 0, [], rfl, .nil _, hL.good.wf.nonempty,
        fun b => by simp [denotes_zero hL.good b, he0], by omega, .nil⟩
  exact key.gives (V := fun r : α × Mem => r.1 = v ∧ StoresEnd m endptr nptr e r.2) (v := (v, m'))
    ⟨rfl, hs⟩

/-- `strtod`. -/
theorem C56_strtod {α : Type} (cap : Nat) (started : Bool) (L : Labels) (hL : InUse cap started L)
    (m : Mem) (nptr endptr e : Nat) (v : α)
    (hsh : ∀ i, i ≤ e → labelOf m (nptr + i) < L.words.length)
    (hn : 0x700000008000 ≤ nptr) (he : nptr + e < 0x800000000000)
    (hend : endptr = 0 ∨ (IsApp endptr ∧ endptr + 8 ≤ 0x800000000000))
    (hdis : nptr + e < endptr ∨ endptr + 8 ≤ nptr + e) :
    Gives cap e L
      (fun b => 0 < e ∧ ∃ i, (i < e ∨ i = e ∧ m (nptr + e) = 0) ∧
        Denotes L.graph (labelOf m (nptr + i)) b)
      (fun r => r.1 = v ∧ StoresEnd m endptr nptr e r.2)
      (strtodW started L m nptr endptr e v) := by
  have hs := storeEnd_spec (m := m) (e := e) (nptr := nptr) hend (by omega)
  have hbyte : storeEnd m endptr nptr e (nptr + e) = m (nptr + e) := hs.other _ (by omega)
  have hlab : ∀ i, i ≤ e → labelOf (storeEnd m endptr nptr e) (nptr + i) = labelOf m (nptr + i) :=
    fun i hi => hs.labels _ ⟨by omega, by omega⟩
  unfold strtodW
  generalize storeEnd m endptr nptr e = m' at hs hbyte hlab
  have key : CombinesTo cap e L
      (fun b => 0 < e ∧ ∃ i, (i < e ∨ i = e ∧ m (nptr + e) = 0) ∧
        Denotes L.graph (labelOf m (nptr + i)) b)
      (strtodLabel started L m' (labelOf m') nptr e) := by
    unfold strtodLabel
    by_cases he0 : 0 < e
    · rw [if_pos he0, hbyte]
      obtain ⟨hle1, hlook⟩ := convLen_spec (m := m) (nptr := nptr) e
      generalize e + (if m (nptr + e) ≠ 0 then 0 else 1) = k at hle1 hlook
      refine ((hL.read (sh := labelOf m') (addr := nptr) (size := k) (fun i hi => ?_)).mono
        (by omega)).congr (fun b => ?_)
      · rw [hlab i (by omega)]; exact hsh i (by omega)
      · simp only [he0, true_and, ← hlook]
        constructor
        · rintro ⟨i, hi, h⟩
          rw [hlab i (by omega)] at h; exact ⟨i, hi, h⟩
        · rintro ⟨i, hi, h⟩
          rw [← hlab i (by omega)] at h; exact ⟨i, hi, h⟩
    · rw [if_neg he0]
      exact Or.inl ⟨L, 0, [], rfl, .nil _, hL.good.wf.nonempty,
        fun b => by simp [denotes_zero hL.good b, he0], by omega, .nil⟩
  exact key.gives (V := fun r : α × Mem => r.1 = v ∧ StoresEnd m endptr nptr e r.2) (v := (v, m'))
    ⟨rfl, hs⟩

/-- The pointer that a conversion stores through `endptr` keeps whatever label its cell had: converting
an untainted string with untainted arguments can leave a tainted end pointer behind. -/
theorem C56_endptr_refuted : ∃ (m : Mem) (nptr endptr : Nat), IsStr m nptr 2 ∧
    (∀ i, i ≤ 2 → labelOf m (nptr + i) = 0) ∧
    ∀ (started : Bool) (L : Labels) (v : Int), ∃ m', strtolW started L m nptr endptr 2 v 0 = .ok (L, 0, v, m') ∧
      m'.read64 endptr = nptr + 2 ∧ ∀ i, i < 8 → labelOf m' (endptr + i) = 5 := by
  let m : Mem := fun a => if a = 0x700000010000 then 52 else if a = 0x700000010001 then 50 else
    if 0x80000 ≤ a ∧ a < 0x80020 ∧ a % 4 = 0 then 5 else 0
  have hs := storeEnd_spec (m := m) (endptr := 0x700000020000) (nptr := 0x700000010000) (e := 2)
    (Or.inr ⟨⟨by omega, by omega⟩, by omega⟩) (by omega)
  have hz : ∀ i, i ≤ 2 → labelOf m (0x700000010000 + i) = 0 := by decide +kernel
  have h5 : ∀ i, i < 8 → labelOf m (0x700000020000 + i) = 5 := by decide +kernel
  refine ⟨m, 0x700000010000, 0x700000020000, ⟨by decide +kernel, by decide +kernel⟩, hz,
    fun started L v => ⟨storeEnd m 0x700000020000 0x700000010000 2, ?_, hs.stored (by omega),
      fun i hi => (hs.labels _ ⟨by omega, by omega⟩).trans (h5 i hi)⟩⟩
  unfold strtolW
  have hb := hs.other (0x700000010000 + 2) (by omega)
  have h0 := fun i (hi : i ≤ 2) => (hs.labels (0x700000010000 + i) ⟨by omega, by omega⟩).trans (hz i hi)
  generalize storeEnd m 0x700000020000 0x700000010000 2 = m' at hb h0
  have hm0 : m (0x700000010000 + 2) = 0 := by decide +kernel
  have e0 := h0 0 (by omega)
  have e1 := h0 1 (by omega)
  have e2 := h0 2 (by omega)
  rw [hm0] at hb
  have hl : strtolongLabel started L m' (labelOf m') 0x700000010000 2 0 = .ok (L, 0) := ?_
  · show (strtolongLabel started L m' (labelOf m') 0x700000010000 2 0 >>= fun p => .ok (p.1, p.2, v, m'))
      = _
    rw [hl]; rfl
  unfold strtolongLabel Dfsan.readLabel
  rw [hb]
  have hr : (List.range (2 + if (0 : Nat) ≠ 0 then 0 else 1)).map
      (fun i => labelOf m' (0x700000010000 + i)) = [0, 0, 0] := by
    simp only [ne_eq, not_true_eq_false, if_false]
    show [labelOf m' (0x700000010000 + 0), labelOf m' (0x700000010000 + 1),
      labelOf m' (0x700000010000 + 2)] = _
    rw [e0, e1, e2]
  rw [if_pos (by omega), if_neg (by decide), hr]
  rfl

/-! ### Examples -/

/-- Memory with the strings "key=1" at 100, "keg" at 200 and "=" at 300; the first one is tainted. -/
def exCmpMem : Mem := fun a =>
  if 100 ≤ a ∧ a < 105 then [107, 101, 121, 61, 49].getD (a - 100) 0
  else if 200 ≤ a ∧ a < 203 then [107, 101, 103].getD (a - 200) 0
  else if a = 300 then 61 else 0

def exCmpShadow : Shadow := fun a => if 100 ≤ a ∧ a < 105 then a - 99 else 0

theorem exCmp_inUse : InUse 64 true exStore :=
  ⟨by omega, by omega, ⟨_, exReach⟩, Or.inl rfl⟩

theorem exCmp_bytes : ∀ a, exCmpMem a < 256 := by
  intro a
  unfold exCmpMem
  split
  · rename_i h
    obtain ⟨i, rfl⟩ := Nat.exists_eq_add_of_le h.1
    rcases (by omega : i = 0 ∨ i = 1 ∨ i = 2 ∨ i = 3 ∨ i = 4) with rfl | rfl | rfl | rfl | rfl <;> decide
  · split
    · rename_i h
      obtain ⟨i, rfl⟩ := Nat.exists_eq_add_of_le h.1
      rcases (by omega : i = 0 ∨ i = 1 ∨ i = 2) with rfl | rfl | rfl <;> decide
    · split <;> omega

theorem exCmp_shadow : ∀ a, exCmpShadow a < exStore.words.length := by
  intro a
  have : exStore.words.length = 13 := by decide +kernel
  unfold exCmpShadow
  split <;> omega

/-- The hypotheses of the comparisons hold here: the strings differ at position 2. -/
example : InUse 64 true exStore ∧ (∀ a, exCmpMem a < 256) ∧
    (∀ a, exCmpShadow a < exStore.words.length) ∧
    ¬ StrLooks id (at' exCmpMem 100) (at' exCmpMem 200) none 3 ∧
    ¬ StrLooks lower (at' exCmpMem 100) (at' exCmpMem 200) none 3 := by
  refine ⟨exCmp_inUse, exCmp_bytes, exCmp_shadow, fun h => ?_, fun h => ?_⟩
  · exact absurd (h.2 2 (by omega)).1 (by decide)
  · exact absurd (h.2 2 (by omega)).1 (by decide)

/-- `strcmp` looks at three characters: positive result, label 13 for bytes 10, 11, 12 of source 3 --
untainted with strict data dependencies. -/
example : (∃ L, strcmpW false true exStore exCmpMem exCmpShadow 100 200 = .ok (L, 13, 18)) ∧
    (∃ L, strcmpW true true exStore exCmpMem exCmpShadow 100 200 = .ok (L, 0, 18)) := by
  refine ⟨⟨(Labels.endOf exStore [.union 7 3]), ?_⟩, ⟨exStore, ?_⟩⟩ <;> decide +kernel

/-- The strings needed by the searches. -/
example : IsStr exCmpMem 100 5 ∧ IsStr exCmpMem 200 3 ∧ IsStr exCmpMem 300 1 := by
  refine ⟨⟨by decide, by decide⟩, ⟨by decide, by decide⟩, ⟨by decide, by decide⟩⟩

/-- `strstr`, `strpbrk`, `strchr` and `strrchr` find "=" at position 3, `memchr` in five bytes. -/
example : StrStr (at' exCmpMem 100) 5 (at' exCmpMem 300) 1 (some 3) ∧
    (strstrW true true exStore exCmpMem exCmpShadow 100 300 4 0 = .ok (exStore, 4, some 3)) ∧
    (strpbrkW true true exStore exCmpMem exCmpShadow 100 300 4 0 = .ok (exStore, 4, some 3)) ∧
    (strchrW true true exStore exCmpMem exCmpShadow 100 61 4 0 = .ok (exStore, 4, some 3)) ∧
    (strrchrW true true exStore exCmpMem exCmpShadow 100 61 4 0 = .ok (exStore, 4, some 3)) ∧
    (memchrW true true exStore exCmpMem exCmpShadow 100 61 5 4 0 = .ok (exStore, 4, some 3)) := by
  refine ⟨⟨⟨by omega, by decide⟩, ?_⟩, by decide +kernel, by decide +kernel, by decide +kernel,
    by decide +kernel, by decide +kernel⟩
  intro j hj h
  have := h.2 0 (by omega)
  rcases (by omega : j = 0 ∨ j = 1 ∨ j = 2) with rfl | rfl | rfl <;> exact absurd this (by decide)

/-- A conversion meeting the hypotheses: two digits with labels 5 and 6, terminated, the end pointer
elsewhere. -/
example : ∃ (m : Mem) (nptr endptr : Nat), IsStr m nptr 2 ∧ IsApp endptr ∧
    endptr + 8 ≤ 0x800000000000 ∧ (nptr + 2 < endptr ∨ endptr + 8 ≤ nptr + 2) ∧
    0x700000008000 ≤ nptr ∧ labelOf m nptr = 5 ∧ labelOf m (nptr + 1) = 6 ∧
    ∀ i, i ≤ 2 → labelOf m (nptr + i) < exStore.words.length := by
  refine ⟨fun a => if a = 0x700000010000 then 52 else if a = 0x700000010001 then 50 else
    if a = 0x40000 then 5 else if a = 0x40004 then 6 else 0, 0x700000010000, 0x700000020000,
    ⟨by decide +kernel, by decide +kernel⟩, ⟨by omega, by omega⟩, by omega, by omega, by omega,
    by decide +kernel, by decide +kernel, by decide +kernel⟩

end Verif
