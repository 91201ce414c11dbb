import Verif.Layout
/- C16: sections of the trace file do not overlap. -/
namespace Verif
open Layout

theorem starts_length (p : Nat) (specs : List SecSpec) : (starts p specs).length = specs.length := by
  induction specs generalizing p with
  | nil => rfl
  | cons s rest ih => simp [starts, ih]

theorem starts_ge {specs : List SecSpec} : ∀ {p i b : Nat}, (starts p specs)[i]? = some b → p ≤ b := by
  induction specs with
  | nil => intro p i b h; simp [starts] at h
  | cons s rest ih =>
    intro p i b h
    cases i with
    | zero => simp [starts] at h; omega
    | succ i => have := ih (by simpa [starts] using h); omega

theorem starts_bounds {specs : List SecSpec} (ha : ∀ s ∈ specs, 0 < s.align) :
    ∀ {p i : Nat} {b : Nat} {s : SecSpec}, (starts p specs)[i]? = some b → specs[i]? = some s →
      b + s.alloc ≤ p + (specs.map (·.alloc)).sum + ((specs.map (·.align)).sum - specs.length) ∧
      specs.length ≤ (specs.map (·.align)).sum := by
  induction specs with
  | nil => intro p i b s h; simp [starts] at h
  | cons t rest ih =>
    intro p i b s h hs
    have ha' : ∀ s ∈ rest, 0 < s.align := fun s hs => ha s (by simp [hs])
    have hlen : ∀ l : List SecSpec, (∀ s ∈ l, 0 < s.align) → l.length ≤ (l.map (·.align)).sum := by
      intro l
      induction l with
      | nil => simp
      | cons x l ihl =>
        intro hl
        have := ihl (fun s hs => hl s (by simp [hs]))
        have := hl x (by simp)
        simp only [List.length_cons, List.map_cons, List.sum_cons]; omega
    have h0 := hlen rest ha'
    have h1 := ha t (by simp)
    have h2 := Nat.mod_lt p h1
    simp only [List.map_cons, List.sum_cons, List.length_cons]
    cases i with
    | zero =>
      simp only [starts, List.getElem?_cons_zero, Option.some.injEq] at h hs
      subst hs
      omega
    | succ i =>
      have := ih ha' (by simpa [starts] using h) (by simpa using hs)
      omega

theorem starts_disjoint {specs : List SecSpec} :
    ∀ {p i j b b' : Nat} {s : SecSpec}, i < j → (starts p specs)[i]? = some b → specs[i]? = some s →
      (starts p specs)[j]? = some b' → b + s.alloc ≤ b' := by
  induction specs with
  | nil => intro p i j b b' s _ h; simp [starts] at h
  | cons t rest ih =>
    intro p i j b b' s hij h hs h'
    obtain ⟨j, rfl⟩ : ∃ k, j = k + 1 := ⟨j - 1, by omega⟩
    cases i with
    | zero =>
      simp only [starts, List.getElem?_cons_zero, Option.some.injEq] at h hs
      subst hs h
      exact starts_ge (specs := rest) (by simpa [starts] using h')
    | succ i =>
      exact ih (i := i) (j := j) (by omega) (by simpa [starts] using h) (by simpa using hs)
        (by simpa [starts] using h')

/-- Any mapping address and any list of sections with positive alignments: the header (8 bytes
and 24 for each section) comes first, the sections follow one another without overlap, and everything lies within the computed size. -/
theorem C16_disjoint (base : Nat) (specs : List SecSpec) (ha : ∀ s ∈ specs, 0 < s.align)
    (i : Nat) (b : Nat) (s : SecSpec) (hb : (begins base specs)[i]? = some b)
    (hs : specs[i]? = some s) :
    base + (8 + 24 * specs.length) ≤ b ∧ b + s.alloc ≤ base + required specs ∧
    ∀ j b', i < j → (begins base specs)[j]? = some b' → b + s.alloc ≤ b' := by
  refine ⟨?_, ?_, fun j b' hij hj => starts_disjoint hij hb hs hj⟩
  · have := starts_ge hb
    unfold headerSize fileMetaSize sectionMetaSize at this
    omega
  · have := (starts_bounds ha hb hs).1
    unfold required
    omega

/-- Every section gets a start address. -/
theorem C16_all (base : Nat) (specs : List SecSpec) :
    (begins base specs).length = specs.length := starts_length _ _

/-- When is a section aligned? Exactly when the allocation pointer was aligned already or half-way:
the code adds the misalignment instead of completing it. -/
theorem C16_aligned_iff (p k : Nat) :
    (p + p % 2 ^ (k + 1)) % 2 ^ (k + 1) = 0 ↔
      (p % 2 ^ (k + 1) = 0 ∨ p % 2 ^ (k + 1) = 2 ^ k) := by
  have hpos : 0 < 2 ^ k := Nat.two_pow_pos k
  have h2 : 2 ^ (k + 1) = 2 * 2 ^ k := by rw [Nat.pow_succ]; omega
  rw [Nat.add_mod, Nat.mod_mod, h2]
  have hlt := Nat.mod_lt p (show 0 < 2 * 2 ^ k by omega)
  generalize p % (2 * 2 ^ k) = r at *
  generalize 2 ^ k = a at *
  rcases Nat.lt_or_ge (r + r) (2 * a) with h | h
  · rw [Nat.mod_eq_of_lt h]; omega
  · rw [Nat.mod_eq_sub_mod h, Nat.mod_eq_of_lt (by omega)]; omega

/-- The general claim is false: with a one-byte section first, the next section (four-byte
alignment) starts at a misaligned address, in a file mapped at a page boundary. -/
theorem C16_aligned_refuted :
    ∃ b, (begins 4096 [{ tag := 1, align := 1, alloc := 1 }, { tag := 2, align := 4, alloc := 4 }])[1]?
      = some b ∧ b % 4 ≠ 0 := ⟨_, rfl, by decide⟩

theorem starts_aligned {specs : List SecSpec} :
    ∀ {p : Nat}, (∀ s ∈ specs, p % s.align = 0) →
    (specs.Pairwise fun s t => s.alloc % t.align = 0) →
    ∀ (i b : Nat) (s : SecSpec), (starts p specs)[i]? = some b → specs[i]? = some s →
      b % s.align = 0 := by
  induction specs with
  | nil => intro p _ _ i b s h; simp [starts] at h
  | cons t rest ih =>
    intro p hp hpw i b s h hs
    rw [List.pairwise_cons] at hpw
    have ht := hp t (by simp)
    cases i with
    | zero =>
      simp only [starts, List.getElem?_cons_zero, Option.some.injEq] at h hs
      subst hs h
      rw [ht, Nat.add_zero, ht]
    | succ i =>
      refine ih ?_ hpw.2 i b s (by simpa [starts] using h) (by simpa using hs)
      intro s hs
      rw [ht, Nat.add_zero, Nat.add_mod, hp s (by simp [hs]), hpw.1 s hs]; simp

/-- Partial alignment guarantee (missing: section lists whose sizes leave the allocation pointer at
an offset other than zero or half the next alignment, for which the claim is false): if mapping
address and header size are multiples of all alignments and every section's size is a multiple of
the alignments of the sections after it, all sections are aligned. -/
theorem C16_aligned_partial (base : Nat) (specs : List SecSpec)
    (hbase : ∀ s ∈ specs, base % s.align = 0) (hh : ∀ s ∈ specs, headerSize specs % s.align = 0)
    (hpw : specs.Pairwise fun s t => s.alloc % t.align = 0)
    (i b : Nat) (s : SecSpec) (hb : (begins base specs)[i]? = some b) (hs : specs[i]? = some s) :
    b % s.align = 0 := by
  refine starts_aligned (fun s hs => ?_) hpw i b s hb hs
  rw [Nat.add_mod, hbase s hs, hh s hs]; simp

/-- The shipped configuration: at every page-aligned mapping address, all eight sections are
aligned, disjoint and inside the file. -/
theorem C16_shipped (base : Nat) (hbase : base % 4096 = 0) (i b : Nat) (s : SecSpec)
    (hb : (begins base shipped)[i]? = some b) (hs : shipped[i]? = some s) :
    b % s.align = 0 ∧ base + 200 ≤ b ∧ b + s.alloc ≤ base + required shipped ∧
    ∀ j b', i < j → (begins base shipped)[j]? = some b' → b + s.alloc ≤ b' := by
  have hal : ∀ s ∈ shipped, s.align ∈ [1, 2, 4, 8] := by decide
  refine ⟨?_, C16_disjoint base shipped (by decide) i b s hb hs⟩
  refine C16_aligned_partial base shipped (fun s hs => ?_) (by decide) (by decide) i b s hb hs
  have := hal s hs
  simp only [List.mem_cons, List.not_mem_nil, or_false] at this
  rcases this with h | h | h | h <;> rw [h] <;> omega

/-- Offsets of the shipped sections in the file. -/
example : begins 0 shipped = [200, 4280, 17179873464, 17180922040, 17197699256, 17466134712,
    17466396852, 34646266032] ∧ required shipped = 35720007889 := by decide

example : (specs : List SecSpec) → specs = [{ tag := 1, align := 1, alloc := 3 },
    { tag := 2, align := 2, alloc := 4 }] → begins 4096 specs = [4152, 4156] := by
  rintro _ rfl; decide

end Verif
