import Verif.Spec.Graph
/- Helper lemmas about `Spec.Denotes`, `Spec.BuiltFrom`. -/
namespace Verif
open Spec

/-- Meaning of a taint value given a meaning of labels. -/
def DenT (D : Nat → Nat × Nat → Prop) : Taint → Nat × Nat → Prop
  | .source _ i o, b => b = (i, o)
  | .range _ f t, b => ∃ k, f ≤ k ∧ k ≤ t ∧ D k b
  | .union _ lo hi, b => D lo b ∨ D hi b

theorem denotes_iff {g : Graph} {l : Nat} {t : Taint} (h : g l = some t) (b : Nat × Nat) :
    Denotes g l b ↔ DenT (Denotes g) t b := by
  constructor
  · intro hd
    cases hd with
    | source h' => rw [h] at h'; cases h'; rfl
    | range h' h1 h2 h3 => rw [h] at h'; cases h'; exact ⟨_, h1, h2, h3⟩
    | lower h' h1 => rw [h] at h'; cases h'; exact Or.inl h1
    | higher h' h1 => rw [h] at h'; cases h'; exact Or.inr h1
  · intro hd
    cases t with
    | source cf i o => cases hd; exact .source h
    | range cf f t => obtain ⟨k, h1, h2, h3⟩ := hd; exact .range h h1 h2 h3
    | union cf lo hi =>
      rcases hd with h1 | h1
      · exact .lower h h1
      · exact .higher h h1

theorem denotes_none {g : Graph} {l : Nat} (h : g l = none) (b : Nat × Nat) : ¬ Denotes g l b := by
  intro hd
  cases hd <;> simp_all

theorem DenT_withFlag (D : Nat → Nat × Nat → Prop) (b : Bool) (t : Taint) (x : Nat × Nat) :
    DenT D (withFlag b t) x ↔ DenT D t x := by cases t <;> rfl

theorem Ref_withFlag (b : Bool) (t : Taint) (k : Nat) : Ref (withFlag b t) k ↔ Ref t k := by
  cases t <;> rfl

theorem withFlag_eq_cases {t u : Taint} (h : withFlag false t = withFlag false u) :
    u = withFlag (flagOf u) t := by
  cases t <;> cases u <;> simp_all [withFlag, flagOf]

theorem DenT_congr_flag (D : Nat → Nat × Nat → Prop) {t u : Taint}
    (h : withFlag false t = withFlag false u) (x : Nat × Nat) : DenT D t x ↔ DenT D u x := by
  rw [← DenT_withFlag D false t, h, DenT_withFlag]

theorem Ref_congr_flag {t u : Taint}
    (h : withFlag false t = withFlag false u) (k : Nat) : Ref t k ↔ Ref u k := by
  rw [← Ref_withFlag false t, h, Ref_withFlag]

theorem LegalTaint_withFlag (b : Bool) (t : Taint) : LegalTaint (withFlag b t) ↔ LegalTaint t := by
  cases t <;> rfl

theorem DenT_mono {D E : Nat → Nat × Nat → Prop} {t : Taint} {b : Nat × Nat}
    (h : ∀ k, Ref t k → (D k b ↔ E k b)) : DenT D t b ↔ DenT E t b := by
  cases t with
  | source => exact Iff.rfl
  | range cf f t =>
    constructor
    · rintro ⟨k, h1, h2, h3⟩; exact ⟨k, h1, h2, (h k ⟨h1, h2⟩).1 h3⟩
    · rintro ⟨k, h1, h2, h3⟩; exact ⟨k, h1, h2, (h k ⟨h1, h2⟩).2 h3⟩
  | union cf lo hi =>
    exact or_congr (h lo (Or.inl rfl)) (h hi (Or.inr rfl))

theorem sameTaint_some {g h : Graph} {l : Nat} {t : Taint} (hs : SameTaint g h l)
    (hg : g l = some t) : ∃ u, h l = some u ∧ withFlag false t = withFlag false u := by
  unfold SameTaint at hs
  rw [hg] at hs
  cases hh : h l with
  | none => rw [hh] at hs; simp at hs
  | some u => rw [hh] at hs; simp at hs; exact ⟨u, rfl, hs⟩

/-- Graphs that agree (up to flags) below `n` give labels below `n` the same meaning. -/
theorem denotes_congr {g h : Graph} {n : Nat}
    (hwf : ∀ l, l < n → ∀ t, g l = some t → ∀ k, Ref t k → k < l)
    (hs : ∀ l, l < n → SameTaint g h l) :
    ∀ l, l < n → ∀ b, Denotes g l b ↔ Denotes h l b := by
  intro l
  induction l using Nat.strongRecOn with
  | _ l ih =>
    intro hl b
    cases hg : g l with
    | none =>
      have hh : h l = none := by
        have := hs l hl
        unfold SameTaint at this
        rw [hg] at this
        cases hh : h l with
        | none => rfl
        | some u => rw [hh] at this; simp at this
      exact ⟨fun hd => absurd hd (denotes_none hg b), fun hd => absurd hd (denotes_none hh b)⟩
    | some t =>
      obtain ⟨u, hu, hf⟩ := sameTaint_some (hs l hl) hg
      rw [denotes_iff hg, denotes_iff hu, ← DenT_congr_flag _ hf]
      apply DenT_mono
      intro k hk
      have := hwf l hl t hg k hk
      exact ih k this (by omega) b

theorem builtFrom_congr {g h : Graph} {n : Nat}
    (hwf : ∀ l, l < n → ∀ t, g l = some t → ∀ k, Ref t k → k < l)
    (hs : ∀ l, l < n → SameTaint g h l) :
    ∀ l k, l < n → BuiltFrom g l k → BuiltFrom h l k := by
  intro l k hl hb
  induction hb with
  | refl => exact .refl _
  | @step l t m k hg hr _ ih =>
    obtain ⟨u, hu, hf⟩ := sameTaint_some (hs l hl) hg
    have := hwf l hl t hg m hr
    exact .step hu ((Ref_congr_flag hf m).1 hr) (ih (by omega))

theorem sameTaint_symm {g h : Graph} {l : Nat} (hs : SameTaint g h l) : SameTaint h g l :=
  Eq.symm hs
theorem sameTaint_trans {g h k : Graph} {l : Nat} (h1 : SameTaint g h l) (h2 : SameTaint h k l) :
    SameTaint g k l := Eq.trans h1 h2
theorem sameTaint_refl (g : Graph) (l : Nat) : SameTaint g g l := rfl

theorem builtFrom_trans {g : Graph} {a b c : Nat} (h1 : BuiltFrom g a b) (h2 : BuiltFrom g b c) :
    BuiltFrom g a c := by
  induction h1 with
  | refl => exact h2
  | step hg hr _ ih => exact .step hg hr (ih h2)

theorem builtFrom_single {g : Graph} {a b : Nat} {t : Taint} (h : g a = some t) (hr : Ref t b) :
    BuiltFrom g a b := .step h hr (.refl b)

end Verif
