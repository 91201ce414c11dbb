import Verif.ShadowMemLemmas
import Verif.Spec.Labels
/-
Copying application memory together with its shadow.
-/
namespace Verif
namespace DfsanMem

open Mem

attribute [local irreducible] shadowFor

/-- Copying the shadow cells of a range moves the labels and keeps application data. -/
theorem copy_shadow {m m' : Mem} {d s n : Nat} (hd : 0x700000008000 ≤ d) (hs : 0x700000008000 ≤ s)
    (hdn : d + n ≤ 0x800000000000) (hsn : s + n ≤ 0x800000000000)
    (h : ∀ x, m' x = if shadowFor d ≤ x ∧ x < shadowFor d + 4 * n then
      m (shadowFor s + (x - shadowFor d)) else m x) :
    (∀ b, Spec.IsApp b → labelOf m' b = Spec.copy (labelOf m) d s n b) ∧
      (∀ b, Spec.IsApp b → m' b = m b) := by
  rcases Nat.eq_zero_or_pos n with h0 | hn
  · subst h0
    have hm : ∀ x, m' x = m x := fun x => by rw [h, if_neg (by omega)]
    have : m' = m := funext hm
    subst this
    refine ⟨fun b _ => ?_, fun _ _ => rfl⟩
    unfold Spec.copy
    rw [if_neg (by omega)]
  · have ed := shadow_sum (show 0x700000000000 ≤ d by omega) (by omega)
    have es := shadow_sum (show 0x700000000000 ≤ s by omega) (by omega)
    constructor
    · rintro b ⟨b1, b2⟩
      have eb := shadow_sum (show 0x700000000000 ≤ b by omega) (by omega)
      unfold labelOf Spec.copy
      by_cases hb : d ≤ b ∧ b < d + n
      · rw [if_pos hb]
        have ec := shadow_sum (show 0x700000000000 ≤ s + (b - d) by omega) (by omega)
        apply read32_shift
        intro i hi
        rw [h, if_pos (by omega)]
        congr 1
        omega
      · rw [if_neg hb]
        apply read32_congr
        intro x h1 h2
        rw [h, if_neg (by omega)]
    · rintro b ⟨b1, b2⟩
      rw [h, if_neg (by omega)]

/-- Copying application data does not touch labels. -/
theorem copy_data {m m' : Mem} {d s n : Nat} (hd : 0x700000008000 ≤ d)
    (h : ∀ x, m' x = if d ≤ x ∧ x < d + n then m (s + (x - d)) else m x) :
    (∀ b, Spec.IsApp b → labelOf m' b = labelOf m b) ∧ (∀ b, m' b = Spec.copy m d s n b) := by
  constructor
  · rintro b ⟨b1, b2⟩
    have eb := shadow_sum (show 0x700000000000 ≤ b by omega) (by omega)
    apply read32_congr
    intro x h1 h2
    rw [h, if_neg (by omega)]
  · intro b
    rw [h]
    rfl

theorem dfsanMemcpy_spec {m : Mem} {d s n : Nat} (hd : 0x700000008000 ≤ d) (hs : 0x700000008000 ≤ s)
    (hdn : d + n ≤ 0x800000000000) (hsn : s + n ≤ 0x800000000000) (hdis : d + n ≤ s ∨ s + n ≤ d) :
    (∀ b, Spec.IsApp b → dfsanMemcpy m d s n b = Spec.copy m d s n b) ∧
      (∀ b, Spec.IsApp b → labelOf (dfsanMemcpy m d s n) b = Spec.copy (labelOf m) d s n b) := by
  unfold dfsanMemcpy
  have hmod : n * 4 % 2 ^ 64 = 4 * n := by omega
  rw [hmod]
  rcases Nat.eq_zero_or_pos n with h0 | hn
  · subst h0
    simp only [memcpy, copyUp, Spec.copy]
    exact ⟨fun b _ => by rw [if_neg (by omega)], fun b _ => by rw [if_neg (by omega)]⟩
  · have ed := shadow_sum (show 0x700000000000 ≤ d by omega) (by omega)
    have es := shadow_sum (show 0x700000000000 ≤ s by omega) (by omega)
    obtain ⟨k1, k2⟩ := copy_shadow (m := m) hd hs hdn hsn
      (fun x => memcpy_eq m (d := shadowFor d) (s := shadowFor s) (n := 4 * n) (by omega) x)
    obtain ⟨j1, j2⟩ := copy_data (m := memcpy m (shadowFor d) (shadowFor s) (4 * n)) (s := s) (n := n) hd
      (fun x => memcpy_eq _ hdis x)
    constructor
    · intro b hb
      rw [j2]
      unfold Spec.copy
      split
      · rename_i hc
        exact k2 _ ⟨by omega, by omega⟩
      · exact k2 _ hb
    · intro b hb
      rw [j1 b hb, k1 b hb]

theorem memmove_both {m : Mem} {d s n : Nat} (hd : 0x700000008000 ≤ d) (hs : 0x700000008000 ≤ s)
    (hdn : d + n ≤ 0x800000000000) (hsn : s + n ≤ 0x800000000000) :
    ∃ m', dfsanMemmove m d s n = .ok m' ∧
      (∀ b, Spec.IsApp b → m' b = Spec.copy m d s n b) ∧
      (∀ b, Spec.IsApp b → labelOf m' b = Spec.copy (labelOf m) d s n b) := by
  unfold dfsanMemmove
  have hmod : n * 4 % 2 ^ 64 = 4 * n := by omega
  rw [hmod]
  obtain ⟨m1, e1, s1⟩ := memmove_eq m (d := shadowFor d) (s := shadowFor s) (n := 4 * n) (by omega)
  obtain ⟨m2, e2, s2⟩ := memmove_eq m1 (d := d) (s := s) (n := n) (by omega)
  obtain ⟨k1, k2⟩ := copy_shadow hd hs hdn hsn s1
  obtain ⟨j1, j2⟩ := copy_data hd s2
  refine ⟨m2, by rw [e1]; exact e2, ?_, ?_⟩
  · intro b hb
    rw [j2]
    unfold Spec.copy
    split
    · exact k2 _ ⟨by omega, by omega⟩
    · exact k2 _ hb
  · intro b hb
    rw [j1 b hb, k1 b hb]

/-- Label-setting in terms of labels and application data. -/
theorem setLabel_app' {k l a n : Nat} (m : Mem) (hk : k ≤ 40) (hl : l < 2 ^ 32)
    (ha : 0x700000008000 ≤ a) (hn : a + n < 0x800000000000) :
    ∃ m', setLabel (2 ^ k) m l a n = .ok m' ∧
      (∀ b, Spec.IsApp b → labelOf m' b = Spec.fill (labelOf m) a n l b) ∧
      (∀ b, Spec.IsApp b → m' b = m b) := by
  obtain ⟨m', h1, h2, h3⟩ := setLabel_app (m := m) hk hl (show 0x700000000000 ≤ a by omega)
    (show a + n < 2 ^ 47 by omega)
  have ea := shadow_sum (show 0x700000000000 ≤ a by omega) (by omega)
  refine ⟨m', h1, ?_, ?_⟩
  · rintro b ⟨b1, b2⟩
    have eb := shadow_sum (show 0x700000000000 ≤ b by omega) (by omega)
    unfold labelOf Spec.fill
    by_cases h : a ≤ b ∧ b < a + n
    · rw [if_pos h, show shadowFor b = shadowFor a + 4 * (b - a) by omega]
      exact h2 _ (by omega)
    · rw [if_neg h]
      exact read32_congr (fun x hx1 hx2 => h3 x (by omega))
  · rintro b ⟨b1, b2⟩
    exact h3 b (by omega)

theorem strlen_str {m : Mem} {s len : Nat} (h : Spec.IsStr m s len) (hl : len < 2 ^ 64) :
    strlen m s = .ok len := strlen_eq m s len h.nul h.nonzero hl

theorem strlenLoop_hang (m : Mem) (s : Nat) (h : ∀ i, m (s + i) ≠ 0) :
    ∀ fuel i, strlenLoop m s fuel i = .hang := by
  intro fuel
  induction fuel with
  | zero => intro i; rfl
  | succ n ih => intro i; simp only [strlenLoop]; rw [if_neg (h i)]; exact ih _

end DfsanMem
end Verif
