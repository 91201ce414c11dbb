import Verif.ShadowMemLemmas
import Verif.Spec.Labels
/- C36: setting labels changes exactly the addressed shadow cells. -/
namespace Verif
open DfsanMem

attribute [local irreducible] shadowFor

/-- Distinct application bytes have disjoint shadow cells. -/
theorem C36_own_cell {a b : Nat} (ha : Spec.IsApp a) (hb : Spec.IsApp b) (h : a ≠ b) :
    shadowFor a + 4 ≤ shadowFor b ∨ shadowFor b + 4 ≤ shadowFor a := by
  obtain ⟨a1, a2⟩ := ha
  obtain ⟨b1, b2⟩ := hb
  have e1 := shadow_sum (by omega) (show a < 2 ^ 47 by omega)
  have e2 := shadow_sum (by omega) (show b < 2 ^ 47 by omega)
  omega

example : shadowFor 0x7ffffffde004 = 0x3ffffff78010 ∧ shadowFor 0x7ffffffde005 = 0x3ffffff78014 := by
  unfold shadowFor; decide

/-- Shadow cells lie in the region the runtime maps for them (dfsan.cpp 969-972) and outside
application memory. -/
theorem C36_outside {a : Nat} (ha : Spec.IsApp a) :
    0x10000 ≤ shadowFor a ∧ shadowFor a + 4 ≤ 0x400000000000 ∧
      ∀ b, Spec.IsApp b → shadowFor a + 4 ≤ b := by
  obtain ⟨a1, a2⟩ := ha
  have e1 := shadow_sum (by omega) (show a < 2 ^ 47 by omega)
  refine ⟨by omega, by omega, fun b hb => ?_⟩
  have := hb.1
  omega

example : Spec.IsApp 0x7ffffffde004 := by unfold Spec.IsApp; decide

/-- Instrumented code and the runtime use the same shadow address. -/
theorem C36_pass (a : Nat) : passShadow a = shadowFor a := by
  unfold passShadow shadowFor
  rw [Nat.shiftLeft_eq]
  rfl

/-- Setting the label of a range gives every byte of the range that label, and changes no other label
and no other byte of memory. The page size is any power of two up to 2^40. -/
theorem C36_set {k l a n : Nat} (m : Mem) (hk : k ≤ 40) (hl : l < 2 ^ 32)
    (ha : 0x700000008000 ≤ a) (hn : a + n < 0x800000000000) :
    ∃ m', setLabel (2 ^ k) m l a n = .ok m' ∧
      (∀ b, Spec.IsApp b → labelOf m' b = Spec.fill (labelOf m) a n l b) ∧
      (∀ x, (∀ b, a ≤ b → b < a + n → x < shadowFor b ∨ shadowFor b + 4 ≤ x) → m' x = m x) := by
  obtain ⟨m', h1, h2, h3⟩ := setLabel_app (m := m) hk hl (show 0x700000000000 ≤ a by omega)
    (show a + n < 2 ^ 47 by omega)
  have ea := shadow_sum (show 0x700000000000 ≤ a by omega) (by omega)
  refine ⟨m', h1, ?_, ?_⟩
  · rintro b ⟨b1, b2⟩
    have eb := shadow_sum (show 0x700000000000 ≤ b by omega) (by omega)
    unfold labelOf Spec.fill
    by_cases h : a ≤ b ∧ b < a + n
    · rw [if_pos h, show shadowFor b = shadowFor a + 4 * (b - a) by omega]
      exact h2 _ (by omega)
    · rw [if_neg h]
      exact read32_congr (fun x hx1 hx2 => h3 x (by omega))
  · intro x hx
    apply h3
    by_cases c : x < shadowFor a ∨ shadowFor a + 4 * n ≤ x
    · exact c
    · exfalso
      have hb1 : a ≤ a + (x - shadowFor a) / 4 := by omega
      have hb2 : a + (x - shadowFor a) / 4 < a + n := by omega
      have eb := shadow_sum (show 0x700000000000 ≤ a + (x - shadowFor a) / 4 by omega) (by omega)
      have := hx _ hb1 hb2
      omega

/-- Application data is never changed by setting labels. -/
theorem C36_data {k l a n : Nat} (m m' : Mem) (hk : k ≤ 40) (hl : l < 2 ^ 32)
    (ha : 0x700000008000 ≤ a) (hn : a + n < 0x800000000000)
    (h : setLabel (2 ^ k) m l a n = .ok m') : ∀ b, Spec.IsApp b → m' b = m b := by
  obtain ⟨m'', h1, -, h3⟩ := C36_set m hk hl ha hn
  rw [h, Res.ok.injEq] at h1
  subst h1
  intro b hb
  apply h3
  intro c h1 h2
  have hc : Spec.IsApp c := ⟨by omega, by omega⟩
  exact .inr ((C36_outside hc).2.2 b hb)

/-- Any sequence of label-setting calls. -/
def runSets (page : Nat) : List (Nat × Nat × Nat) → Mem → Res Mem
  | [], m => .ok m
  | (l, a, n) :: rest, m => do
    let m ← setLabel page m l a n
    runSets page rest m

/-- After any sequence of label-setting calls every byte carries the label of the last call that
covered it, or its initial label. -/
theorem C36_sequence {k : Nat} (hk : k ≤ 40) : ∀ (ops : List (Nat × Nat × Nat)) (m : Mem),
    (∀ l a n, (l, a, n) ∈ ops → l < 2 ^ 32 ∧ 0x700000008000 ≤ a ∧ a + n < 0x800000000000) →
    ∃ m', runSets (2 ^ k) ops m = .ok m' ∧
      (∀ b, Spec.IsApp b → labelOf m' b =
        ops.foldl (fun f op => Spec.fill f op.2.1 op.2.2 op.1) (labelOf m) b) ∧
      (∀ b, Spec.IsApp b → m' b = m b) := by
  have key : ∀ (ops : List (Nat × Nat × Nat)) (f g : Nat → Nat) (b : Nat), f b = g b →
      ops.foldl (fun f op => Spec.fill f op.2.1 op.2.2 op.1) f b =
      ops.foldl (fun f op => Spec.fill f op.2.1 op.2.2 op.1) g b := by
    intro ops
    induction ops with
    | nil => intro f g b h; exact h
    | cons op rest ih =>
      intro f g b h
      simp only [List.foldl_cons]
      apply ih
      unfold Spec.fill
      split
      · rfl
      · exact h
  intro ops
  induction ops with
  | nil => intro m _; exact ⟨m, rfl, fun _ _ => rfl, fun _ _ => rfl⟩
  | cons op rest ih =>
    obtain ⟨l, a, n⟩ := op
    intro m hops
    obtain ⟨hl, ha, hn⟩ := hops l a n (by simp)
    obtain ⟨m1, e1, l1, -⟩ := C36_set m hk hl ha hn
    have d1 := C36_data m m1 hk hl ha hn e1
    obtain ⟨m2, e2, l2, d2⟩ := ih m1 (fun l a n h => hops l a n (by simp [h]))
    refine ⟨m2, ?_, ?_, ?_⟩
    · simp only [runSets, e1, Res.bind_ok, e2]
    · intro b hb
      rw [l2 b hb]
      simp only [List.foldl_cons]
      exact key rest _ _ b (l1 b hb)
    · intro b hb
      rw [d2 b hb, d1 b hb]

/-- A range that crosses shadow pages: 40000 bytes, 160000 bytes of shadow. -/
example : (0x700000008000 : Nat) ≤ 0x700000008123 ∧ 0x700000008123 + 40000 < 0x800000000000 ∧
    roundUpTo (shadowFor 0x700000008123) 4096 + 8 * 4096 <
      roundDownTo (shadowFor (0x700000008123 + 40000)) 4096 := by
  unfold shadowFor; decide

/-- The bound on the end of the range is needed: a range that ends at 2^47 has a wrapped end of its
shadow, and clearing its labels also wipes application memory. (Linux maps nothing in the last page
below 2^47, so no program reaches this.) -/
theorem C36_top_boundary :
    ∃ (m m' : Mem) (a n b : Nat), a + n = 0x800000000000 ∧ Spec.IsApp a ∧ Spec.IsApp b ∧
      setLabel 4096 m 0 a n = .ok m' ∧ m b = 1 ∧ m' b = 0 := by
  have e1 : shadowFor 0x7ffffffff000 = 0x3fffffffc000 := by unfold shadowFor; decide
  have e2 : shadowFor ((0x7ffffffff000 + 4096) % 2 ^ 64) = 0x2000000000000 := by
    unfold shadowFor; decide
  refine ⟨fun _ => 1, fun x => if 0x3fffffffc000 ≤ x ∧ x < 0x2000000000000 then 0 else 1,
    0x7ffffffff000, 4096, 0x700000008000, by decide, by unfold Spec.IsApp; decide,
    by unfold Spec.IsApp; decide, ?_, rfl, by decide⟩
  unfold setLabel
  rw [e1, e2]
  have r1 : roundUpTo 0x3fffffffc000 4096 = 0x3fffffffc000 := by decide
  have r2 : roundDownTo 0x2000000000000 4096 = 0x2000000000000 := by decide
  simp only [r1, r2]
  rw [if_neg (by decide), if_neg (by decide)]
  have c : ∀ (m : Mem) (a : Nat), a + 8 < 2 ^ 64 → clearShadow m a 0 = .ok m := by
    intro m a ha
    obtain ⟨m', h1, h2⟩ := clearShadow_spec (m := m) (a := a) (n := 0) ha (by decide)
    rw [h1]
    congr 1
    funext x
    rw [h2, if_neg (by omega)]
  rw [c _ _ (by decide)]
  simp only [Res.bind_ok]
  rw [c _ _ (by decide)]
  simp only [releasePages, r1, r2]
  rw [if_pos (by decide)]

/-- With origin tracking switched on (it is off by default) the layout does not work: the shadow cell
of one application byte is the origin cell of another. -/
theorem C36_origin_overlap :
    ∃ a b, Spec.IsApp a ∧ Spec.IsApp b ∧ shadowFor a = originFor b ∧
      isShadowAddrValid (shadowFor a) = false := by
  refine ⟨0x7a0000000000, 0x780000000000, by unfold Spec.IsApp; decide,
    by unfold Spec.IsApp; decide, ?_, ?_⟩ <;> unfold shadowFor <;> decide

end Verif
