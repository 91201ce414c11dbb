import Verif.PyFile
import Verif.Spec.Utf8
/- The reader's UTF-8 test accepts exactly the encodings of texts. -/
namespace Verif
namespace Py
open Spec

theorem utf8_encode {c : Nat} (hc : Scalar c) (r : List Nat) : utf8 (encodeChar c ++ r) = utf8 r := by
  obtain ⟨h1, h2⟩ := hc
  unfold encodeChar
  split
  · simp only [List.singleton_append]
    rw [utf8.eq_def]
    simp only [*, if_true]
  · split
    · simp only [List.cons_append, List.nil_append]
      rw [utf8.eq_def]
      have a1 : ¬ 0xC0 + c / 64 < 0x80 := by omega
      have a2 : 0xC2 ≤ 0xC0 + c / 64 ∧ 0xC0 + c / 64 ≤ 0xDF := by omega
      have a3 : cont (0x80 + c % 64) = true := by simp [cont]; omega
      simp only [a1, a2, a3, if_false, and_self, if_true, Bool.true_and]
    · split
      · simp only [List.cons_append, List.nil_append]
        rw [utf8.eq_def]
        have a1 : ¬ 0xE0 + c / 4096 < 0x80 := by omega
        have a2 : ¬ (0xC2 ≤ 0xE0 + c / 4096 ∧ 0xE0 + c / 4096 ≤ 0xDF) := by omega
        have a3 : cont (0x80 + c % 64) = true := by simp [cont]; omega
        have a4 : cont (0x80 + c / 64 % 64) = true := by simp [cont]; omega
        simp only [a1, a2, a3, if_false, Bool.and_true]
        split
        · rw [decide_eq_true (by omega), Bool.true_and]
        · split
          · rw [decide_eq_true (by omega), Bool.true_and]
          · rw [if_pos (by omega), a4, Bool.true_and]
      · simp only [List.cons_append, List.nil_append]
        rw [utf8.eq_def]
        have a1 : ¬ 0xF0 + c / 262144 < 0x80 := by omega
        have a2 : ¬ (0xC2 ≤ 0xF0 + c / 262144 ∧ 0xF0 + c / 262144 ≤ 0xDF) := by omega
        have b1 : ¬ (0xF0 + c / 262144 = 0xE0) := by omega
        have b2 : ¬ (0xF0 + c / 262144 = 0xED) := by omega
        have b3 : ¬ (0xE1 ≤ 0xF0 + c / 262144 ∧ 0xF0 + c / 262144 ≤ 0xEF) := by omega
        have a3 : cont (0x80 + c % 64) = true := by simp [cont]; omega
        have a4 : cont (0x80 + c / 64 % 64) = true := by simp [cont]; omega
        have a5 : cont (0x80 + c / 4096 % 64) = true := by simp [cont]; omega
        simp only [a1, a2, a3, a4, b1, b2, b3, if_false, Bool.and_true]
        split
        · rw [decide_eq_true (by omega), Bool.true_and]
        · split
          · rw [a5, Bool.true_and]
          · rw [if_pos (by omega), decide_eq_true (by omega), Bool.true_and]

theorem cont_iff {b : Nat} : cont b = true ↔ 0x80 ≤ b ∧ b ≤ 0xBF := by simp [cont]

theorem isUtf8_cons {c : Nat} (hc : Scalar c) {r : List Nat} (h : IsUtf8 r) :
    IsUtf8 (encodeChar c ++ r) := by
  obtain ⟨cs, h1, h2⟩ := h
  refine ⟨c :: cs, ?_, by simp [h2]⟩
  intro x hx
  rcases List.mem_cons.1 hx with rfl | hx
  · exact hc
  · exact h1 x hx

theorem isUtf8_2 {a b : Nat} {r : List Nat} (ha : 0xC2 ≤ a ∧ a ≤ 0xDF) (hb : 0x80 ≤ b ∧ b ≤ 0xBF)
    (h : IsUtf8 r) : IsUtf8 (a :: b :: r) := by
  have e : encodeChar ((a - 0xC0) * 64 + (b - 0x80)) = [a, b] := by
    unfold encodeChar
    rw [if_neg (by omega), if_pos (by omega)]
    simp only [List.cons.injEq, and_true]
    omega
  have := isUtf8_cons (c := (a - 0xC0) * 64 + (b - 0x80)) ⟨by omega, by omega⟩ h
  rwa [e] at this

theorem isUtf8_3 {a b c : Nat} {r : List Nat} (ha : 0xE0 ≤ a ∧ a ≤ 0xEF) (hb : 0x80 ≤ b ∧ b ≤ 0xBF)
    (hc : 0x80 ≤ c ∧ c ≤ 0xBF) (h1 : a = 0xE0 → 0xA0 ≤ b) (h2 : a = 0xED → b ≤ 0x9F)
    (h : IsUtf8 r) : IsUtf8 (a :: b :: c :: r) := by
  have e : encodeChar ((a - 0xE0) * 4096 + (b - 0x80) * 64 + (c - 0x80)) = [a, b, c] := by
    unfold encodeChar
    rw [if_neg (by omega), if_neg (by omega), if_pos (by omega)]
    simp only [List.cons.injEq, and_true]
    omega
  have := isUtf8_cons (c := (a - 0xE0) * 4096 + (b - 0x80) * 64 + (c - 0x80)) ⟨by omega, by omega⟩ h
  rwa [e] at this

theorem isUtf8_4 {a b c d : Nat} {r : List Nat} (ha : 0xF0 ≤ a ∧ a ≤ 0xF4) (hb : 0x80 ≤ b ∧ b ≤ 0xBF)
    (hc : 0x80 ≤ c ∧ c ≤ 0xBF) (hd : 0x80 ≤ d ∧ d ≤ 0xBF) (h1 : a = 0xF0 → 0x90 ≤ b)
    (h2 : a = 0xF4 → b ≤ 0x8F) (h : IsUtf8 r) : IsUtf8 (a :: b :: c :: d :: r) := by
  have e : encodeChar ((a - 0xF0) * 262144 + (b - 0x80) * 4096 + (c - 0x80) * 64 + (d - 0x80)) =
      [a, b, c, d] := by
    unfold encodeChar
    rw [if_neg (by omega), if_neg (by omega), if_neg (by omega)]
    simp only [List.cons.injEq, and_true]
    omega
  have := isUtf8_cons (c := (a - 0xF0) * 262144 + (b - 0x80) * 4096 + (c - 0x80) * 64 + (d - 0x80))
    ⟨by omega, by omega⟩ h
  rwa [e] at this

theorem utf8_sound : ∀ (n : Nat) (bs : List Nat), bs.length ≤ n → utf8 bs = true → IsUtf8 bs := by
  intro n
  induction n with
  | zero =>
    intro bs hn _
    have : bs = [] := by cases bs <;> simp_all
    subst this
    exact ⟨[], by simp, rfl⟩
  | succ n ih =>
    intro bs hn h
    match bs with
    | [] => exact ⟨[], by simp, rfl⟩
    | a :: r =>
      simp only [List.length_cons] at hn
      rw [utf8.eq_def] at h
      simp only at h
      split at h
      · have := isUtf8_cons (c := a) ⟨by omega, by omega⟩ (ih r (by omega) h)
        unfold encodeChar at this
        rw [if_pos (by assumption)] at this
        exact this
      · split at h
        · cases h
        · rename_i b r
          simp only [List.length_cons] at hn
          split at h
          · simp only [Bool.and_eq_true, cont_iff] at h
            exact isUtf8_2 (by assumption) h.1 (ih r (by omega) h.2)
          · split at h
            · cases h
            · rename_i c r
              simp only [List.length_cons] at hn
              split at h
              · simp only [Bool.and_eq_true, cont_iff, decide_eq_true_eq] at h
                exact isUtf8_3 (by omega) (by omega) (by omega) (by omega) (by omega) (ih r (by omega) h.2)
              · split at h
                · simp only [Bool.and_eq_true, cont_iff, decide_eq_true_eq] at h
                  exact isUtf8_3 (by omega) (by omega) (by omega) (by omega) (by omega) (ih r (by omega) h.2)
                · split at h
                  · simp only [Bool.and_eq_true, cont_iff, decide_eq_true_eq] at h
                    exact isUtf8_3 (by omega) (by omega) (by omega) (by omega) (by omega) (ih r (by omega) h.2)
                  · split at h
                    · cases h
                    · rename_i d r
                      simp only [List.length_cons] at hn
                      split at h
                      · simp only [Bool.and_eq_true, cont_iff, decide_eq_true_eq] at h
                        exact isUtf8_4 (by omega) (by omega) (by omega) (by omega) (by omega) (by omega)
                          (ih r (by omega) h.2)
                      · split at h
                        · simp only [Bool.and_eq_true, cont_iff, decide_eq_true_eq] at h
                          exact isUtf8_4 (by omega) (by omega) (by omega) (by omega) (by omega) (by omega)
                            (ih r (by omega) h.2)
                        · split at h
                          · simp only [Bool.and_eq_true, cont_iff, decide_eq_true_eq] at h
                            exact isUtf8_4 (by omega) (by omega) (by omega) (by omega) (by omega) (by omega)
                              (ih r (by omega) h.2)
                          · cases h

theorem utf8_iff (bs : List Nat) : utf8 bs = true ↔ IsUtf8 bs := by
  constructor
  · exact utf8_sound _ bs (Nat.le_refl _)
  · rintro ⟨cs, h1, rfl⟩
    induction cs with
    | nil => simp [utf8]
    | cons c cs ih =>
      rw [List.flatMap_cons, utf8_encode (h1 c (by simp))]
      exact ih (fun x hx => h1 x (by simp [hx]))

end Py
end Verif
