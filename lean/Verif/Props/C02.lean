import Verif.Props.C01
/- C02: the control-flow flag is independent of the taint value. -/
namespace Verif
open Spec

/-- C02 (setting the flag): after setting the flag, the word still fits, the check says yes, and
the decoded taint is the old one with the flag on (a word denoting no taint still denotes none). -/
theorem C02_addCf (w : Nat) (hw : w < 2 ^ 64) :
    addCf w < 2 ^ 64 ∧ checkCf (addCf w) = true ∧
    (∀ t, decode w = .ok t → decode (addCf w) = .ok (withFlag true t)) ∧
    (decode w = .fatal → decode (addCf w) = .fatal) ∧
    isSourceTaint (addCf w) = isSourceTaint w := by
  have key : addCf w / 2 ^ 62 % 2 = 1 ∧ addCf w % 2 ^ 62 = w % 2 ^ 62 ∧
      addCf w / 2 ^ 63 = w / 2 ^ 63 ∧ addCf w < 2 ^ 64 := by
    rw [addCf_eq]
    split
    · rename_i h; rw [checkCf_iff] at h; exact ⟨h, rfl, rfl, hw⟩
    · rename_i h; rw [checkCf_iff] at h; omega
  obtain ⟨k1, k2, k3, k4⟩ := key
  have hc : checkCf (addCf w) = true := (checkCf_iff _).2 k1
  have hs : isSourceTaint (addCf w) = isSourceTaint w := by
    rw [Bool.eq_iff_iff, isSource_iff, isSource_iff, k3]
  have e1 : addCf w % 2 ^ 8 = w % 2 ^ 8 := by omega
  have e2 : addCf w / 2 ^ 8 % 2 ^ 54 = w / 2 ^ 8 % 2 ^ 54 := by omega
  have e3 : addCf w % 2 ^ 31 = w % 2 ^ 31 := by omega
  have e4 : addCf w / 2 ^ 31 % 2 ^ 31 = w / 2 ^ 31 % 2 ^ 31 := by omega
  refine ⟨k4, hc, ?_, ?_, hs⟩
  · intro t ht
    rw [decode_eq] at ht ⊢
    rw [e1, e2, e3, e4, k3, hc]
    repeat' split at ht
    all_goals first | (cases ht; done) | skip
    all_goals cases ht
    all_goals simp_all [withFlag]
  · intro ht
    rw [decode_eq] at ht ⊢
    rw [e1, e2, e3, e4, k3, hc]
    repeat' split at ht
    all_goals simp_all

/-- C02 (the check reads the flag of the decoded taint). -/
theorem C02_checkCf (w : Nat) (t : Taint) (h : decode w = .ok t) : checkCf w = flagOf t := by
  rw [decode_eq] at h
  repeat' split at h
  all_goals first | (cases h; done) | skip
  all_goals cases h
  all_goals rfl

/-- C02 (source test): the source test agrees with decoding. -/
theorem C02_isSource (w : Nat) (t : Taint) (h : decode w = .ok t) :
    isSourceTaint w = true ↔ ∃ cf i o, t = .source cf i o := by
  rw [decode_eq] at h
  rw [isSource_iff]
  repeat' split at h
  all_goals first | (cases h; done) | skip
  all_goals cases h
  all_goals simp_all

/-- C02 (idempotent). -/
theorem C02_addCf_idem (w : Nat) : addCf (addCf w) = addCf w := by
  simp [addCf, Nat.or_assoc]

/-- C02 (comparison): for words that denote taints, comparing while ignoring control flow answers
yes exactly when the taints agree up to the flag. -/
theorem C02_equalIgnoreCf (w v : Nat) (hw : w < 2 ^ 64) (hv : v < 2 ^ 64) (t u : Taint)
    (ht : decode w = .ok t) (hu : decode v = .ok u) :
    equalIgnoreCf w v = true ↔ withFlag false t = withFlag false u := by
  have hwv : equalIgnoreCf w v = true ↔ w % 2 ^ 62 = v % 2 ^ 62 ∧ w / 2 ^ 63 = v / 2 ^ 63 := by
    simp only [equalIgnoreCf, beq_iff_eq]
    rw [maskCf_and w hw, maskCf_and v hv, checkCf_eq, checkCf_eq]
    by_cases h1 : w / 2 ^ 62 % 2 = 1 <;> by_cases h2 : v / 2 ^ 62 % 2 = 1 <;> simp [h1, h2] <;> omega
  rw [hwv]
  rw [decode_eq] at ht hu
  repeat' split at ht
  all_goals first | (cases ht; done) | skip
  all_goals cases ht
  all_goals (repeat' split at hu)
  all_goals first | (cases hu; done) | skip
  all_goals cases hu
  all_goals simp only [withFlag, Taint.source.injEq, Taint.range.injEq, Taint.union.injEq,
    reduceCtorEq, true_and, iff_false]
  all_goals omega

example : equalIgnoreCf (encode (.range true 3 7)) (encode (.range false 3 7)) = true := by decide
example : equalIgnoreCf (encode (.range true 3 7)) (encode (.range false 3 8)) = false := by decide

end Verif
