import Verif.EncodingLemmas
import Verif.Spec.Taint
/- C01: stored taint words round-trip. -/
namespace Verif
open Spec

/-- C01 (round trip): writing any representable taint and reading it back gives the same value,
and the written word fits in 64 bits. -/
theorem C01_decode_encode (t : Taint) (h : Representable t) :
    decode (encode t) = .ok t ∧ encode t < 2 ^ 64 := by
  cases t with
  | source cf i o =>
    obtain ⟨hi, ho⟩ := h
    have hb := boolBit_lt cf
    rw [encode_source, Nat.mod_eq_of_lt ho, Nat.mod_eq_of_lt (by omega : i < 2 ^ 8)]
    refine ⟨?_, by omega⟩
    rw [decode_eq, if_pos (by omega), checkCf_eq]
    congr 2
    · cases cf <;> simp [boolBit] <;> omega
    · omega
    · omega
  | range cf f l =>
    obtain ⟨hf, hl⟩ := h
    have hb := boolBit_lt cf
    rw [encode_range _ _ _ hl, Nat.mod_eq_of_lt (by omega : f < 2 ^ 31)]
    refine ⟨?_, by omega⟩
    have hq : (boolBit cf * 2 ^ 62 + f * 2 ^ 31 + l) / 2 ^ 31 % 2 ^ 31 = f := by omega
    have hr : (boolBit cf * 2 ^ 62 + f * 2 ^ 31 + l) % 2 ^ 31 = l := by omega
    rw [decode_eq, if_neg (by omega), hq, hr, if_neg (by omega), if_pos hf, checkCf_eq]
    congr 2
    clear hq hr
    cases cf <;> simp [boolBit] <;> omega
  | union cf lo hi =>
    obtain ⟨hf, hl⟩ := h
    have hb := boolBit_lt cf
    rw [encode_union, Nat.mod_eq_of_lt (by omega : lo < 2 ^ 31), Nat.mod_eq_of_lt hl]
    refine ⟨?_, by omega⟩
    have hq : (boolBit cf * 2 ^ 62 + hi * 2 ^ 31 + lo) / 2 ^ 31 % 2 ^ 31 = hi := by omega
    have hr : (boolBit cf * 2 ^ 62 + hi * 2 ^ 31 + lo) % 2 ^ 31 = lo := by omega
    rw [decode_eq, if_neg (by omega), hq, hr, if_neg (by omega), if_neg (by omega), checkCf_eq]
    congr 2
    clear hq hr
    cases cf <;> simp [boolBit] <;> omega

example : Representable (.union true 3 7) ∧ Representable (.source false 255 (2 ^ 54 - 1)) ∧
    Representable (.range true 0 (2 ^ 31 - 1)) := by simp [Representable]

/-- C01 (no sharing): different taints have different words. -/
theorem C01_encode_injective (t u : Taint) (ht : Representable t) (hu : Representable u)
    (h : encode t = encode u) : t = u := by
  have h1 := (C01_decode_encode t ht).1
  have h2 := (C01_decode_encode u hu).1
  rw [h, h2] at h1
  exact (Res.ok.inj h1).symm

/-- C01 (every readable word is the word of exactly one taint): whatever word is successfully read
denotes a representable taint whose word it is. -/
theorem C01_encode_decode (w : Nat) (hw : w < 2 ^ 64) (t : Taint) (h : decode w = .ok t) :
    Representable t ∧ encode t = w := by
  rw [decode_eq] at h
  split at h
  · rename_i h1
    cases h
    refine ⟨⟨by omega, by omega⟩, ?_⟩
    rw [encode_source, checkCf_eq]
    by_cases hc : w / 2 ^ 62 % 2 = 1 <;> simp only [hc, boolBit] <;> simp <;> omega
  · split at h
    · cases h
    · split at h
      · cases h
        rename_i h1 h2 h3
        refine ⟨⟨h3, by omega⟩, ?_⟩
        rw [encode_range _ _ _ (by omega), checkCf_eq]
        by_cases hc : w / 2 ^ 62 % 2 = 1 <;> simp only [hc, boolBit] <;> simp <;> omega
      · cases h
        rename_i h1 h2 h3
        refine ⟨⟨by omega, by omega⟩, ?_⟩
        rw [encode_union, checkCf_eq]
        by_cases hc : w / 2 ^ 62 % 2 = 1 <;> simp only [hc, boolBit] <;> simp <;> omega

example : decode 0x4000000180000007 = .ok (.range true 3 7) := by decide

theorem fields_eq_iff (w : Nat) :
    w / 2 ^ 31 % 2 ^ 31 = w % 2 ^ 31 ↔ ∀ i, i < 31 → w.testBit i = w.testBit (31 + i) := by
  constructor
  · intro h i hi
    have h1 := congrArg (fun x => x.testBit i) h
    simp only [Nat.testBit_mod_two_pow, Nat.testBit_div_two_pow, hi] at h1
    simpa [Nat.add_comm] using h1.symm
  · intro h
    apply Nat.eq_of_testBit_eq
    intro i
    simp only [Nat.testBit_mod_two_pow, Nat.testBit_div_two_pow]
    by_cases hi : i < 31
    · rw [h i hi, Nat.add_comm]
    · simp [hi]

/-- C01 (error exactly on non-taints): reading terminates the program exactly for the words that
denote no taint; it is never undefined. -/
theorem C01_decode_fatal_iff (w : Nat) : decode w = .fatal ↔ NoTaint w := by
  have h63 : w.testBit 63 = false ↔ ¬ (w / 2 ^ 63 % 2 = 1) := by
    rw [Nat.testBit_eq_decide_div_mod_eq]; simp
  rw [NoTaint, h63, ← fields_eq_iff, decode_eq]
  split
  · simp_all
  · split
    · simp_all
    · split <;> simp_all

theorem C01_decode_total (w : Nat) : decode w ≠ .ub := by
  rw [decode_eq]
  repeat' split
  all_goals simp

example : NoTaint 0 := by constructor <;> simp
example : ¬ NoTaint (2 ^ 63) := by rintro ⟨h, -⟩; revert h; decide

end Verif
