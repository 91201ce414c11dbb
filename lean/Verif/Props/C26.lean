import Verif.ReadBack
import Verif.Examples.Run
/- C26: the reader's decoding agrees with the writer's. -/
namespace Verif
open Spec Py File Tracker

/-- The reader's representation of a taint value. -/
def Py.nodeOf : Taint → Node
  | .source cf i o => .source i o cf
  | .range cf f l => .range f l cf
  | .union cf lo hi => .union hi lo cf

theorem bit_and (x k : Nat) : (x >>> k) &&& 1 = x / 2 ^ k % 2 := by
  rw [Nat.shiftRight_eq_div_pow, Nat.and_one_is_mod]

theorem decodeWord_eq (w : Nat) : decodeWord w =
    if w / 2 ^ 63 % 2 = 1 then .source (w % 2 ^ 8) (w / 2 ^ 8 % 2 ^ 54) (decide (w / 2 ^ 62 % 2 = 1))
    else if w / 2 ^ 31 % 2 ^ 31 ≤ w % 2 ^ 31 then
      .range (w / 2 ^ 31 % 2 ^ 31) (w % 2 ^ 31) (decide (w / 2 ^ 62 % 2 = 1))
    else .union (w / 2 ^ 31 % 2 ^ 31) (w % 2 ^ 31) (decide (w / 2 ^ 62 % 2 = 1)) := by
  have e1 : ∀ x : Nat, x &&& 0xFF = x % 2 ^ 8 := fun x => Nat.and_two_pow_sub_one_eq_mod x 8
  have e2 : ∀ x : Nat, x &&& ((1 <<< 54) - 1) = x % 2 ^ 54 := fun x => Nat.and_two_pow_sub_one_eq_mod x 54
  have e3 : ∀ x : Nat, x &&& 0x7FFFFFFF = x % 2 ^ 31 := fun x => Nat.and_two_pow_sub_one_eq_mod x 31
  have ecf : decide (w / 2 ^ 62 % 2 ≠ 0) = decide (w / 2 ^ 62 % 2 = 1) := by
    rw [decide_eq_decide]; omega
  simp only [decodeWord, bit_and, e1, e2, e3, ecf]
  simp only [Nat.shiftRight_eq_div_pow]
  by_cases h1 : w / 2 ^ 63 % 2 = 1
  · rw [if_pos h1, if_pos (by omega)]
  · rw [if_neg h1, if_neg (by omega)]
    by_cases h2 : w / 2 ^ 31 % 2 ^ 31 ≤ w % 2 ^ 31
    · rw [if_pos h2, if_neg (by omega)]
    · rw [if_neg h2, if_pos (by omega)]

/-- On every word that denotes a taint for the runtime, the reader sees the same kind of taint with the
same fields and the same flag. -/
theorem C26_agree (w : Nat) (t : Taint) (h : decode w = .ok t) : decodeWord w = nodeOf t := by
  rw [decode_eq, checkCf_eq] at h
  rw [decodeWord_eq]
  split at h
  · rename_i h1
    cases h; rw [if_pos h1]; rfl
  · rename_i h1
    rw [if_neg h1]
    split at h
    · cases h
    · rename_i h2
      split at h
      · rename_i h3
        cases h; rw [if_pos (by omega)]; rfl
      · rename_i h3
        cases h; rw [if_neg (by omega)]; rfl

/-- Written and read back: every representable taint. -/
theorem C26_roundtrip (t : Taint) (h : Representable t) : decodeWord (encode t) = nodeOf t :=
  C26_agree _ _ (C01_decode_encode t h).1

/-- Different taints are read as different nodes. -/
theorem C26_injective (t u : Taint) (h : nodeOf t = nodeOf u) : t = u := by
  cases t <;> cases u <;> simp_all [nodeOf]

/-- On the words on which the runtime stops, the reader sees a range of one label. -/
theorem C26_no_taint (w : Nat) (h : NoTaint w) :
    decodeWord w = .range (w % 2 ^ 31) (w % 2 ^ 31) (decide (w / 2 ^ 62 % 2 = 1)) := by
  have hd := (C01_decode_fatal_iff w).2 h
  rw [decode_eq] at hd
  rw [decodeWord_eq]
  split at hd
  · cases hd
  · rename_i h1
    split at hd
    · rename_i h2
      rw [if_neg h1, if_pos (by omega), h2]
    · split at hd <;> cases hd

/-- For every run that ends in an orderly way: for every label, the reader sees the node of the taint
the tracker stored. -/
theorem C26_file (c : Config) (base : Nat) (hc : c.Ok base) (h : Trace) (T : Tracker)
    (hr : Reach c base h T) (hroom : T.labels.words.length + 64 ≤ c.indexCap)
    (hu : ∀ n ∈ names h, utf8 n = true) (pads : Pads) :
    ∃ F, parse (closed pads c base T) = some F ∧ F.decodeNode 0 = some .untainted ∧
      ∀ l, 0 < l → F.decodeNode l = (T.labels.graph l).map nodeOf := by
  obtain ⟨F, hF, hrec⟩ := (parse_reach hc hr hroom pads).1 hu
  refine ⟨F, hF, rfl, ?_⟩
  intro l hl
  have hg := ((hr.sim hc).lab.reach.good hc.lab0 hc.lab).wf
  rw [TDFile.decodeNode, if_neg (by omega), hrec.node l]
  cases hw : T.labels.words[l]? with
  | none =>
    cases hgr : T.labels.graph l with
    | none => rfl
    | some t =>
      obtain ⟨w, h1, -⟩ := Labels.graph_eq_some.1 hgr
      rw [hw] at h1; cases h1
  | some w =>
    have hlt := (List.getElem?_eq_some_iff.1 hw).1
    obtain ⟨t, ht, -⟩ := hg.graph.legal l hl hlt
    obtain ⟨w', h1, h2⟩ := Labels.graph_eq_some.1 ht
    rw [hw] at h1; cases h1
    rw [ht]
    exact congrArg some (C26_agree w t h2)

example : decode (encode (.union true 3 9)) = .ok (.union true 3 9) ∧
    decodeWord (encode (.union true 3 9)) = .union 9 3 true := by decide
example : decode (encode (.source false 7 (2 ^ 54 - 1))) = .ok (.source false 7 (2 ^ 54 - 1)) := by decide
example : NoTaint 0 := by constructor <;> simp

end Verif
