import Verif.Branch
import Verif.Props.C08
import Verif.Examples.Run
/- C31: recording a branch condition does not change the program. -/
namespace Verif
open Branch Tracker

theorem Branch.sext_trunc {w : Nat} (hw : w ≤ 64) (x : BitVec w) : sextOrTrunc w (sextOrTrunc 64 x) = x := by
  apply BitVec.eq_of_getLsbD_eq
  intro i hi
  simp only [sextOrTrunc]
  by_cases h : w < 64
  · rw [if_pos h, if_neg (by omega)]
    simp only [BitVec.getLsbD_setWidth, BitVec.getLsbD_signExtend, hi, decide_true, Bool.true_and, if_true]
    rw [decide_eq_true (by omega : i < 64), Bool.true_and]
  · have : w = 64 := by omega
    subst this
    simp

/-- What the wrapped call does once the tracker runs: the program continues with the same value and
the same label, for every value of at most 64 bits, every label and every tracker state; the tracker
changes only by the record of a tainted condition. The one other outcome is that the log is full and
the program is stopped.
Missing for the full claim: conditions wider than 64 bits (`C31_wide_refuted`) and conditions evaluated
before the tracker is started (`C31_before_start_refuted`). -/
theorem C31_value_partial (T : Tracker) {w : Nat} (hw : w ≤ 64) (x : BitVec w) (fid label ret : Nat) :
    (∃ T', instrument true T x fid label ret = .ok (T', x, label) ∧
      (label = 0 → T' = T) ∧ (0 < label → T.logCf (.tainted fid label) = .ok T')) ∨
    (instrument true T x fid label ret = .fatal ∧ 0 < label ∧ T.logCf (.tainted fid label) = .fatal) := by
  simp only [instrument, logTainted]
  by_cases hl : label > 0
  · simp only [hl, if_true]
    cases hlog : CfLog.log T.cflog (.tainted fid label) with
    | ok S =>
      left
      refine ⟨{ T with cflog := S }, ?_, fun h => by omega, fun _ => ?_⟩
      · simp [Tracker.logCf, hlog, Bind.bind, Res.bind, pure, sext_trunc hw]
      · simp [Tracker.logCf, hlog, Bind.bind, Res.bind, pure]
    | fatal =>
      right
      simp [Tracker.logCf, hlog, Bind.bind, Res.bind]
    | ub => exfalso; simp only [CfLog.log] at hlog; split at hlog <;> cases hlog
    | hang => exfalso; simp only [CfLog.log] at hlog; split at hlog <;> cases hlog
  · have : label = 0 := by omega
    subst this
    left
    refine ⟨T, ?_, fun _ => rfl, fun h => by omega⟩
    simp [Bind.bind, Res.bind, pure, sext_trunc hw]

/-- The call inserted for the taint pass never replaces a value; an unlabelled condition changes
nothing, in any state. -/
theorem C31_unlabelled (started : Bool) (T : Tracker) : logConditional started T 0 = .ok T := by
  cases started <;> rfl

/-- A labelled condition is marked: in any state the tracker can reach, the call returns normally, the
labels flagged afterwards are the ones flagged before plus the condition's label and everything it is
built from, taint values are otherwise unchanged, and so is the rest of the tracker. -/
theorem C31_marks (c : Config) (base : Nat) (hc : c.Ok base) (h : Spec.Trace) (T : Tracker)
    (hr : Tracker.Reach c base h T) (label : Nat) (hl : 0 < label)
    (hl' : label < T.labels.words.length) :
    ∃ T', logConditional true T label = .ok T' ∧
      (∀ l, Spec.Flagged T'.labels.graph l ↔
        Spec.Flagged T.labels.graph l ∨ Spec.BuiltFrom T.labels.graph label l) ∧
      (∀ l, Spec.SameTaint T.labels.graph T'.labels.graph l) ∧
      T' = { T with labels := T'.labels } := by
  have hs := hr.sim hc
  obtain ⟨L', e1, e2, e3, -, -⟩ := C08_exact _ hc.lab0 hc.lab _ _ hs.lab.reach label hl hl'
  refine ⟨{ T with labels := L' }, ?_, e2, e3, rfl⟩
  simp only [logConditional]
  rw [if_neg (by decide), if_pos hl]
  simp only [Tracker.affectsControlFlow, e1, Res.bind_ok, Res.pure_eq]

/-- A condition wider than 64 bits (a 128-bit switch value, for example) survives exactly if it is the
sign extension of its low 64 bits. -/
theorem C31_wide_iff (T : Tracker) {w : Nat} (hw : 64 < w) (x : BitVec w) (fid ret : Nat) :
    instrument true T x fid 0 ret = .ok (T, x, 0) ↔ x = (x.setWidth 64).signExtend w := by
  have h1 : sextOrTrunc w (sextOrTrunc 64 x) = (x.setWidth 64).signExtend w := by
    simp only [sextOrTrunc]
    rw [if_pos hw, if_neg (by omega)]
  simp only [instrument, logTainted]
  simp [Bind.bind, Res.bind, pure, h1]
  exact eq_comm

/-- The claim is false for a 128-bit switch value: 2^64 becomes 0. -/
theorem C31_wide_refuted (T : Tracker) (fid ret : Nat) :
    instrument true T (BitVec.ofNat 128 (2 ^ 64)) fid 0 ret = .ok (T, 0#128, 0) := by
  simp only [instrument, logTainted]
  simp [Bind.bind, Res.bind, pure]
  decide

/-- The claim is false before the tracker is started: every condition becomes 0, and the label of the
result is whatever the memory held. So a branch on a true condition goes the other way. -/
theorem C31_before_start_refuted (T : Tracker) {w : Nat} (x : BitVec w) (fid label ret : Nat) :
    instrument false T x fid label ret = .ok (T, 0#w, ret) := by
  simp only [instrument, logTainted]
  simp only [if_true, Bind.bind, Res.bind, pure, sextOrTrunc]
  congr 3
  split
  · apply BitVec.eq_of_toInt_eq; simp [BitVec.toInt_signExtend]
  · simp

theorem C31_true_branch_refuted (T : Tracker) :
    instrument false T (1#1) 0 0 0 = .ok (T, 0#1, 0) := C31_before_start_refuted T 1#1 0 0 0

/-- Concrete instances: a true condition and a negative byte used as an index. -/
example (T : Tracker) : instrument true T (1#1) 7 0 99 = .ok (T, 1#1, 0) := by
  rcases C31_value_partial T (by decide) (1#1) 7 0 99 with ⟨T', h, h0, -⟩ | ⟨-, h, -⟩
  · rw [h0 rfl] at h; exact h
  · omega
example : ∃ T T', Tracker.Reach exCfg 4096 [] T ∧ instrument true T (0x80#8) 7 3 99 = .ok (T', 0x80#8, 3) ∧
    T'.cflog.pos = 3 := by
  have hrun : (run exCfg 4096 []).isSome = true := by decide +kernel
  obtain ⟨⟨T, h⟩, hx⟩ := Option.isSome_iff_exists.1 hrun
  have hh : h = [] := by
    have : (run exCfg 4096 []).map (·.2) = some [] := by decide +kernel
    rw [hx] at this; simpa using this
  subst hh
  have key : (match run exCfg 4096 [] with
      | none => false
      | some (T, _) => match instrument true T (0x80#8) 7 3 99 with
        | .ok (T', x, l) => decide (x = 0x80#8 ∧ l = 3 ∧ T'.cflog.pos = 3)
        | _ => false) = true := by decide +kernel
  rw [hx] at key
  simp only at key
  split at key
  · rename_i T' x l hi
    simp only [decide_eq_true_eq] at key
    obtain ⟨rfl, rfl, h3⟩ := key
    exact ⟨T, T', run_reach hx, hi, h3⟩
  · cases key

end Verif
