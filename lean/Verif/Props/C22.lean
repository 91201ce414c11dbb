import Verif.Props.C21
/- C22: the sink log records exactly the tainted bytes written. -/
namespace Verif
open Spec Tracker

namespace Tracker

theorem written_prefix (h2 h1 : Trace) : ∃ more, written (h2 ++ h1) = written h1 ++ more := by
  induction h2 with
  | nil => exact ⟨[], by simp⟩
  | cons x h2 ih =>
    obtain ⟨more, ih⟩ := ih
    rw [List.cons_append]
    obtain ⟨cl, r⟩ := x
    cases cl with
    | write fd off addr n =>
      simp only [written]
      cases owner (h2 ++ h1) fd with
      | none => exact ⟨more, ih⟩
      | some j => exact ⟨more ++ _, by rw [ih]; exact List.append_assoc ..⟩
    | writeLabel fd off l n =>
      simp only [written]
      cases owner (h2 ++ h1) fd with
      | none => exact ⟨more, ih⟩
      | some j => exact ⟨more ++ _, by rw [ih]; exact List.append_assoc ..⟩
    | _ => exact ⟨more, ih⟩

theorem Reach.sinks_eq {c : Config} {base : Nat} (hc : c.Ok base) {h : Trace} {T : Tracker}
    (hr : Reach c base h T) (hroom : (written h).length ≤ c.sinkCap) :
    T.sinks = (written h).map toSink := by
  rw [(hr.sim hc).sinks, List.take_of_length_le hroom]

end Tracker

/-- The sink log after any history is the list of all tainted bytes written (`Spec.written`: per write
to a tracked output, in increasing byte order, one record (offset, label, output) per byte with a
label), cut off at the capacity of the log. Missing compared with the property: writes after the log
is full (refuted below). -/
theorem C22_log_partial (c : Config) (base : Nat) (hc : c.Ok base) (h : Trace) (T : Tracker)
    (hr : Reach c base h T) :
    T.sinks = ((written h).take c.sinkCap).map fun o => ⟨o.offset, o.label, o.out⟩ :=
  (hr.sim hc).sinks

/-- Effect of one write of memory to tracked output `i`, when the log has room: the records of the
tainted bytes are appended, in increasing byte order, with the label each byte has in shadow memory. -/
theorem C22_write_partial (c : Config) (base : Nat) (hc : c.Ok base) (h : Trace) (T : Tracker)
    (hr : Reach c base h T) (fd : Int) (off : Option Nat) (addr len i : Nat) (hi : owner h fd = some i)
    (ha : T.Allowed (.write fd off addr len)) (T' : Tracker) (r : Ret)
    (he : T.exec (.write fd off addr len) = .ok (T', r))
    (hroom : (written ((.write fd off addr len, r) :: h)).length ≤ c.sinkCap) :
    T'.sinks = T.sinks ++ ((List.range len).filter fun k => T.shadow (addr + k) ≠ 0).map fun k =>
      ⟨off.getD (writePos h i) + k, T.shadow (addr + k), i⟩ := by
  have h1 := hr.sim hc
  rw [(hr.snoc ha he).sinks_eq hc hroom]
  simp only [written, hi] at hroom ⊢
  rw [List.length_append] at hroom
  rw [hr.sinks_eq hc (by omega), List.map_append, tainted, List.map_map]
  simp only [← h1.shadow]
  rfl

/-- Effect of one write of `len` bytes with the same label. -/
theorem C22_write_label_partial (c : Config) (base : Nat) (hc : c.Ok base) (h : Trace) (T : Tracker)
    (hr : Reach c base h T) (fd : Int) (off : Option Nat) (l len i : Nat) (hi : owner h fd = some i)
    (ha : T.Allowed (.writeLabel fd off l len)) (T' : Tracker) (r : Ret)
    (he : T.exec (.writeLabel fd off l len) = .ok (T', r))
    (hroom : (written ((.writeLabel fd off l len, r) :: h)).length ≤ c.sinkCap) :
    T'.sinks = T.sinks ++ if l = 0 then [] else
      (List.range len).map fun k => ⟨off.getD (writePos h i) + k, l, i⟩ := by
  rw [(hr.snoc ha he).sinks_eq hc hroom]
  simp only [written, hi] at hroom ⊢
  rw [List.length_append] at hroom
  rw [hr.sinks_eq hc (by omega), List.map_append, tainted, List.map_map]
  by_cases h0 : l = 0
  · simp [h0]
  · have h1 : decide (l ≠ 0) = true := by simp [h0]
    simp only [h1, if_neg h0]
    rw [List.filter_eq_self.2 (fun _ _ => rfl)]; rfl

/-- Only writes to tracked outputs add records. -/
theorem C22_others (c : Config) (base : Nat) (hc : c.Ok base) (h : Trace) (T : Tracker)
    (hr : Reach c base h T) (cl : Call) (ha : T.Allowed cl) (T' : Tracker) (r : Ret)
    (he : T.exec cl = .ok (T', r))
    (hcl : ∀ fd off addr len, cl = .write fd off addr len → owner h fd = none)
    (hcl' : ∀ fd off l len, cl = .writeLabel fd off l len → owner h fd = none) :
    T'.sinks = T.sinks := by
  rw [((hr.snoc ha he).sim hc).sinks, (hr.sim hc).sinks]
  congr 2
  cases cl with
  | write fd off addr len => simp only [written, hcl fd off addr len rfl]
  | writeLabel fd off l len => simp only [written, hcl' fd off l len rfl]
  | _ => rfl

/-- Records are never altered or removed, whatever happens later. -/
theorem C22_stable (c : Config) (base : Nat) (hc : c.Ok base) (h2 h1 : Trace) (T1 T2 : Tracker)
    (hr1 : Reach c base h1 T1) (hr2 : Reach c base (h2 ++ h1) T2) :
    ∃ more, T2.sinks = T1.sinks ++ more := by
  obtain ⟨m, hm⟩ := written_prefix h2 h1
  rw [(hr1.sim hc).sinks, (hr2.sim hc).sinks, hm, List.take_append, List.map_append]
  exact ⟨_, rfl⟩

/-- Once the log is full, tainted bytes are dropped without any sign of it: the call succeeds and the
log stays as it is. -/
theorem C22_full_refuted (c : Config) (base : Nat) (hc : c.Ok base) (h : Trace) (T : Tracker)
    (hr : Reach c base h T) (hfull : c.sinkCap ≤ (written h).length) (cl : Call)
    (ha : T.Allowed cl) (T' : Tracker) (r : Ret) (he : T.exec cl = .ok (T', r)) :
    T'.sinks = T.sinks := by
  obtain ⟨m, hm⟩ := written_prefix [(cl, r)] h
  rw [((hr.snoc ha he).sim hc).sinks, (hr.sim hc).sinks]
  rw [List.singleton_append] at hm
  rw [hm, List.take_append, Nat.sub_eq_zero_of_le hfull, List.take_zero, List.append_nil]

/-- The hypotheses are met: the example run fills the log with 5 records; one more tainted write
succeeds and is not recorded. -/
example : (written (histOf exCfg 4096 exCalls)).length = exCfg.sinkCap ∧
    (run exCfg 4096 (exCalls ++ [.writeLabel 4 none 9 2])).map (fun p => p.1.sinks) =
    (run exCfg 4096 exCalls).map (fun p => p.1.sinks) ∧
    (written (histOf exCfg 4096 (exCalls ++ [.writeLabel 4 none 9 2]))).length = 7 := by
  decide +kernel

example : (run exCfg 4096 exCalls).map (fun p => p.1.sinks) =
    some [⟨0, 5, 1⟩, ⟨1, 2, 1⟩, ⟨2, 3, 1⟩, ⟨3, 9, 1⟩, ⟨4, 9, 1⟩] := by
  decide +kernel

end Verif
