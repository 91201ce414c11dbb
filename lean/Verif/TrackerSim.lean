import Verif.TrackerLemmas
/- Every call keeps the correspondence between tracker and specification. -/
namespace Verif
open Spec
namespace Tracker

theorem LabSim.step {c : Config} {base : Nat} (hc : c.Ok base) {es : List Event} {L L' : Labels}
    {B : Bitmap} (hl : LabSim c es L B) {op : Op} {e : Event} (ha : L.Allowed op)
    (he : L.exec op = .ok (L', e)) (hi : idxIns [e] = []) :
    LabSim c (es ++ [e]) L' B ∧ L.words.length ≤ L'.words.length := by
  have hst := Labels.step_of_exec (hl.reach.good hc.lab0 hc.lab) ha he
  refine ⟨⟨.snoc hl.reach ha he, ?_, ?_, hl.small⟩, hst.len⟩
  · rw [idxIns_append, hi, List.append_nil]; exact hl.index
  · have := hl.used
    have := Nat.div_le_div_right (c := 64) (Nat.sub_le_sub_right hst.len 1)
    omega

theorem step_union {c : Config} {base : Nat} (hc : c.Ok base) {h : Trace} {T T' : Tracker} {r : Ret}
    {a b : Nat} (hs : Sim c h T) (ha : T.Allowed (.union a b)) (he : T.exec (.union a b) = .ok (T', r)) :
    Sim c ((.union a b, r) :: h) T' := by
  simp only [exec, unionLabels, Res.bind_eq_ok, Res.pure_eq] at he
  obtain ⟨⟨T1, u⟩, ⟨⟨L, u'⟩, h1, h2⟩, h3⟩ := he
  cases h2; cases h3
  obtain ⟨hl, hlen⟩ := hs.lab.step hc (L' := L) (op := .union a b) (e := .union a b u') ha
    (by simp [Labels.exec, h1]) rfl
  obtain ⟨ss, ht⟩ := hs.tab
  exact ⟨hs.cfg, hl, ⟨ss, { ht with }⟩, hs.rd, hs.wr, hs.shadow,
    fun x => Nat.lt_of_lt_of_le (hs.shadowOk x) hlen, hs.sinks,
    fun o ho => ⟨(hs.sinkOk o ho).1, Nat.lt_of_lt_of_le (hs.sinkOk o ho).2.1 hlen, (hs.sinkOk o ho).2.2⟩,
    hs.events, hs.evLen, hs.evOk, hs.logOk, hs.logLen, hs.log, hs.logFits⟩

theorem step_mark {c : Config} {base : Nat} (hc : c.Ok base) {h : Trace} {T T' : Tracker} {r : Ret}
    {a : Nat} (hs : Sim c h T) (ha : T.Allowed (.mark a)) (he : T.exec (.mark a) = .ok (T', r)) :
    Sim c ((.mark a, r) :: h) T' := by
  simp only [exec, affectsControlFlow, Res.bind_eq_ok, Res.pure_eq] at he
  obtain ⟨T1, ⟨L, h1, h2⟩, h3⟩ := he
  cases h2; cases h3
  obtain ⟨hl, hlen⟩ := hs.lab.step hc (L' := L) (op := .mark a) (e := .mark a) ha
    (by simp [Labels.exec, h1]) rfl
  obtain ⟨ss, ht⟩ := hs.tab
  exact ⟨hs.cfg, hl, ⟨ss, { ht with }⟩, hs.rd, hs.wr, hs.shadow,
    fun x => Nat.lt_of_lt_of_le (hs.shadowOk x) hlen, hs.sinks,
    fun o ho => ⟨(hs.sinkOk o ho).1, Nat.lt_of_lt_of_le (hs.sinkOk o ho).2.1 hlen, (hs.sinkOk o ho).2.2⟩,
    hs.events, hs.evLen, hs.evOk, hs.logOk, hs.logLen, hs.log, hs.logFits⟩

theorem step_openFile {c : Config} {base : Nat} (hc : c.Ok base) {h : Trace} {T T' : Tracker} {r : Ret}
    {fd : Int} {name : List Nat} {size : Option Nat} (hs : Sim c h T)
    (ha : T.Allowed (.openFile fd name size)) (he : T.exec (.openFile fd name size) = .ok (T', r)) :
    Sim c ((.openFile fd name size, r) :: h) T' := by
  simp only [exec, openFile, Res.bind_eq_ok, Res.pure_eq] at he
  obtain ⟨⟨T1, i⟩, h1, h3⟩ := he
  cases h3
  obtain ⟨a1, a2, a3, a4⟩ := ha
  obtain ⟨ss, ht⟩ := hs.tab
  have hsz : size.getD invalidSize < 2 ^ 64 := by
    cases size with
    | none => decide
    | some s => exact a4 s rfl
  obtain ⟨S, src, rfl, hcase⟩ := addSource_spec hs.cfg hc.src ht a3 ⟨a1, a2⟩ hsz h1
  rcases hcase with ⟨rfl, ht'⟩ | ⟨rfl, ht'⟩
  · exact ⟨hs.cfg, hs.lab, ht', hs.rd, hs.wr, hs.shadow, hs.shadowOk, hs.sinks, hs.sinkOk,
      hs.events, hs.evLen, hs.evOk, hs.logOk, hs.logLen, hs.log, hs.logFits⟩
  · refine ⟨hs.cfg, hs.lab, ht', hs.rd, hs.wr, hs.shadow, hs.shadowOk, hs.sinks, ?_,
      hs.events, hs.evLen, hs.evOk, hs.logOk, hs.logLen, hs.log, hs.logFits⟩
    intro o ho
    obtain ⟨k1, k2, k3, k4⟩ := hs.sinkOk o ho
    refine ⟨k1, k2, k3, ?_⟩
    simp only [registered, List.length_append]
    omega

theorem step_closeFile {c : Config} {h : Trace} {T T' : Tracker} {r : Ret}
    {fd : Int} (hs : Sim c h T) (he : T.exec (.closeFile fd) = .ok (T', r)) :
    Sim c ((.closeFile fd, r) :: h) T' := by
  simp only [exec, closeFile] at he
  cases he
  exact ⟨hs.cfg, hs.lab, hs.tab, hs.rd, hs.wr, hs.shadow, hs.shadowOk, hs.sinks, hs.sinkOk,
    hs.events, hs.evLen, hs.evOk, hs.logOk, hs.logLen, hs.log, hs.logFits⟩

theorem step_store {c : Config} {h : Trace} {T T' : Tracker} {r : Ret}
    {addr l : Nat} (hs : Sim c h T) (ha : T.Allowed (.store addr l))
    (he : T.exec (.store addr l) = .ok (T', r)) :
    Sim c ((.store addr l, r) :: h) T' := by
  simp only [exec] at he
  cases he
  obtain ⟨ss, ht⟩ := hs.tab
  refine ⟨hs.cfg, hs.lab, ⟨ss, { ht with }⟩, hs.rd, hs.wr, ?_, ?_, hs.sinks, hs.sinkOk,
    hs.events, hs.evLen, hs.evOk, hs.logOk, hs.logLen, hs.log, hs.logFits⟩
  · intro a
    simp only [labelAt, Dfsan.upd, hs.shadow]
  · intro a
    simp only [Dfsan.upd]
    split
    · exact ha
    · exact hs.shadowOk a

theorem step_cf {c : Config} {h : Trace} {T T' : Tracker} {r : Ret}
    {e : CfEvent} (hs : Sim c h T) (ha : T.Allowed (.cf e))
    (he : T.exec (.cf e) = .ok (T', r)) :
    Sim c ((.cf e, r) :: h) T' := by
  simp only [exec, logCf, Res.bind_eq_ok, Res.pure_eq, CfLog.log] at he
  obtain ⟨T1, ⟨S, h1, h2⟩, h3⟩ := he
  cases h2; cases h3
  have hfit : e.fits := by cases e <;> exact ha
  have hlen := CfLog.encode_length e hfit
  split at h1
  · rename_i S' off hap
    cases h1
    obtain ⟨k1, -, k3, -, k5, k6, -⟩ := Section.append_ok hs.logOk (by omega) hap
    obtain ⟨ss, ht⟩ := hs.tab
    refine ⟨hs.cfg, hs.lab, ⟨ss, { ht with }⟩, hs.rd, hs.wr, hs.shadow, hs.shadowOk, hs.sinks, hs.sinkOk,
      hs.events, hs.evLen, hs.evOk, k1, ?_, ?_, ?_⟩
    · show S.mem.length = _
      rw [k5, hs.logLen]
    · show S.mem.take S.pos = (cfEvents h ++ [e]).flatMap CfLog.encode
      rw [k6, hs.log]; simp
    · intro e' he'
      have : e' ∈ cfEvents h ++ [e] := he'
      rw [List.mem_append, List.mem_singleton] at this
      rcases this with h | rfl
      · exact hs.logFits e' h
      · exact hfit
  · cases h1

theorem logEvent_ok {T T' : Tracker} {k i : Nat} (h : T.logEvent k i = .ok T') :
    T' = { T with events := T.events ++ [{ kind := k, fn := i }] } ∧ T.events.length + 1 ≤ T.cfg.evCap := by
  simp only [logEvent] at h
  split at h
  · cases h; exact ⟨rfl, by assumption⟩
  · cases h

theorem step_fnExit {c : Config} {h : Trace} {T T' : Tracker} {r : Ret}
    {i : Nat} (hs : Sim c h T) (ha : T.Allowed (.fnExit i))
    (he : T.exec (.fnExit i) = .ok (T', r)) :
    Sim c ((.fnExit i, r) :: h) T' := by
  simp only [exec, functionExit, Res.bind_eq_ok, Res.pure_eq] at he
  obtain ⟨T1, h1, h2⟩ := he
  cases h2
  obtain ⟨rfl, hcap⟩ := logEvent_ok h1
  obtain ⟨ss, ht⟩ := hs.tab
  refine ⟨hs.cfg, hs.lab, ⟨ss, { ht with }⟩, hs.rd, hs.wr, hs.shadow, hs.shadowOk, hs.sinks, hs.sinkOk,
    ?_, ?_, ?_, hs.logOk, hs.logLen, hs.log, hs.logFits⟩
  · show T.events ++ _ = (fnEvents h ++ [(false, i)]).map toFnEvent
    rw [hs.events]; simp [toFnEvent]
  · rw [hs.cfg] at hcap
    simpa using hcap
  · intro e he'
    have : e ∈ fnEvents h ++ [(false, i)] := he'
    rw [List.mem_append, List.mem_singleton] at this
    rcases this with h | rfl
    · exact hs.evOk e h
    · exact ha

theorem step_fnEntry {c : Config} {base : Nat} (hc : c.Ok base) {h : Trace} {T T' : Tracker} {r : Ret}
    {name : List Nat} (hs : Sim c h T) (ha : T.Allowed (.fnEntry name))
    (he : T.exec (.fnEntry name) = .ok (T', r)) :
    Sim c ((.fnEntry name, r) :: h) T' := by
  simp only [exec, functionEntry, Res.bind_eq_ok, Res.pure_eq] at he
  obtain ⟨⟨T1, i⟩, ⟨⟨T2, oi⟩, h1, h2⟩, h3⟩ := he
  cases h3
  cases oi with
  | none => cases h2
  | some j =>
    simp only [Res.bind_eq_ok] at h2
    obtain ⟨T3, h4, h5⟩ := h2
    cases h5
    obtain ⟨ss, ht⟩ := hs.tab
    obtain ⟨S, f, m, rfl, ss', ht', hj, hj16⟩ := addMapping_spec hs.cfg hc.fn ht ha h1
    obtain ⟨rfl, hcap⟩ := logEvent_ok h4
    refine ⟨hs.cfg, hs.lab, ⟨ss', { ht' with }⟩, hs.rd, hs.wr, hs.shadow, hs.shadowOk, hs.sinks,
      hs.sinkOk, ?_, ?_, ?_, hs.logOk, hs.logLen, hs.log, hs.logFits⟩
    · show T.events ++ _ = (fnEvents h ++ [(true, (if name ∈ functions h then functions h
        else functions h ++ [name]).idxOf name)]).map toFnEvent
      rw [← hj, hs.events]; simp [toFnEvent]
    · have hcap' : T.events.length + 1 ≤ T.cfg.evCap := hcap
      rw [hs.cfg] at hcap'
      simpa using hcap'
    · intro e he'
      have : e ∈ fnEvents h ++ [(true, (if name ∈ functions h then functions h
        else functions h ++ [name]).idxOf name)] := he'
      rw [List.mem_append, List.mem_singleton] at this
      rcases this with h | rfl
      · exact hs.evOk e h
      · rw [← hj]; exact hj16

/-! ### Reads -/

theorem increase_ok {o o' : Nat → Nat} {i len v : Nat} (h : increase o i len = .ok (o', v))
    (hlt : o i + len < 2 ^ 64) : v = o i ∧ ∀ j, o' j = o j + if i = j then len else 0 := by
  simp only [increase] at h
  split at h
  · cases h
  · cases h
    refine ⟨rfl, fun j => ?_⟩
    by_cases hj : j = i
    · subst hj; simp only [if_true, Nat.mod_eq_of_lt hlt]
    · have hj' : ¬ i = j := fun e => hj e.symm
      simp only [hj, hj', if_false, Nat.add_zero]

theorem step_read {c : Config} {base : Nat} (hc : c.Ok base) {h : Trace} {T T' : Tracker} {r : Ret}
    {fd : Int} {addr off : Option Nat} {len : Nat} (hs : Sim c h T)
    (ha : T.Allowed (.read fd addr off len)) (he : T.exec (.read fd addr off len) = .ok (T', r)) :
    Sim c ((.read fd addr off len, r) :: h) T' := by
  simp only [exec, sourceTaint, Res.bind_eq_ok, Res.pure_eq] at he
  obtain ⟨⟨T1, i⟩, h1, h3⟩ := he
  cases h3
  obtain ⟨ss, ht⟩ := hs.tab
  have hm := ht.mapping hc.src fd
  simp only [Allowed] at ha
  rw [hm] at h1 ha
  cases ho : owner h fd with
  | none =>
    rw [ho] at h1
    cases h1
    refine ⟨hs.cfg, ?_, ⟨ss, ht⟩, ?_, hs.wr, ?_, hs.shadowOk, hs.sinks, hs.sinkOk,
      hs.events, hs.evLen, hs.evOk, hs.logOk, hs.logLen, hs.log, hs.logFits⟩
    · exact hs.lab
    · intro i
      cases off with
      | none => simp only [readPos, ho]; simpa using hs.rd i
      | some o => exact hs.rd i
    · intro a
      cases addr <;> exact hs.shadow a
  | some k =>
    rw [ho] at h1 ha
    have ha := ha k rfl
    simp only [Res.bind_eq_ok] at h1
    obtain ⟨⟨T2, o⟩, h2, ⟨T3, rng⟩, h4, h5⟩ := h1
    cases h5
    have hk := owner_lt ho
    have hk2 : k < 256 := by
      have := ht.srcLen; have := ht.srcCap; have := hc.src; omega
    -- the offset
    have hoff : ∃ rd, T2 = { T with rd := rd } ∧ o = off.getD (readPos h k) ∧
        ∀ j, rd j = readPos ((Call.read fd addr off len, Ret.range (some rng)) :: h) j := by
      cases off with
      | some o' =>
        cases h2
        exact ⟨T.rd, rfl, rfl, hs.rd⟩
      | none =>
        simp only [sourceOffset, Res.bind_eq_ok] at h2
        obtain ⟨⟨rd, o'⟩, h6, h7⟩ := h2
        cases h7
        have ha' : T.rd k + len ≤ 2 ^ 54 := by simpa using ha
        obtain ⟨rfl, h9⟩ := increase_ok h6 (by omega)
        refine ⟨rd, rfl, by simp [hs.rd k], fun j => ?_⟩
        rw [h9 j, hs.rd j]
        simp only [readPos, ho, Option.some.injEq]
    obtain ⟨rd, rfl, rfl, hrd⟩ := hoff
    have hle : off.getD (readPos h k) + len ≤ 2 ^ 54 := by rw [← hs.rd k]; exact ha
    obtain ⟨L, B, rfl, hl, hrng, hpos, hlen⟩ := createSourceTaint_spec hc (T := { T with rd := rd })
      hs.lab hk2 hle h4
    have hL : LabSim c (labelEvents ((Call.read fd addr off len, Ret.range (some rng)) :: h)) L B := by
      simp only [labelEvents, ho]; exact hl
    have hfirst : rng.1 = T.labels.words.length := by rw [hrng]
    refine ⟨hs.cfg, hL, ⟨ss, { ht with }⟩, hrd, hs.wr, ?_, ?_, hs.sinks, ?_,
      hs.events, hs.evLen, hs.evOk, hs.logOk, hs.logLen, hs.log, hs.logFits⟩
    · intro a
      cases addr with
      | none => exact hs.shadow a
      | some ad => simp only [labelAt, markMem, setLabels_eq, hs.shadow]
    · intro a
      have hlen' : L.words.length = T.labels.words.length + len := hlen
      have := hs.shadowOk a
      cases addr with
      | none =>
        simp only [markMem]
        omega
      | some ad =>
        simp only [markMem, setLabels_eq, hfirst]
        split <;> omega
    · intro x hx
      have hlen' : L.words.length = T.labels.words.length + len := hlen
      obtain ⟨k1, k2, k3, k4⟩ := hs.sinkOk x hx
      exact ⟨k1, by simp only []; omega, k3, k4⟩

theorem step_input {c : Config} {base : Nat} (hc : c.Ok base) {h : Trace} {T T' : Tracker} {r : Ret}
    {name : List Nat} {addr len : Nat} (hs : Sim c h T)
    (ha : T.Allowed (.input name addr len)) (he : T.exec (.input name addr len) = .ok (T', r)) :
    Sim c ((.input name addr len, r) :: h) T' := by
  simp only [exec, createTaintSource, Res.bind_eq_ok, Res.pure_eq] at he
  obtain ⟨⟨T1, i⟩, ⟨⟨T2, oi⟩, h1, h2⟩, h3⟩ := he
  cases h3
  obtain ⟨ss, ht⟩ := hs.tab
  obtain ⟨S, src, rfl, hcase⟩ := addSource_spec hs.cfg hc.src ht ha (by decide) (by decide) h1
  rcases hcase with ⟨rfl, ht'⟩ | ⟨rfl, ht'⟩
  · cases h2
    exact ⟨hs.cfg, hs.lab, ht', hs.rd, hs.wr, hs.shadow, hs.shadowOk, hs.sinks, hs.sinkOk,
      hs.events, hs.evLen, hs.evOk, hs.logOk, hs.logLen, hs.log, hs.logFits⟩
  · simp only [Res.bind_eq_ok] at h2
    obtain ⟨⟨T3, rng⟩, h4, h5⟩ := h2
    cases h5
    have hk2 : (registered h).length < 256 := by
      have := ht.srcLen; have := ht.srcCap; have := hc.src; omega
    have hcap : len ≤ 2 ^ 54 := by
      simp only [createSourceTaint, Res.bind_eq_ok] at h4
      obtain ⟨⟨L, r⟩, h5, -⟩ := h4
      simp only [Labels.createSourceLabels] at h5
      have := hs.lab.reach.cap hc.lab0 hc.lab
      have := hc.lab
      split at h5
      · cases h5
      · split at h5
        · omega
        · cases h5
    obtain ⟨L, B, rfl, hl, hrng, hpos, hlen⟩ := createSourceTaint_spec hc
      (T := { T with strings := S, sources := src }) hs.lab hk2 (by omega) h4
    have hfirst : rng.1 = T.labels.words.length := by rw [hrng]
    have hlen' : L.words.length = T.labels.words.length + len := hlen
    obtain ⟨ss', ht'⟩ := ht'
    refine ⟨hs.cfg, hl, ⟨ss', { ht' with }⟩, hs.rd, hs.wr, ?_, ?_, hs.sinks, ?_,
      hs.events, hs.evLen, hs.evOk, hs.logOk, hs.logLen, hs.log, hs.logFits⟩
    · intro a
      simp only [labelAt, markMem, setLabels_eq, hs.shadow]
    · intro a
      have := hs.shadowOk a
      simp only [markMem, setLabels_eq, hfirst]
      split <;> omega
    · intro x hx
      obtain ⟨k1, k2, k3, k4⟩ := hs.sinkOk x hx
      refine ⟨k1, by simp only []; omega, k3, ?_⟩
      simp only [registered, List.length_append]
      omega

/-! ### Writes -/

theorem tainted_succ (i off n : Nat) (lab : Nat → Nat) : tainted i off (n + 1) lab =
    (if lab 0 ≠ 0 then [⟨i, off, lab 0⟩] else []) ++ tainted i (off + 1) n (fun k => lab (k + 1)) := by
  have hrest : (((List.range n).map Nat.succ).filter (fun k => decide (lab k ≠ 0))).map
      (fun k => (⟨i, off + k, lab k⟩ : OutByte)) = tainted i (off + 1) n (fun k => lab (k + 1)) := by
    rw [List.filter_map, List.map_map]
    simp only [tainted, Function.comp_def, Nat.succ_eq_add_one]
    congr 1
    funext k
    rw [show off + (k + 1) = off + 1 + k by omega]
  simp only [tainted] at hrest ⊢
  rw [List.range_succ_eq_map, List.filter_cons]
  by_cases h0 : lab 0 = 0
  · simp only [h0, ne_eq, not_true, decide_false, Bool.false_eq_true, if_false, List.nil_append]
    exact hrest
  · simp only [ne_eq, h0, not_false_iff, decide_true, if_true, List.map_cons, Nat.add_zero]
    rw [List.singleton_append]
    congr 1

theorem logSingle_sinks {T : Tracker} {w : List OutByte} {o : OutByte}
    (hs : T.sinks = (w.take T.cfg.sinkCap).map toSink) (ho : o.offset < 2 ^ 64) :
    T.logSingle o.offset o.label o.out =
      { T with sinks := ((w ++ [o]).take T.cfg.sinkCap).map toSink } := by
  simp only [logSingle]
  have hlen : T.sinks.length = min T.cfg.sinkCap w.length := by rw [hs]; simp
  split
  · rename_i hroom
    have hw : w.length < T.cfg.sinkCap := by omega
    rw [hs, List.take_of_length_le (by omega), List.take_of_length_le (by simp; omega),
      Nat.mod_eq_of_lt ho]
    simp [toSink]
  · rename_i hroom
    rw [List.take_append_of_le_length (by omega), ← hs]

theorem sinkLoop_spec (idx : Nat) : ∀ (n addr off : Nat) (T : Tracker) (w : List OutByte),
    T.sinks = (w.take T.cfg.sinkCap).map toSink → off + n ≤ 2 ^ 63 →
    sinkLoop idx addr off n T = .ok { T with sinks := ((w ++ tainted idx off n
      (fun k => T.shadow (addr + k))).take T.cfg.sinkCap).map toSink } := by
  intro n
  induction n with
  | zero =>
    intro addr off T w hs _
    simp only [sinkLoop, tainted, List.range_zero, List.filter_nil, List.map_nil, List.append_nil, ← hs]
  | succ n ih =>
    intro addr off T w hs hoff
    have hread : Dfsan.readLabel true T.labels T.shadow addr 1 = .ok (T.labels, T.shadow addr) := by
      simp [Dfsan.readLabel, Dfsan.unionLoad, Dfsan.loadLoop]
    rw [sinkLoop, hread]
    simp only [Res.bind_ok]
    rw [tainted_succ, Nat.add_zero]
    have hsh : (fun k => T.shadow (addr + (k + 1))) = (fun k => T.shadow (addr + 1 + k)) := by
      funext k; congr 1; omega
    by_cases hz : T.shadow addr = 0
    · rw [if_neg (by omega), if_neg (by simp [hz]), List.nil_append]
      rw [hsh]
      exact ih (addr + 1) (off + 1) T w hs (by omega)
    · rw [if_pos (by omega), if_pos (by simpa using hz)]
      have := logSingle_sinks (o := ⟨idx, off, T.shadow addr⟩) hs (by simp only []; omega)
      simp only [] at this
      rw [this, hsh, ← List.append_assoc]
      exact ih (addr + 1) (off + 1) { T with sinks := ((w ++ [OutByte.mk idx off (T.shadow addr)]).take T.cfg.sinkCap).map toSink } (w ++ [⟨idx, off, T.shadow addr⟩]) rfl (by omega)

theorem sinkSame_spec (idx label off : Nat) (hl : label ≠ 0) : ∀ (n i : Nat) (T : Tracker)
    (w : List OutByte), T.sinks = (w.take T.cfg.sinkCap).map toSink → off + i + n ≤ 2 ^ 63 →
    sinkSame idx label off i n T = { T with sinks := ((w ++ tainted idx (off + i) n
      (fun _ => label)).take T.cfg.sinkCap).map toSink } := by
  intro n
  induction n with
  | zero =>
    intro i T w hs _
    simp only [sinkSame, tainted, List.range_zero, List.filter_nil, List.map_nil, List.append_nil, ← hs]
  | succ n ih =>
    intro i T w hs hoff
    rw [sinkSame, tainted_succ, if_pos hl]
    have := logSingle_sinks (o := ⟨idx, off + i, label⟩) hs (by simp only []; omega)
    simp only [] at this
    rw [this, ← List.append_assoc, show off + i + 1 = off + (i + 1) by omega]
    exact ih (i + 1) { T with sinks := ((w ++ [OutByte.mk idx (off + i) label]).take T.cfg.sinkCap).map toSink } (w ++ [⟨idx, off + i, label⟩]) rfl (by omega)

theorem sinkOffset_spec {T T' : Tracker} {i len o : Nat} {off : Option Nat}
    (h : T.sinkOffset i off len = .ok (T', o)) (ha : off.getD (T.wr i) + len ≤ 2 ^ 63) :
    ∃ wr, T' = { T with wr := wr } ∧ o = off.getD (T.wr i) ∧
      ∀ j, wr j = T.wr j + if off = none ∧ i = j then len else 0 := by
  cases off with
  | some o' =>
    cases h
    exact ⟨T.wr, rfl, rfl, fun j => by simp⟩
  | none =>
    simp only [sinkOffset, Res.bind_eq_ok] at h
    obtain ⟨⟨wr, o'⟩, h6, h7⟩ := h
    cases h7
    have ha' : T.wr i + len ≤ 2 ^ 63 := by simpa using ha
    obtain ⟨rfl, h9⟩ := increase_ok h6 (by omega)
    exact ⟨wr, rfl, by simp, fun j => by simp [h9 j]⟩

theorem mem_tainted {i off n : Nat} {lab : Nat → Nat} {o : OutByte} (h : o ∈ tainted i off n lab) :
    ∃ k, k < n ∧ lab k ≠ 0 ∧ o = ⟨i, off + k, lab k⟩ := by
  simp only [tainted, List.mem_map, List.mem_filter, List.mem_range, decide_eq_true_eq] at h
  obtain ⟨k, ⟨h1, h2⟩, rfl⟩ := h
  exact ⟨k, h1, h2, rfl⟩

theorem step_write {c : Config} {base : Nat} (hc : c.Ok base) {h : Trace} {T T' : Tracker} {r : Ret}
    {fd : Int} {off : Option Nat} {addr len : Nat} (hs : Sim c h T)
    (ha : T.Allowed (.write fd off addr len)) (he : T.exec (.write fd off addr len) = .ok (T', r)) :
    Sim c ((.write fd off addr len, r) :: h) T' := by
  simp only [exec, taintSink, Res.bind_eq_ok, Res.pure_eq] at he
  obtain ⟨T1, h1, h3⟩ := he
  cases h3
  obtain ⟨ss, ht⟩ := hs.tab
  have hm := ht.mapping hc.src fd
  simp only [Allowed] at ha
  rw [hm] at h1 ha
  cases ho : owner h fd with
  | none =>
    rw [ho] at h1
    cases h1
    have hw : written ((Call.write fd off addr len, Ret.unit) :: h) = written h := by
      simp only [written, ho]
    refine ⟨hs.cfg, hs.lab, ⟨ss, ht⟩, hs.rd, ?_, hs.shadow, hs.shadowOk, ?_, ?_,
      hs.events, hs.evLen, hs.evOk, hs.logOk, hs.logLen, hs.log, hs.logFits⟩
    · intro i
      cases off with
      | none => simp only [writePos, ho]; simpa using hs.wr i
      | some o => exact hs.wr i
    · rw [hw]; exact hs.sinks
    · rw [hw]; exact hs.sinkOk
  | some k =>
    rw [ho] at h1 ha
    have ha := ha k rfl
    simp only [Res.bind_eq_ok] at h1
    obtain ⟨⟨T2, o⟩, h2, h4⟩ := h1
    obtain ⟨wr, rfl, rfl, hwr⟩ := sinkOffset_spec h2 ha
    rw [sinkLoop_spec k len addr _ _ (written h) (by rw [hs.cfg]; exact hs.sinks) ha] at h4
    cases h4
    have hw : written ((Call.write fd off addr len, Ret.unit) :: h) = written h ++
        tainted k (off.getD (T.wr k)) len (fun i => T.shadow (addr + i)) := by
      simp only [written, ho, hs.wr, hs.shadow]
    refine ⟨hs.cfg, hs.lab, ⟨ss, { ht with }⟩, hs.rd, ?_, hs.shadow, hs.shadowOk, ?_, ?_,
      hs.events, hs.evLen, hs.evOk, hs.logOk, hs.logLen, hs.log, hs.logFits⟩
    · intro i
      simp only [hwr, hs.wr]
      cases off with
      | none => simp only [writePos, ho, true_and, Option.some.injEq]
      | some o => simp [writePos]
    · rw [hw]; simp only [hs.cfg]
    · rw [hw]
      intro x hx
      rw [List.mem_append] at hx
      rcases hx with hx | hx
      · exact hs.sinkOk x hx
      · obtain ⟨j, j1, j2, rfl⟩ := mem_tainted hx
        refine ⟨by simp only []; omega, hs.shadowOk _, Nat.pos_of_ne_zero j2, owner_lt ho⟩

theorem step_writeLabel {c : Config} {base : Nat} (hc : c.Ok base) {h : Trace} {T T' : Tracker} {r : Ret}
    {fd : Int} {off : Option Nat} {l len : Nat} (hs : Sim c h T)
    (ha : T.Allowed (.writeLabel fd off l len)) (he : T.exec (.writeLabel fd off l len) = .ok (T', r)) :
    Sim c ((.writeLabel fd off l len, r) :: h) T' := by
  simp only [exec, taintSinkLabel, Res.bind_eq_ok, Res.pure_eq] at he
  obtain ⟨T1, h1, h3⟩ := he
  cases h3
  obtain ⟨ss, ht⟩ := hs.tab
  have hm := ht.mapping hc.src fd
  simp only [Allowed] at ha
  obtain ⟨hll, ha⟩ := ha
  rw [hm] at h1 ha
  cases ho : owner h fd with
  | none =>
    rw [ho] at h1
    cases h1
    have hw : written ((Call.writeLabel fd off l len, Ret.unit) :: h) = written h := by
      simp only [written, ho]
    refine ⟨hs.cfg, hs.lab, ⟨ss, ht⟩, hs.rd, ?_, hs.shadow, hs.shadowOk, ?_, ?_,
      hs.events, hs.evLen, hs.evOk, hs.logOk, hs.logLen, hs.log, hs.logFits⟩
    · intro i
      cases off with
      | none => simp only [writePos, ho]; simpa using hs.wr i
      | some o => exact hs.wr i
    · rw [hw]; exact hs.sinks
    · rw [hw]; exact hs.sinkOk
  | some k =>
    rw [ho] at h1 ha
    have ha := ha k rfl
    simp only [Res.bind_eq_ok] at h1
    obtain ⟨⟨T2, o⟩, h2, h4⟩ := h1
    obtain ⟨wr, rfl, rfl, hwr⟩ := sinkOffset_spec h2 ha
    have hw : written ((Call.writeLabel fd off l len, Ret.unit) :: h) = written h ++
        tainted k (off.getD (T.wr k)) len (fun _ => l) := by
      simp only [written, ho, hs.wr]
    have hwp : ∀ i, wr i = writePos ((Call.writeLabel fd off l len, Ret.unit) :: h) i := by
      intro i
      simp only [hwr, hs.wr]
      cases off with
      | none => simp only [writePos, ho, true_and, Option.some.injEq]
      | some o => simp [writePos]
    have hok : ∀ o ∈ written ((Call.writeLabel fd off l len, Ret.unit) :: h), o.offset < 2 ^ 63 ∧
        o.label < T.labels.words.length ∧ 0 < o.label ∧ o.out < (registered h).length := by
      rw [hw]
      intro x hx
      rw [List.mem_append] at hx
      rcases hx with hx | hx
      · exact hs.sinkOk x hx
      · obtain ⟨j, j1, j2, rfl⟩ := mem_tainted hx
        exact ⟨by simp only []; omega, hll, Nat.pos_of_ne_zero j2, owner_lt ho⟩
    by_cases hz : l = 0
    · rw [if_pos hz] at h4
      cases h4
      refine ⟨hs.cfg, hs.lab, ⟨ss, { ht with }⟩, hs.rd, hwp, hs.shadow, hs.shadowOk, ?_, hok,
        hs.events, hs.evLen, hs.evOk, hs.logOk, hs.logLen, hs.log, hs.logFits⟩
      rw [hw, show tainted k (off.getD (T.wr k)) len (fun _ => l) = [] by simp [tainted, hz],
        List.append_nil]
      exact hs.sinks
    · rw [if_neg hz, sinkSame_spec _ _ _ hz _ _ _ (written h) (by rw [hs.cfg]; exact hs.sinks)
        (by simpa using ha)] at h4
      cases h4
      refine ⟨hs.cfg, hs.lab, ⟨ss, { ht with }⟩, hs.rd, hwp, hs.shadow, hs.shadowOk, ?_, hok,
        hs.events, hs.evLen, hs.evOk, hs.logOk, hs.logLen, hs.log, hs.logFits⟩
      rw [hw]; simp only [hs.cfg, Nat.add_zero]

theorem step_sim {c : Config} {base : Nat} (hc : c.Ok base) {h : Trace} {T T' : Tracker} {cl : Call}
    {r : Ret} (hs : Sim c h T) (ha : T.Allowed cl) (he : T.exec cl = .ok (T', r)) :
    Sim c ((cl, r) :: h) T' := by
  cases cl with
  | union l r => exact step_union hc hs ha he
  | mark l => exact step_mark hc hs ha he
  | openFile fd name size => exact step_openFile hc hs ha he
  | closeFile fd => exact step_closeFile hs he
  | read fd addr off len => exact step_read hc hs ha he
  | input name addr len => exact step_input hc hs ha he
  | write fd off addr len => exact step_write hc hs ha he
  | writeLabel fd off l len => exact step_writeLabel hc hs ha he
  | cf e => exact step_cf hs ha he
  | fnEntry name => exact step_fnEntry hc hs ha he
  | fnExit i => exact step_fnExit hs ha he
  | store addr l => exact step_store hs ha he

theorem begins_room {c : Config} {base : Nat} (hc : c.Ok base) :
    beginOf c base 2 + c.strSize < 2 ^ 64 ∧ beginOf c base 7 + c.logSize < 2 ^ 64 := by
  have h := hc.addr
  simp only [Layout.required, Config.specs, Layout.headerSize, Layout.fileMetaSize,
    Layout.sectionMetaSize, List.map_cons, List.map_nil, List.sum_cons, List.sum_nil,
    List.length_cons, List.length_nil] at h
  simp only [beginOf, Layout.begins, Config.specs, Layout.starts, Layout.headerSize, Layout.fileMetaSize,
    Layout.sectionMetaSize, List.length_cons, List.length_nil]
  constructor
  · simp only [List.getElem?_cons_succ, List.getElem?_cons_zero, Option.getD_some]
    omega
  · simp only [List.getElem?_cons_succ, List.getElem?_cons_zero, Option.getD_some]
    omega

theorem init_sim {c : Config} {base : Nat} (hc : c.Ok base) {T : Tracker} (h : init c base = .ok T) :
    Sim c [] T := by
  simp only [init] at h
  split at h
  · cases h
  · simp only [Res.bind_eq_ok, Res.pure_eq] at h
    obtain ⟨S, h1, h2⟩ := h
    cases h2
    obtain ⟨r1, r2⟩ := begins_room hc
    obtain ⟨k1, k2, k3⟩ := StrTab.new_holds r1 h1
    have hw := Labels.init_words hc.lab0
    refine ⟨rfl, ⟨.nil _, ?_, ?_, ?_⟩, ⟨[], ?_⟩, fun _ => rfl, fun _ => rfl, fun _ => rfl, ?_, ?_, ?_, rfl,
      Nat.zero_le _, ?_, Section.new_ok r2, ?_, ?_, ?_⟩
    · exact Bitmap.inv_empty ..
    · exact Nat.zero_le _
    · intro b hb
      simp only [Bitmap.empty, List.mem_replicate] at hb
      rw [hb.2]; decide
    · refine ⟨k1, k3, by simp, rfl, Nat.zero_le _, by simp, by simp, rfl, Nat.zero_le _, by simp, rfl, by simp [functions]⟩
    · intro a; rw [hw.1]; simp
    · simp [written]
    · simp [written]
    · simp [fnEvents]
    · simp [Section.new]
    · simp [Section.new, cfEvents]
    · simp [cfEvents]

theorem Runs.sim {c : Config} {base : Nat} (hc : c.Ok base) {T₀ T : Tracker} {h : Trace}
    (hr : Runs T₀ h T) (h0 : Sim c [] T₀) : Sim c h T := by
  induction hr with
  | nil => exact h0
  | cons _ ha he ih => exact step_sim hc ih ha he

theorem Reach.sim {c : Config} {base : Nat} (hc : c.Ok base) {h : Trace} {T : Tracker}
    (hr : Reach c base h T) : Sim c h T := by
  obtain ⟨T₀, h0, h1⟩ := hr
  exact h1.sim hc (init_sim hc h0)

end Tracker
end Verif
