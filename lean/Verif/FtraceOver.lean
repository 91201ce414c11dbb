import Verif.Ftrace
/- Helper lemmas: the linked program neither uses nor changes what function tracing writes. -/
namespace Verif
namespace Ftrace
open Ir PassIr Linked

/-- The tracker `T` with the names and function events of `X`. -/
def over (X T : Tracker) : Tracker :=
  { T with strings := X.strings, fns := X.fns, fnMap := X.fnMap, events := X.events }

theorem over_self (T : Tracker) : over T T = T := rfl

theorem over_over (X Y T : Tracker) : over X (over Y T) = over X T := rfl

theorem over_sourceTaint (X T : Tracker) (fd : Int) (ad off : Option Nat) (n : Nat) :
    (over X T).sourceTaint fd ad off n = (T.sourceTaint fd ad off n >>= fun r => .ok (over X r.1, r.2)) := by
  unfold Tracker.sourceTaint
  rw [show (over X T).mappingIdx fd = T.mappingIdx fd from rfl]
  cases T.mappingIdx fd with
  | none => rfl
  | some i =>
    have hcreate : ∀ T : Tracker, ∀ o, (over X T).createSourceTaint i ad n o =
        (T.createSourceTaint i ad n o >>= fun r => .ok (over X r.1, r.2)) := by
      intro T o
      simp only [Tracker.createSourceTaint, show (over X T).labels = T.labels from rfl,
        show (over X T).index = T.index from rfl, show (over X T).shadow = T.shadow from rfl]
      cases T.labels.createSourceLabels i o n with
      | fatal => rfl
      | ub => rfl
      | hang => rfl
      | ok p =>
        simp only [Res.bind_ok]
        cases T.index.setRange p.2.1 n <;> rfl
    cases off with
    | some o =>
      simp only [Tracker.sourceOffset, Res.bind_ok, hcreate]
      cases T.createSourceTaint i ad n o <;> rfl
    | none =>
      simp only [Tracker.sourceOffset, show (over X T).rd = T.rd from rfl]
      cases Tracker.increase T.rd i n with
      | fatal => rfl
      | ub => rfl
      | hang => rfl
      | ok p =>
        simp only [Res.bind_ok, Res.pure_eq]
        rw [show ({ over X T with rd := p.1 } : Tracker) = over X { T with rd := p.1 } from rfl, hcreate]
        cases Tracker.createSourceTaint { T with rd := p.1 } i ad n p.2 <;> rfl

theorem over_logSingle (X T : Tracker) (o l i : Nat) : (over X T).logSingle o l i = over X (T.logSingle o l i) := by
  unfold Tracker.logSingle
  simp only [show (over X T).sinks = T.sinks from rfl, show (over X T).cfg = T.cfg from rfl]
  split <;> rfl

theorem over_sinkLoop (X : Tracker) (i : Nat) : ∀ (n a o : Nat) (T : Tracker),
    Tracker.sinkLoop i a o n (over X T) = (Tracker.sinkLoop i a o n T >>= fun T => .ok (over X T))
  | 0, _, _, _ => rfl
  | n + 1, a, o, T => by
    unfold Tracker.sinkLoop
    simp only [show (over X T).labels = T.labels from rfl, show (over X T).shadow = T.shadow from rfl]
    cases Dfsan.readLabel true T.labels T.shadow a 1 with
    | fatal => rfl
    | ub => rfl
    | hang => rfl
    | ok p =>
      simp only [Res.bind_ok]
      have h := over_sinkLoop X i n (a + 1) (o + 1)
      by_cases hl : p.2 > 0
      · simp only [hl, if_true]
        rw [← h]
        exact congrArg _ (over_logSingle X { T with labels := p.1 } o p.2 i)
      · simp only [hl, if_false]
        exact h { T with labels := p.1 }

theorem over_sinkSame (X : Tracker) (idx l o : Nat) : ∀ (n i : Nat) (T : Tracker),
    Tracker.sinkSame idx l o i n (over X T) = over X (Tracker.sinkSame idx l o i n T)
  | 0, _, _ => rfl
  | n + 1, i, T => by
    unfold Tracker.sinkSame
    rw [over_logSingle, over_sinkSame X idx l o n]

theorem over_sinkOffset (X T : Tracker) (i : Nat) (off : Option Nat) (n : Nat) :
    (over X T).sinkOffset i off n = (T.sinkOffset i off n >>= fun r => .ok (over X r.1, r.2)) := by
  cases off with
  | some o => rfl
  | none =>
    simp only [Tracker.sinkOffset, show (over X T).wr = T.wr from rfl]
    cases Tracker.increase T.wr i n <;> rfl

theorem over_taintSink (X T : Tracker) (fd : Int) (off : Option Nat) (a n : Nat) :
    (over X T).taintSink fd off a n = (T.taintSink fd off a n >>= fun T => .ok (over X T)) := by
  unfold Tracker.taintSink
  rw [show (over X T).mappingIdx fd = T.mappingIdx fd from rfl]
  cases T.mappingIdx fd with
  | none => rfl
  | some i =>
    simp only [over_sinkOffset]
    cases T.sinkOffset i off n with
    | fatal => rfl
    | ub => rfl
    | hang => rfl
    | ok p => simp only [Res.bind_ok, over_sinkLoop]

theorem over_taintSinkLabel (X T : Tracker) (fd : Int) (off : Option Nat) (l n : Nat) :
    (over X T).taintSinkLabel fd off l n = (T.taintSinkLabel fd off l n >>= fun T => .ok (over X T)) := by
  unfold Tracker.taintSinkLabel
  rw [show (over X T).mappingIdx fd = T.mappingIdx fd from rfl]
  cases T.mappingIdx fd with
  | none => rfl
  | some i =>
    simp only [over_sinkOffset]
    cases T.sinkOffset i off n with
    | fatal => rfl
    | ub => rfl
    | hang => rfl
    | ok p =>
      simp only [Res.bind_ok, over_sinkSame]
      split <;> rfl

theorem over_getc (X T : Tracker) (fd : Int) (pos ch : Int) :
    Wrap.getc (over X T) fd pos ch = (Wrap.getc T fd pos ch >>= fun r => .ok (over X r.1, r.2)) := by
  unfold Wrap.getc
  cases Wrap.fromOffT pos with
  | fatal => rfl
  | ub => rfl
  | hang => rfl
  | ok off =>
    simp only [Res.bind_ok]
    split
    · rw [over_sourceTaint]
      cases T.sourceTaint fd none off 1 with
      | fatal => rfl
      | ub => rfl
      | hang => rfl
      | ok p =>
        obtain ⟨T', r⟩ := p
        cases r <;> rfl
    · rfl

theorem over_read (X T : Tracker) (fd : Int) (buf : Nat) (pos ret : Int) :
    Wrap.read (over X T) fd buf pos ret = (Wrap.read T fd buf pos ret >>= fun r => .ok (over X r.1, r.2)) := by
  unfold Wrap.read
  cases Wrap.fromOffT pos with
  | fatal => rfl
  | ub => rfl
  | hang => rfl
  | ok off =>
    simp only [Res.bind_ok]
    cases Wrap.fromReturnedSize ret with
    | none => rfl
    | some n =>
      simp only [Wrap.taintSourceBuffer, over_sourceTaint]
      cases T.sourceTaint fd (some buf) off n <;> rfl

theorem over_write (X T : Tracker) (fd : Int) (buf : Nat) (pos ret : Int) :
    Wrap.write (over X T) fd buf pos ret = (Wrap.write T fd buf pos ret >>= fun r => .ok (over X r.1, r.2)) := by
  unfold Wrap.write
  cases Wrap.fromOffT pos with
  | fatal => rfl
  | ub => rfl
  | hang => rfl
  | ok off =>
    simp only [Res.bind_ok]
    cases Wrap.fromReturnedSize ret with
    | none => rfl
    | some n =>
      simp only [Wrap.taintSinkBuffer, over_taintSink]
      cases T.taintSink fd off buf n <;> rfl

theorem over_putc (X T : Tracker) (fd ch : Int) (l : Nat) (pos ret : Int) :
    Wrap.putc (over X T) fd ch l pos ret = (Wrap.putc T fd ch l pos ret >>= fun r => .ok (over X r.1, r.2)) := by
  unfold Wrap.putc
  cases Wrap.fromOffT pos with
  | fatal => rfl
  | ub => rfl
  | hang => rfl
  | ok off =>
    simp only [Res.bind_ok]
    split
    · rw [over_taintSinkLabel]
      cases T.taintSinkLabel fd off l 1 <;> rfl
    · rfl

theorem over_logCf (X T : Tracker) (e : CfEvent) :
    (over X T).logCf e = (T.logCf e >>= fun T => .ok (over X T)) := by
  simp only [Tracker.logCf, show (over X T).cflog = T.cflog from rfl]
  cases CfLog.log T.cflog e <;> rfl

theorem over_mark (X T : Tracker) (l : Nat) :
    (over X T).affectsControlFlow l = (T.affectsControlFlow l >>= fun T => .ok (over X T)) := by
  simp only [Tracker.affectsControlFlow, show (over X T).labels = T.labels from rfl]
  cases T.labels.affectsControlFlow l <;> rfl

theorem over_instr (X T : Tracker) (io : Io) (P : Prog) (inp : World) (an : Ann) (fr : IFrame) (rest : List IFrame)
    (g : IGlob) (I : Instr) :
    tstepInstr io P inp an fr rest g (over X T) I =
      (tstepInstr io P inp an fr rest g T I >>= fun r => .ok (r.1, over X r.2)) := by
  cases I with
  | getc =>
    simp only [tstepInstr, over_getc]
    cases Wrap.getc T io.fdIn (told io.seekIn g.pos) (called (inp.byte g.pos)) <;> rfl
  | putc v =>
    simp only [tstepInstr, over_putc]
    cases Wrap.putc T io.fdOut (fr.get v) (fr.lab (an.xargs.headD .zero)) (told io.seekOut g.out.length)
      ((fr.get v % 256 : Nat) : Int) <;> rfl
  | read a n =>
    simp only [tstepInstr]
    split
    · rw [over_read]
      cases Wrap.read T io.fdIn (fr.get a) (told io.seekIn g.pos) (inp.got g.pos (fr.get n)) with
      | fatal => rfl
      | ub => rfl
      | hang => rfl
      | ok p =>
        simp only [Res.bind_ok, show (over X p.1).shadow = p.1.shadow from rfl]
        generalize copyLabels p.1.shadow _ _ _ = q
        cases q <;> rfl
    · rfl
  | write a n =>
    simp only [tstepInstr]
    split
    · rw [show sync (over X T) g.mem (fr.get a) (inp.took g.out.length (fr.get n)) =
        over X (sync T g.mem (fr.get a) (inp.took g.out.length (fr.get n))) from rfl, over_write]
      cases Wrap.write (sync T g.mem (fr.get a) (inp.took g.out.length (fr.get n))) io.fdOut (fr.get a)
        (told io.seekOut g.out.length) (inp.took g.out.length (fr.get n)) <;> rfl
    · rfl
  | hook k v =>
    cases k with
    | taken f =>
      simp only [tstepInstr, over_logCf]
      split
      · cases T.logCf (.tainted f (fr.lab (an.xargs.headD .zero))) <;> rfl
      · rfl
    | noted =>
      simp only [tstepInstr, over_mark]
      split
      · cases T.affectsControlFlow (fr.lab (an.xargs.headD .zero)) <;> rfl
      · rfl
    | enter f =>
      simp only [tstepInstr, over_logCf]
      cases T.logCf (.enter f) <;> rfl
    | leave f =>
      simp only [tstepInstr, over_logCf]
      cases T.logCf (.leave f) <;> rfl
  | _ =>
    simp only [tstepInstr]
    generalize istepInstr P inp 0 an fr rest g _ = q
    cases q <;> rfl

/-- A step. -/
theorem over_tstep (X T : Tracker) (dom : Nat → Nat → Nat → Bool) (P : Prog) (inp : World) (io : Io) (s : IState) :
    tstep dom P inp io s (over X T) = (tstep dom P inp io s T >>= fun r => .ok (r.1, over X r.2)) := by
  unfold tstep
  cases s.frames with
  | nil => rfl
  | cons fr rest =>
    simp only
    cases P[fr.fn]? with
    | none => rfl
    | some F =>
      simp only
      cases F.blocks[fr.blk]? with
      | none => rfl
      | some B =>
        simp only [show (over X T).labels = T.labels from rfl]
        cases sexecs (instrument (dom fr.fn) F).avoid ((instrument (dom fr.fn) F).st.ann (fr.blk, fr.idx + 1)).pre fr
            { s.glob with L := T.labels } with
        | fatal => rfl
        | ub => rfl
        | hang => rfl
        | ok p =>
          simp only [Res.bind_ok]
          cases B.body[p.1.idx]? with
          | none => rfl
          | some I => exact over_instr X { T with labels := p.2.L } io P inp _ p.1 rest p.2 I

/-- So a step keeps what function tracing writes. -/
theorem tstep_keeps {T T' : Tracker} {dom : Nat → Nat → Nat → Bool} {P : Prog} {inp : World} {io : Io} {s : IState}
    {o : IOut} (h : tstep dom P inp io s T = .ok (o, T')) : over T T' = T' := by
  have := over_tstep T T dom P inp io s
  rw [over_self, h] at this
  simp only [Res.bind_ok, Res.ok.injEq, Prod.mk.injEq, true_and] at this
  exact this.symm

theorem over_entry {T T' : Tracker} {name : List Nat} {i : Nat} (h : T.functionEntry name = .ok (T', i)) :
    over T' T = T' := by
  simp only [Tracker.functionEntry, Res.bind_eq_ok] at h
  obtain ⟨⟨T1, j⟩, h1, h2⟩ := h
  have k1 : over T1 T = T1 := by
    unfold Tracker.addMapping at h1
    split at h1
    · cases h1; rfl
    · simp only [Res.bind_eq_ok] at h1
      obtain ⟨⟨S, off⟩, -, h3⟩ := h1
      cases off with
      | none => cases h3; rfl
      | some off =>
        simp only at h3
        split at h3 <;> cases h3 <;> rfl
  cases j with
  | none => cases h2
  | some j =>
    simp only [Res.bind_eq_ok] at h2
    obtain ⟨T2, h3, h4⟩ := h2
    cases h4
    unfold Tracker.logEvent at h3
    split at h3
    · cases h3
      rw [← k1]
      rfl
    · cases h3

theorem over_exit {T T' : Tracker} {i : Nat} (h : T.functionExit i = .ok T') : over T' T = T' := by
  unfold Tracker.functionExit Tracker.logEvent at h
  split at h
  · cases h; rfl
  · cases h

variable {N : Fns} {dom : Nat → Nat → Nat → Bool} {P : Prog} {inp : World} {io : Io}

/-- A step with function tracing does what a step without does. -/
theorem ftstep_over {s : IState} {saved saved' : List Nat} {T T' : Tracker} {o : IOut}
    (h : ftstep N dom P inp io s saved T = .ok (o, saved', T')) (X : Tracker) :
    tstep dom P inp io s (over X T) = .ok (o, over X T') := by
  unfold ftstep at h
  cases hfr : s.frames with
  | nil =>
    rw [hfr] at h
    cases h
    unfold tstep
    rw [hfr]
    rfl
  | cons fr rest =>
    rw [hfr] at h
    simp only [Res.bind_eq_ok] at h
    obtain ⟨⟨T1, sv⟩, h1, T2, h2, ⟨o1, T3⟩, h3, h4⟩ := h
    cases h4
    have e1 : over X T1 = over X T := by
      unfold enters at h1
      split at h1
      · simp only [Res.bind_eq_ok] at h1
        obtain ⟨⟨T4, i⟩, h5, h6⟩ := h1
        cases h6
        rw [← over_entry h5]
        rfl
      · cases h1; rfl
    have e2 : over X T2 = over X T1 := by
      unfold leaves at h2
      split at h2
      · rw [← over_exit h2]; rfl
      · cases h2; rfl
    rw [← e1, ← e2, over_tstep, h3]
    rfl

/-- A run with function tracing does what a run without does; it only adds names and function events. -/
theorem ftrun_over : ∀ (n : Nat) {s : IState} {saved saved' : List Nat} {T T' : Tracker} {o : IOut},
    ftrun N dom P inp io n s saved T = .ok (o, saved', T') → ∀ X : Tracker,
    trun dom P inp io n s (over X T) = .ok (o, over X T')
  | 0, s, saved, saved', T, T', o, h, X => by cases h; rfl
  | n + 1, s, saved, saved', T, T', o, h, X => by
    unfold ftrun at h
    simp only [Res.bind_eq_ok] at h
    obtain ⟨⟨o1, sv, T1⟩, h1, h2⟩ := h
    unfold trun
    rw [ftstep_over h1 X]
    simp only [Res.bind_ok]
    cases o1 with
    | next s' => exact ftrun_over n h2 X
    | done v l g => cases h2; rfl
    | stuck => cases h2; rfl

end Ftrace
end Verif
