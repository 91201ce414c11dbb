import Verif.UnwindSim
import Verif.Props.C53
/-
C79: programs with exceptions. Library calls of an instrumented program may throw at any moment; the calls are left
until one has a landing block. The mapping and the cavities that Python computes from the trace are still exactly
those of the original program with the same exceptions. The log of control flow is still exactly the reports made,
but the call stacks read from it are right only if no exception leaves a function that has reported its entry.
-/
namespace Verif
namespace C79
open Ir PassIr CfPass Spec Labels DfsanMem Tracker EndToEnd Linked Unwind Py File

/-- How a run of the linked program may end: as `Q` says; or it is stopped because the store has no room for
`k` labels more than it had; or because the log, which has `n` events, has no room for `m` more. -/
def Does (c : Config) (k n m : Nat) (T : Tracker) (r : Res (IOut × Tracker)) (Q : IOut × Tracker → Prop) : Prop :=
  (∃ x, r = .ok x ∧ Q x) ∨ ((r = .fatal ∨ r = .ub) ∧ c.labelCap < T.labels.words.length + k) ∨
    (r = .fatal ∧ 0 < m ∧ c.logSize < 11 * (n + m))

/-- The program reported a decision on a value that depended on byte `b`. -/
def Noted (ev : List (Hook × Nat × (Nat × Nat → Prop))) (b : Nat × Nat) : Prop := ∃ y ∈ ev, y.1 = .noted ∧ y.2.2 b

/-- The number of reports that may be logged. -/
def toLog {τ : Type} (ev : List (Hook × Nat × τ)) : Nat := ev.countP fun y => match y.1 with
  | .noted => false
  | _ => true

/-- The events of the log for the reports: entering and leaving functions, and decisions with a label that stands
(`D`) for the bytes the decision depends on, if there are any. -/
inductive Events (D : Nat → Nat × Nat → Prop) : List (Hook × Nat × (Nat × Nat → Prop)) → List CfEvent → Prop where
  | nil : Events D [] []
  | enter {f v t rs es} : Events D rs es → Events D ((.enter f, v, t) :: rs) (.enter f :: es)
  | leave {f v t rs es} : Events D rs es → Events D ((.leave f, v, t) :: rs) (.leave f :: es)
  | tainted {f v t rs es l} : (∃ b, t b) → (∀ b, D l b ↔ t b) → Events D rs es →
      Events D ((.taken f, v, t) :: rs) (.tainted f l :: es)
  | untainted {f v t rs es} : (∀ b, ¬ t b) → Events D rs es → Events D ((.taken f, v, t) :: rs) es
  | noted {v t rs es} : Events D rs es → Events D ((.noted, v, t) :: rs) es

theorem toLog_eq {τ : Type} (ev : List (Hook × Nat × τ)) : toLog ev = saidCount ev := by
  unfold toLog saidCount
  congr 1

theorem events {cap : Nat} {L : Labels} (hs : Store cap L) : ∀ {es : List (Hook × Nat × Nat)}
    {rs : List (Hook × Nat × (Nat × Nat → Prop))},
    List.Forall₂ (fun x y => x.1 = y.1 ∧ x.2.1 = y.2.1 ∧ Den L x.2.2 y.2.2) es rs →
    Events (Denotes L.graph) rs (es.filterMap logged) := by
  intro es rs h
  induction h with
  | nil => exact .nil
  | @cons x y es rs hxy _ ih =>
    obtain ⟨k, v, l⟩ := x
    obtain ⟨k', v', t⟩ := y
    obtain ⟨h1, h2, h3⟩ := hxy
    simp only at h1 h2 h3
    subst h1 h2
    cases k with
    | enter f => exact .enter ih
    | leave f => exact .leave ih
    | noted => exact .noted ih
    | taken f =>
      by_cases hl : l = 0
      · subst hl
        refine .untainted (fun b hb => ?_) ih
        exact denotes_zero hs.good b ((h3.2 b).2 hb)
      · have e : logged (.taken f, v, l) = some (.tainted f l) := by simp [logged]; omega
        rw [List.filterMap_cons_some e]
        refine .tainted ?_ h3.2 ih
        have := mt (C47.den_zero_iff hs h3).2 hl
        exact Classical.byContradiction fun hn => this fun b hb => hn ⟨b, hb⟩

variable {dom : Nat → Nat → Nat → Bool} {P : Prog} {lands : Lands} {c : Config} {base src snk : Nat} {inp : World}
  {io : Io} {h : Trace}

/-- C79 (any exceptions): take any program accepted by the verifier, with any reports in it, instrument it, link it
with the runtime in any state the runtime can be in (history `h`), with its streams registered as input `src` and
output `snk`, and run it on any input, to any moment, with exceptions thrown by library calls at any moments `as`
and caught by any landing blocks `lands`. Unless there is no room for the labels or the log, it does what the
original program does with the same exceptions. If it is ended there and its trace is read by Python, then
(1) byte `o` of file `p` maps to byte `r` of file `q` exactly if it did before, or byte `r` of the output of the
original program depends on byte `o` of `p`;
(2) the events of the log are exactly those before followed by those for the reports of the original program;
(3) the cavities are the maximal runs of bytes on which no reported decision and no output byte depends. -/
theorem C79_exceptions (c : Config) (base : Nat) (hc : c.Ok base) (h : Trace) (T : Tracker)
    (hr : Tracker.Reach c base h T) (hu : ∀ n ∈ names h, utf8 n = true)
    (dom : Nat → Nat → Nat → Bool) (P : Prog) (hP : C47.Accepted dom P) (lands : Lands) (hL : LandsOk P lands)
    (io : Io) (src snk : Nat) (hS : Streams h io src snk) (inp : World) (fn : Nat) (F : Func)
    (hF : P[fn]? = some F) (hne : F.blocks ≠ []) (args : List Nat) (mem : Mem) (hm : Spec.IsBytes mem)
    (tm : Nat → Nat × Nat → Prop) (hz : TaintedBy T.labels mem tm) (sp : Nat) (as : List (Option Nat))
    (o : Out (Nat × Nat → Prop)) (gs : Glob (Nat × Nat → Prop))
    (hs : xrun (sets src) P lands inp as (start (sets src) fn args mem sp tm) = o)
    (ho : globAfter o = some gs) (hpos : gs.pos < 2 ^ 54) (hbytes : ∀ y ∈ gs.out, y.1 < 256)
    (hlen : gs.out.length < 2 ^ 54)
    (hfns : ∀ y ∈ gs.ev, ∀ f, y.1 = .enter f ∨ y.1 = .leave f ∨ y.1 = .taken f → f < 2 ^ 32)
    (hlog : (Spec.written h).length + gs.out.length ≤ c.sinkCap) :
    Does c (xcost (sets src) P lands inp as (start (sets src) fn args mem sp tm)) (cfEvents h).length (toLog gs.ev) T
      (txrun dom P lands inp io as (istart F fn args mem sp T.labels) T)
      (fun x => ∃ g, Stands o x.1 g ∧ g.out.map (·.1) = gs.out.map (·.1) ∧
        (x.2.labels.words.length + 64 ≤ c.indexCap → ∀ pads, ∃ G N d es, parse (closed pads c base x.2) = some G ∧
          (∃ m, (∀ fuel, N ≤ fuel → mapping G fuel = some m) ∧
            ∀ p o q r, Maps m (p, ((o : Nat) : Int)) (q, r) ↔
              C52.Before h p o q r ∨ C52.Depends h snk gs.out p o q r) ∧
          (Events (Denotes x.2.labels.graph) gs.ev es ∧ G.cfItems = some (replay (cfEvents h ++ es) [])) ∧
          (∀ fuel, N ≤ fuel → fileCavities G fuel = some d) ∧
          (∀ p, (∃ rs, d.get p = some rs) ↔ ∃ i e, C52.InUse h (C52.HasRead h src gs.pos) p i e) ∧
          ∀ p rs, d.get p = some rs → MaximalRuns rs (C52.Idle h (C52.HasRead h src gs.pos)
            (C52.Mattered h (Noted gs.ev) gs.out) p))) := by
  have hsim := hr.sim hc
  have hst : Store c.labelCap T.labels := ⟨hsim.lab.reach.good hc.lab0 hc.lab, hsim.lab.reach.cap hc.lab0 hc.lab⟩
  have hsrc : src < 256 := owner_256 hc hr hS.input
  have hrel := start_rel (src := src) hP hst hF hne args hm hz sp
  have hq := txrun_sim (inp := inp) hP hL hc hsrc hS.input hS.output as hrel
    (start_link hr hS F fn args mem sp) (by rw [hs]; exact ho) hpos ⟨hbytes, hlen, hfns⟩
  rw [hs] at hq
  rw [toLog_eq]
  refine hq.mono ?_
  intro x hx
  obtain ⟨g, h', k1, k2, k3, k4⟩ : ∃ g h', Stands o x.1 g ∧ GRel c.labelCap g gs ∧
      Evolves (xcost (sets src) P lands inp as (start (sets src) fn args mem sp tm))
        (istart F fn args mem sp T.labels).glob g ∧ Link c base io src snk h g x.2 h' := by
    cases o with
    | stuck => cases ho
    | next s =>
      cases ho
      obtain ⟨i, T', h', rfl, k1, k2, k3⟩ := hx
      exact ⟨i.glob, h', rfl, k1.glob, k2, k3⟩
    | done v g =>
      cases ho
      obtain ⟨l, g', T', h', rfl, k0, k1, k2, k3⟩ := hx
      exact ⟨g', h', ⟨rfl, rfl, k0.2⟩, k1, k2, k3⟩
  refine ⟨g, k1, ?_, ?_⟩
  · have := k2.out
    generalize gs.out = ys at this
    generalize g.out = xs at this
    induction this with
    | nil => rfl
    | cons a _ ih => simp only [List.map_cons, a.1, ih]
  intro hroom pads
  obtain ⟨G, N, m, a1, a2, a3⟩ := C52.mapping_read hc hr hu
    (g0 := (istart F fn args mem sp T.labels).glob) rfl k2 k3 k4 hlog hroom pads
  have hflag : ∀ b, C51.FlaggedByte g.L b ↔ Influenced (labelEvents h) b ∨ Noted gs.ev b := fun b =>
    C51.flags hc.lab0 hc.lab (g := (istart F fn args mem sp T.labels).glob) hsim.lab.reach rfl k3 k2 b
  obtain ⟨G', N', d, b1, b2, b3, b4, -⟩ := C52.cavities_any hc hr hu
    (g0 := (istart F fn args mem sp T.labels).glob) rfl k2 k3 k4 hflag hlog hroom pads
  obtain rfl : G = G' := by rw [a1] at b1; cases b1; rfl
  obtain ⟨G', hG', -, hrec⟩ := shows_reach c base hc h' x.2 k4.reach hroom (by rw [k4.names]; exact hu) pads
  obtain rfl : G = G' := by rw [a1] at hG'; cases hG'; rfl
  refine ⟨G, max N N', d, g.ev.filterMap logged, a1, ⟨m, fun fuel hf => a2 fuel (by omega), a3⟩, ⟨?_, ?_⟩,
    fun fuel hf => b2 fuel (by omega), b3, b4⟩
  · rw [k4.labels]; exact events k2.store k2.ev
  · rw [hrec.cf, k4.cf]

theorem told_events {D : Nat → Nat × Nat → Prop} {rs : List (Hook × Nat × (Nat × Nat → Prop))} {es : List CfEvent}
    (h : Events D rs es) : ∀ {st st' : List Nat}, follow (rs.map (·.1)) st = some st' →
    ∃ items, Told D rs st items st' ∧ replay es st = (items ++ drain st', false) := by
  induction h with
  | nil =>
    intro st st' h
    cases h
    exact ⟨[], .nil _, rfl⟩
  | enter _ ih =>
    intro st st' h
    obtain ⟨items, h1, h2⟩ := ih h
    exact ⟨_, .enter h1, by simp [replay, h2]⟩
  | @leave f v t rs es _ ih =>
    intro st st' h
    cases st with
    | nil => cases h
    | cons g st =>
      simp only [List.map_cons, follow] at h
      split at h
      · rename_i e
        subst e
        obtain ⟨items, h1, h2⟩ := ih h
        exact ⟨_, .leave h1, by simp [replay, unwound, unwinding, h2]⟩
      · cases h
  | @tainted f v t rs es l hb hl _ ih =>
    intro st st' h
    simp only [List.map_cons, follow] at h
    split at h
    · rename_i e
      obtain ⟨st1, rfl⟩ : ∃ st1, st = f :: st1 := by
        cases st with
        | nil => simp at e
        | cons a st1 => simp at e; exact ⟨st1, by rw [e]⟩
      obtain ⟨items, h1, h2⟩ := ih h
      exact ⟨_, .tainted hb hl h1, by simp [replay, unwound, unwinding, h2]⟩
    · cases h
  | @untainted f v t rs es hb _ ih =>
    intro st st' h
    simp only [List.map_cons, follow] at h
    split at h
    · rename_i e
      obtain ⟨st1, rfl⟩ : ∃ st1, st = f :: st1 := by
        cases st with
        | nil => simp at e
        | cons a st1 => simp at e; exact ⟨st1, by rw [e]⟩
      obtain ⟨items, h1, h2⟩ := ih h
      exact ⟨_, .untainted hb h1, h2⟩
    · cases h
  | noted _ ih =>
    intro st st' h
    obtain ⟨items, h1, h2⟩ := ih h
    exact ⟨_, .noted h1, h2⟩

/-- C79 (stacks; partial: the reports of the original program must follow a stack, i.e. no exception may leave a
function that reports its entry; otherwise it is false, see below). In the situation of `C79_exceptions`, if nothing
was logged before, Python reads from the log exactly the reports of the original program, each with the call stack
at that point, followed by leaving the functions still being executed. -/
theorem C79_stacks_partial (c : Config) (base : Nat) (hc : c.Ok base) (h : Trace) (T : Tracker)
    (hr : Tracker.Reach c base h T) (hu : ∀ n ∈ names h, utf8 n = true) (hfresh : cfEvents h = [])
    (dom : Nat → Nat → Nat → Bool) (P : Prog) (hP : C47.Accepted dom P) (lands : Lands) (hL : LandsOk P lands)
    (io : Io) (src snk : Nat) (hS : Streams h io src snk) (inp : World) (fn : Nat) (F : Func)
    (hF : P[fn]? = some F) (hne : F.blocks ≠ []) (args : List Nat) (mem : Mem) (hm : Spec.IsBytes mem)
    (tm : Nat → Nat × Nat → Prop) (hz : TaintedBy T.labels mem tm) (sp : Nat) (as : List (Option Nat))
    (o : Out (Nat × Nat → Prop)) (gs : Glob (Nat × Nat → Prop))
    (hs : xrun (sets src) P lands inp as (start (sets src) fn args mem sp tm) = o)
    (ho : globAfter o = some gs) (hpos : gs.pos < 2 ^ 54) (hbytes : ∀ y ∈ gs.out, y.1 < 256)
    (hlen : gs.out.length < 2 ^ 54)
    (hfns : ∀ y ∈ gs.ev, ∀ f, y.1 = .enter f ∨ y.1 = .leave f ∨ y.1 = .taken f → f < 2 ^ 32)
    (hlog : (Spec.written h).length + gs.out.length ≤ c.sinkCap) (st : List Nat)
    (hst : follow (gs.ev.map (·.1)) [] = some st) :
    Does c (xcost (sets src) P lands inp as (start (sets src) fn args mem sp tm)) 0 (toLog gs.ev) T
      (txrun dom P lands inp io as (istart F fn args mem sp T.labels) T)
      (fun x => x.2.labels.words.length + 64 ≤ c.indexCap → ∀ pads, ∃ G items,
        parse (closed pads c base x.2) = some G ∧ G.cfItems = some (items ++ drain st, false) ∧
        Told (Denotes x.2.labels.graph) gs.ev [] items st) := by
  have hq := C79_exceptions c base hc h T hr hu dom P hP lands hL io src snk hS inp fn F hF hne args mem hm tm hz sp as
    o gs hs ho hpos hbytes hlen hfns hlog
  rw [hfresh] at hq
  rcases hq with ⟨x, h1, g, -, -, h2⟩ | hq
  · refine Or.inl ⟨x, h1, fun hroom pads => ?_⟩
    obtain ⟨G, N, d, es, k1, -, ⟨k2, k3⟩, -⟩ := h2 hroom pads
    obtain ⟨items, a1, a2⟩ := told_events k2 hst
    exact ⟨G, items, k1, by rw [k3, List.nil_append, a2], a1⟩
  · exact Or.inr hq

/-- C79 (nobody catches): if a library call throws and no call being executed has a landing block, the linked program
is stopped as the original program is, with the trace it has made so far: that of `C79_exceptions`. -/
theorem C79_uncaught (c : Config) (base : Nat) (hc : c.Ok base) (h : Trace) (T : Tracker)
    (hr : Tracker.Reach c base h T)
    (dom : Nat → Nat → Nat → Bool) (P : Prog) (hP : C47.Accepted dom P) (lands : Lands) (hL : LandsOk P lands)
    (io : Io) (src snk : Nat) (hS : Streams h io src snk) (inp : World) (fn : Nat) (F : Func)
    (hF : P[fn]? = some F) (hne : F.blocks ≠ []) (args : List Nat) (mem : Mem) (hm : Spec.IsBytes mem)
    (tm : Nat → Nat × Nat → Prop) (hz : TaintedBy T.labels mem tm) (sp : Nat) (as : List (Option Nat))
    (s : State (Nat × Nat → Prop))
    (hs : xrun (sets src) P lands inp as (start (sets src) fn args mem sp tm) = .next s)
    (hpos : s.glob.pos < 2 ^ 54) (hbytes : ∀ y ∈ s.glob.out, y.1 < 256) (hlen : s.glob.out.length < 2 ^ 54)
    (hfns : ∀ y ∈ s.glob.ev, ∀ f, y.1 = .enter f ∨ y.1 = .leave f ∨ y.1 = .taken f → f < 2 ^ 32)
    (fr : Frame (Nat × Nat → Prop)) (rest : List (Frame (Nat × Nat → Prop))) (hf : s.frames = fr :: rest)
    (f : List Nat → Nat) (os : List Opd) (hI : instrAt P fr.fn fr.blk fr.idx = some (.untracked f os))
    (hn : ∀ f ∈ s.frames, landing P lands f.fn f.blk f.idx = none) (v : Nat) :
    raise (sets src) P lands v s = .stuck ∧
    Does c (xcost (sets src) P lands inp as (start (sets src) fn args mem sp tm)) (cfEvents h).length
      (toLog s.glob.ev) T (txrun dom P lands inp io as (istart F fn args mem sp T.labels) T)
      (fun x => txrun dom P lands inp io (as ++ [some v]) (istart F fn args mem sp T.labels) T = .ok (.stuck, x.2)) := by
  constructor
  · have key : ∀ (fs : List (Frame (Nat × Nat → Prop))) (g : Glob (Nat × Nat → Prop)),
        (∀ f ∈ fs, landing P lands f.fn f.blk f.idx = none) → unroll (sets src) P lands v g fs = .stuck := by
      intro fs
      induction fs with
      | nil => intro g _; rfl
      | cons fr fs ih =>
        intro g h
        unfold unroll
        rw [h fr (by simp)]
        exact ih _ (fun f hf => h f (by simp [hf]))
    unfold raise
    rw [hf]
    simp only [hI]
    exact key _ _ (by rw [← hf]; exact hn)
  · have hsim := hr.sim hc
    have hst : Store c.labelCap T.labels := ⟨hsim.lab.reach.good hc.lab0 hc.lab, hsim.lab.reach.cap hc.lab0 hc.lab⟩
    have hsrc : src < 256 := owner_256 hc hr hS.input
    have hrel := start_rel (src := src) hP hst hF hne args hm hz sp
    have hq := txrun_sim (inp := inp) hP hL hc hsrc hS.input hS.output as hrel
      (start_link hr hS F fn args mem sp) (by rw [hs]; rfl) hpos ⟨hbytes, hlen, hfns⟩
    rw [hs] at hq
    rw [toLog_eq]
    rcases hq with ⟨x, h1, i, T', h', rfl, k1, -, k3⟩ | hq
    · refine Or.inl ⟨_, h1, ?_⟩
      rw [txrun_append as _ h1]
      unfold txrun
      simp only [txstep]
      rw [tthrow_none hP k1 k3 hf hI hn]
      rfl
    · exact Or.inr hq

/-! ### An example -/

/-- Reads three bytes, calls `thrower` with the first; where the exception lands, outputs the exception object and
branches on the second byte. -/
def mainF : Func where
  nparams := 0
  void := false
  blocks := [
    ⟨[], [.getc, .getc, .getc, .call true (.const 1) [.reg (.ins 0 0)]], .br (.const 0) (fun _ => 0) [1, 2]⟩,
    ⟨[], [], .ret (some (.const 0))⟩,
    ⟨[], [.load (.reg (.ins 0 3)) 1, .putc (.reg (.ins 2 0)), .hook .noted (.reg (.ins 0 1))],
      .ret (some (.reg (.ins 2 0)))⟩]

/-- Calls `inner`, without a landing block. -/
def thrower : Func where
  nparams := 1
  void := true
  blocks := [⟨[], [.call true (.const 2) [.arg 0]], .ret none⟩]

/-- Makes an exception object of its argument and throws it. -/
def inner : Func where
  nparams := 1
  void := true
  blocks := [⟨[], [.store (.const C47.a0) (.arg 0) 1, .untracked (fun _ => 0) [.const C47.a0]], .ret none⟩]

def prog : Prog := [mainF, thrower, inner]

/-- The landing block of the call in `mainF` is block 2. -/
def exLands : Lands := fun fn b => if fn = 0 ∧ b = 0 then some 2 else none

/-- The exception is thrown at the sixth step. -/
def acts : List (Option Nat) :=
  [none, none, none, none, none, none, some C47.a0, none, none, none, none]

/-- What Python computes from the trace of the program with the exception. -/
def answer (P : Prog) (F : Func) (lands : Lands) (as : List (Option Nat)) :
    Option (List ((List Nat × Int) × List (List Nat × Int)) × List (List Nat × List (Nat × Nat)) ×
      List CfItem) :=
  (Tracker.run exCfg 4096 C52.opens).bind fun p =>
    match txrun C47.dom0 P lands (.file [7, 8, 9]) C52.exIo as (istart F 0 [] (fun _ => 0) 0 p.1.labels) p.1 with
    | .ok (_, T) => (parse (closed zeroPads exCfg 4096 T)).bind fun F =>
      (mapping F 20).bind fun m => (fileCavities F 20).bind fun d => F.cfItems.map fun i => (m, d, i.1)
    | _ => none

/-- Byte 0 of "a" goes through the exception object to byte 0 of "b"; byte 1 is decided on; byte 2 is a
cavity, and so are the bytes never read. -/
example : (answer prog mainF exLands acts).map (·.1) = some [(([97], 0), [([98], 0)])] ∧
    (answer prog mainF exLands acts).map (·.2.1) = some [([97], [(2, 6)])] ∧
    (answer prog mainF exLands acts).map (·.2.2) = some [] := by
  decide +kernel

theorem prog_accepted : C47.Accepted C47.dom0 prog := by
  intro fn F hF
  match fn, hF with
  | 0, hF => cases hF; exact ⟨(Func.check_valid (by decide)).1, by decide, C47.dom0_sound 0 _⟩
  | 1, hF => cases hF; exact ⟨(Func.check_valid (by decide)).1, by decide, C47.dom0_sound 1 _⟩
  | 2, hF => cases hF; exact ⟨(Func.check_valid (by decide)).1, by decide, C47.dom0_sound 2 _⟩
  | n + 3, hF => cases hF

theorem prog_lands : LandsOk prog exLands := by
  intro fn F b B t hF hB hl
  simp only [exLands] at hl
  split at hl
  · rename_i e
    obtain ⟨rfl, rfl⟩ := e
    cases hF
    cases hB
    cases hl
    decide
  · cases hl

/-- The hypotheses are met by the example. -/
example : ∃ (h : Trace) (T : Tracker), exCfg.Ok 4096 ∧ Tracker.Reach exCfg 4096 h T ∧
    (∀ n ∈ names h, utf8 n = true) ∧ cfEvents h = [] ∧ C47.Accepted C47.dom0 prog ∧ LandsOk prog exLands ∧
    Streams h C52.exIo 0 1 ∧
    ∃ v gs, xrun (sets 0) prog exLands (.file [7, 8, 9]) acts (start (sets 0) 0 [] (fun _ => 0) 0) = .done v gs ∧
      globAfter (.done v gs) = some gs ∧ gs.pos < 2 ^ 54 ∧ (∀ y ∈ gs.out, y.1 < 256) ∧ gs.out.length < 2 ^ 54 ∧
      (∀ y ∈ gs.ev, ∀ f, y.1 = .enter f ∨ y.1 = .leave f ∨ y.1 = .taken f → f < 2 ^ 32) ∧
      (Spec.written h).length + gs.out.length ≤ exCfg.sinkCap ∧ follow (gs.ev.map (·.1)) [] = some [] := by
  have hrun : (Tracker.run exCfg 4096 C52.opens).isSome = true := by decide +kernel
  obtain ⟨⟨T, h⟩, hx⟩ := Option.isSome_iff_exists.1 hrun
  have key : (match Tracker.run exCfg 4096 C52.opens with
      | none => false
      | some (T, h) => decide ((∀ n ∈ names h, utf8 n = true) ∧ cfEvents h = [] ∧ owner h 3 = some 0 ∧
        owner h 4 = some 1 ∧ writePos h 1 = 0 ∧ Spec.written h = [])) = true := by decide +kernel
  rw [hx] at key
  simp only [decide_eq_true_eq] at key
  obtain ⟨k1, k2, k3, k4, k5, k7⟩ := key
  obtain ⟨v, gs, h1, h2, h3, h4⟩ : ∃ v gs, xrun (sets 0) prog exLands (.file [7, 8, 9]) acts
      (start (sets 0) 0 [] (fun _ => 0) 0) = .done v gs ∧ gs.pos = 3 ∧ gs.out.map (·.1) = [7] ∧
      gs.ev.map (·.1) = [.noted] := ⟨_, _, rfl, rfl, rfl, rfl⟩
  have h5 : gs.out.length = 1 := by simpa using congrArg List.length h3
  refine ⟨h, T, exCfg_ok, run_reach hx, k1, k2, prog_accepted, prog_lands, ⟨k3, k4, (by intro h; cases h), fun _ => k5⟩,
    v, gs, h1, rfl, by omega, ?_, by omega, ?_, by rw [k7, h5]; decide, by rw [h4]; rfl⟩
  · intro y hy
    have : y.1 ∈ gs.out.map (·.1) := List.mem_map.2 ⟨y, hy, rfl⟩
    rw [h3, List.mem_singleton] at this
    omega
  · intro y hy f hf
    have : y.1 ∈ gs.ev.map (·.1) := List.mem_map.2 ⟨y, hy, rfl⟩
    rw [h4, List.mem_singleton] at this
    rw [this] at hf
    simp at hf

/-- An exception that nobody catches: the same program without landing blocks. -/
example : LandsOk prog (fun _ _ => none) ∧ ∃ (s : State (Nat × Nat → Prop)) (fr : Frame (Nat × Nat → Prop))
    (rest : List (Frame (Nat × Nat → Prop))) (f : List Nat → Nat) (os : List Opd),
    xrun (sets 0) prog (fun _ _ => none) (.file [7, 8, 9]) (acts.take 6) (start (sets 0) 0 [] (fun _ => 0) 0) = .next s ∧
    s.frames = fr :: rest ∧ instrAt prog fr.fn fr.blk fr.idx = some (.untracked f os) ∧
    ∀ f ∈ s.frames, landing prog (fun _ _ => none) f.fn f.blk f.idx = none := by
  refine ⟨fun fn F b B t _ _ h => (by cases h), _, _, _, _, _, rfl, rfl, rfl, ?_⟩
  intro f hf
  unfold landing
  cases prog[f.fn]? with
  | none => rfl
  | some F =>
    simp only [Option.bind_some]
    cases F.blocks[f.blk]? with
    | none => rfl
    | some B => simp

/-! ### Call stacks -/

/-- Calls function 1; where the exception lands, calls function 2. Reports its entry and its exit. -/
def caller : Func where
  nparams := 0
  void := true
  blocks := [
    ⟨[], [.hook (.enter 0) (.const 0), .call true (.const 1) []], .br (.const 0) (fun _ => 0) [1, 2]⟩,
    ⟨[], [.hook (.leave 0) (.const 0)], .ret none⟩,
    ⟨[], [.call true (.const 2) [], .hook (.leave 0) (.const 0)], .ret none⟩]

/-- Throws. -/
def left : Func where
  nparams := 0
  void := true
  blocks := [⟨[], [.hook (.enter 1) (.const 0), .untracked (fun _ => 0) [], .hook (.leave 1) (.const 0)], .ret none⟩]

/-- Does nothing. -/
def after : Func where
  nparams := 0
  void := true
  blocks := [⟨[], [.hook (.enter 2) (.const 0), .hook (.leave 2) (.const 0)], .ret none⟩]

/-- The stacks are false if an exception leaves a function that has reported its entry: function 1, called by
function 0, is left by an exception that function 0 catches; function 0 then calls function 2. Python reports that
function 2 is called by function 1. -/
theorem C79_stacks_refuted : ∃ (P : Prog) (F : Func) (lands : Lands) (as : List (Option Nat)),
    C47.Accepted C47.dom0 P ∧ LandsOk P lands ∧ P[0]? = some F ∧
    (∃ s, xrun (sets 0) P lands (.file [7, 8, 9]) as (start (sets 0) 0 [] (fun _ => 0) 0) = .next s ∧
      s.frames.map (·.fn) = [2, 0]) ∧
    (answer P F lands as).map (·.2.2) =
      some [.enter [0], .enter [0, 1], .enter [0, 1, 2], .leave [0, 1, 2], .leave [0, 1], .leave [0]] := by
  refine ⟨[caller, left, after], caller, exLands, [none, none, none, some 0, none, none], ?_, ?_, rfl, ⟨_, rfl, rfl⟩,
    by decide +kernel⟩
  · intro fn F hF
    match fn, hF with
    | 0, hF => cases hF; exact ⟨(Func.check_valid (by decide)).1, by decide, C47.dom0_sound 0 _⟩
    | 1, hF => cases hF; exact ⟨(Func.check_valid (by decide)).1, by decide, C47.dom0_sound 1 _⟩
    | 2, hF => cases hF; exact ⟨(Func.check_valid (by decide)).1, by decide, C47.dom0_sound 2 _⟩
    | n + 3, hF => cases hF
  · intro fn F b B t hF hB hl
    simp only [exLands] at hl
    split at hl
    · rename_i e
      obtain ⟨rfl, rfl⟩ := e
      cases hF
      cases hB
      cases hl
      decide
    · cases hl

end C79
end Verif
