import Verif.ThreadsMain
import Verif.ThreadsHalfSim
import Verif.Props.C52
/-
C72: programs with threads. The threads of an instrumented program share memory, labels, files and the trace; any
thread may make the next step. Whatever the schedule, the mapping and the cavities that Python computes from the
trace are those of the original program under that schedule, provided the arguments and the values of threads
carry no taint. The taint of those is lost, and the log of control flow of more than
one thread can not be read.
-/
namespace Verif
namespace C72
open Ir PassIr CfPass Spec Labels DfsanMem Tracker EndToEnd Linked Threads Py File

/-- How a run of the linked program may end: as `Q` says, or it is stopped because the store has no room for
`k` labels more than it had. -/
def Does (c : Config) (k : Nat) (T : Tracker) (r : Res (Option IMulti)) (Q : IMulti → Prop) : Prop :=
  (∃ x, r = .ok (some x) ∧ Q x) ∨ ((r = .fatal ∨ r = .ub) ∧ c.labelCap < T.labels.words.length + k)

/-- No thread is about to take a decision. -/
def Quiet {τ : Type} (A : Alg τ) (C : Nat → Marks) (P : Prog) (S : Multi τ) : Prop :=
  ∀ (i : Nat) fs sp, S.threads[i]? = some (.live fs sp) → observe A C P ⟨fs, S.glob⟩ = []

/-- Byte `b` influenced a decision under the schedule `as`: one of the actions is a decision on a value that
depended on `b`. -/
def Decided (C : Nat → Marks) (P : Prog) (inp : World) (src : Nat) (as : List (Act (Nat × (Nat × Nat → Prop))))
    (S : Multi (Nat × Nat → Prop)) (b : Nat × Nat) : Prop :=
  ∃ as1 a as2 S1, as = as1 ++ a :: as2 ∧ mrun (sets src) P inp as1 S = some S1 ∧
    ∃ y ∈ mobserve (sets src) C P S1 a, y.2.2 b

/-- The threads that have ended did so with the values of the original program, and their labels stand for what
the values depend on; the other threads are still running. -/
def SameEnds (S : Multi (Nat × Nat → Prop)) (M : IMulti) : Prop :=
  M.threads.length = S.threads.length ∧
  (∀ (i : Nat) v, S.threads[i]? = some (.ended v) → ∃ l, M.threads[i]? = some (.ended v.1 l) ∧
    ∀ b, Denotes M.glob.L.graph l b ↔ v.2 b) ∧
  ∀ (i : Nat) fs sp, S.threads[i]? = some (.live fs sp) → ∃ fs' a r, M.threads[i]? = some (.live fs' a r sp)

theorem decided_iff {C : Nat → Marks} {P : Prog} {inp : World} {src : Nat} {b : Nat × Nat} :
    ∀ (as : List (Act (Nat × (Nat × Nat → Prop)))) {S S' : Multi (Nat × Nat → Prop)},
    mrun (sets src) P inp as S = some S' →
    ((∃ y ∈ mobserveRun (sets src) C P inp as S, y.2.2 b) ↔ Decided C P inp src as S b)
  | [], S, S', _ => by
    constructor
    · rintro ⟨y, hy, -⟩; cases hy
    · rintro ⟨as1, a, as2, S1, h, -⟩
      cases as1 <;> cases h
  | a :: as, S, S', h => by
    obtain ⟨S1, h1, h2⟩ := Option.bind_eq_some_iff.1 h
    have ih := decided_iff (C := C) (b := b) as h2
    simp only [mobserveRun, h1, Option.map_some, Option.getD_some, List.mem_append]
    constructor
    · rintro ⟨y, hy | hy, hb⟩
      · exact ⟨[], a, as, S, rfl, rfl, y, hy, hb⟩
      · obtain ⟨as1, a', as2, S2, rfl, k2, k3⟩ := ih.1 ⟨y, hy, hb⟩
        exact ⟨a :: as1, a', as2, S2, rfl, by simp only [mrun, h1, Option.bind_some]; exact k2, k3⟩
    · rintro ⟨as1, a', as2, S2, k1, k2, y, hy, hb⟩
      cases as1 with
      | nil =>
        cases k1
        cases k2
        exact ⟨y, .inl hy, hb⟩
      | cons x as1 =>
        cases k1
        simp only [mrun, h1, Option.bind_some] at k2
        obtain ⟨z, hz, hc⟩ := ih.2 ⟨as1, a', as2, S2, rfl, k2, y, hy, hb⟩
        exact ⟨z, .inr hz, hc⟩

variable {dom : Nat → Nat → Nat → Bool} {P : Prog} {c : Config} {base src snk : Nat} {inp : World} {io : Io}
  {h : Trace} {C : Nat → Marks}

theorem mobserve_noted {τ : Type} {A : Alg τ} (hC : ∀ f, ∃ lg cd, C f = taintTracking lg cd) (hN : C49.NoHooks P)
    {S : Multi τ} {a : Act (Nat × τ)} {y : Hook × Nat × τ} (hy : y ∈ mobserve A C P S a) : y.1 = .noted := by
  cases a with
  | run i =>
    simp only [mobserve] at hy
    split at hy
    · exact C51.observe_noted hC hN hy
    · cases hy
  | spawn f args sp =>
    obtain ⟨lg, cd, e⟩ := hC f
    simp [mobserve, e, taintTracking, plainReport] at hy
  | join i a => cases hy

theorem mobserveRun_noted {τ : Type} {A : Alg τ} (hC : ∀ f, ∃ lg cd, C f = taintTracking lg cd) (hN : C49.NoHooks P) :
    ∀ (as : List (Act (Nat × τ))) {S : Multi τ} {y : Hook × Nat × τ}, y ∈ mobserveRun A C P inp as S → y.1 = .noted
  | [], S, y, hy => by cases hy
  | a :: as, S, y, hy => by
    simp only [mobserveRun, List.mem_append] at hy
    rcases hy with hy | hy
    · exact mobserve_noted hC hN hy
    · cases e : mstep A P inp S a with
      | none => rw [e] at hy; cases hy
      | some S1 => rw [e] at hy; exact mobserveRun_noted hC hN as hy

theorem early (hC : ∀ f, ∃ lg cd, C f = taintTracking lg cd) (hN : C49.NoHooks P) : CfPass.Early C P := by
  refine ⟨fun f => ?_, hN⟩
  obtain ⟨lg, cd, e⟩ := hC f
  rw [e]; rfl

theorem fine {gs : Glob (Nat × Nat → Prop)} (hb : ∀ y ∈ gs.out, y.1 < 256)
    (hl : gs.out.length < 2 ^ 54) (hn : ∀ y ∈ gs.ev, y.1 = .noted) : Fine gs ∧ saidCount gs.ev = 0 := by
  refine ⟨⟨hb, hl, ?_⟩, ?_⟩
  · intro y hy f hf
    rw [hn y hy] at hf
    simp at hf
  · rw [saidCount, List.countP_eq_zero]
    intro y hy
    rw [hn y hy]
    simp [Linked.said]

theorem does {k n : Nat} {T : Tracker} {r : Res (Option IMulti)} {Q : Option IMulti → Prop} {R : IMulti → Prop}
    (hd : TGoes c k T.labels n 0 r Q) (hq : ∀ x, Q x → ∃ M, x = some M ∧ R M) : Does c k T r R := by
  rcases hd with ⟨x, h1, h2⟩ | h1 | h1
  · obtain ⟨M, rfl, h3⟩ := hq x h2
    exact Or.inl ⟨M, h1, h3⟩
  · exact Or.inr h1
  · exact absurd h1.2.1 (by omega)

/-- Threads of the program with reports and of the original program have ended alike. -/
theorem sameEnds {cap : Nat} {S S' : Multi (Nat × Nat → Prop)} {M : IMulti} (hM : MRel dom (pass C P) cap M S')
    {R : Thread (Nat × Nat → Prop) → Thread (Nat × Nat → Prop) → Prop} (hS : List.Forall₂ R S.threads S'.threads)
    (hR : ∀ x y, R x y → match x, y with
      | .live _ sp, .live _ sp' => sp = sp'
      | .ended v, .ended v' => v = v'
      | _, _ => False) : SameEnds S M := by
  refine ⟨hM.threads.length_eq.trans hS.length_eq.symm, ?_, ?_⟩
  · intro i v hv
    obtain ⟨y, h1, h2⟩ := forall₂_get_left hS hv
    have := hR _ _ h2
    cases y with
    | live fs sp => exact this.elim
    | ended v' =>
      cases this
      obtain ⟨x, h3, h4⟩ := forall₂_get hM.threads h1
      cases x with
      | live fs a r sp => exact h4.elim
      | ended w l =>
        obtain ⟨rfl, h5⟩ := h4
        exact ⟨l, h3, h5.2⟩
  · intro i fs sp hv
    obtain ⟨y, h1, h2⟩ := forall₂_get_left hS hv
    have := hR _ _ h2
    cases y with
    | ended v => exact this.elim
    | live fs' sp' =>
      cases this
      obtain ⟨x, h3, h4⟩ := forall₂_get hM.threads h1
      cases x with
      | ended w l => exact h4.elim
      | live fs a r sp =>
        obtain ⟨rfl, -⟩ := h4
        exact ⟨fs, a, r, h3⟩

theorem outs {cap : Nat} {g : IGlob} {gs : Glob (Nat × Nat → Prop)} (hg : GRel cap g gs) :
    g.out.map (·.1) = gs.out.map (·.1) := by
  have := hg.out
  generalize gs.out = ys at this
  generalize g.out = xs at this
  induction this with
  | nil => rfl
  | cons a _ ih => simp only [List.map_cons, a.1, ih]

/-- C72 (any schedule; partial: threads are started with untainted arguments, and values of threads are
collected into places that already depend on the same bytes, e.g. both on none). Take any program accepted by the verifier, insert the reports of the taint-tracking pass, instrument
it, link it with the runtime in any state the runtime can be in, and let its threads run under any schedule `bs`
that is possible for the program with reports. Apart from the reports this is a schedule `as` of the original
program. Unless there is no room for the labels, the linked program does what the original program does under
`as`: threads end with the same values and with labels that stand for what the values depend on; and if it is
ended there and its trace is read by Python, the mapping is exactly the dependence of outputs on inputs of the
original program under that schedule (and what was before), and, if no thread is just about to take a decision,
the cavities are exactly the bytes on which no decision and no output depends. -/
theorem C72_schedule_partial (c : Config) (base : Nat) (hc : c.Ok base) (h : Trace) (T : Tracker)
    (hr : Tracker.Reach c base h T) (hu : ∀ n ∈ names h, utf8 n = true)
    (dom : Nat → Nat → Nat → Bool) (P : Prog) (hP : C47.Accepted dom P) (hP2 : C49.Accepted P)
    (hN : C49.NoHooks P) (C : Nat → Marks) (hC : ∀ f, ∃ lg cd, C f = taintTracking lg cd)
    (io : Io) (src snk : Nat) (hS : Streams h io src snk) (inp : World) (fn : Nat) (F : Func)
    (hF : P[fn]? = some F) (hne : F.blocks ≠ []) (args : List Nat) (mem : Mem) (hm : Spec.IsBytes mem)
    (tm : Nat → Nat × Nat → Prop) (hz : TaintedBy T.labels mem tm) (sp : Nat)
    (bs : List (Act (Nat × (Nat × Nat → Prop))))
    (hs : (mrun (sets src) (pass C P) inp bs (mstart (sets src) fn args mem sp tm)).isSome) :
    ∃ as S, as.Sublist bs ∧ mrun (sets src) P inp as (mstart (sets src) fn args mem sp tm) = some S ∧
      (S.glob.pos < 2 ^ 54 → (∀ y ∈ S.glob.out, y.1 < 256) → S.glob.out.length < 2 ^ 54 →
        (Spec.written h).length + S.glob.out.length ≤ c.sinkCap →
        KeptRun (sets src) P inp as (mstart (sets src) fn args mem sp tm) →
        Does c (mrunCost (sets src) P inp as (mstart (sets src) fn args mem sp tm)) T
          (tmrun dom (pass C P) inp io (bs.map plain) (tmstart (passFunc (C fn) F) fn args mem sp T))
          (fun M => SameEnds S M ∧ M.glob.out.map (·.1) = S.glob.out.map (·.1) ∧
            (M.T.labels.words.length + 64 ≤ c.indexCap → ∀ pads, ∃ D N m d,
              parse (closed pads c base M.T) = some D ∧ (∀ fuel, N ≤ fuel → mapping D fuel = some m) ∧
              (∀ fuel, N ≤ fuel → fileCavities D fuel = some d) ∧
              (∀ p o q r, Maps m (p, ((o : Nat) : Int)) (q, r) ↔
                C52.Before h p o q r ∨ C52.Depends h snk S.glob.out p o q r) ∧
              (∀ p, (∃ rs, d.get p = some rs) ↔ ∃ i e, C52.InUse h (C52.HasRead h src S.glob.pos) p i e) ∧
              (Quiet (sets src) C P S → ∀ p rs, d.get p = some rs →
                MaximalRuns rs (C52.Idle h (C52.HasRead h src S.glob.pos)
                  (C52.Mattered h (Decided C P inp src as (mstart (sets src) fn args mem sp tm)) S.glob.out) p))))) := by
  obtain ⟨S', hs⟩ := Option.isSome_iff_exists.1 hs
  have hE := early hC hN
  obtain ⟨as, S, h1, h2, h3, h4, h5⟩ := back_sets hP2 bs (start_back (A := sets src) (inp := inp) hF hne args mem sp tm) hs
  rw [List.nil_append] at h3
  refine ⟨as, S, h1, h2, ?_⟩
  intro hpos hbytes hlen hlog hk
  have hglob := h3.glob
  have hp : S'.glob.pos = S.glob.pos := by rw [hglob]
  have ho : S'.glob.out = S.glob.out := by rw [hglob]
  have hnoted : ∀ y ∈ S'.glob.ev, y.1 = .noted := by
    intro y hy
    rcases h3.sound hE y hy with k | ⟨i, fs, sp', -, k⟩
    · exact mobserveRun_noted hC hN as k
    · exact C51.observe_noted hC hN k
  obtain ⟨hfine, hsaid⟩ := fine (gs := S'.glob) (by rw [ho]; exact hbytes) (by rw [ho]; exact hlen) hnoted
  have hk := linked_threads (io := io) (snk := snk) hP hc hr hS hF hne hm hz (h5 hk) hs (by rw [hp]; exact hpos) hfine
  rw [hsaid, h4] at hk
  refine does hk ?_
  rintro x ⟨M, h', rfl, hM, he, hl⟩
  refine ⟨M, rfl, sameEnds hM h3.threads ?_, by rw [outs hM.glob, ho], ?_⟩
  · intro x y hxy
    cases x <;> cases y
    · exact hxy.1
    · exact hxy.elim
    · exact hxy.elim
    · exact hxy
  intro hroom pads
  obtain ⟨D, N1, m, j1, j2, j3⟩ := C52.mapping_read hc hr hu (g0 := (tmstart (passFunc (C fn) F) fn args mem sp T).glob) rfl
    hM.glob he hl (by rw [ho]; exact hlog) hroom pads
  have hflag : ∀ b, C51.FlaggedByte M.glob.L b ↔ Influenced (labelEvents h) b ∨ ∃ y ∈ S'.glob.ev, y.1 = .noted ∧ y.2.2 b :=
    C51.flags hc.lab0 hc.lab (hr.sim hc).lab.reach (g := (tmstart (passFunc (C fn) F) fn args mem sp T).glob) rfl he hM.glob
  obtain ⟨D2, N2, d, i1, i2, i3, i4, -⟩ := C52.cavities_any hc hr hu
    (g0 := (tmstart (passFunc (C fn) F) fn args mem sp T).glob) rfl hM.glob he hl hflag (by rw [ho]; exact hlog) hroom pads
  cases j1.symm.trans i1
  refine ⟨D, max N1 N2, m, d, j1, fun f hf => j2 f (by omega), fun f hf => i2 f (by omega), ?_, ?_, ?_⟩
  · intro p o q r
    rw [j3, ho]
  · intro p
    rw [i3, hp]
  · intro hq p rs hrs
    have := i4 p rs hrs
    rw [hp, ho] at this
    have hX : (fun b => ∃ y ∈ S'.glob.ev, y.1 = .noted ∧ y.2.2 b) =
        Decided C P inp src as (mstart (sets src) fn args mem sp tm) := by
      funext b
      rw [← propext (decided_iff as h2)]
      refine propext ⟨?_, ?_⟩
      · rintro ⟨y, hy, -, hb⟩
        rcases h3.sound hE y hy with k | ⟨i, fs, sp', k1, k2⟩
        · exact ⟨y, k, hb⟩
        · rw [hq i fs sp' k1] at k2
          cases k2
      · rintro ⟨y, hy, hb⟩
        exact ⟨y, h3.complete hE y hy, mobserveRun_noted hC hN as hy, hb⟩
    rw [hX] at this
    exact this

/-- C72 (every schedule is possible): every schedule of the original program is, with steps for the reports
added, one of the program with reports, with the same effects; and its reports are, in this order, those of the
original program. -/
theorem C72_possible {τ : Type} (A : Alg τ) (P : Prog) (hP2 : C49.Accepted P) (C : Nat → Marks) (inp : World) (fn : Nat)
    (F : Func) (hF : P[fn]? = some F) (hne : F.blocks ≠ []) (args : List Nat) (mem : Nat → Nat) (sp : Nat) (tm : Nat → τ)
    (as : List (Act (Nat × τ))) (S : Multi τ) (hs : mrun A P inp as (mstart A fn args mem sp tm) = some S) :
    ∃ bs S', as.Sublist bs ∧ (∀ b ∈ bs, b ∈ as ∨ ∃ i, b = .run i) ∧
      mrun A (pass C P) inp bs (mstart A fn args mem sp tm) = some S' ∧
      S'.glob.mem = S.glob.mem ∧ S'.glob.tmem = S.glob.tmem ∧ S'.glob.pos = S.glob.pos ∧ S'.glob.out = S.glob.out ∧
      S'.glob.ev = plainReport A (C fn).enter ++ mobserveRun A C P inp as (mstart A fn args mem sp tm) ∧
      S'.threads.length = S.threads.length ∧
      ∀ (i : Nat) v, S'.threads[i]? = some (.ended v) ↔ S.threads[i]? = some (.ended v) := by
  obtain ⟨bs, S', h1, h2, h3, h4, -⟩ := forth_start (C := C) hP2 hF hne hs
  have hg := h4.glob
  refine ⟨bs, S', h1, h2, h3, by rw [hg], by rw [hg], by rw [hg], by rw [hg], by rw [hg], h4.threads.length_eq.symm, ?_⟩
  intro i v
  constructor
  · intro e
    obtain ⟨x, k1, k2⟩ := forall₂_get h4.threads e
    cases x with
    | live fs sp => exact k2.elim
    | ended w => cases k2; exact k1
  · intro e
    obtain ⟨x, k1, k2⟩ := forall₂_get_left h4.threads e
    cases x with
    | live fs sp => exact k2.elim
    | ended w => cases k2; exact k1

/-- `es` are the events for the reports `rs`, in order: calls and returns are logged, decisions only if a byte
influenced the value, with a label that stands for the bytes; other reports are not logged. -/
inductive Logs (T : Nat → Nat × Nat → Prop) : List (Hook × Nat × (Nat × Nat → Prop)) → List CfEvent → Prop where
  | nil : Logs T [] []
  | enter {f v t rs es} : Logs T rs es → Logs T ((.enter f, v, t) :: rs) (.enter f :: es)
  | leave {f v t rs es} : Logs T rs es → Logs T ((.leave f, v, t) :: rs) (.leave f :: es)
  | tainted {f v t rs es l} : (∃ b, t b) → (∀ b, T l b ↔ t b) → Logs T rs es →
      Logs T ((.taken f, v, t) :: rs) (.tainted f l :: es)
  | untainted {f v t rs es} : (∀ b, ¬ t b) → Logs T rs es → Logs T ((.taken f, v, t) :: rs) es
  | noted {v t rs es} : Logs T rs es → Logs T ((.noted, v, t) :: rs) es

theorem logs {cap : Nat} {L : Labels} (hs : Store cap L) {xs : List (Hook × Nat × Nat)}
    {rs : List (Hook × Nat × (Nat × Nat → Prop))}
    (h : List.Forall₂ (fun x y => x.1 = y.1 ∧ x.2.1 = y.2.1 ∧ Den L x.2.2 y.2.2) xs rs) :
    Logs (Denotes L.graph) rs (xs.filterMap logged) := by
  induction h with
  | nil => exact .nil
  | @cons x y xs rs hxy _ ih =>
    obtain ⟨k, v, l⟩ := x
    obtain ⟨k', v', t⟩ := y
    obtain ⟨rfl, rfl, hd⟩ := hxy
    simp only at hd
    cases k with
    | enter f => exact .enter ih
    | leave f => exact .leave ih
    | noted => exact .noted ih
    | taken f =>
      have hz := C47.den_zero_iff hs hd
      by_cases e : l = 0
      · simp only [List.filterMap_cons, logged, e, Nat.lt_irrefl, gt_iff_lt, if_false]
        exact .untainted (hz.1 e) ih
      · simp only [List.filterMap_cons, logged, gt_iff_lt, Nat.pos_of_ne_zero e, if_true]
        refine .tainted ?_ hd.2 ih
        by_contra hn
        exact e (hz.2 fun b hb => hn ⟨b, hb⟩)

theorem mobserveRun_fn {τ : Type} {A : Alg τ} (hC : ∀ f, ∃ lg cd, C f = controlFlow f lg cd) (hN : C49.NoHooks P) :
    ∀ (as : List (Act (Nat × τ))) {S S' : Multi τ}, mrun A P inp as S = some S' → ∀ {y : Hook × Nat × τ},
    y ∈ mobserveRun A C P inp as S → ∀ {f : Nat}, fnOf y.1 = some f → f < P.length
  | [], _, _, _, _, hy, _, _ => by cases hy
  | a :: as, S, S', h, y, hy, f, hf => by
    obtain ⟨S1, h1, h2⟩ := Option.bind_eq_some_iff.1 h
    simp only [mobserveRun, h1, Option.map_some, Option.getD_some, List.mem_append] at hy
    rcases hy with hy | hy
    case inr => exact mobserveRun_fn hC hN as h2 hy hf
    cases a with
    | run i =>
      simp only [mobserve, mstep] at hy h1
      split at hy
      case h_2 => cases hy
      rename_i fs sp e
      rw [e] at h1
      refine observe_fn (inp := inp) hC hN ?_ hy hf
      intro e1
      simp only [e1] at h1
      cases h1
    | spawn g args sp =>
      simp only [mobserve, mstep] at hy h1
      obtain ⟨lg, cd, hc⟩ := hC g
      simp only [hc, controlFlow, plainReport, List.mem_singleton] at hy
      subst hy
      cases hf
      split at h1
      case h_2 => cases h1
      rename_i F hF
      exact (List.getElem?_eq_some_iff.1 hF).1
    | join i a => cases hy

/-- C72 (log; partial: as before, and the log is what Python makes of the events of all threads together, which
need not be possible: `C72_log_refuted`). Insert the reports of the control-flow pass instead, with nothing logged
before. Every schedule `as` of the original program can be had with the program with reports, and then (unless
there is no room for the labels or the log) the events in the trace are exactly the calls, returns and decisions on
tainted data of all threads in the order in which they happened; and the mapping is the dependence of outputs on
inputs. -/
theorem C72_log_partial (c : Config) (base : Nat) (hc : c.Ok base) (h : Trace) (T : Tracker)
    (hr : Tracker.Reach c base h T) (hu : ∀ n ∈ names h, utf8 n = true) (hfresh : cfEvents h = [])
    (dom : Nat → Nat → Nat → Bool) (P : Prog) (hP : C47.Accepted dom P) (hP2 : C49.Accepted P)
    (hN : C49.NoHooks P) (hsize : P.length ≤ 2 ^ 32) (C : Nat → Marks) (hC : ∀ f, ∃ lg cd, C f = controlFlow f lg cd)
    (io : Io) (src snk : Nat) (hS : Streams h io src snk) (inp : World) (fn : Nat) (F : Func)
    (hF : P[fn]? = some F) (hne : F.blocks ≠ []) (args : List Nat) (mem : Mem) (hm : Spec.IsBytes mem)
    (tm : Nat → Nat × Nat → Prop) (hz : TaintedBy T.labels mem tm) (sp : Nat)
    (as : List (Act (Nat × (Nat × Nat → Prop)))) (S : Multi (Nat × Nat → Prop))
    (hs : mrun (sets src) P inp as (mstart (sets src) fn args mem sp tm) = some S)
    (hk : KeptRun (sets src) P inp as (mstart (sets src) fn args mem sp tm))
    (hpos : S.glob.pos < 2 ^ 54) (hbytes : ∀ y ∈ S.glob.out, y.1 < 256) (hlen : S.glob.out.length < 2 ^ 54)
    (hlog : (Spec.written h).length + S.glob.out.length ≤ c.sinkCap) :
    ∃ bs, as.Sublist bs ∧ (∀ b ∈ bs, b ∈ as ∨ ∃ i, b = .run i) ∧
      ((∃ M, tmrun dom (pass C P) inp io (bs.map plain) (tmstart (passFunc (C fn) F) fn args mem sp T) = .ok (some M) ∧
        SameEnds S M ∧ M.glob.out.map (·.1) = S.glob.out.map (·.1) ∧
        (M.T.labels.words.length + 64 ≤ c.indexCap → ∀ pads, ∃ G N m es,
          parse (closed pads c base M.T) = some G ∧ (∀ fuel, N ≤ fuel → mapping G fuel = some m) ∧
          (∀ p o q r, Maps m (p, ((o : Nat) : Int)) (q, r) ↔
            C52.Before h p o q r ∨ C52.Depends h snk S.glob.out p o q r) ∧
          G.cfItems = some (replay es []) ∧ (∀ l, G.readNode l = M.T.labels.words[l]?) ∧
          Logs (Denotes M.T.labels.graph) ((.enter fn, 0, fun _ => False) ::
            mobserveRun (sets src) C P inp as (mstart (sets src) fn args mem sp tm)) es)) ∨
      ((tmrun dom (pass C P) inp io (bs.map plain) (tmstart (passFunc (C fn) F) fn args mem sp T) = .fatal ∨
          tmrun dom (pass C P) inp io (bs.map plain) (tmstart (passFunc (C fn) F) fn args mem sp T) = .ub) ∧
        c.labelCap < T.labels.words.length + mrunCost (sets src) P inp as (mstart (sets src) fn args mem sp tm)) ∨
      (tmrun dom (pass C P) inp io (bs.map plain) (tmstart (passFunc (C fn) F) fn args mem sp T) = .fatal ∧
        c.logSize < 11 * (1 + (mobserveRun (sets src) C P inp as (mstart (sets src) fn args mem sp tm)).length))) := by
  obtain ⟨bs, S', h1, h2, h3, h4, h5, h6⟩ := forth_kept_start (C := C) hP2 hF hne hs hk
  refine ⟨bs, h1, h2, ?_⟩
  have hen : plainReport (sets src) (C fn).enter = [(.enter fn, 0, fun _ => False)] := by
    obtain ⟨lg, cd, e⟩ := hC fn
    rw [e]; rfl
  rw [hen, List.singleton_append] at h4
  have hev : S'.glob.ev = (.enter fn, 0, fun _ => False) ::
      mobserveRun (sets src) C P inp as (mstart (sets src) fn args mem sp tm) := by rw [h4.glob]
  have hp : S'.glob.pos = S.glob.pos := by rw [h4.glob]
  have ho : S'.glob.out = S.glob.out := by rw [h4.glob]
  have hfine : Fine S'.glob := by
    refine ⟨by rw [ho]; exact hbytes, by rw [ho]; exact hlen, ?_⟩
    intro y hy f hf
    have hf' : fnOf y.1 = some f := by rcases hf with e | e | e <;> rw [e] <;> rfl
    rw [hev] at hy
    refine Nat.lt_of_lt_of_le ?_ hsize
    rcases List.mem_cons.1 hy with rfl | hy
    · cases hf'
      exact (List.getElem?_eq_some_iff.1 hF).1
    · exact mobserveRun_fn hC hN as hs hy hf'
  have hd := linked_threads (io := io) (snk := snk) hP hc hr hS hF hne hm hz h6 h3 (by rw [hp]; exact hpos) hfine
  rw [h5] at hd
  rcases hd with ⟨x, d1, M, h', rfl, hM, he, hl⟩ | d1 | ⟨d1, d2, d3⟩
  · refine .inl ⟨M, d1, sameEnds hM h4.threads ?_, by rw [outs hM.glob, ho], ?_⟩
    · intro x y hxy
      cases x <;> cases y
      · exact hxy.1
      · exact hxy.elim
      · exact hxy.elim
      · exact hxy
    intro hroom pads
    obtain ⟨D, N1, m, j1, j2, j3⟩ := C52.mapping_read hc hr hu (g0 := (tmstart (passFunc (C fn) F) fn args mem sp T).glob) rfl
      hM.glob he hl (by rw [ho]; exact hlog) hroom pads
    obtain ⟨G', hG', -, hrec⟩ := shows_reach c base hc h' M.T hl.reach hroom (by rw [hl.names]; exact hu) pads
    cases j1.symm.trans hG'
    refine ⟨D, N1, m, M.glob.ev.filterMap logged, j1, j2, ?_, ?_, hrec.node, ?_⟩
    · intro p o q r
      rw [j3, ho]
    · rw [hrec.cf, hl.cf, hfresh, List.nil_append]
    · rw [← hev, hl.labels]
      exact logs hM.glob.store hM.glob.ev
  · exact .inr (.inl d1)
  · refine .inr (.inr ⟨d1, ?_⟩)
    rw [hfresh] at d3
    have : saidCount S'.glob.ev ≤ 1 + (mobserveRun (sets src) C P inp as (mstart (sets src) fn args mem sp tm)).length := by
      rw [hev]
      exact Nat.le_trans List.countP_le_length (by simp [Nat.add_comm])
    simp only [List.length_nil, Nat.zero_add] at d3
    omega

/-! ### Examples -/

/-- Reads a byte, loads another from memory, writes that and decides on it. -/
def mainF : Func where
  nparams := 0
  void := false
  blocks := [
    ⟨[], [.getc, .load (.const C47.a0) 1, .putc (.reg (.ins 0 1))], .br (.reg (.ins 0 1)) (fun v => v % 2) [1, 2]⟩,
    ⟨[], [.putc (.reg (.ins 0 0))], .br (.const 0) (fun _ => 0) [2]⟩,
    ⟨[], [], .ret (some (.const 0))⟩]

/-- Reads a byte and puts it into memory. -/
def leaveF : Func where
  nparams := 0
  void := false
  blocks := [⟨[], [.getc, .store (.const C47.a0) (.reg (.ins 0 0)) 1], .ret (some (.const 0))⟩]

/-- Writes its argument. -/
def echoF : Func where
  nparams := 1
  void := false
  blocks := [⟨[], [.putc (.arg 0)], .ret (some (.const 0))⟩]

/-- Reads a byte and ends with it. -/
def fetchF : Func where
  nparams := 0
  void := false
  blocks := [⟨[], [.getc], .ret (some (.reg (.ins 0 0)))⟩]

def prog : Prog := [mainF, leaveF, echoF, fetchF]

def input : World := .file [7, 8, 9, 1, 1, 1]

/-- The trace of the linked program under a schedule, as parsed by Python. -/
def parsed (C : Nat → Marks) (as : List (Act Nat)) : Option TDFile :=
  (Tracker.run exCfg 4096 C52.opens).bind fun p =>
    match tmrun C47.dom0 (pass C prog) input C52.exIo as
        (tmstart (passFunc (C 0) mainF) 0 [] (fun _ => 0) 0 p.1) with
    | .ok (some M) => parse (closed zeroPads exCfg 4096 M.T)
    | _ => none

/-- Two threads; the second reads while the first does, its byte reaches the first through memory, and its value,
0, is collected. -/
def good0 : List (Act (Nat × (Nat × Nat → Prop))) :=
  [.spawn 1 [] 0, .run 0, .run 1, .run 1, .run 0, .run 1, .run 0, .join 1 (C47.a0 + 16), .run 0, .run 0, .run 0]

/-- The same with one step more, for the report. -/
def good : List (Act (Nat × (Nat × Nat → Prop))) := good0 ++ [.run 0]

/-- Byte 1 of "a", read by the second thread, goes to byte 0 of "b", byte 0 goes to byte 1; bytes 2 to 5 are a
cavity. -/
example : ((parsed C51.marks (good.map plain)).bind fun F => mapping F 20) =
      some [(([97], 1), [([98], 0)]), (([97], 0), [([98], 1)])] ∧
    ((parsed C51.marks (good.map plain)).bind fun F => fileCavities F 20) = some [([97], [(2, 6)])] := by
  decide +kernel

theorem prog_accepted : C47.Accepted C47.dom0 prog := by
  intro fn F hF
  match fn, hF with
  | 0, hF => cases hF; exact ⟨(Func.check_valid (by decide)).1, by decide, C47.dom0_sound 0 _⟩
  | 1, hF => cases hF; exact ⟨(Func.check_valid (by decide)).1, by decide, C47.dom0_sound 1 _⟩
  | 2, hF => cases hF; exact ⟨(Func.check_valid (by decide)).1, by decide, C47.dom0_sound 2 _⟩
  | 3, hF => cases hF; exact ⟨(Func.check_valid (by decide)).1, by decide, C47.dom0_sound 3 _⟩
  | n + 4, hF => cases hF

theorem prog_ok : C49.Accepted prog ∧ C49.NoHooks prog := by
  constructor
  · intro f F hF b B hB
    match f, hF with
    | 0, hF =>
      cases hF
      match b, hB with
      | 0, hB => cases hB; decide
      | 1, hB => cases hB; decide
      | 2, hB => cases hB; decide
      | n + 3, hB => cases hB
    | 1, hF =>
      cases hF
      match b, hB with
      | 0, hB => cases hB; decide
      | n + 1, hB => cases hB
    | 2, hF =>
      cases hF
      match b, hB with
      | 0, hB => cases hB; decide
      | n + 1, hB => cases hB
    | 3, hF =>
      cases hF
      match b, hB with
      | 0, hB => cases hB; decide
      | n + 1, hB => cases hB
    | n + 4, hF => cases hF
  · intro f F b B j k v hF hB h
    have hm := List.mem_of_getElem? h
    match f, hF with
    | 0, hF =>
      cases hF
      match b, hB with
      | 0, hB => cases hB; simp at hm
      | 1, hB => cases hB; simp at hm
      | 2, hB => cases hB; simp at hm
      | n + 3, hB => cases hB
    | 1, hF =>
      cases hF
      match b, hB with
      | 0, hB => cases hB; simp at hm
      | n + 1, hB => cases hB
    | 2, hF =>
      cases hF
      match b, hB with
      | 0, hB => cases hB; simp at hm
      | n + 1, hB => cases hB
    | 3, hF =>
      cases hF
      match b, hB with
      | 0, hB => cases hB; simp at hm
      | n + 1, hB => cases hB
    | n + 4, hF => cases hF

/-- The start of the example. -/
def start0 : Multi (Nat × Nat → Prop) := mstart (sets 0) 0 [] (fun _ => 0) 0

/-- Where a thread is. -/
def place : Thread (Nat × Nat → Prop) → Option (List (Nat × Nat × Nat))
  | .live fs _ => some (fs.map fun fr => (fr.fn, fr.blk, fr.idx))
  | .ended _ => none

theorem kept_cons {A : Alg (Nat × Nat → Prop)} {P : Prog} {inp : World} {a : Act (Nat × (Nat × Nat → Prop))}
    {as : List (Act (Nat × (Nat × Nat → Prop)))} {M M1 : Multi (Nat × Nat → Prop)} (h : mstep A P inp M a = some M1)
    (hk : Kept M a) (hr : KeptRun A P inp as M1) : KeptRun A P inp (a :: as) M :=
  ⟨hk, fun M' e => by cases h.symm.trans e; exact hr⟩

/-- The hypotheses are met by the example: the schedule is possible with reports and without, no taint is passed on
past the program, and no thread is about to decide (the main thread is about to return). -/
example : C47.Accepted C47.dom0 prog ∧ C49.Accepted prog ∧ C49.NoHooks prog ∧
    (∀ f, ∃ lg cd, C51.marks f = taintTracking lg cd) ∧ prog[0]? = some mainF ∧ mainF.blocks ≠ [] ∧
    (mrun (sets 0) (pass C51.marks prog) input good start0).isSome = true ∧ good0.Sublist good ∧
    (∃ S, mrun (sets 0) prog input good0 start0 = some S ∧ S.glob.pos = 2 ∧ S.glob.out.map (·.1) = [8, 7] ∧
      Quiet (sets 0) C51.marks prog S) ∧
    KeptRun (sets 0) prog input good0 start0 ∧
    ∃ (h : Trace) (T : Tracker), exCfg.Ok 4096 ∧ Tracker.Reach exCfg 4096 h T ∧ (∀ n ∈ names h, utf8 n = true) ∧
      Streams h C52.exIo 0 1 ∧ (Spec.written h).length + 2 ≤ exCfg.sinkCap ∧
      TaintedBy T.labels (fun _ => 0) (fun _ _ => False) := by
  refine ⟨prog_accepted, prog_ok.1, prog_ok.2, fun _ => ⟨_, _, rfl⟩, rfl, by simp [mainF], rfl, ?_, ?_, ?_, ?_⟩
  · exact List.sublist_append_left _ _
  · obtain ⟨S, h1, h2, h3, h4⟩ : ∃ S, mrun (sets 0) prog input good0 start0 = some S ∧ S.glob.pos = 2 ∧
        S.glob.out.map (·.1) = [8, 7] ∧ S.threads.map place = [some [(0, 2, 0)], none] := ⟨_, rfl, rfl, rfl, rfl⟩
    refine ⟨S, h1, h2, h3, fun i fs sp e => ?_⟩
    have h5 := congrArg (fun l => l[i]?) h4
    simp only [List.getElem?_map, e, Option.map_some, place] at h5
    match i, h5 with
    | 0, h5 =>
      match fs, h5 with
      | [fr], h5 =>
        simp only [List.map_cons, List.map_nil, List.getElem?_cons_zero, Option.some.injEq, List.cons.injEq, Prod.mk.injEq, and_true] at h5
        obtain ⟨k1, k2, k3⟩ := h5
        simp [observe, prog, mainF, k1, k2, k3, C51.marks, taintTracking, plainReport]
      | [], h5 => simp at h5
      | a :: b :: l, h5 => simp at h5
    | 1, h5 => simp at h5
    | n + 2, h5 => simp at h5
  · refine kept_cons rfl (by intro x hx; cases hx) (kept_cons rfl trivial (kept_cons rfl trivial (kept_cons rfl trivial
      (kept_cons rfl trivial (kept_cons rfl trivial (kept_cons rfl trivial (kept_cons rfl ?_ (kept_cons rfl trivial
      (kept_cons rfl trivial (kept_cons rfl trivial trivial))))))))))
    intro v e j hj b
    have e' : some (Thread.ended (0, (sets 0).zero)) = some (Thread.ended v) := e
    cases e'
    refine ⟨fun h => ?_, False.elim⟩
    have h' : putAll (fun _ _ => False) C47.a0 1 (fun b => b = (0, 1)) (C47.a0 + 16 + j) b := h
    simp only [putAll] at h'
    rw [if_neg (by omega)] at h'
    exact h'
  · have hrun : (Tracker.run exCfg 4096 C52.opens).isSome = true := by decide +kernel
    obtain ⟨⟨T, h⟩, hx⟩ := Option.isSome_iff_exists.1 hrun
    have key : (match Tracker.run exCfg 4096 C52.opens with
        | none => false
        | some (T, h) => decide ((∀ n ∈ names h, utf8 n = true) ∧ owner h 3 = some 0 ∧
          owner h 4 = some 1 ∧ writePos h 1 = 0 ∧ Spec.written h = [])) = true := by decide +kernel
    rw [hx] at key
    simp only [decide_eq_true_eq] at key
    obtain ⟨k1, k3, k4, k5, k7⟩ := key
    refine ⟨h, T, exCfg_ok, run_reach hx, k1, ⟨k3, k4, (by intro h; cases h), fun _ => k5⟩, by rw [k7]; decide, ?_⟩
    intro a ha
    have hs := (run_reach hx).sim exCfg_ok
    exact Store.den_zero ⟨hs.lab.reach.good exCfg_ok.lab0 exCfg_ok.lab, hs.lab.reach.cap exCfg_ok.lab0 exCfg_ok.lab⟩

/-- C72 (arguments): the taint of an argument with which a thread is started is lost. The main thread of the
example has read byte 0 into register 0 and starts a thread with it, which writes it. The output depends on byte
0, and the mapping that Python computes is empty. -/
theorem C72_argument_refuted : ∃ S1 fr rest sp S, mrun (sets 0) prog input [.run 0] start0 = some S1 ∧
    S1.threads[0]? = some (.live (fr :: rest) sp) ∧
    mrun (sets 0) prog input [.run 0, .spawn 2 [fr.get (sets 0) (.reg (.ins 0 0))] 0, .run 1] start0 = some S ∧
    S.glob.out.map (·.1) = [7] ∧ (∃ y ∈ S.glob.out, y.2 (0, 0)) ∧
    ((parsed C51.marks [.run 0, .spawn 2 [7] 0, .run 1]).bind fun F => mapping F 20) = some [] := by
  refine ⟨_, _, _, _, _, rfl, rfl, rfl, rfl, ⟨_, List.mem_singleton.2 rfl, rfl⟩, ?_⟩
  decide +kernel

/-- C72 (values): the taint of the value of a thread is lost when it is collected. The second thread of the
example reads byte 0 and ends with it, it is put into memory, and the main thread loads and writes it. The output
depends on byte 0, and the mapping that Python computes is empty. -/
theorem C72_value_refuted : ∃ S, mrun (sets 0) prog input
      [.spawn 3 [] 0, .run 1, .run 1, .join 1 C47.a0, .run 0, .run 0, .run 0] start0 = some S ∧
    S.glob.out.map (·.1) = [7] ∧ (∃ y ∈ S.glob.out, y.2 (0, 0)) ∧
    ((parsed C51.marks [.spawn 3 [] 0, .run 1, .run 1, .join 1 C47.a0, .run 0, .run 0, .run 0]).bind
      fun F => mapping F 20) = some [] := by
  refine ⟨_, rfl, rfl, ⟨_, List.mem_singleton.2 rfl, ?_⟩, ?_⟩
  · exact Or.inl (Or.inl rfl)
  · decide +kernel

/-- Both halves of a step. -/
def both (i : Nat) : List Half := [.code i, .instr i]

/-- Threads 1 and 2 each read a byte and store it at the same address: thread 1 stores the label of its byte, thread
2 the label of its byte, then the byte, and thread 1 its byte. Then the main thread loads and writes the byte. -/
def racing : List Half :=
  [.spawn 1 [] 0, .spawn 1 [] 0] ++ both 1 ++ both 2 ++ [.code 1, .code 2, .instr 2, .instr 1] ++
    both 0 ++ both 0 ++ both 0

/-- The bytes that the linked program has written under a schedule of halves of steps, and its trace, as parsed by
Python. -/
def parsedHalf (C : Nat → Marks) (as : List Half) : Option (List Nat × TDFile) :=
  (Tracker.run exCfg 4096 C52.opens).bind fun p =>
    match hrun C47.dom0 (pass C prog) input C52.exIo as
        ⟨tmstart (passFunc (C 0) mainF) 0 [] (fun _ => 0) 0 p.1, fun _ => false⟩ with
    | .ok (some H) => (parse (closed zeroPads exCfg 4096 H.M.T)).map fun D => (H.M.glob.out.map (·.1), D)
    | _ => none

/-- C72 (halves): the code inserted in front of an instruction and the instruction, with nothing in between, are a
step of the schedules above. -/
theorem C72_halves (dom : Nat → Nat → Nat → Bool) (P : Prog) (inp : World) (io : Io) (H : HMulti) (i : Nat)
    (hi : H.ready i = false) :
    hrun dom P inp io (both i) H = (do
      match ← tmstep dom P inp io H.M (.run i) with
      | some M => pure (some ⟨M, H.ready⟩)
      | none => pure none) :=
  both_halves hi

/-- The hypothesis is met at the start of the program. -/
example (T : Tracker) :
    (HMulti.mk (tmstart mainF 0 [] (fun _ => 0) 0 T) (fun _ => false)).ready 0 = false := rfl

/-- C72 (order): the instruction runs only after the code in front of it, and that only once. -/
theorem C72_order (dom : Nat → Nat → Nat → Bool) (P : Prog) (inp : World) (io : Io) (H : HMulti) (i : Nat) :
    (H.ready i = false → hstep dom P inp io H (.instr i) = .ok none) ∧
    (H.ready i = true → hstep dom P inp io H (.code i) = .ok none) := by
  constructor <;> intro hi <;> simp only [hstep, hi] <;> cases H.M.threads[i]? with
  | none => rfl
  | some t => cases t <;> rfl

/-- Both cases occur. -/
example (M : IMulti) : (HMulti.mk M fun _ => false).ready 0 = false ∧ (HMulti.mk M fun j => j = 1).ready 1 = true :=
  ⟨rfl, rfl⟩

/-- C72 (races): the label of a byte and the byte are stored one after the other, and another thread may run in
between. Two threads store to the same address; the original program, when thread 1 stores last, writes 7, which
depends on byte 0 and on nothing else. So does the linked program, and the mapping that Python computes says that
the byte written depends on byte 1. -/
theorem C72_race_refuted : (∃ S, mrun (sets 0) prog input
      [.spawn 1 [] 0, .spawn 1 [] 0, .run 1, .run 2, .run 2, .run 1, .run 0, .run 0, .run 0] start0 = some S ∧
      ∃ t, S.glob.out = [(7, t)] ∧ ∀ b, t b ↔ b = (0, 0)) ∧
    (parsedHalf C51.marks racing).map (·.1) = some [7] ∧
    ((parsedHalf C51.marks racing).bind fun x => mapping x.2 20) = some [(([97], 1), [([98], 0)])] := by
  refine ⟨⟨_, rfl, _, rfl, fun b => ?_⟩, by decide +kernel, by decide +kernel⟩
  refine ⟨fun h => ?_, fun h => Or.inl (Or.inl h)⟩
  rcases h with (h | h) | h
  · exact h
  · exact h.elim
  · exact h.elim

/-- The control-flow pass, which reports calls and returns. -/
def flow (f : Nat) : Marks := controlFlow f (fun _ _ _ => false) (fun _ => false)

/-- The main thread returns while the other is running. -/
def crossing : List (Act Nat) :=
  [.run 0, .spawn 1 [] 0, .run 1] ++ List.replicate 7 (.run 0) ++ List.replicate 4 (.run 1)

/-- The hypotheses of `C72_log_partial` about the pass are met by the example. -/
example : (∀ f, ∃ lg cd, flow f = controlFlow f lg cd) ∧ prog.length ≤ 2 ^ 32 ∧
    ((Tracker.run exCfg 4096 C52.opens).map fun p => cfEvents p.2) = some [] :=
  ⟨fun _ => ⟨_, _, rfl⟩, by decide, by decide +kernel⟩

/-- C72 (log): the log of control flow holds the calls and returns of all threads in the order in which they
happened, without saying of which thread. When the main thread enters `main`, the other enters its function, and
they return in this order, Python fails to read the log. -/
theorem C72_log_refuted : ∃ D items, parsed flow crossing = some D ∧
    D.cflog = some ([CfEvent.enter 0, .enter 1, .leave 0, .leave 1].flatMap CfLog.encode) ∧
    D.cfItems = some (items, true) := by
  have hx : (parsed flow crossing).isSome = true := by decide +kernel
  obtain ⟨F, hF⟩ := Option.isSome_iff_exists.1 hx
  have key : (match parsed flow crossing with
      | none => false
      | some F => decide (F.cflog = some ([CfEvent.enter 0, .enter 1, .leave 0, .leave 1].flatMap
        CfLog.encode))) = true := by decide +kernel
  rw [hF] at key
  simp only [decide_eq_true_eq] at key
  refine ⟨F, [.enter [0], .enter [0, 1], .leave [0, 1], .leave [0], .leave []], hF, key, ?_⟩
  simp only [TDFile.cfItems, key]
  show some (iter _ []) = _
  rw [C23_iter]
  rfl

end C72
end Verif
