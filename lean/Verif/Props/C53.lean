import Verif.TwoPass
import Verif.Props.C52
/-
C53: the whole pipeline with both passes. A program is instrumented by the control-flow pass, the
taint-tracking pass and DFSan, linked with the runtime and run. From the one trace it leaves, Python gets the
true dependence of outputs on inputs, the true log of calls and tainted decisions, and the true cavities of
the input.
-/
namespace Verif
namespace C53
open Ir PassIr CfPass Spec Labels DfsanMem Tracker EndToEnd Linked TwoPass Py File

/-- How a run of the linked program may end: as `Q` says; or it is stopped because the store has no room for
`k` labels more than it had; or because the log has no room for `m` events. -/
def Does (c : Config) (k m : Nat) (T : Tracker) (r : Res (IOut × Tracker)) (Q : IOut × Tracker → Prop) : Prop :=
  (∃ x, r = .ok x ∧ Q x) ∨ ((r = .fatal ∨ r = .ub) ∧ c.labelCap < T.labels.words.length + k) ∨
    (r = .fatal ∧ c.logSize < 11 * m)

/-- The functions being executed, innermost first. -/
def executing {τ : Type} : Out τ → List Nat
  | .next s => s.frames.map (·.fn)
  | _ => []

/-- For every choice of decisions there is the same choice after a pass. -/
theorem C53_choice (C D : Nat → Marks) (P : Prog) :
    ∃ D', (∀ f, ∃ lg cd, D' f = taintTracking lg cd) ∧ Same C P D D' := by
  classical
  refine ⟨fun f => taintTracking (fun b p i => match P[f]? with
    | none => false
    | some F => match F.blocks[b]? with
      | none => false
      | some B => decide (∃ j, posOf (C f) b B j = p ∧ (D f).logged b j i = true)) (D f).cond,
    fun f => ⟨_, _, rfl⟩, ?_⟩
  intro f F hF
  refine ⟨fun b => rfl, fun b B j i hB => ?_⟩
  simp only [taintTracking, hF, hB]
  cases h : (D f).logged b j i with
  | true => exact decide_eq_true ⟨j, rfl, h⟩
  | false =>
    refine decide_eq_false ?_
    rintro ⟨j', h1, h2⟩
    rw [posOf_inj h1, h] at h2
    cases h2

theorem told_filter {T : Nat → Nat × Nat → Prop} {rs : List (Hook × Nat × (Nat × Nat → Prop))} {st st' : List Nat}
    {items : List CfItem} (h : Told T rs st items st') :
    Told T (rs.filter (fun x => said x.1)) st items st' := by
  induction h with
  | nil st => exact .nil st
  | enter _ ih => simpa [said] using Told.enter ih
  | leave _ ih => simpa [said] using Told.leave ih
  | tainted h1 h2 _ ih => simpa [said] using Told.tainted h1 h2 ih
  | untainted h1 _ ih => simpa [said] using Told.untainted h1 ih
  | noted _ ih => simpa [said] using ih

theorem follow_filter : ∀ (ks : List Hook) (st : List Nat), follow (ks.filter said) st = follow ks st
  | [], _ => rfl
  | .enter f :: ks, st => by
    rw [List.filter_cons_of_pos rfl]
    exact follow_filter ks _
  | .leave f :: ks, st => by
    rw [List.filter_cons_of_pos rfl]
    cases st with
    | nil => rfl
    | cons g st => simp only [follow, follow_filter ks]
  | .taken f :: ks, st => by
    rw [List.filter_cons_of_pos rfl]
    simp only [follow, follow_filter ks]
  | .noted :: ks, st => by
    rw [List.filter_cons_of_neg (by simp [said])]
    exact follow_filter ks st

variable {dom : Nat → Nat → Nat → Bool} {P : Prog} {c : Config} {base src snk : Nat} {inp : World} {io : Io}
  {h : Trace} {C D D' : Nat → Marks}

/-- C53: take any program accepted by the verifier; let the control-flow pass insert its reports (any choice
`C` of decisions), then the taint-tracking pass (any choice `D`, which is `D'` after the first pass); instrument
the result, link it with the runtime in any state in which nothing was logged yet (history `h`), with its streams
registered as input `src` and output `snk`, and run it on any input, to any moment. Unless there is no room for
the labels or the log, it does what the original program does. If it is ended there and its trace is read by
Python, then
(1) byte `o` of file `p` maps to byte `r` of file `q` exactly if it did before, or byte `r` of the output of the
original program depends on byte `o` of `p`;
(2) the log is exactly the calls, returns and decisions on tainted data of the original program, followed by
leaving the functions still being executed;
(3) the files of which something was read have cavities, and they are the maximal runs of bytes on which no
decision and no output byte depends, neither one before nor one of the original program. -/
theorem C53_pipeline (c : Config) (base : Nat) (hc : c.Ok base) (h : Trace) (T : Tracker)
    (hr : Tracker.Reach c base h T) (hu : ∀ n ∈ names h, utf8 n = true)
    (hfresh' : cfEvents h = [])
    (dom : Nat → Nat → Nat → Bool) (P : Prog) (hP : C47.Accepted dom P) (hP2 : C49.Accepted P)
    (hN : C49.NoHooks P) (hsize : P.length ≤ 2 ^ 32) (C D D' : Nat → Marks)
    (hC : ∀ f, ∃ lg cd, C f = controlFlow f lg cd) (hD : ∀ f, ∃ lg cd, D f = taintTracking lg cd)
    (hD' : ∀ f, ∃ lg cd, D' f = taintTracking lg cd) (hsame : Same C P D D')
    (io : Io) (src snk : Nat) (hS : Streams h io src snk) (inp : World) (fn : Nat) (F : Func)
    (hF : P[fn]? = some F) (hne : F.blocks ≠ []) (args : List Nat) (mem : Mem) (hm : Spec.IsBytes mem)
    {tm : Nat → Nat × Nat → Prop} (hz : TaintedBy T.labels mem tm) (sp n : Nat) (o : Out (Nat × Nat → Prop))
    (gs : Glob (Nat × Nat → Prop)) (hs : Ir.run (sets src) P inp n (start (sets src) fn args mem sp tm) = o)
    (ho : globAfter o = some gs) (hpos : gs.pos < 2 ^ 54) (hbytes : ∀ y ∈ gs.out, y.1 < 256)
    (hlen : gs.out.length < 2 ^ 54) (hlog : (Spec.written h).length + gs.out.length ≤ c.sinkCap) :
    ∃ k, Does c (runCost plain P inp n (start plain fn args mem sp))
      (observeFrom (sets src) C P inp fn n (start (sets src) fn args mem sp tm)).length T
      (trun dom (pass D' (pass C P)) inp io k
        (istart (passFunc (D' fn) (passFunc (C fn) F)) fn args mem sp T.labels) T)
      (fun x => ∃ g, Stands o x.1 g ∧ g.out.map (·.1) = gs.out.map (·.1) ∧
        (x.2.labels.words.length + 64 ≤ c.indexCap → ∀ pads, ∃ G, parse (closed pads c base x.2) = some G ∧
          (∃ N d, (∀ fuel, N ≤ fuel → mapping G fuel = some d) ∧
            ∀ p o q r, Maps d (p, ((o : Nat) : Int)) (q, r) ↔
              C52.Before h p o q r ∨ C52.Depends h snk gs.out p o q r) ∧
          (∃ items, G.cfItems = some (items ++ drain (executing o), false) ∧
            Told (Denotes x.2.labels.graph)
              (observeFrom (sets src) C P inp fn n (start (sets src) fn args mem sp tm)) [] items (executing o) ∧
            ∀ l, G.readNode l = x.2.labels.words[l]?) ∧
          (∃ N d, (∀ fuel, N ≤ fuel → fileCavities G fuel = some d) ∧
            (∀ p, (∃ rs, d.get p = some rs) ↔ ∃ i e, C52.InUse h (C52.HasRead h src gs.pos) p i e) ∧
            (∀ p rs, d.get p = some rs → MaximalRuns rs (C52.Idle h (C52.HasRead h src gs.pos)
              (C52.Mattered h (C51.Decided D P inp src n (start (sets src) fn args mem sp tm)) gs.out) p)) ∧
            ∀ b, C52.Mattered h (C51.Decided D P inp src n (start (sets src) fn args mem sp tm)) gs.out b →
              C52.HasRead h src gs.pos b))) := by
  obtain ⟨k, hk⟩ := linked2 (dom := dom) (inp := inp) hP hP2 hN hsize hC hD hD' hsame hc hr hS hF hne hm hz hs ho
    hpos hbytes hlen
  refine ⟨k, ?_⟩
  have himp : ∀ {r Q R}, TGoes c (runCost plain P inp n (start plain fn args mem sp)) T.labels (cfEvents h).length
      (observeFrom (sets src) C P inp fn n (start (sets src) fn args mem sp tm)).length r Q → (∀ x, Q x → R x) →
      Does c (runCost plain P inp n (start plain fn args mem sp))
      (observeFrom (sets src) C P inp fn n (start (sets src) fn args mem sp tm)).length T r R := by
    intro r Q R hd hq
    rcases hd with ⟨x, h1, h2⟩ | h1 | ⟨h1, -, h2⟩
    · exact Or.inl ⟨x, h1, hq x h2⟩
    · exact Or.inr (Or.inl h1)
    · refine Or.inr (Or.inr ⟨h1, ?_⟩)
      rw [hfresh'] at h2
      simpa using h2
  refine himp hk ?_
  rintro ⟨x, T'⟩ ⟨g, h', ev, hst, hg, he, hl, hev1, hev2⟩
  refine ⟨g, hst, ?_, ?_⟩
  · have := hg.out
    simp only at this
    generalize gs.out = ys at this
    generalize g.out = xs at this
    induction this with
    | nil => rfl
    | cons a _ ih => simp only [List.map_cons, a.1, ih]
  intro hroom pads
  obtain ⟨G, N, d, h1, h2, h3⟩ := C52.mapping_read hc hr hu
    (g0 := (istart (passFunc (D' fn) (passFunc (C fn) F)) fn args mem sp T.labels).glob) rfl hg he hl hlog hroom pads
  have hflag : ∀ b, C51.FlaggedByte g.L b ↔ Influenced (labelEvents h) b ∨
      C51.Decided D P inp src n (start (sets src) fn args mem sp tm) b := by
    intro b
    rw [C51.flags hc.lab0 hc.lab (g := (istart (passFunc (D' fn) (passFunc (C fn) F)) fn args mem sp T.labels).glob)
      (hr.sim hc).lab.reach rfl he hg b, ← C51.decided_iff n, ← hev2]
    simp only [List.mem_filter]
    constructor
    · rintro (a | ⟨y, a1, a2, a3⟩)
      · exact Or.inl a
      · exact Or.inr ⟨y, ⟨a1, by rw [a2]; rfl⟩, a3⟩
    · rintro (a | ⟨y, ⟨a1, a2⟩, a3⟩)
      · exact Or.inl a
      · refine Or.inr ⟨y, a1, ?_, a3⟩
        cases hy : y.1 <;> rw [hy] at a2 <;> first | rfl | (simp [said] at a2)
  obtain ⟨G', N', d', k1, k2, k3, k4, k5⟩ := C52.cavities_any hc hr hu
    (g0 := (istart (passFunc (D' fn) (passFunc (C fn) F)) fn args mem sp T.labels).glob) rfl hg he hl hflag hlog
    hroom pads
  obtain rfl : G = G' := by rw [h1] at k1; cases k1; rfl
  refine ⟨G, h1, ⟨N, d, h2, h3⟩, ?_, ⟨N', d', k2, k3, k4, k5⟩⟩
  · obtain ⟨G', hG', -, hrec⟩ := shows_reach c base hc h' T' hl.reach hroom (by rw [hl.names]; exact hu) pads
    obtain rfl : G = G' := by rw [h1] at hG'; cases hG'; rfl
    have hst' : follow (ev.map (·.1)) [] = some (executing o) := by
      have hmap : (observeFrom (sets src) C P inp fn n (start (sets src) fn args mem sp tm)).map (·.1) =
          (ev.map (·.1)).filter said := by
        rw [← hev1, List.filter_map]
        rfl
      have := C49.C49_stack (sets src) C hC P hN inp fn args mem tm sp n
      rw [hmap, follow_filter] at this
      cases o with
      | stuck => cases ho
      | next s => exact this.1 s hs
      | done v g => exact this.2 v g hs
    obtain ⟨items, a1, a2⟩ := EndToEnd.told hg.store hg.ev hst'
    refine ⟨items, ?_, ?_, hrec.node⟩
    · rw [hrec.cf, hl.cf, hfresh', List.nil_append, a2]
    · rw [← hev1, hl.labels]
      exact told_filter a1

/-- C53 (nothing read before): take any program accepted by the verifier; let the control-flow pass insert its reports (any choice
`C` of decisions), then the taint-tracking pass (any choice `D`, which is `D'` after the first pass); instrument
the result, link it with the runtime in any state in which nothing was read or logged yet, with its streams
registered as input `src` and output `snk`, and run it on any input, to any moment. Unless there is no room for
the labels or the log, it does what the original program does. If it is ended there and its trace is read by
Python, then
(1) byte `o` of file `p` maps to byte `r` of file `q` exactly if byte `r` of the output of the original program
depends on byte `o` of its input;
(2) the log is exactly the calls, returns and decisions on tainted data of the original program, followed by
leaving the functions still being executed;
(3) the cavities of the input file are the maximal runs of bytes on which no decision and no output of the
original program depends, and no other file has cavities. -/
theorem C53_fresh (c : Config) (base : Nat) (hc : c.Ok base) (h : Trace) (T : Tracker)
    (hr : Tracker.Reach c base h T) (hu : ∀ n ∈ names h, utf8 n = true) (hfresh : labelEvents h = [])
    (hfresh' : cfEvents h = [])
    (dom : Nat → Nat → Nat → Bool) (P : Prog) (hP : C47.Accepted dom P) (hP2 : C49.Accepted P)
    (hN : C49.NoHooks P) (hsize : P.length ≤ 2 ^ 32) (C D D' : Nat → Marks)
    (hC : ∀ f, ∃ lg cd, C f = controlFlow f lg cd) (hD : ∀ f, ∃ lg cd, D f = taintTracking lg cd)
    (hD' : ∀ f, ∃ lg cd, D' f = taintTracking lg cd) (hsame : Same C P D D')
    (io : Io) (src snk : Nat) (hS : Streams h io src snk) (e : List Nat × Int × Nat)
    (hsrc : (registered h)[src]? = some e) (inp : World) (fn : Nat) (F : Func)
    (hF : P[fn]? = some F) (hne : F.blocks ≠ []) (args : List Nat) (mem : Mem) (hm : Spec.IsBytes mem)
    {tm : Nat → Nat × Nat → Prop} (hz : TaintedBy T.labels mem tm) (sp n : Nat) (o : Out (Nat × Nat → Prop))
    (gs : Glob (Nat × Nat → Prop)) (hs : Ir.run (sets src) P inp n (start (sets src) fn args mem sp tm) = o)
    (ho : globAfter o = some gs) (hpos : gs.pos < 2 ^ 54) (hbytes : ∀ y ∈ gs.out, y.1 < 256)
    (hlen : gs.out.length < 2 ^ 54) (hlog : (Spec.written h).length + gs.out.length ≤ c.sinkCap) :
    ∃ k, Does c (runCost plain P inp n (start plain fn args mem sp))
      (observeFrom (sets src) C P inp fn n (start (sets src) fn args mem sp tm)).length T
      (trun dom (pass D' (pass C P)) inp io k
        (istart (passFunc (D' fn) (passFunc (C fn) F)) fn args mem sp T.labels) T)
      (fun x => ∃ g, Stands o x.1 g ∧ g.out.map (·.1) = gs.out.map (·.1) ∧
        (x.2.labels.words.length + 64 ≤ c.indexCap → ∀ pads, ∃ G, parse (closed pads c base x.2) = some G ∧
          (∃ N d, (∀ fuel, N ≤ fuel → mapping G fuel = some d) ∧
            ∀ p o q r, Maps d (p, ((o : Nat) : Int)) (q, r) ↔ C52.Depends h snk gs.out p o q r) ∧
          (∃ items, G.cfItems = some (items ++ drain (executing o), false) ∧
            Told (Denotes x.2.labels.graph)
              (observeFrom (sets src) C P inp fn n (start (sets src) fn args mem sp tm)) [] items (executing o) ∧
            ∀ l, G.readNode l = x.2.labels.words[l]?) ∧
          (∃ N d, (∀ fuel, N ≤ fuel → fileCavities G fuel = some d) ∧
            (∀ p, (∃ rs, d.get p = some rs) ↔ 0 < gs.pos ∧ p = pathStr e.1) ∧
            ∀ rs, d.get (pathStr e.1) = some rs → MaximalRuns rs fun b => b < C52.extent e.2.2 gs.pos ∧
              ¬ C51.Decided D P inp src n (start (sets src) fn args mem sp tm) (src, b) ∧
              ∀ y ∈ gs.out, ¬ y.2 (src, b)))) := by
  obtain ⟨k, hk⟩ := C53_pipeline c base hc h T hr hu hfresh' dom P hP hP2 hN hsize C D D' hC hD hD' hsame io src snk hS
    inp fn F hF hne args mem hm hz sp n o gs hs ho hpos hbytes hlen hlog
  refine ⟨k, ?_⟩
  rcases hk with ⟨x, hx, g, h1, h2, h3⟩ | hk
  · refine Or.inl ⟨x, hx, g, h1, h2, fun hroom pads => ?_⟩
    obtain ⟨G, g1, ⟨N, d, g2, g3⟩, g4, ⟨N', d', g5, g6, g7, g8⟩⟩ := h3 hroom pads
    refine ⟨G, g1, ⟨N, d, g2, fun p o' q r => ?_⟩, g4, ⟨N', d', g5, C52.cavities_fresh hfresh hsrc g8 g6 g7⟩⟩
    rw [g3]
    constructor
    · rintro (⟨w, i, e, e', -, -, hw, -⟩ | a)
      · rw [hfresh] at hw
        simp [Meaning] at hw
      · exact a
    · exact Or.inr
  · exact Or.inr hk

/-! ### An example -/

/-- The control-flow pass reports the first operand of the sum and the branch. -/
def cmarks (f : Nat) : Marks := controlFlow f (fun b j i => b == 0 && j == 4 && i == 0) (· == 0)

/-- The taint-tracking pass reports the second operand of the sum and not the branch. -/
def tmarks (_ : Nat) : Marks := taintTracking (fun b j i => b == 0 && j == 4 && i == 1) (fun _ => false)

/-- The same after the control-flow pass. -/
def tmarks' (_ : Nat) : Marks := taintTracking (fun b j i => b == 0 && j == 6 && i == 1) (fun _ => false)

theorem same : Same cmarks C52.prog tmarks tmarks' := by
  intro f F hF
  refine ⟨fun b => rfl, fun b B j i hB => ?_⟩
  match f, hF with
  | 0, hF =>
    cases hF
    match b, hB with
    | 0, hB =>
      cases hB
      simp only [tmarks, tmarks', taintTracking]
      by_cases hj : j = 4
      · subst hj; rfl
      · have : (posOf (cmarks 0) 0 ⟨[], [.getc, .getc, .getc, .getc,
            .op (fun xs => xs.sum) [.reg (.ins 0 0), .reg (.ins 0 1)]],
            .br (.reg (.ins 0 4)) (fun v => v % 2) [1, 2]⟩ j == 6) = false := by
          rw [beq_eq_false_iff_ne]
          intro e
          exact hj (posOf_inj (e.trans rfl))
        rw [this, beq_eq_false_iff_ne.2 hj]
    | b + 1, hB => simp [tmarks, tmarks', taintTracking]
  | f + 1, hF => cases hF

/-- The trace of the program of C52 on the input `1, 1, 1, 1`, as parsed by Python. -/
def parsed : Option TDFile :=
  (Tracker.run exCfg 4096 C52.opens).bind fun p =>
    match trun C47.dom0 (pass tmarks' (pass cmarks C52.prog)) (.file [1, 1, 1, 1, 1, 1]) C52.exIo 30
        (istart (passFunc (tmarks' 0) (passFunc (cmarks 0) C52.mainF)) 0 [] (fun _ => 0) 0 p.1.labels) p.1 with
    | .ok (.done _ _ _, T) => parse (closed zeroPads exCfg 4096 T)
    | _ => none

/-- Byte 2 of "a" goes to byte 0 of "b"; byte 1 influences a decision of the second pass, so that bytes 0, 3, 4
and 5 are in cavities. -/
example : (parsed.bind fun F => mapping F 20) = some [(([97], 2), [([98], 0)])] ∧
    (parsed.bind fun F => fileCavities F 20) = some [([97], [(0, 1), (3, 6)])] := by
  decide +kernel

/-- The log: the first operand of the sum has label 1, the condition of the branch label 5. -/
example : (parsed.bind fun F => F.cfItems) =
    some ([.enter [0], .tainted [0] 1, .tainted [0] 5, .leave [0]], false) := by
  have hx : parsed.isSome = true := by decide +kernel
  obtain ⟨F, hF⟩ := Option.isSome_iff_exists.1 hx
  have key : (match parsed with
      | none => false
      | some F => decide (F.cflog = some ([CfEvent.enter 0, .tainted 0 1, .tainted 0 5, .leave 0].flatMap
        CfLog.encode))) = true := by decide +kernel
  rw [hF] at key ⊢
  simp only [decide_eq_true_eq] at key
  simp only [Option.bind_some, TDFile.cfItems, key]
  show some (iter _ []) = _
  rw [C23_iter]
  rfl

/-- The hypotheses are met by the example (those not mentioned here are met by the example of C52). -/
example : Same cmarks C52.prog tmarks tmarks' ∧ (∀ f, ∃ lg cd, cmarks f = controlFlow f lg cd) ∧
    (∀ f, ∃ lg cd, tmarks f = taintTracking lg cd) ∧ (∀ f, ∃ lg cd, tmarks' f = taintTracking lg cd) ∧
    ((Tracker.run exCfg 4096 C52.opens).map fun p => cfEvents p.2) = some [] := by
  refine ⟨same, fun _ => ⟨_, _, rfl⟩, fun _ => ⟨_, _, rfl⟩, fun _ => ⟨_, _, rfl⟩, ?_⟩
  decide +kernel

end C53
end Verif
