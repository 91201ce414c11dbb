import Verif.FtraceRun
import Verif.TwoPass
/- Helper lemmas: the linked program with function tracing from start to end, and its trace. -/
namespace Verif
namespace Ftrace
open Ir PassIr CfPass Spec Labels DfsanMem Tracker EndToEnd Linked TwoPass Py File

variable {c : Config} {base : Nat} {io : Io} {src snk : Nat} {h0 : Trace}
  {N : Fns} {P : Prog} {dom : Nat → Nat → Nat → Bool} {inp : World} {C D : Nat → Marks}

/-- What has been reported of the calls and returns `all` of a run: everything if it has ended, and everything
but perhaps the entry of the function it is at the start of if it has not. -/
def Told (done all : List (Bool × Nat)) : Out (Nat × Nat → Prop) → Prop
  | .next s => done = all ∨ done ++ [(true, s.top)] = all
  | .done _ _ => done = all
  | .stuck => False

theorem names_length {Q : Prog} (h : Q.length = P.length) : names N Q = names N P := by
  unfold names
  rw [h]

/-- What holds of the linked program with function tracing when the original program is at `o`. -/
def Good (N : Fns) (dom : Nat → Nat → Nat → Bool) (P Q : Prog) (c : Config) (base src snk : Nat) (inp : World) (io : Io)
    (h0 : Trace) (T0 : Tracker) (i : IState) (k : Nat) (calls : List (Bool × Nat)) (o : Out (Nat × Nat → Prop))
    (gs : Glob (Nat × Nat → Prop)) (x : IOut × List Nat × Tracker) : Prop :=
  ∃ g h' hv done ev hU, Stands o x.1 g ∧ GRel c.labelCap g { gs with ev := ev } ∧
    Link c base io src snk hv g x.2.2 h' ∧ Base h0 hv ∧ FInv N P c h0 x.2.2 h' done ∧ Told done calls o ∧
    trun dom Q inp io k i T0 = .ok (x.1, over T0 x.2.2) ∧ Link c base io src snk h0 g (over T0 x.2.2) hU

theorem pass_length : (pass C P).length = P.length := by simp [pass]

theorem FInv.cast {Q : Prog} (hq : Q.length = P.length) {T : Tracker} {h : Trace} {done : List (Bool × Nat)}
    (hi : FInv N Q c h0 T h done) : FInv N P c h0 T h done := by
  obtain ⟨h1, h2, h3, h4⟩ := hi
  unfold todo at h2 h3
  rw [names_length hq] at h2 h3 h4
  exact ⟨h1, h2, h3, h4⟩

theorem todo_le (w : List Nat → Nat) (fs : List (List Nat)) : ((todo N P fs).map w).sum ≤ ((names N P).map w).sum := by
  unfold todo
  generalize names N P = l
  induction l with
  | nil => simp
  | cons x l ih =>
    rw [List.filter_cons]
    split <;> simp only [List.map_cons, List.sum_cons] <;> omega

/-- From the start of an instrumented program. -/
theorem from_start {Q : Prog} (hQ : ProgOk dom Q) (hA : C49.Accepted Q) (hc : c.Ok base)
    (hnm : ∀ f, f < Q.length → N.traced f = true → ∀ b ∈ N.name f, b < 256) {T0 : Tracker}
    (hr : Tracker.Reach c base h0 T0) (hSt : Streams h0 io src snk) {fn : Nat} {F : Func} (hF : Q[fn]? = some F)
    (hne : F.blocks ≠ []) {args : List Nat} {mem : Mem} (hm : Spec.IsBytes mem)
    {tm : Nat → Nat × Nat → Prop} (hz : TaintedBy T0.labels mem tm) {sp n : Nat}
    {gf : Glob (Nat × Nat → Prop)}
    (hgf : globAfter (Ir.run (sets src) Q inp n (start (sets src) fn args mem sp tm)) = some gf)
    (hpos : gf.pos < 2 ^ 54) (hf : Fine gf)
    (hstr : T0.strings.pos + ((names N Q).map (fun n => StrTab.allocatedLen n.length)).sum ≤ c.strSize)
    (hfns : (functions h0).length + (names N Q).length ≤ c.fnCap)
    (hev : (fnEvents h0).length + ((callsFrom (sets src) Q inp fn n (start (sets src) fn args mem sp tm)).filter
      (fun x => N.traced x.2)).length ≤ c.evCap) :
    TGoes c (runCost (sets src) Q inp n (start (sets src) fn args mem sp tm)) T0.labels (cfEvents h0).length
      (saidCount gf.ev) (ftrun N dom Q inp io n (istart F fn args mem sp T0.labels) [0] T0)
      (fun x => FEnds N dom Q c base src snk io h0 (runCost (sets src) Q inp n (start (sets src) fn args mem sp tm))
          (istart F fn args mem sp T0.labels).glob (callsFrom (sets src) Q inp fn n (start (sets src) fn args mem sp tm))
          (Ir.run (sets src) Q inp n (start (sets src) fn args mem sp tm)) x ∧
        ∃ g hU, trun dom Q inp io n (istart F fn args mem sp T0.labels) T0 = .ok (x.1, over T0 x.2.2) ∧
          (∀ i', x.1 = .next i' → i'.glob = g) ∧ (∀ w l g', x.1 = .done w l g' → g' = g) ∧
          Link c base io src snk h0 g (over T0 x.2.2) hU) := by
  have hsim := hr.sim hc
  have hL : Store c.labelCap T0.labels := ⟨hsim.lab.reach.good hc.lab0 hc.lab, hsim.lab.reach.cap hc.lab0 hc.lab⟩
  have hsrc : src < 256 := owner_256 hc hr hSt.input
  have hrel := start_rel (src := src) hQ hL hF hne args hm hz sp
  have hlink := start_link hr hSt F fn args mem sp
  have hi : FInv N Q c h0 T0 h0 [] := by
    refine ⟨⟨[], by simp, .nil⟩, ?_, ?_, fun _ => Or.inl⟩
    · have := todo_le (N := N) (P := Q) (fun n => StrTab.allocatedLen n.length) (functions h0)
      omega
    · have := todo_le (N := N) (P := Q) (fun _ => 1) (functions h0)
      rw [sum_one, sum_one] at this
      omega
  have hpend : pend (start (sets src) fn args mem sp tm).frames = [(true, fn)] := by
    simp [pend, start, newFrame]
  have hk : Kept N (functions h0) [0] (start (sets src) fn args mem sp tm).frames :=
    ⟨_, [], 0, [], rfl, rfl, Or.inl ⟨rfl, rfl⟩, .nil⟩
  have h1 := ftrun_sim (inp := inp) hQ hA hc hsrc hnm hSt.input hSt.output n hrel hlink ⟨rfl, rfl, rfl, fun _ => Iff.rfl⟩
    hi hk hgf hpos hf (by rw [hpend]; exact hev)
  rw [hpend, List.nil_append, List.singleton_append] at h1
  have h2 := trun_sim (inp := inp) hQ hc hsrc hSt.input hSt.output n hrel hlink hgf hpos hf
  rcases h1 with ⟨⟨o, sv, T'⟩, e1, e2⟩ | h1
  · refine Or.inl ⟨_, e1, e2, ?_⟩
    have e3 := ftrun_over n e1 T0
    rw [over_self] at e3
    rw [e3] at h2
    rcases h2 with ⟨x, e4, e5⟩ | ⟨h2 | h2, -⟩ | ⟨h2, -⟩
    · cases e4
      cases hrun : Ir.run (sets src) Q inp n (start (sets src) fn args mem sp tm) with
      | stuck => rw [hrun] at hgf; cases hgf
      | next s' =>
        rw [hrun] at e5
        obtain ⟨i', T2, h2', k0, -, -, k3⟩ := e5
        cases k0
        exact ⟨i'.glob, h2', e3, (by rintro _ ⟨⟩; rfl), (by rintro _ _ _ ⟨⟩), k3⟩
      | done v gs =>
        rw [hrun] at e5
        obtain ⟨l, g', T2, h2', k0, -, -, -, k3⟩ := e5
        cases k0
        exact ⟨g', h2', e3, (by rintro _ ⟨⟩), (by rintro _ _ _ ⟨⟩; rfl), k3⟩
    · cases h2
    · cases h2
    · cases h2
  · exact Or.inr h1

theorem notFar_flow (hC : ∀ f, ∃ lg cd, C f = controlFlow f lg cd) :
    (∀ f, isFar P.length (C f).hk = false) ∧
    (∀ (f : Nat) F h, P[f]? = some F → (C f).enter = some h → isFar P.length h = false) ∧
    (∀ (f : Nat) F h, P[f]? = some F → (C f).leave = some h → isFar P.length h = false) := by
  refine ⟨fun f => ?_, fun f F h hF he => ?_, fun f F h hF he => ?_⟩
  · obtain ⟨lg, cd, e⟩ := hC f
    rw [e]; rfl
  · obtain ⟨lg, cd, e⟩ := hC f
    rw [e] at he
    cases he
    have := (List.getElem?_eq_some_iff.1 hF).1
    simp only [isFar, decide_eq_false_iff_not]
    omega
  · obtain ⟨lg, cd, e⟩ := hC f
    rw [e] at he
    cases he
    have := (List.getElem?_eq_some_iff.1 hF).1
    simp only [isFar, decide_eq_false_iff_not]
    omega

theorem notFar_taint {n : Nat} {Q : Prog} (hD : ∀ f, ∃ lg cd, D f = taintTracking lg cd) :
    (∀ f, isFar n (D f).hk = false) ∧
    (∀ (f : Nat) F h, Q[f]? = some F → (D f).enter = some h → isFar n h = false) ∧
    (∀ (f : Nat) F h, Q[f]? = some F → (D f).leave = some h → isFar n h = false) := by
  refine ⟨fun f => ?_, fun f F h hF he => ?_, fun f F h hF he => ?_⟩ <;> obtain ⟨lg, cd, e⟩ := hD f
  · rw [e]; rfl
  · rw [e] at he; cases he
  · rw [e] at he; cases he

/-- Both passes, function tracing, instrumentation and linking. -/
theorem traced (hP : C47.Accepted dom P) (hP2 : C49.Accepted P) (hN : C49.NoHooks P) (hlen : P.length ≤ 2 ^ 32)
    (hC : ∀ f, ∃ lg cd, C f = controlFlow f lg cd) (hD : ∀ f, ∃ lg cd, D f = taintTracking lg cd)
    (hnm : ∀ f, f < P.length → N.traced f = true → ∀ b ∈ N.name f, b < 256) (hc : c.Ok base) {T0 : Tracker}
    (hr : Tracker.Reach c base h0 T0) (hSt : Streams h0 io src snk) {fn : Nat} {F : Func} (hF : P[fn]? = some F)
    (hne : F.blocks ≠ []) {args : List Nat} {mem : Mem} (hm : Spec.IsBytes mem)
    {tm : Nat → Nat × Nat → Prop} (hz : TaintedBy T0.labels mem tm) {sp n : Nat} {o : Out (Nat × Nat → Prop)}
    {gs : Glob (Nat × Nat → Prop)} (hs : Ir.run (sets src) P inp n (start (sets src) fn args mem sp tm) = o)
    (ho : globAfter o = some gs) (hn : gs.pos < 2 ^ 54) (hb : ∀ y ∈ gs.out, y.1 < 256)
    (hl : gs.out.length < 2 ^ 54)
    (hstr : T0.strings.pos + ((names N P).map (fun n => StrTab.allocatedLen n.length)).sum ≤ c.strSize)
    (hfns : (functions h0).length + (names N P).length ≤ c.fnCap)
    (hev : (fnEvents h0).length + ((callsFrom (sets src) P inp fn n (start (sets src) fn args mem sp tm)).filter
      (fun x => N.traced x.2)).length ≤ c.evCap) :
    ∃ k, TGoes c (runCost plain P inp n (start plain fn args mem sp)) T0.labels (cfEvents h0).length
      (observeFrom (sets src) C P inp fn n (start (sets src) fn args mem sp tm)).length
      (ftrun N dom (pass D (pass C P)) inp io k
        (istart (passFunc (D fn) (passFunc (C fn) F)) fn args mem sp T0.labels) [0] T0)
      (Good N dom P (pass D (pass C P)) c base src snk inp io h0 T0
        (istart (passFunc (D fn) (passFunc (C fn) F)) fn args mem sp T0.labels) k
        (callsFrom (sets src) P inp fn n (start (sets src) fn args mem sp tm)) o gs) := by
  have hlow : Low P.length P := by
    intro f F b B k v hF hB hmem
    obtain ⟨j, hj⟩ := List.getElem?_of_mem hmem
    exact absurd hj (hN f F b B j k v hF hB)
  obtain ⟨a1, a2, a3⟩ := notFar_flow (P := P) hC
  have hlow1 := low_pass hlow a1 a2 a3
  obtain ⟨b1, b2, b3⟩ := notFar_taint (n := P.length) (Q := pass C P) hD
  have hA1 := accepted_reports (C := C) hP2
  have hA2 := accepted_reports (C := D) hA1
  have hq : ProgOk dom (pass D (pass C P)) := accepted_pass (C := D) (accepted_pass (C := C) hP)
  have hF1 := CfPass.pass_get (C := C) hF
  have hF2 := CfPass.pass_get (C := D) hF1
  have hne1 : (passFunc (C fn) F).blocks ≠ [] := pass_ne hne
  have hne2 : (passFunc (D fn) (passFunc (C fn) F)).blocks ≠ [] := pass_ne hne1
  have hlen2 : (pass D (pass C P)).length = P.length := by rw [pass_length, pass_length]
  obtain ⟨c1, c2⟩ := calls_pass (A := sets src) hP2 hlow a1 a2 a3 (inp := inp) hF hne (args := args) (mem := mem)
    (tm := tm) (sp := sp) (n := n)
  -- the events after the second pass
  have hall := List.filter_eq_self.2 (observeFrom_said (A := sets src) (inp := inp) hC hN (fn := fn) (n := n)
    (s := start (sets src) fn args mem sp tm))
  have hsaid : ∀ (k : Nat) (o1 : Out (Nat × Nat → Prop)) g1,
      Ir.run (sets src) (pass C P) inp k (start (sets src) fn args mem sp tm) = o1 → globAfter o1 = some g1 →
      g1.ev = observeFrom (sets src) C P inp fn n (start (sets src) fn args mem sp tm) →
      (observeFrom (sets src) D (pass C P) inp fn k (start (sets src) fn args mem sp tm)).filter
        (fun x => Linked.said x.1) = observeFrom (sets src) C P inp fn n (start (sets src) fn args mem sp tm) := by
    intro k o1 g1 h1 h2 h3
    have := run_ev (A := sets src) (P := pass C P) (inp := inp) hD k
      (s := start (sets src) fn args mem sp tm) (by rw [h1]; exact h2)
    rw [C51.observeFrom_noted hD, ← hall, ← h3, this]
    simp [start]
  have hfine : ∀ ev : List (Hook × Nat × (Nat × Nat → Prop)), ev.filter (fun x => Linked.said x.1) =
      observeFrom (sets src) C P inp fn n (start (sets src) fn args mem sp tm) → Fine { gs with ev := ev } := by
    intro ev h6
    refine ⟨hb, hl, ?_⟩
    intro y hy f hf
    have hsd : Linked.said y.1 = true := by rcases hf with e | e | e <;> rw [e] <;> rfl
    have hy' : y ∈ observeFrom (sets src) C P inp fn n (start (sets src) fn args mem sp tm) := by
      rw [← h6]
      exact List.mem_filter.2 ⟨hy, hsd⟩
    refine Nat.lt_of_lt_of_le (observeFrom_fn hC hN (List.getElem?_eq_some_iff.1 hF).1 ?_ hy' ?_) hlen
    · intro e
      rw [hs] at e
      rw [e] at ho
      cases ho
    · rcases hf with e | e | e <;> rw [e] <;> rfl
  have hcost : runCost plain P inp n (start plain fn args mem sp) =
      runCost (sets src) P inp n (start (sets src) fn args mem sp tm) := by
    rw [← start_plain (A := sets src) _ _ _ _ tm, runCost_map (hom_plain (sets src))]
  have hnm' : ∀ f, f < (pass D (pass C P)).length → N.traced f = true → ∀ b ∈ N.name f, b < 256 := by
    rw [hlen2]; exact hnm
  have hstr' : T0.strings.pos + ((names N (pass D (pass C P))).map (fun n => StrTab.allocatedLen n.length)).sum ≤ c.strSize := by
    rw [names_length hlen2]; exact hstr
  have hfns' : (functions h0).length + (names N (pass D (pass C P))).length ≤ c.fnCap := by
    rw [names_length hlen2]; exact hfns
  cases o with
  | stuck => cases ho
  | next s =>
    cases ho
    obtain ⟨k1, s1, d1, d2, d3, d4, d5⟩ := c1 s hs
    obtain ⟨k2, s2, e1, e2, e3, e4, e5⟩ := (calls_pass (A := sets src) hA1 hlow1 b1 b2 b3 (inp := inp) hF1 hne1
      (args := args) (mem := mem) (tm := tm) (sp := sp) (n := k1)).1 s1 d1
    have h6 := hsaid k1 _ _ d1 rfl (by rw [d2])
    have hg2 : s2.glob = { s.glob with ev := observeFrom (sets src) D (pass C P) inp fn k1 (start (sets src) fn args mem sp tm) } := by
      rw [e2, d2]
    have hcalls : callsFrom (sets src) (pass D (pass C P)) inp fn k2 (start (sets src) fn args mem sp tm) =
        callsFrom (sets src) P inp fn n (start (sets src) fn args mem sp tm) := by
      unfold callsFrom
      rw [e5, d5]
    have key := from_start (n := k2) (inp := inp) hq hA2 hc hnm' hr hSt hF2 hne2 (args := args) hm hz (sp := sp)
      (gf := { s.glob with ev := observeFrom (sets src) D (pass C P) inp fn k1 (start (sets src) fn args mem sp tm) }) (by rw [e1, ← hg2]; rfl) hn (hfine _ h6) hstr' hfns' (by rw [hcalls]; exact hev)
    rw [hcalls, e4, d4, ← hcost, saidCount_eq, h6, e1] at key
    refine ⟨k2, key.mono ?_⟩
    rintro ⟨o', sv, T'⟩ ⟨⟨i', sv', T2, h', hv, done, m0, m1, -, m3, m4, m5, -, m7⟩, g, hU, n1, n2, -, n4⟩
    cases m0
    have hgi := n2 i' rfl
    subst hgi
    refine ⟨i'.glob, h', hv, done, _, hU, rfl, hg2 ▸ m1.glob, m3, m4, m5.cast hlen2, ?_, n1, n4⟩
    have htop : s2.top = s.top := by
      have : s2.frames.map (·.fn) = s.frames.map (·.fn) := e3.trans d3
      unfold State.top
      rw [← List.head?_map, ← List.head?_map, this]
    show done = _ ∨ _
    rw [← m7, ← htop]
    cases hfr : s2.frames with
    | nil => left; simp [pend]
    | cons fr rest =>
      unfold pend
      simp only
      split
      · right
        simp [State.top, hfr]
      · left; simp
  | done v g =>
    cases ho
    obtain ⟨k1, d1, d4, d5⟩ := c2 v gs hs
    obtain ⟨k2, e1, e4, e5⟩ := (calls_pass (A := sets src) hA1 hlow1 b1 b2 b3 (inp := inp) hF1 hne1
      (args := args) (mem := mem) (tm := tm) (sp := sp) (n := k1)).2 v _ d1
    have h6 := hsaid k1 _ _ d1 rfl rfl
    have hcalls : callsFrom (sets src) (pass D (pass C P)) inp fn k2 (start (sets src) fn args mem sp tm) =
        callsFrom (sets src) P inp fn n (start (sets src) fn args mem sp tm) := by
      unfold callsFrom
      rw [e5, d5]
    have key := from_start (n := k2) (inp := inp) hq hA2 hc hnm' hr hSt hF2 hne2 (args := args) hm hz (sp := sp)
      (gf := { gs with ev := observeFrom (sets src) D (pass C P) inp fn k1 (start (sets src) fn args mem sp tm) }) (by rw [e1]; rfl) hn (hfine _ h6) hstr' hfns' (by rw [hcalls]; exact hev)
    rw [hcalls, e4, d4, ← hcost, saidCount_eq, h6, e1] at key
    refine ⟨k2, key.mono ?_⟩
    rintro ⟨o', sv, T'⟩ ⟨⟨l, g', sv', T2, h', hv, m0, m1, m2, -, m3, m4, m5⟩, g, hU, n1, -, n2, n4⟩
    cases m0
    have hgi := n2 _ _ _ rfl
    subst hgi
    exact ⟨g', h', hv, _, _, hU, ⟨rfl, rfl, m1.2⟩, m2, m3, m4, m5.cast hlen2, rfl, n1, n4⟩

end Ftrace
end Verif
