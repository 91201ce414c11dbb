import Verif.LinkedRun
import Verif.Props.C51
import Verif.Props.C29
/- Helper lemmas: the linked program from start to end, and what the trace it leaves says. -/
namespace Verif
namespace Linked
open Ir PassIr CfPass Spec Labels DfsanMem Tracker EndToEnd

/-- The streams of the program are registered inputs and outputs, at their beginning. -/
structure Streams (h : Trace) (io : Io) (src snk : Nat) : Prop where
  input : owner h io.fdIn = some src
  output : owner h io.fdOut = some snk
  unread : io.seekIn = false → readPos h src = 0
  unwritten : io.seekOut = false → writePos h snk = 0

/-- The linked program, with globals `g`, is where the original program is: both run; or both have ended with
the same value, which has a label that stands for what the value depends on. -/
def Stands : Out (Nat × Nat → Prop) → IOut → IGlob → Prop
  | .next _, .next i, g => i.glob = g
  | .done v _, .done w l g', g => w = v.1 ∧ g' = g ∧ ∀ b, Denotes g.L.graph l b ↔ v.2 b
  | _, _, _ => False

variable {dom : Nat → Nat → Nat → Bool} {P : Prog} {c : Config} {base src snk : Nat} {inp : World} {io : Io}
  {h0 : Trace} {C : Nat → Marks}

theorem start_link {T0 : Tracker} (hr : Tracker.Reach c base h0 T0) (hS : Streams h0 io src snk) (F : Func)
    (fn : Nat) (args : List Nat) (mem : Mem) (sp : Nat) :
    Link c base io src snk h0 (istart F fn args mem sp T0.labels).glob T0 h0 where
  reach := hr
  labels := rfl
  reg := rfl
  rd := hS.unread
  wr := hS.unwritten
  written := by simp [istart, outBytes]
  cf := by simp [istart]
  fns := rfl
  given := by intro b; simp [istart]

/-- The program from its start. -/
theorem linked (hP : C47.Accepted dom P) (hP2 : C49.Accepted P) (hc : c.Ok base) {T0 : Tracker}
    (hr : Tracker.Reach c base h0 T0) (hS : Streams h0 io src snk) {fn : Nat} {F : Func} (hF : P[fn]? = some F)
    (hne : F.blocks ≠ []) {args : List Nat} {mem : Mem} (hm : Spec.IsBytes mem)
    {tm : Nat → Nat × Nat → Prop} (hz : TaintedBy T0.labels mem tm) {sp n : Nat} {o : Out (Nat × Nat → Prop)}
    {gs : Glob (Nat × Nat → Prop)} (hs : run (sets src) P inp n (start (sets src) fn args mem sp tm) = o)
    (ho : globAfter o = some gs) (hn : gs.pos < 2 ^ 54)
    (hf : Fine { gs with ev := observeFrom (sets src) C P inp fn n (start (sets src) fn args mem sp tm) }) :
    ∃ k, TGoes c (runCost plain P inp n (start plain fn args mem sp)) T0.labels (cfEvents h0).length
      (saidCount (observeFrom (sets src) C P inp fn n (start (sets src) fn args mem sp tm)))
      (trun dom (pass C P) inp io k (istart (passFunc (C fn) F) fn args mem sp T0.labels) T0)
      (fun x => ∃ g h', Stands o x.1 g ∧
        GRel c.labelCap g { gs with
          ev := observeFrom (sets src) C P inp fn n (start (sets src) fn args mem sp tm) } ∧
        Evolves (runCost plain P inp n (start plain fn args mem sp))
          (istart (passFunc (C fn) F) fn args mem sp T0.labels).glob g ∧
        Link c base io src snk h0 g x.2 h') := by
  have hsim := hr.sim hc
  have hL : Store c.labelCap T0.labels := ⟨hsim.lab.reach.good hc.lab0 hc.lab, hsim.lab.reach.cap hc.lab0 hc.lab⟩
  have hsrc : src < 256 := owner_256 hc hr hS.input
  have hrel := fun A => start_rel (src := src) (accepted_pass (C := C) hP) hL (CfPass.pass_get hF) (pass_ne hne) A hm hz sp
  rw [← start_plain (A := sets src) _ _ _ _ tm, runCost_map (hom_plain (sets src))]
  cases o with
  | stuck => cases ho
  | next s =>
    cases ho
    obtain ⟨k, s', -, h1, h2, -, h3⟩ := C49.C49_running (sets src) C P hP2 inp fn F hF hne args mem tm sp n s hs
    have hq := trun_sim (inp := inp) (accepted_pass (C := C) hP) hc hsrc hS.input hS.output k (hrel args)
      (start_link hr hS _ fn args mem sp) (by rw [h1]; rfl) (by rw [h2]; exact hn) (by rw [h2]; exact hf)
    rw [h1, h3, h2] at hq
    refine ⟨k, hq.mono ?_⟩
    rintro x ⟨i, T', h', rfl, g1, g2, g3⟩
    exact ⟨i.glob, h', rfl, h2 ▸ g1.glob, g2, g3⟩
  | done v g =>
    cases ho
    obtain ⟨k, h1, h3⟩ := C49.C49_finished (sets src) C P hP2 inp fn F hF hne args mem tm sp n v gs hs
    have hq := trun_sim (inp := inp) (accepted_pass (C := C) hP) hc hsrc hS.input hS.output k (hrel args)
      (start_link hr hS _ fn args mem sp) (gf := { gs with
        ev := observeFrom (sets src) C P inp fn n (start (sets src) fn args mem sp tm) }) (by rw [h1]; rfl) hn hf
    rw [h1, h3] at hq
    refine ⟨k, hq.mono ?_⟩
    rintro x ⟨l, g, T', h', rfl, g0, g1, g2, g3⟩
    exact ⟨g, h', ⟨rfl, rfl, g0.2⟩, g1, g2, g3⟩

/-! ### The trace -/

section
variable {T0 T' : Tracker} {h' : Trace} {g : IGlob} {gs : Glob (Nat × Nat → Prop)} {k : Nat} {g0 : IGlob}

/-- Labels given before keep their meaning. -/
theorem Link.old (hc : c.Ok base) (hr : Tracker.Reach c base h0 T0) (hl : Link c base io src snk h0 g T' h')
    (hg0 : g0.L = T0.labels) (he : Evolves k g0 g) {l : Nat} (hlt : l < T0.labels.words.length) (b : Nat × Nat) :
    Meaning (labelEvents h') l b ↔ Meaning (labelEvents h0) l b := by
  obtain ⟨ms, ⟨es, h1, -⟩, -⟩ := he.room
  rw [hg0] at h1
  have hs := hr.sim hc
  have hs' := hl.reach.sim hc
  have := (h1.old (hs.lab.reach.good hc.lab0 hc.lab)).2.2 l b hlt
  rw [← hs.lab.reach.meaning hc.lab0 hc.lab, ← hs'.lab.reach.meaning hc.lab0 hc.lab, hl.labels, this]

theorem Link.names (hl : Link c base io src snk h0 g T' h') : names h' = names h0 := by
  rw [Spec.names, Spec.names, hl.reg, hl.fns]

theorem outBytes_le (snk : Nat) : ∀ (xs : List (Nat × Nat)) (k : Nat), (outBytes snk k xs).length ≤ xs.length
  | [], _ => Nat.le_refl _
  | x :: xs, k => by
    have := outBytes_le snk xs (k + 1)
    have h1 : (tainted snk k 1 (fun _ => x.2)).length ≤ 1 := by
      simp only [tainted, List.length_map]
      exact Nat.le_trans (List.length_filter_le _ _) (by simp)
    simp only [outBytes, List.length_append, List.length_cons]
    omega

theorem Link.room (hl : Link c base io src snk h0 g T' h') (hg : GRel c.labelCap g gs)
    (hlog : (Spec.written h0).length + gs.out.length ≤ c.sinkCap) : (Spec.written h').length ≤ c.sinkCap := by
  rw [hl.written, List.length_append]
  have := outBytes_le snk g.out 0
  have := hg.out.length_eq
  omega

/-- The tainted bytes that were written and what they depend on. -/
theorem Link.wrote (hc : c.Ok base) (hr : Tracker.Reach c base h0 T0) (hl : Link c base io src snk h0 g T' h')
    (hg0 : g0.L = T0.labels) (he : Evolves k g0 g) (hg : GRel c.labelCap g gs) (Q : Nat → Nat → Prop)
    (b : Nat × Nat) :
    (∃ w ∈ Spec.written h', Q w.out w.offset ∧ Meaning (labelEvents h') w.label b) ↔
      (∃ w ∈ Spec.written h0, Q w.out w.offset ∧ Meaning (labelEvents h0) w.label b) ∨
      ∃ r y, gs.out[r]? = some y ∧ Q snk r ∧ y.2 b := by
  have hs := hr.sim hc
  have hs' := hl.reach.sim hc
  have hm := hs'.lab.reach.meaning hc.lab0 hc.lab
  have hp := List.forall₂_iff_get.1 hg.out
  rw [hl.written]
  constructor
  · rintro ⟨w, hw, hq, hb⟩
    rcases List.mem_append.1 hw with hw | hw
    · exact Or.inl ⟨w, hw, hq, (hl.old hc hr hg0 he (hs.sinkOk w hw).2.1 b).1 hb⟩
    · obtain ⟨r, y, h1, h2, rfl⟩ := (mem_outBytes _ _ _ _).1 hw
      obtain ⟨h3, h4⟩ := List.getElem?_eq_some_iff.1 h1
      have h5 : r < gs.out.length := by rw [← hp.1]; exact h3
      have h6 := hp.2 r h3 h5
      simp only [List.get_eq_getElem, h4] at h6
      simp only [Nat.zero_add] at hq hb
      exact Or.inr ⟨r, _, List.getElem?_eq_getElem h5, hq, (h6.2.2 b).1 (by rw [← hl.labels]; exact (hm _ _).2 hb)⟩
  · rintro (⟨w, hw, hq, hb⟩ | ⟨r, y, h1, hq, hb⟩)
    · exact ⟨w, List.mem_append_left _ hw, hq, (hl.old hc hr hg0 he (hs.sinkOk w hw).2.1 b).2 hb⟩
    · obtain ⟨h3, h4⟩ := List.getElem?_eq_some_iff.1 h1
      have h5 : r < g.out.length := by rw [hp.1]; exact h3
      have h6 := hp.2 r h5 h3
      simp only [List.get_eq_getElem, h4] at h6
      have hd := (h6.2.2 b).2 hb
      have hne : g.out[r].2 ≠ 0 := by
        intro e
        rw [e] at hd
        exact denotes_zero hg.store.good b hd
      refine ⟨⟨snk, r, g.out[r].2⟩, List.mem_append_right _ ((mem_outBytes _ _ _ _).2
        ⟨r, _, List.getElem?_eq_getElem h5, hne, by simp⟩), hq, ?_⟩
      rw [← hm, hl.labels]
      exact hd

/-- The bytes that have a label of their own. -/
theorem wasRead_iff (hc : c.Ok base) {h : Trace} {T : Tracker} (hr : Tracker.Reach c base h T) (i o : Nat) :
    WasRead T.labels.graph i o ↔ Given h (i, o) := by
  have hs := hr.sim hc
  have hg := hs.lab.reach.good hc.lab0 hc.lab
  obtain ⟨k1, k2⟩ := hs.lab.reach.kinds hc.lab0 hc.lab
  constructor
  · rintro ⟨l, cf, hgr⟩
    have hl : 0 < l ∧ l < T.labels.words.length := by
      by_cases hl : l = 0 ∨ T.labels.words.length ≤ l
      · rw [hg.wf.graph.none l hl] at hgr; cases hgr
      · omega
    rcases k2 l hl.1 hl.2 with ⟨b, cf', hb, hg'⟩ | ⟨-, x, y, hne, hx, hy⟩
    · rw [hgr] at hg'
      cases hg'
      exact ⟨l, (hb _).2 rfl⟩
    · rw [denotes_iff hgr] at hx hy
      exact absurd (hx.trans hy.symm) hne
  · rintro ⟨l, hb⟩
    obtain ⟨l0, ll⟩ := k1 l _ hb
    rcases k2 l l0 ll with ⟨x, cf, h1, h2⟩ | ⟨hn, -⟩
    · have := (h1 _).1 hb
      rw [← this] at h2
      exact ⟨l, cf, h2⟩
    · exact absurd hb (hn _)

end
end Linked
end Verif
