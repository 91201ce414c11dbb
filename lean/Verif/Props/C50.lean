import Verif.EndToEnd
/-
C50: the control-flow log of an instrumented program, as read by Python, tells exactly the calls, the returns
and the decisions on tainted data of the original program, each with the true call stack and a label that
stands for exactly the input bytes the decision depends on.
-/
namespace Verif
namespace C50
open Ir PassIr CfPass Spec Labels DfsanMem EndToEnd

/-- The log written for the reports of a run to a section of `size` bytes, when read by Python, gives items
as `Q` says; or the program was stopped because the section was full. -/
def Logs (base size : Nat) (g : IGlob) (Q : List Py.CfItem → Prop) : Prop :=
  (∃ S items, CfRun.reportAll (Section.new base size) g.ev = .ok S ∧
    Py.iter (S.mem.take S.size) [] = (items, false) ∧ Q items) ∨
  (CfRun.reportAll (Section.new base size) g.ev = .fatal ∧ size < 11 * g.ev.length)

theorem logs {cap : Nat} {g : IGlob} {gs : Glob (Nat × Nat → Prop)} (hg : GRel cap g gs)
    (hf : ∀ y ∈ gs.ev, ∀ f, fnOf y.1 = some f → f < 2 ^ 32) {st : List Nat}
    (hst : follow (gs.ev.map (·.1)) [] = some st) {base size : Nat} (hb : base + size < 2 ^ 64) :
    Logs base size g (fun items => ∃ told, items = told ++ drain st ∧
      Told (Denotes g.L.graph) gs.ev [] told st) := by
  have hfit := logged_fits hg.store hg.ev hf
  obtain ⟨told, h1, h2⟩ := told hg.store hg.ev hst
  unfold Logs
  rw [reportAll_eq]
  rcases C23_written base size hb _ hfit with ⟨-, S, h3, h4, h5⟩ | ⟨h3, h4⟩
  · refine Or.inl ⟨S, _, h3, ?_, told, rfl, h1⟩
    rw [h5, C23_iter, h2]
  · refine Or.inr ⟨h4, Nat.lt_of_lt_of_le h3 ?_⟩
    clear h3 h4 h1 h2 hst
    generalize g.ev = xs at *
    have : ∀ es : List CfEvent, (∀ e ∈ es, e.fits) → (es.flatMap CfLog.encode).length ≤ 11 * es.length := by
      intro es
      induction es with
      | nil => intro _; simp
      | cons e es ih =>
        intro h
        have h1 := CfLog.encode_length e (h e (by simp))
        have h2 := ih (fun x hx => h x (by simp [hx]))
        simp only [List.flatMap_cons, List.length_append, List.length_cons]
        omega
    have h1 := this _ hfit
    have h2 := List.length_filterMap_le logged xs
    omega

/-- C50 (finished): take any program accepted by the verifier that does not itself call the reporting
functions, insert the reports of the control-flow pass (any choice `C` of decisions), instrument the result
and run it, on any input. When the original program ends, so does the result, with the same effects and
value, unless there is no room for the labels of the original program. The log read by Python tells exactly
what the original program did, in order, with all functions left at the end. -/
theorem C50_finished (cap : Nat) (h0 : 0 < cap) (hcap : cap ≤ 2 ^ 31) (es : List Event) (L : Labels)
    (hr : Labels.Reach cap es L) (dom : Nat → Nat → Nat → Bool) (P : Prog) (hP : C47.Accepted dom P)
    (hP2 : C49.Accepted P) (hN : C49.NoHooks P) (hlen : P.length ≤ 2 ^ 32) (C : Nat → Marks)
    (hC : ∀ f, ∃ lg cd, C f = controlFlow f lg cd)
    (src : Nat) (hsrc : src < 256) (inp : World) (fn : Nat) (F : Func) (hF : P[fn]? = some F)
    (hne : F.blocks ≠ []) (args : List Nat) (mem : Mem) (hm : Spec.IsBytes mem)
    {tm : Nat → Nat × Nat → Prop} (hz : TaintedBy L mem tm) (sp n : Nat)
    (v : Nat × (Nat × Nat → Prop)) (gs : Glob (Nat × Nat → Prop))
    (hs : run (sets src) P inp n (start (sets src) fn args mem sp tm) = .done v gs) (hn : gs.pos < 2 ^ 54)
    (base size : Nat) (hb : base + size < 2 ^ 64) :
    ∃ k, C47.Does cap (runCost plain P inp n (start plain fn args mem sp)) L
      (irun dom (pass C P) inp src k (istart (passFunc (C fn) F) fn args mem sp L))
      (fun o => ∃ l g, o = .done v.1 l g ∧ (∀ b, Denotes g.L.graph l b ↔ v.2 b) ∧
        C47.Tracks g { gs with
          ev := observeFrom (sets src) C P inp fn n (start (sets src) fn args mem sp tm) } ∧
        Logs base size g (fun items => Told (Denotes g.L.graph)
          (observeFrom (sets src) C P inp fn n (start (sets src) fn args mem sp tm)) [] items [])) := by
  have hL : Store cap L := ⟨hr.good h0 hcap, hr.cap h0 hcap⟩
  obtain ⟨k, hk⟩ := finished (C := C) hP hP2 hsrc hL hF hne hm hz hs hn
  refine ⟨k, Goes.mono hk ?_⟩
  rintro o ⟨l, g, rfl, h1, h2, -⟩
  refine ⟨l, g, rfl, h1.2, C47.tracks_of_rel h2, ?_⟩
  have hst := (C49.C49_stack (sets src) C hC P hN inp fn args mem tm sp n).2 v gs hs
  have hlog := logs h2 (fun y hy f hf => Nat.lt_of_lt_of_le (observeFrom_fn hC hN
    (List.getElem?_eq_some_iff.1 hF).1 (by rw [hs]; simp) hy hf) hlen) hst hb
  rcases hlog with ⟨S, items, e1, e2, told, e3, e4⟩ | hlog
  · refine Or.inl ⟨S, items, e1, e2, ?_⟩
    rw [e3]
    simpa [drain] using e4
  · exact Or.inr hlog

/-- C50 (running): the same at any moment of a run. What Python reads is what happened so far, followed by
leaving the functions that are still being executed. -/
theorem C50_running (cap : Nat) (h0 : 0 < cap) (hcap : cap ≤ 2 ^ 31) (es : List Event) (L : Labels)
    (hr : Labels.Reach cap es L) (dom : Nat → Nat → Nat → Bool) (P : Prog) (hP : C47.Accepted dom P)
    (hP2 : C49.Accepted P) (hN : C49.NoHooks P) (hlen : P.length ≤ 2 ^ 32) (C : Nat → Marks)
    (hC : ∀ f, ∃ lg cd, C f = controlFlow f lg cd)
    (src : Nat) (hsrc : src < 256) (inp : World) (fn : Nat) (F : Func) (hF : P[fn]? = some F)
    (hne : F.blocks ≠ []) (args : List Nat) (mem : Mem) (hm : Spec.IsBytes mem)
    {tm : Nat → Nat × Nat → Prop} (hz : TaintedBy L mem tm) (sp n : Nat) (s : State (Nat × Nat → Prop))
    (hs : run (sets src) P inp n (start (sets src) fn args mem sp tm) = .next s) (hn : s.glob.pos < 2 ^ 54)
    (base size : Nat) (hb : base + size < 2 ^ 64) :
    ∃ k, C47.Does cap (runCost plain P inp n (start plain fn args mem sp)) L
      (irun dom (pass C P) inp src k (istart (passFunc (C fn) F) fn args mem sp L))
      (fun o => ∃ i, o = .next i ∧
        C47.Tracks i.glob { s.glob with
          ev := observeFrom (sets src) C P inp fn n (start (sets src) fn args mem sp tm) } ∧
        Logs base size i.glob (fun items => ∃ told, items = told ++ drain (s.frames.map (·.fn)) ∧
          Told (Denotes i.glob.L.graph)
            (observeFrom (sets src) C P inp fn n (start (sets src) fn args mem sp tm)) [] told
            (s.frames.map (·.fn)))) := by
  have hL : Store cap L := ⟨hr.good h0 hcap, hr.cap h0 hcap⟩
  obtain ⟨k, hk⟩ := running (C := C) hP hP2 hsrc hL hF hne hm hz hs hn
  refine ⟨k, Goes.mono hk ?_⟩
  rintro o ⟨i, rfl, h2, -⟩
  refine ⟨i, rfl, C47.tracks_of_rel h2, ?_⟩
  have hst := (C49.C49_stack (sets src) C hC P hN inp fn args mem tm sp n).1 s hs
  exact logs h2 (fun y hy f hf => Nat.lt_of_lt_of_le (observeFrom_fn hC hN
    (List.getElem?_eq_some_iff.1 hF).1 (by rw [hs]; simp) hy hf) hlen) hst hb

/-! ### An example -/

theorem prog_accepted : C47.Accepted C47.dom0 C49.prog := by
  intro fn F hF
  match fn, hF with
  | 0, hF => cases hF; exact ⟨(Func.check_valid (by decide)).1, by decide, C47.dom0_sound 0 _⟩
  | 1, hF => cases hF; exact ⟨(Func.check_valid (by decide)).1, by decide, C47.dom0_sound 1 _⟩
  | n + 2, hF => cases hF

/-- The calls of the reporting functions made by the instrumented program of C49 on the input `1, 1`, from an
empty store of 64 labels. -/
def calls : List (Hook × Nat × Nat) :=
  match irun C47.dom0 (pass C49.marks C49.prog) (.file [1, 1, 1, 1, 1, 1]) 0 30
      (istart (passFunc (C49.marks 0) C49.mainF) 0 [] (fun _ => 0) 0 (Labels.init 64)) with
  | .ok (.done _ _ g) => g.ev
  | _ => []

/-- The hypotheses are met by the program of C49, and its log is as expected: the first and third decision
depend on the second byte (label 2), the second decision on the first byte. -/
example : C47.Accepted C47.dom0 C49.prog ∧ C49.Accepted C49.prog ∧ C49.NoHooks C49.prog ∧
    (∀ f, ∃ lg cd, C49.marks f = controlFlow f lg cd) ∧ Labels.Reach 64 [] (Labels.init 64) ∧
    (∃ v g, run (sets 0) C49.prog (.file [1, 1, 1, 1, 1, 1]) 20 (start (sets 0) 0 [] (fun _ => 0) 0) = .done v g ∧
      g.pos = 2) ∧
    calls = [(.enter 0, 0, 0), (.taken 0, 1, 2), (.taken 0, 1, 1), (.enter 1, 0, 0), (.taken 1, 1, 2),
      (.leave 1, 0, 0), (.leave 0, 0, 0)] ∧
    Py.iter ((calls.filterMap logged).flatMap CfLog.encode) [] =
        ([.enter [0], .tainted [0] 2, .tainted [0] 1, .enter [0, 1], .tainted [0, 1] 2, .leave [0, 1],
          .leave [0]], false) := by
  have hcalls : calls = [(.enter 0, 0, 0), (.taken 0, 1, 2), (.taken 0, 1, 1), (.enter 1, 0, 0),
      (.taken 1, 1, 2), (.leave 1, 0, 0), (.leave 0, 0, 0)] := by decide +kernel
  refine ⟨prog_accepted, C49.prog_accepted, C49.prog_noHooks, C49.marks_ok, .nil _, ⟨_, _, rfl, rfl⟩,
    hcalls, ?_⟩
  rw [C23_iter, hcalls]
  rfl

end C50
end Verif
