import Verif.ThreadsForth
/- Helper lemmas: linked programs with threads from their start. -/
namespace Verif
namespace Threads
open Ir PassIr CfPass Linked Spec Labels DfsanMem Tracker EndToEnd

variable {dom : Nat → Nat → Nat → Bool} {P : Prog} {c : Config} {base src snk : Nat} {inp : World} {io : Io}
  {h0 : Trace} {C : Nat → Marks}

/-- The linked program under a schedule of the program with reports. -/
theorem linked_threads (hP : C47.Accepted dom P) (hc : c.Ok base) {T0 : Tracker}
    (hr : Tracker.Reach c base h0 T0) (hS : Streams h0 io src snk) {fn : Nat} {F : Func} (hF : P[fn]? = some F)
    (hne : F.blocks ≠ []) {args : List Nat} {mem : Mem} (hm : Spec.IsBytes mem)
    {tm : Nat → Nat × Nat → Prop} (hz : TaintedBy T0.labels mem tm) {sp : Nat}
    {bs : List (Act (Nat × (Nat × Nat → Prop)))}
    (hk : KeptRun (sets src) (pass C P) inp bs (mstart (sets src) fn args mem sp tm)) {S : Multi (Nat × Nat → Prop)}
    (hs : mrun (sets src) (pass C P) inp bs (mstart (sets src) fn args mem sp tm) = some S)
    (hn : S.glob.pos < 2 ^ 54) (hf : Fine S.glob) :
    TGoes c (mrunCost (sets src) (pass C P) inp bs (mstart (sets src) fn args mem sp tm)) T0.labels (cfEvents h0).length
      (saidCount S.glob.ev)
      (tmrun dom (pass C P) inp io (bs.map plain) (tmstart (passFunc (C fn) F) fn args mem sp T0))
      (MEnds dom (pass C P) c base src snk io h0
        (mrunCost (sets src) (pass C P) inp bs (mstart (sets src) fn args mem sp tm))
        (tmstart (passFunc (C fn) F) fn args mem sp T0).glob S) := by
  have hsim := hr.sim hc
  have hL : Store c.labelCap T0.labels := ⟨hsim.lab.reach.good hc.lab0 hc.lab, hsim.lab.reach.cap hc.lab0 hc.lab⟩
  have hsrc : src < 256 := owner_256 hc hr hS.input
  have hrel := start_rel (src := src) (accepted_pass (C := C) hP) hL (CfPass.pass_get hF) (pass_ne hne) args hm hz sp
  refine tmrun_sim (M := tmstart (passFunc (C fn) F) fn args mem sp T0) (accepted_pass (C := C) hP) hc hsrc hS.input hS.output bs
    ⟨.cons ⟨rfl, hrel.frames⟩ .nil, hrel.glob⟩ (start_link hr hS (passFunc (C fn) F) fn args mem sp) hk hs hn hf

theorem start_back {τ : Type} {A : Alg τ} {fn : Nat} {F : Func} (hF : P[fn]? = some F) (hne : F.blocks ≠ [])
    (args : List Nat) (mem : Nat → Nat) (sp : Nat) (tm : Nat → τ) :
    MB A C P inp (mstart A fn args mem sp tm) (mstart A fn args mem sp tm) [] := by
  obtain ⟨fr', h1, -, h3⟩ := enter_pending (A := A) (S := nothing C P) hF hne (args.map (fun v => (v, A.zero))) sp
  refine ⟨.cons ⟨rfl, .inl ⟨_, _, _, _, _, fr', rfl, rfl, h1, h3, .nil, fun hE => by rw [hE.1]; rfl⟩⟩ .nil, rfl, ?_, ?_⟩
  · intro _ y hy; cases hy
  · intro _ y hy; cases hy

theorem start_forth {τ : Type} {A : Alg τ} {fn : Nat} {F : Func} (hF : P[fn]? = some F) (hne : F.blocks ≠ [])
    (args : List Nat) (mem : Nat → Nat) (sp : Nat) (tm : Nat → τ) :
    ∃ bs M', (∀ b ∈ bs, ∃ i, b = .run i) ∧ mrun A (pass C P) inp bs (mstart A fn args mem sp tm) = some M' ∧
      MF C P (mstart A fn args mem sp tm) M' (plainReport A (C fn).enter) ∧
      mrunCost A (pass C P) inp bs (mstart A fn args mem sp tm) = 0 := by
  obtain ⟨fr', h1, -, h3⟩ := enter_pending (A := A) (S := nothing C P) hF hne (args.map (fun v => (v, A.zero))) sp
  obtain ⟨sp1, n1, n2⟩ := report_run (A := A) (inp := inp) (i := 0) (sp := sp) (rest := []) h1
    (M := mstart A fn args mem sp tm) rfl
  refine ⟨_, _, fun b hb => ⟨0, List.eq_of_mem_replicate hb⟩, n1, ⟨?_, ?_⟩, n2⟩
  · exact .cons ⟨rfl, _, _, _, _, rfl, rfl, h3, .nil⟩ .nil
  · simp [mstart, start]

/-- Any schedule of the original program is, with reports added, one of the program with reports. -/
theorem forth_start {τ : Type} {A : Alg τ} (hP2 : C49.Accepted P) {fn : Nat} {F : Func} (hF : P[fn]? = some F) (hne : F.blocks ≠ [])
    {args : List Nat} {mem : Nat → Nat} {sp : Nat} {tm : Nat → τ} {as : List (Act (Nat × τ))} {S : Multi τ}
    (hs : mrun A P inp as (mstart A fn args mem sp tm) = some S) :
    ∃ bs S', as.Sublist bs ∧ (∀ b ∈ bs, b ∈ as ∨ ∃ i, b = .run i) ∧
      mrun A (pass C P) inp bs (mstart A fn args mem sp tm) = some S' ∧
      MF C P S S' (plainReport A (C fn).enter ++ mobserveRun A C P inp as (mstart A fn args mem sp tm)) ∧
      mrunCost A (pass C P) inp bs (mstart A fn args mem sp tm) = mrunCost A P inp as (mstart A fn args mem sp tm) := by
  obtain ⟨b1, M1, h1, h2, h3, h4⟩ := start_forth (A := A) (C := C) (inp := inp) hF hne args mem sp tm
  obtain ⟨b2, M2, k1, k2, k3, k4, k5⟩ := forth hP2 as h3 hs
  refine ⟨b1 ++ b2, M2, List.sublist_append_of_sublist_right k1, ?_, by rw [mrun_append, h2, Option.bind_some, k3], k4, ?_⟩
  · intro b hb
    rcases List.mem_append.1 hb with hb | hb
    · exact .inr (h1 b hb)
    · exact k2 b hb
  · rw [mrunCost_append _ _ _ h2, h4, k5, Nat.zero_add]

/-- The same when no taint is passed on: any schedule of the original program is, with reports added, one of the program with reports. -/
theorem forth_kept_start {A : Alg (Nat × Nat → Prop)} (hP2 : C49.Accepted P) {fn : Nat} {F : Func} (hF : P[fn]? = some F) (hne : F.blocks ≠ [])
    {args : List Nat} {mem : Nat → Nat} {sp : Nat} {tm : Nat → (Nat × Nat → Prop)} {as : List (Act (Nat × (Nat × Nat → Prop)))} {S : Multi (Nat × Nat → Prop)}
    (hs : mrun A P inp as (mstart A fn args mem sp tm) = some S)
    (hk : KeptRun A P inp as (mstart A fn args mem sp tm)) :
    ∃ bs S', as.Sublist bs ∧ (∀ b ∈ bs, b ∈ as ∨ ∃ i, b = .run i) ∧
      mrun A (pass C P) inp bs (mstart A fn args mem sp tm) = some S' ∧
      MF C P S S' (plainReport A (C fn).enter ++ mobserveRun A C P inp as (mstart A fn args mem sp tm)) ∧
      mrunCost A (pass C P) inp bs (mstart A fn args mem sp tm) = mrunCost A P inp as (mstart A fn args mem sp tm) ∧
      KeptRun A (pass C P) inp bs (mstart A fn args mem sp tm) := by
  obtain ⟨b1, M1, h1, h2, h3, h4⟩ := start_forth (A := A) (C := C) (inp := inp) hF hne args mem sp tm
  obtain ⟨b2, M2, k1, k2, k3, k4, k5, k6⟩ := forth_sets hP2 as h3 hs hk
  refine ⟨b1 ++ b2, M2, List.sublist_append_of_sublist_right k1, ?_, by rw [mrun_append, h2, Option.bind_some, k3], k4, ?_,
    kept_append (kept_runs h1) h2 k6⟩
  · intro b hb
    rcases List.mem_append.1 hb with hb | hb
    · exact .inr (h1 b hb)
    · exact k2 b hb
  · rw [mrunCost_append _ _ _ h2, h4, k5, Nat.zero_add]

end Threads
end Verif
