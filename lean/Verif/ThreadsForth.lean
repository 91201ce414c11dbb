import Verif.ThreadsPass
/- Helper lemmas: any schedule of a program is a schedule of the program with inserted reports. -/
namespace Verif
namespace Threads
open Ir CfPass Linked

variable {τ : Type} {A : Alg τ} {C : Nat → Marks} {P : Prog} {inp : World}

/-- Threads at the same place. -/
def TF (C : Nat → Marks) (P : Prog) : Thread τ → Thread τ → Prop
  | .live fs sp, .live fs' sp' => sp = sp' ∧ ∃ fr rest fr' rest', fs = fr :: rest ∧ fs' = fr' :: rest' ∧ Top C P fr fr' ∧
      List.Forall₂ (Below C P) rest rest'
  | .ended v, .ended v' => v = v'
  | _, _ => False

/-- All threads are at the same place; the program with reports has reported `E`. -/
structure MF (C : Nat → Marks) (P : Prog) (M M' : Multi τ) (E : List (Hook × Nat × τ)) : Prop where
  threads : List.Forall₂ (TF C P) M.threads M'.threads
  glob : M'.glob = { M.glob with sp := M'.glob.sp, ev := E }

theorem mrun_append (Q : Prog) : ∀ (as bs : List (Act (Nat × τ))) (M : Multi τ),
    mrun A Q inp (as ++ bs) M = (mrun A Q inp as M).bind (mrun A Q inp bs)
  | [], _, _ => rfl
  | a :: as, bs, M => by
    simp only [List.cons_append, mrun]
    cases mstep A Q inp M a with
    | none => rfl
    | some M1 => exact mrun_append Q as bs M1

theorem mrunCost_append (Q : Prog) : ∀ (as bs : List (Act (Nat × τ))) {M M1 : Multi τ}, mrun A Q inp as M = some M1 →
    mrunCost A Q inp (as ++ bs) M = mrunCost A Q inp as M + mrunCost A Q inp bs M1
  | [], _, _, _, h => by cases h; simp [mrunCost]
  | a :: as, bs, M, M1, h => by
    obtain ⟨M2, h1, h2⟩ := Option.bind_eq_some_iff.1 h
    simp only [List.cons_append, mrunCost, h1, Option.map_some, Option.getD_some, mrunCost_append Q as bs h2, Nat.add_assoc]

/-- Reports of one thread. -/
theorem report_run {Q : Prog} {i sp : Nat} {fr fr1 : Frame τ} {rest : List (Frame τ)} {rs : List (Hook × Nat × τ)}
    (h : Pending A Q fr rs fr1) : ∀ {M : Multi τ}, M.threads[i]? = some (.live (fr :: rest) sp) →
    ∃ sp0, mrun A Q inp (List.replicate rs.length (.run i)) M =
        some ⟨M.threads.set i (.live (fr1 :: rest) sp), { M.glob with sp := sp0, ev := M.glob.ev ++ rs }⟩ ∧
      mrunCost A Q inp (List.replicate rs.length (.run i)) M = 0 := by
  induction h with
  | nil fr =>
    intro M hM
    refine ⟨M.glob.sp, ?_, rfl⟩
    have : M.threads.set i (.live (fr :: rest) sp) = M.threads := by
      obtain ⟨hi, e⟩ := List.getElem?_eq_some_iff.1 hM
      rw [← e]; exact List.set_getElem_self hi
    simp [mrun, this]
  | @cons fr fr2 F B k o rs hF hB hI h ih =>
    intro M hM
    have h1 : mstep A Q inp M (.run i) = some ⟨M.threads.set i (.live (fr.set (if k.gives then fr.get A o else (0, A.zero)) :: rest) sp),
        { M.glob with sp, ev := M.glob.ev ++ [fr.report A k o] }⟩ := by
      simp only [mstep, hM, step_at hF hB hI]; rfl
    obtain ⟨hi, e⟩ := List.getElem?_eq_some_iff.1 hM
    obtain ⟨sp0, h2, h3⟩ := ih (M := ⟨M.threads.set i (.live (fr.set (if k.gives then fr.get A o else (0, A.zero)) :: rest) sp),
        { M.glob with sp, ev := M.glob.ev ++ [fr.report A k o] }⟩) (by simp [hi])
    refine ⟨sp0, ?_, ?_⟩
    · simp only [List.length_cons, List.replicate_succ, mrun, h1, Option.bind_some, h2]
      simp
    · simp only [List.length_cons, List.replicate_succ, mrunCost, h1, Option.map_some, Option.getD_some, h3, mcost, hM,
        cost_at hF hB hI]
      rfl

theorem forth_step (hP : ∀ (f : Nat) F, P[f]? = some F → NoBack F) {M M' M2 : Multi τ} {E : List (Hook × Nat × τ)}
    (h : MF C P M M' E) {a : Act (Nat × τ)} (hs : mstep A P inp M a = some M2) :
    ∃ bs M2', [a].Sublist bs ∧ (∀ b ∈ bs, b = a ∨ ∃ i, b = .run i) ∧ mrun A (pass C P) inp bs M' = some M2' ∧
      MF C P M2 M2' (E ++ mobserve A C P M a) ∧ mrunCost A (pass C P) inp bs M' = mcost P inp M a ∧
      ((∀ b ∈ bs, ∃ i, b = .run i) ∨ ∃ post, bs = a :: post ∧ ∀ b ∈ post, ∃ i, b = .run i) := by
  cases a with
  | run i =>
    simp only [mstep] at hs
    split at hs
    case h_2 => cases hs
    rename_i fs sp e
    obtain ⟨x, hx, hxr⟩ := forall₂_get_left h.threads e
    cases x with
    | ended v => exact hxr.elim
    | live fs' sp' =>
      obtain ⟨rfl, fr, rest, fr', rest', rfl, rfl, ht, hr⟩ := hxr
      obtain ⟨rs, fr1, post, h1, -, h4, -, h3⟩ := ready (A := A) (S := nothing C P) (inp := inp) hP ht hr
      obtain ⟨sp0, k1, k2⟩ := report_run (inp := inp) h1 hx
      obtain ⟨hi, -⟩ := List.getElem?_eq_some_iff.1 hx
      have hob : mobserve A C P M (.run i) = rs ++ post := by simp only [mobserve, e]; exact h4 _
      have hc0 : mcost P inp M (.run i) = State.cost P inp ⟨fr :: rest, { M.glob with sp }⟩ := by simp only [mcost, e]
      have hE : M'.glob.ev = E := by rw [h.glob]
      have hg : ({ M'.glob with sp, ev := M'.glob.ev ++ rs } : Glob τ) = { { M.glob with sp } with ev := E ++ rs } := by
        have := h.glob
        rw [hE]
        generalize M'.glob = g at this ⊢
        rw [this]
      obtain ⟨hw, hst⟩ := h3 { M.glob with sp } (E ++ rs)
      rw [hob, hc0]
      have hw : State.cost (pass C P) inp ⟨fr1 :: rest', { { M.glob with sp } with ev := E ++ rs }⟩ =
        State.cost P inp ⟨fr :: rest, { M.glob with sp }⟩ := congrArg Prod.fst hw
      have hcost : mcost (pass C P) inp ⟨M'.threads.set i (.live (fr1 :: rest') sp), { M'.glob with sp := sp0, ev := M'.glob.ev ++ rs }⟩
          (.run i : Act (Nat × τ)) = State.cost P inp ⟨fr :: rest, { M.glob with sp }⟩ := by
        simp only [mcost, List.getElem?_set_self hi]
        rw [← hw, ← hg]
      cases e1 : step A P inp ⟨fr :: rest, { M.glob with sp }⟩ with
      | stuck => rw [e1] at hs; cases hs
      | done v g =>
        rw [e1] at hs hst
        cases hs
        have hm : mstep A (pass C P) inp ⟨M'.threads.set i (.live (fr1 :: rest') sp), { M'.glob with sp := sp0, ev := M'.glob.ev ++ rs }⟩
            (.run i) = some ⟨M'.threads.set i (.ended v), { g with ev := E ++ (rs ++ post) }⟩ := by
          simp only [mstep, List.getElem?_set_self hi]
          rw [hg, hst]
          simp
        refine ⟨List.replicate rs.length (.run i) ++ [.run i], _, List.sublist_append_right _ _, ?_,
          by rw [mrun_append, k1, Option.bind_some, mrun, hm]; rfl, ?_, ?_, .inl ?_⟩
        · intro b hb
          rcases List.mem_append.1 hb with hb | hb
          · exact .inl (List.eq_of_mem_replicate hb)
          · exact .inl (List.mem_singleton.1 hb)
        · exact ⟨forall₂_set h.threads (x := .ended v) (y := .ended v) rfl i, rfl⟩
        · rw [mrunCost_append _ _ _ k1, k2, mrunCost, hcost, hm]
          simp [mrunCost]
        · intro b hb
          rcases List.mem_append.1 hb with hb | hb
          · exact ⟨i, List.eq_of_mem_replicate hb⟩
          · exact ⟨i, List.mem_singleton.1 hb⟩
      | next t =>
        rw [e1] at hs hst
        cases hs
        obtain ⟨fr2, rest2, E2, rs2, fr3, j1, j2, -, j4, j5⟩ := hst
        have hm : mstep A (pass C P) inp ⟨M'.threads.set i (.live (fr1 :: rest') sp), { M'.glob with sp := sp0, ev := M'.glob.ev ++ rs }⟩
            (.run i) = some ⟨M'.threads.set i (.live (fr2 :: rest2) t.glob.sp), { t.glob with ev := E2 }⟩ := by
          simp only [mstep, List.getElem?_set_self hi]
          rw [hg, j1]
          simp
        obtain ⟨sp1, n1, n2⟩ := report_run (A := A) (inp := inp) (i := i) (sp := t.glob.sp) (rest := rest2) j2
          (M := ⟨M'.threads.set i (.live (fr2 :: rest2) t.glob.sp), { t.glob with ev := E2 }⟩) (List.getElem?_set_self hi)
        refine ⟨List.replicate rs.length (.run i) ++ (.run i :: List.replicate rs2.length (.run i)), _, ?_, ?_,
          by rw [mrun_append, k1, Option.bind_some, mrun, hm, Option.bind_some, n1], ?_, ?_, .inl ?_⟩
        · exact List.sublist_append_of_sublist_right (.cons_cons _ (List.nil_sublist _))
        · intro b hb
          rcases List.mem_append.1 hb with hb | hb
          · exact .inl (List.eq_of_mem_replicate hb)
          · rcases List.mem_cons.1 hb with hb | hb
            · exact .inl hb
            · exact .inl (List.eq_of_mem_replicate hb)
        · obtain ⟨fa, ra, fb, rb, i1, i2, i3, i4⟩ := j5
          injection i2 with i2 i5
          injection i2 with i6 i7
          subst i6 i7
          refine ⟨?_, by simp [j4]⟩
          simp only [List.set_set]
          exact forall₂_set h.threads (x := .live t.frames t.glob.sp) (y := .live (fr3 :: rest2) t.glob.sp)
            ⟨rfl, fa, ra, fr3, rest2, i1, rfl, i3, i4⟩ i
        · rw [mrunCost_append _ _ _ k1, k2, mrunCost, hcost, hm]
          simp [n2]
        · intro b hb
          rcases List.mem_append.1 hb with hb | hb
          · exact ⟨i, List.eq_of_mem_replicate hb⟩
          · rcases List.mem_cons.1 hb with hb | hb
            · exact ⟨i, hb⟩
            · exact ⟨i, List.eq_of_mem_replicate hb⟩
  | spawn f args sp =>
    simp only [mstep] at hs
    cases hF : P[f]? with
    | none => rw [hF] at hs; cases hs
    | some F =>
      rw [hF] at hs
      simp only at hs
      split at hs
      · cases hs
      rename_i hne
      cases hs
      obtain ⟨fr', h1, -, h3⟩ := enter_pending (A := A) (S := nothing C P) hF hne args sp
      have hl := h.threads.length_eq
      have hm : mstep A (pass C P) inp M' (.spawn f args sp) = some ⟨M'.threads ++ [.live [newFrame A f args sp] sp], M'.glob⟩ := by
        simp only [mstep, pass_get hF]
        rw [if_neg (by simpa [passFunc] using hne)]
      obtain ⟨sp1, n1, n2⟩ := report_run (A := A) (inp := inp) (i := M'.threads.length) (sp := sp) (rest := []) h1
        (M := ⟨M'.threads ++ [.live [newFrame A f args sp] sp], M'.glob⟩) (by simp)
      refine ⟨.spawn f args sp :: List.replicate (plainReport A (C f).enter).length (.run M'.threads.length), _,
        .cons_cons _ (List.nil_sublist _), ?_, by rw [mrun, hm, Option.bind_some, n1], ?_, ?_,
        .inr ⟨_, rfl, fun b hb => ⟨_, List.eq_of_mem_replicate hb⟩⟩⟩
      · intro b hb
        rcases List.mem_cons.1 hb with hb | hb
        · exact .inl hb
        · exact .inr ⟨_, List.eq_of_mem_replicate hb⟩
      · refine ⟨?_, ?_⟩
        · have : (M'.threads ++ [Thread.live [newFrame A f args sp] sp]).set M'.threads.length (.live [fr'] sp) =
              M'.threads ++ [.live [fr'] sp] := by simp
          simp only [this]
          exact List.rel_append h.threads (.cons ⟨rfl, _, _, _, _, rfl, rfl, h3, .nil⟩ .nil)
        · have hE : M'.glob.ev = E := by rw [h.glob]
          have := h.glob
          simp only [mobserve, hE]
          generalize M'.glob = g at this ⊢
          rw [this]
      · rw [mrunCost, hm]
        simp [n2, mcost]
  | join i a =>
    simp only [mstep] at hs
    split at hs
    case h_2 => cases hs
    rename_i v e
    obtain ⟨x, hx, hxr⟩ := forall₂_get_left h.threads e
    cases x with
    | live fs sp => exact hxr.elim
    | ended v' =>
      cases hxr
      split at hs
      case isFalse => cases hs
      rename_i hc
      cases hs
      refine ⟨[.join i a], { M' with glob := { M'.glob with mem := putInt M'.glob.mem a 8 v.1, tmem := putAll M'.glob.tmem a 8 v.2 } },
        List.Sublist.refl _, by simp, by simp only [mrun, mstep, hx]; rw [if_pos hc]; rfl, ⟨h.threads, ?_⟩, ?_,
        .inr ⟨[], rfl, by simp⟩⟩
      · have := h.glob
        simp only [mobserve, List.append_nil]
        generalize M'.glob = g at this ⊢
        rw [this]
      · simp only [mrunCost, mstep, hx]
        rw [if_pos hc]
        rfl

theorem forth (hP : ∀ (f : Nat) F, P[f]? = some F → NoBack F) : ∀ (as : List (Act (Nat × τ))) {M M' M2 : Multi τ}
    {E : List (Hook × Nat × τ)}, MF C P M M' E → mrun A P inp as M = some M2 →
    ∃ bs M2', as.Sublist bs ∧ (∀ b ∈ bs, b ∈ as ∨ ∃ i, b = .run i) ∧ mrun A (pass C P) inp bs M' = some M2' ∧
      MF C P M2 M2' (E ++ mobserveRun A C P inp as M) ∧
      mrunCost A (pass C P) inp bs M' = mrunCost A P inp as M
  | [], M, M', M2, E, h, hs => by
    cases hs
    exact ⟨[], M', .slnil, by simp, rfl, by simpa [mobserveRun] using h, rfl⟩
  | a :: as, M, M', M2, E, h, hs => by
    obtain ⟨M1, h1, h2⟩ := Option.bind_eq_some_iff.1 hs
    obtain ⟨bs, M1', k1, k2, k3, k4, k5, -⟩ := forth_step hP h h1
    obtain ⟨bs2, M2', j1, j2, j3, j4, j5⟩ := forth hP as k4 h2
    refine ⟨bs ++ bs2, M2', List.Sublist.append k1 j1, ?_, by rw [mrun_append, k3, Option.bind_some, j3], ?_, ?_⟩
    · intro b hb
      rcases List.mem_append.1 hb with hb | hb
      · rcases k2 b hb with rfl | hb
        · exact .inl (List.mem_cons_self ..)
        · exact .inr hb
      · exact (j2 b hb).imp (List.mem_cons_of_mem _) id
    · simpa only [mobserveRun, h1, Option.map_some, Option.getD_some, List.append_assoc] using j4
    · rw [mrunCost_append _ _ _ k3, k5, j5]
      simp only [mrunCost, h1, Option.map_some, Option.getD_some]

theorem forth_kept {C : Nat → Marks} {P : Prog} {M M' : Multi (Nat × Nat → Prop)}
    {E : List (Hook × Nat × (Nat × Nat → Prop))} (h : MF C P M M' E) {a : Act (Nat × (Nat × Nat → Prop))}
    (hk : Kept M a) : Kept M' a := by
  cases a with
  | run i => trivial
  | spawn f args sp => exact hk
  | join i a =>
    intro v e j hj b
    obtain ⟨x, h1, h2⟩ := forall₂_get h.threads e
    cases x with
    | live fs sp => exact h2.elim
    | ended w =>
      cases h2
      rw [h.glob]
      exact hk v h1 j hj b

theorem kept_runs {A : Alg (Nat × Nat → Prop)} {P : Prog} {inp : World} : ∀ {bs : List (Act (Nat × (Nat × Nat → Prop)))}
    {M : Multi (Nat × Nat → Prop)}, (∀ b ∈ bs, ∃ i, b = .run i) → KeptRun A P inp bs M
  | [], _, _ => trivial
  | b :: bs, M, h => by
    obtain ⟨i, rfl⟩ := h b (List.mem_cons_self ..)
    exact ⟨trivial, fun _ _ => kept_runs fun b hb => h b (List.mem_cons_of_mem _ hb)⟩

theorem kept_append {A : Alg (Nat × Nat → Prop)} {P : Prog} {inp : World} : ∀ {bs cs : List (Act (Nat × (Nat × Nat → Prop)))}
    {M M' : Multi (Nat × Nat → Prop)}, KeptRun A P inp bs M → mrun A P inp bs M = some M' → KeptRun A P inp cs M' →
    KeptRun A P inp (bs ++ cs) M
  | [], _, _, _, _, h2, h3 => by cases h2; exact h3
  | b :: bs, cs, M, M', h1, h2, h3 => by
    obtain ⟨M1, k1, k2⟩ := Option.bind_eq_some_iff.1 h2
    refine ⟨h1.1, fun M2 e => ?_⟩
    cases k1.symm.trans e
    exact kept_append (h1.2 _ k1) k2 h3

/-- `forth`, for schedules that pass no taint on. -/
theorem forth_sets {A : Alg (Nat × Nat → Prop)} {C : Nat → Marks} {P : Prog} {inp : World}
    (hP : ∀ (f : Nat) F, P[f]? = some F → NoBack F) : ∀ (as : List (Act (Nat × (Nat × Nat → Prop))))
    {M M' M2 : Multi (Nat × Nat → Prop)}
    {E : List (Hook × Nat × (Nat × Nat → Prop))}, MF C P M M' E → mrun A P inp as M = some M2 → KeptRun A P inp as M →
    ∃ bs M2', as.Sublist bs ∧ (∀ b ∈ bs, b ∈ as ∨ ∃ i, b = .run i) ∧ mrun A (pass C P) inp bs M' = some M2' ∧
      MF C P M2 M2' (E ++ mobserveRun A C P inp as M) ∧
      mrunCost A (pass C P) inp bs M' = mrunCost A P inp as M ∧ KeptRun A (pass C P) inp bs M'
  | [], M, M', M2, E, h, hs, _ => by
    cases hs
    exact ⟨[], M', .slnil, by simp, rfl, by simpa [mobserveRun] using h, rfl, trivial⟩
  | a :: as, M, M', M2, E, h, hs, hk => by
    obtain ⟨M1, h1, h2⟩ := Option.bind_eq_some_iff.1 hs
    obtain ⟨bs, M1', k1, k2, k3, k4, k5, k6⟩ := forth_step hP h h1
    obtain ⟨bs2, M2', j1, j2, j3, j4, j5, j6⟩ := forth_sets hP as k4 h2 (hk.2 _ h1)
    refine ⟨bs ++ bs2, M2', List.Sublist.append k1 j1, ?_, by rw [mrun_append, k3, Option.bind_some, j3], ?_, ?_,
      kept_append ?_ k3 j6⟩
    · intro b hb
      rcases List.mem_append.1 hb with hb | hb
      · rcases k2 b hb with rfl | hb
        · exact .inl (List.mem_cons_self ..)
        · exact .inr hb
      · exact (j2 b hb).imp (List.mem_cons_of_mem _) id
    · simpa only [mobserveRun, h1, Option.map_some, Option.getD_some, List.append_assoc] using j4
    · rw [mrunCost_append _ _ _ k3, k5, j5]
      simp only [mrunCost, h1, Option.map_some, Option.getD_some]
    · rcases k6 with k6 | ⟨post, rfl, k6⟩
      · exact kept_runs k6
      · exact ⟨forth_kept h hk.1, fun _ _ => kept_runs k6⟩

end Threads
end Verif
