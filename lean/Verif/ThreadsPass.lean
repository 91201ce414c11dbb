import Verif.ThreadsSim
import Verif.CfPassStep
/- Helper lemmas: threads of a program with inserted reports and threads of the program itself. -/
namespace Verif
namespace Threads
open Ir CfPass Linked

variable {τ : Type} {A : Alg τ} {C : Nat → Marks} {P : Prog} {inp : World}

/-- The program with reports is at the instruction at which the original program is, with `post` to be reported
after it. -/
def Ready (A : Alg τ) (C : Nat → Marks) (P : Prog) (inp : World) (fr : Frame τ) (rest : List (Frame τ)) (fr1 : Frame τ)
    (rest' : List (Frame τ)) (post : List (Hook × Nat × τ)) : Prop :=
  ∀ g E, Steps A (nothing C P) inp (step A P inp ⟨fr :: rest, g⟩) (weight (nothing C P) A inp ⟨fr :: rest, g⟩)
    ⟨fr1 :: rest', { g with ev := E }⟩ (E ++ post)

/-- The thread with reports has reports to make before it is where the other is. -/
def Late (A : Alg τ) (C : Nat → Marks) (P : Prog) (fs fs' : List (Frame τ)) : Prop :=
  ∃ fr rest fr' rest' rs fr1, fs = fr :: rest ∧ fs' = fr' :: rest' ∧ Pending A (pass C P) fr' rs fr1 ∧ Top C P fr fr1 ∧
    List.Forall₂ (Below C P) rest rest' ∧ (CfPass.Early C P → rs = [])

/-- The thread with reports has made some of those for the next instruction. -/
def Ahead (A : Alg τ) (C : Nat → Marks) (P : Prog) (inp : World) (ev : List (Hook × Nat × τ)) (fs fs' : List (Frame τ)) : Prop :=
  ∃ fr rest fr' rest' pre rs post fr1, fs = fr :: rest ∧ fs' = fr' :: rest' ∧ Pending A (pass C P) fr' rs fr1 ∧
    Ready A C P inp fr rest fr1 rest' post ∧ (∀ g, observe A C P ⟨fr :: rest, g⟩ = pre ++ rs ++ post) ∧
    (CfPass.Early C P → post = []) ∧ ∀ y ∈ pre, y ∈ ev

/-- Threads. -/
def TB (A : Alg τ) (C : Nat → Marks) (P : Prog) (inp : World) (ev : List (Hook × Nat × τ)) : Thread τ → Thread τ → Prop
  | .live fs sp, .live fs' sp' => sp = sp' ∧ (Late A C P fs fs' ∨ Ahead A C P inp ev fs fs')
  | .ended v, .ended v' => v = v'
  | _, _ => False

/-- All threads; `O` is what the original program was to report. -/
structure MB (A : Alg τ) (C : Nat → Marks) (P : Prog) (inp : World) (M M' : Multi τ) (O : List (Hook × Nat × τ)) : Prop where
  threads : List.Forall₂ (TB A C P inp M'.glob.ev) M.threads M'.threads
  glob : M'.glob = { M.glob with sp := M'.glob.sp, ev := M'.glob.ev }
  sound : CfPass.Early C P → ∀ y ∈ M'.glob.ev, y ∈ O ∨
    ∃ (i : Nat) (fs : List (Frame τ)) (sp : Nat), M.threads[i]? = some (Thread.live fs sp) ∧ y ∈ observe A C P ⟨fs, M.glob⟩
  complete : CfPass.Early C P → ∀ y ∈ O, y ∈ M'.glob.ev

theorem TB.mono {ev ev' : List (Hook × Nat × τ)} (h : ∀ y ∈ ev, y ∈ ev') {x y : Thread τ} (hx : TB A C P inp ev x y) :
    TB A C P inp ev' x y := by
  cases x with
  | live fs sp =>
    cases y with
    | live fs' sp' =>
      obtain ⟨h1, h2⟩ := hx
      refine ⟨h1, h2.imp id ?_⟩
      rintro ⟨fr, rest, fr', rest', pre, rs, post, fr1, k1, k2, k3, k4, k5, k6, k7⟩
      exact ⟨fr, rest, fr', rest', pre, rs, post, fr1, k1, k2, k3, k4, k5, k6, fun y hy => h y (k7 y hy)⟩
    | ended v => exact hx.elim
  | ended v =>
    cases y with
    | live fs' sp' => exact hx.elim
    | ended v' => exact hx

theorem forall₂_get' {α β : Type} {R : α → β → Prop} {xs : List α} {ys : List β} (h : List.Forall₂ R xs ys)
    {i : Nat} {y : β} (hy : ys[i]? = some y) : ∃ x, xs[i]? = some x ∧ R x y := forall₂_get h hy

theorem forall₂_keep {α β : Type} {R : α → β → Prop} {xs : List α} {ys : List β} (h : List.Forall₂ R xs ys)
    {i : Nat} {x : α} {y : β} (hx : xs[i]? = some x) (hxy : R x y) : List.Forall₂ R xs (ys.set i y) := by
  induction h generalizing i with
  | nil => cases hx
  | cons h t ih =>
    cases i with
    | zero => cases hx; exact .cons hxy t
    | succ i => exact .cons h (ih hx)

theorem observe_glob (fs : List (Frame τ)) (g g' : Glob τ) : observe A C P ⟨fs, g⟩ = observe A C P ⟨fs, g'⟩ := rfl

/-- A thread that is not behind is at the reports before an instruction. -/
theorem late_ahead (hP : ∀ (f : Nat) F, P[f]? = some F → NoBack F) (ev : List (Hook × Nat × τ)) {fr fr' : Frame τ} {rest rest' : List (Frame τ)} (ht : Top C P fr fr')
    (hr : List.Forall₂ (Below C P) rest rest') : Ahead A C P inp ev (fr :: rest) (fr' :: rest') := by
  obtain ⟨rs, fr1, post, h1, -, h4, h5, h3⟩ := ready (A := A) (S := nothing C P) (inp := inp) hP ht hr
  exact ⟨fr, rest, fr', rest', [], rs, post, fr1, rfl, rfl, h1, h3, h4, h5, by simp⟩

/-- The thread makes a report. -/
theorem pending_step {Q : Prog} {fr fr1 : Frame τ} {r : Hook × Nat × τ} {rs : List (Hook × Nat × τ)} (h : Pending A Q fr (r :: rs) fr1) :
    ∃ fr2, Pending A Q fr2 rs fr1 ∧ ∀ rest g, step A Q inp ⟨fr :: rest, g⟩ = .next ⟨fr2 :: rest, { g with ev := g.ev ++ [r] }⟩ ∧
      State.cost Q inp ⟨fr :: rest, g⟩ = 0 := by
  cases h with
  | cons hF hB hI h =>
    refine ⟨_, h, fun rest g => ⟨?_, ?_⟩⟩
    · rw [step_at hF hB hI]; rfl
    · rw [cost_at hF hB hI]; rfl

theorem get_set {α : Type} {xs : List α} {i j : Nat} {x y : α} (h : (xs.set i x)[j]? = some y) :
    (i = j ∧ x = y) ∨ (i ≠ j ∧ xs[j]? = some y) := by
  rw [List.getElem?_set] at h
  split at h
  · split at h
    · cases h; exact .inl ⟨by assumption, rfl⟩
    · cases h
  · exact .inr ⟨by assumption, h⟩

/-- A report. -/
theorem back_report {M M' : Multi τ} {O : List (Hook × Nat × τ)} (h : MB A C P inp M M' O) {i sp : Nat}
    {fs fs' : List (Frame τ)} {r : Hook × Nat × τ} (hx : M.threads[i]? = some (.live fs sp))
    (ht : ∀ ev, (∀ y ∈ M'.glob.ev, y ∈ ev) → r ∈ ev → Late A C P fs fs' ∨ Ahead A C P inp ev fs fs')
    (hr : CfPass.Early C P → r ∈ observe A C P ⟨fs, M.glob⟩) :
    MB A C P inp M ⟨M'.threads.set i (.live fs' sp), { M'.glob with sp, ev := M'.glob.ev ++ [r] }⟩ O where
  threads := by
    refine forall₂_keep (h.threads.imp (fun a b hab => hab.mono (fun y hy => List.mem_append.2 (.inl hy)))) hx
      ⟨rfl, ht _ (fun y hy => List.mem_append.2 (.inl hy)) (by simp)⟩
  glob := by
    have := h.glob
    generalize M'.glob = g at this ⊢
    rw [this]
  sound := by
    intro he y hy
    rcases List.mem_append.1 hy with hy | hy
    · exact h.sound he y hy
    · rw [List.mem_singleton.1 hy]
      exact .inr ⟨i, fs, sp, hx, hr he⟩
  complete := fun he y hy => List.mem_append.2 (.inl (h.complete he y hy))

/-- An instruction. -/
theorem back_instr {M M' M2' : Multi τ} {O : List (Hook × Nat × τ)} (h : MB A C P inp M M' O) {i sp : Nat}
    {fr fr1 : Frame τ} {rest rest' : List (Frame τ)} {pre post : List (Hook × Nat × τ)}
    (hx : M.threads[i]? = some (.live (fr :: rest) sp)) (he : M'.threads[i]? = some (.live (fr1 :: rest') sp))
    (hr : Ready A C P inp fr rest fr1 rest' post)
    (ho : ∀ g, observe A C P ⟨fr :: rest, g⟩ = pre ++ post) (hpost : CfPass.Early C P → post = [])
    (hpre : ∀ y ∈ pre, y ∈ M'.glob.ev) (hs : mstep A (pass C P) inp M' (.run i) = some M2') :
    ∃ M2, mstep A P inp M (.run i) = some M2 ∧ MB A C P inp M2 M2' (O ++ mobserve A C P M (.run i)) ∧
      mcost (pass C P) inp M' (.run i) = mcost P inp M (.run i) := by
  obtain ⟨hw, hst⟩ := hr { M.glob with sp } M'.glob.ev
  have hg : ({ M'.glob with sp } : Glob τ) = { { M.glob with sp } with ev := M'.glob.ev } := by
    have := h.glob
    generalize M'.glob = g at this ⊢
    rw [this]
  have hcost : mcost (pass C P) inp M' (.run i) = mcost P inp M (.run i) := by
    simp only [mcost, he, hx, hg]
    exact congrArg Prod.fst hw
  have hob : mobserve A C P M (.run i) = pre ++ post := by
    simp only [mobserve, hx]; exact ho _
  have hsub : ∀ s2, step A (pass C P) inp ⟨fr1 :: rest', { M'.glob with sp }⟩ = .next s2 → M'.glob.ev <+: s2.glob.ev := by
    intro s2 e
    have := step_sub (g' := s2.glob) (A := A) (P := pass C P) (inp := inp) (s := ⟨fr1 :: rest', { M'.glob with sp }⟩) (by rw [e]; rfl)
    exact this.ev
  rw [hob]
  simp only [mstep, he, hg] at hs
  simp only [mstep, hx]
  -- what both sides conclude about the reports, given the events afterwards
  have key : ∀ (x : Thread τ) (g2 : Glob τ) (ev2 : List (Hook × Nat × τ)), (CfPass.Early C P → ev2 = M'.glob.ev) →
      (∀ y ∈ M'.glob.ev, y ∈ ev2) → ∀ x' : Thread τ, TB A C P inp ev2 x x' →
      MB A C P inp ⟨M.threads.set i x, g2⟩ ⟨M'.threads.set i x', { g2 with ev := ev2 }⟩ (O ++ (pre ++ post)) := by
    intro x g2 ev2 h1 h2 x' h3
    refine ⟨forall₂_set (h.threads.imp (fun a b hab => hab.mono h2)) h3 i, rfl, ?_, ?_⟩
    · intro hE y hy
      have hy : y ∈ M'.glob.ev := by rw [← h1 hE]; exact hy
      rcases h.sound hE y hy with k | ⟨j, fs, sp', k1, k2⟩
      · exact .inl (List.mem_append.2 (.inl k))
      · by_cases c : i = j
        · subst c
          rw [hx] at k1
          cases k1
          rw [ho] at k2
          exact .inl (List.mem_append.2 (.inr k2))
        · exact .inr ⟨j, fs, sp', by rw [List.getElem?_set_ne c]; exact k1, k2⟩
    · intro hE y hy
      rcases List.mem_append.1 hy with hy | hy
      · exact h2 y (h.complete hE y hy)
      · rw [hpost hE, List.append_nil] at hy
        exact h2 y (hpre y hy)
  cases e1 : step A P inp ⟨fr :: rest, { M.glob with sp }⟩ with
  | stuck => rw [e1] at hst; rw [hst] at hs; cases hs
  | done v g =>
    rw [e1] at hst
    rw [hst] at hs
    cases hs
    refine ⟨_, rfl, ?_, hcost⟩
    have hd : ({ g with ev := M'.glob.ev ++ post } : Glob τ).ev = M'.glob.ev ++ post := rfl
    exact key _ g _ (fun hE => by rw [hpost hE, List.append_nil]) (fun y hy => List.mem_append.2 (.inl hy)) (.ended v) rfl
  | next t =>
    rw [e1] at hst
    obtain ⟨fr2, rest2, E2, rs, fr3, k1, k2, -, k4, k5⟩ := hst
    have hsub' : M'.glob.ev <+: E2 := hsub _ (by rw [hg]; exact k1)
    have hnil : CfPass.Early C P → E2 = M'.glob.ev ∧ rs = [] := by
      intro hE
      obtain ⟨own, rfl⟩ := hsub'
      rw [hpost hE, List.append_assoc] at k4
      have := List.append_cancel_left k4
      simp only [List.append_eq_nil_iff] at this
      simp [this]
    rw [k1] at hs
    cases hs
    refine ⟨_, rfl, ?_, hcost⟩
    obtain ⟨fa, ra, fb, rb, j1, j2, j3, j4⟩ := k5
    injection j2 with j2 j5
    injection j2 with j6 j7
    subst j6 j7
    refine key (.live t.frames t.glob.sp) t.glob E2 (fun hE => (hnil hE).1) (fun y hy => hsub'.subset hy) (.live (fr2 :: rest2) t.glob.sp) ⟨rfl, .inl ?_⟩
    exact ⟨fa, ra, fr2, rest2, rs, fr3, j1, rfl, k2, j3, j4, fun hE => (hnil hE).2⟩

/-- One action of the program with reports: a report, or what the original program does. -/
theorem back_step (hP : ∀ (f : Nat) F, P[f]? = some F → NoBack F) {M M' M2' : Multi τ} {O : List (Hook × Nat × τ)}
    (h : MB A C P inp M M' O) {a : Act (Nat × τ)} (hs : mstep A (pass C P) inp M' a = some M2') :
    (MB A C P inp M M2' O ∧ mcost (pass C P) inp M' a = 0 ∧ ∃ i, a = .run i) ∨
    ∃ M2, mstep A P inp M a = some M2 ∧ MB A C P inp M2 M2' (O ++ mobserve A C P M a) ∧
      mcost (pass C P) inp M' a = mcost P inp M a := by
  cases a with
  | run i =>
    simp only [mstep] at hs
    split at hs
    case h_2 => cases hs
    rename_i fs' sp e
    obtain ⟨x, hx, hxr⟩ := forall₂_get h.threads e
    cases x with
    | ended v => exact hxr.elim
    | live fs sp' =>
      obtain ⟨rfl, hfs⟩ := hxr
      have hcost : mcost (pass C P) inp M' (.run i) = State.cost (pass C P) inp ⟨fs', { M'.glob with sp := sp' }⟩ := by
        simp only [mcost, e]
      have hs0 := hs
      have hfs : Ahead A C P inp M'.glob.ev fs fs' ∨ ∃ fr rest fr' rest' r rs fr1, fs = fr :: rest ∧ fs' = fr' :: rest' ∧
          Pending A (pass C P) fr' (r :: rs) fr1 ∧ Top C P fr fr1 ∧ List.Forall₂ (Below C P) rest rest' ∧ ¬ CfPass.Early C P := by
        rcases hfs with ⟨fr, rest, fr', rest', rs, fr1, rfl, rfl, k1, k2, k3, k4⟩ | hfs
        · cases rs with
          | nil => cases k1; exact .inl (late_ahead hP _ k2 k3)
          | cons r rs => exact .inr ⟨fr, rest, fr', rest', r, rs, fr1, rfl, rfl, k1, k2, k3, fun hE => by cases k4 hE⟩
        · exact .inl hfs
      rcases hfs with ⟨fr, rest, fr', rest', pre, rs, post, fr1, rfl, rfl, k1, k2, k3, k4, k5⟩ |
        ⟨fr, rest, fr', rest', r, rs, fr1, rfl, rfl, k1, k2, k3, k4⟩
      case inr =>
        obtain ⟨fr2, j1, j2⟩ := pending_step (inp := inp) k1
        rw [(j2 rest' _).1] at hs
        cases hs
        refine .inl ⟨back_report h hx (fun ev _ _ => .inl ⟨fr, rest, fr2, rest', rs, fr1, rfl, rfl, j1, k2, k3,
          fun hE => absurd hE k4⟩) (fun hE => absurd hE k4), ?_, i, rfl⟩
        rw [hcost]; exact (j2 rest' _).2
      cases rs with
      | nil =>
        cases k1
        refine .inr (back_instr h hx e k2 (by simpa using k3) k4 k5 ?_)
        simp only [mstep, e]
        exact hs0
      | cons r rs =>
        obtain ⟨fr2, j1, j2⟩ := pending_step (inp := inp) k1
        rw [(j2 rest' _).1] at hs
        cases hs
        refine .inl ⟨back_report h hx (fun ev h1 h2 => .inr ⟨fr, rest, fr2, rest', pre ++ [r], rs, post, fr1, rfl, rfl, j1, k2,
          by simpa using k3, k4, ?_⟩) ?_, ?_, i, rfl⟩
        · intro y hy
          rcases List.mem_append.1 hy with hy | hy
          · exact h1 y (k5 y hy)
          · rw [List.mem_singleton.1 hy]; exact h2
        · intro _; rw [k3]; simp
        · rw [hcost]; exact (j2 rest' _).2
  | spawn f args sp =>
    simp only [mstep] at hs
    cases hF : P[f]? with
    | none =>
      rw [show (pass C P)[f]? = none by simp [pass, hF]] at hs
      cases hs
    | some F =>
      rw [pass_get hF] at hs
      simp only at hs
      split at hs
      · cases hs
      rename_i hne
      have hne : F.blocks ≠ [] := fun e => hne (by simp [passFunc, e])
      cases hs
      refine .inr ⟨_, by simp only [mstep, hF]; rw [if_neg hne], ?_, rfl⟩
      obtain ⟨fr', h1, -, h3⟩ := enter_pending (A := A) (S := nothing C P) hF hne args sp
      have hE : CfPass.Early C P → plainReport A (C f).enter = [] := fun hE => by rw [hE.1]; rfl
      refine ⟨List.rel_append h.threads (.cons ⟨rfl, .inl ⟨_, _, _, _, _, fr', rfl, rfl, h1, h3, .nil, hE⟩⟩ .nil), h.glob, ?_, ?_⟩
      · intro he y hy
        rcases h.sound he y hy with k | ⟨j, fs, sp', k1, k2⟩
        · exact .inl (List.mem_append.2 (.inl k))
        · refine .inr ⟨j, fs, sp', ?_, k2⟩
          obtain ⟨hj, -⟩ := List.getElem?_eq_some_iff.1 k1
          rw [List.getElem?_append_left hj]; exact k1
      · intro he y hy
        simp only [mobserve, hE he, List.append_nil] at hy
        exact h.complete he y hy
  | join i a =>
    simp only [mstep] at hs
    split at hs
    case h_2 => cases hs
    rename_i v e
    obtain ⟨x, hx, hxr⟩ := forall₂_get h.threads e
    cases x with
    | live fs sp => exact hxr.elim
    | ended v' =>
      cases hxr
      split at hs
      case isFalse => cases hs
      rename_i hc
      cases hs
      have hm : M'.glob.mem = M.glob.mem := by rw [h.glob]
      have ht : M'.glob.tmem = M.glob.tmem := by rw [h.glob]
      refine .inr ⟨_, by simp only [mstep, hx]; rw [if_pos hc], ?_, rfl⟩
      refine ⟨h.threads, ?_, ?_, ?_⟩
      · have := h.glob
        generalize M'.glob = g at this ⊢
        rw [this]
      · intro he y hy
        rcases h.sound he y hy with k | k
        · exact .inl (List.mem_append.2 (.inl k))
        · exact .inr k
      · intro he y hy
        simp only [mobserve, List.append_nil] at hy
        exact h.complete he y hy

/-- Any schedule of the program with reports is, apart from the reports, a schedule of the original program. -/
theorem back (hP : ∀ (f : Nat) F, P[f]? = some F → NoBack F) : ∀ (bs : List (Act (Nat × τ))) {M M' M2' : Multi τ}
    {O : List (Hook × Nat × τ)}, MB A C P inp M M' O → mrun A (pass C P) inp bs M' = some M2' →
    ∃ as M2, as.Sublist bs ∧ mrun A P inp as M = some M2 ∧ MB A C P inp M2 M2' (O ++ mobserveRun A C P inp as M) ∧
      mrunCost A (pass C P) inp bs M' = mrunCost A P inp as M
  | [], M, M', M2', O, h, hs => by
    cases hs
    exact ⟨[], M, .slnil, rfl, by simpa [mobserveRun] using h, rfl⟩
  | b :: bs, M, M', M2', O, h, hs => by
    obtain ⟨M1', h1, h2⟩ := Option.bind_eq_some_iff.1 hs
    rcases back_step hP h h1 with ⟨k1, k2, -⟩ | ⟨M1, k1, k2, k3⟩
    · obtain ⟨as, M2, j1, j2, j3, j4⟩ := back hP bs k1 h2
      refine ⟨as, M2, .cons _ j1, j2, j3, ?_⟩
      simp only [mrunCost, h1, k2, Option.map_some, Option.getD_some, j4, Nat.zero_add]
    · obtain ⟨as, M2, j1, j2, j3, j4⟩ := back hP bs k2 h2
      refine ⟨b :: as, M2, .cons_cons _ j1, by simp only [mrun, k1, Option.bind_some, j2], ?_, ?_⟩
      · simpa only [mobserveRun, k1, Option.map_some, Option.getD_some, List.append_assoc] using j3
      · simp only [mrunCost, h1, k1, k3, Option.map_some, Option.getD_some, j4]

theorem forall₂_get_left {α β : Type} {R : α → β → Prop} {xs : List α} {ys : List β} (h : List.Forall₂ R xs ys)
    {i : Nat} {x : α} (hx : xs[i]? = some x) : ∃ y, ys[i]? = some y ∧ R x y := by
  induction h generalizing i with
  | nil => cases hx
  | @cons a b as bs h t ih =>
    cases i with
    | zero => cases hx; exact ⟨b, rfl, h⟩
    | succ i => exact ih hx

theorem back_kept {A : Alg (Nat × Nat → Prop)} {C : Nat → Marks} {P : Prog} {inp : World} {M M' : Multi (Nat × Nat → Prop)}
    {O : List (Hook × Nat × (Nat × Nat → Prop))} (h : MB A C P inp M M' O) (a : Act (Nat × (Nat × Nat → Prop))) :
    Kept M' a ↔ Kept M a := by
  cases a with
  | run i => exact Iff.rfl
  | spawn f args sp => exact Iff.rfl
  | join i a =>
    have ht : M'.glob.tmem = M.glob.tmem := by rw [h.glob]
    have : ∀ v, M'.threads[i]? = some (Thread.ended v) ↔ M.threads[i]? = some (Thread.ended v) := by
      intro v
      constructor
      · intro e
        obtain ⟨x, h1, h2⟩ := forall₂_get h.threads e
        cases x with
        | live fs sp => exact h2.elim
        | ended w => cases h2; exact h1
      · intro e
        obtain ⟨x, h1, h2⟩ := forall₂_get_left h.threads e
        cases x with
        | live fs sp => exact h2.elim
        | ended w => cases h2; exact h1
    simp only [Kept, ht, this]

/-- `back`; and if the schedule of the original program passes no taint on, neither does the given one. -/
theorem back_sets {A : Alg (Nat × Nat → Prop)} {C : Nat → Marks} {P : Prog} {inp : World}
    (hP : ∀ (f : Nat) F, P[f]? = some F → NoBack F) : ∀ (bs : List (Act (Nat × (Nat × Nat → Prop))))
    {M M' M2' : Multi (Nat × Nat → Prop)} {O : List (Hook × Nat × (Nat × Nat → Prop))}, MB A C P inp M M' O →
    mrun A (pass C P) inp bs M' = some M2' →
    ∃ as M2, as.Sublist bs ∧ mrun A P inp as M = some M2 ∧ MB A C P inp M2 M2' (O ++ mobserveRun A C P inp as M) ∧
      mrunCost A (pass C P) inp bs M' = mrunCost A P inp as M ∧
      (KeptRun A P inp as M → KeptRun A (pass C P) inp bs M')
  | [], M, M', M2', O, h, hs => by
    cases hs
    exact ⟨[], M, .slnil, rfl, by simpa [mobserveRun] using h, rfl, fun _ => trivial⟩
  | b :: bs, M, M', M2', O, h, hs => by
    obtain ⟨M1', h1, h2⟩ := Option.bind_eq_some_iff.1 hs
    rcases back_step hP h h1 with ⟨k1, k2, i, rfl⟩ | ⟨M1, k1, k2, k3⟩
    · obtain ⟨as, M2, j1, j2, j3, j4, j5⟩ := back_sets hP bs k1 h2
      refine ⟨as, M2, .cons _ j1, j2, j3, ?_, ?_⟩
      · simp only [mrunCost, h1, k2, Option.map_some, Option.getD_some, j4, Nat.zero_add]
      · intro hk
        refine ⟨trivial, fun M1 e => ?_⟩
        cases h1.symm.trans e
        exact j5 hk
    · obtain ⟨as, M2, j1, j2, j3, j4, j5⟩ := back_sets hP bs k2 h2
      refine ⟨b :: as, M2, .cons_cons _ j1, by simp only [mrun, k1, Option.bind_some, j2], ?_, ?_, ?_⟩
      · simpa only [mobserveRun, k1, Option.map_some, Option.getD_some, List.append_assoc] using j3
      · simp only [mrunCost, h1, k1, k3, Option.map_some, Option.getD_some, j4]
      · intro hk
        refine ⟨(back_kept h b).2 hk.1, fun M1 e => ?_⟩
        cases h1.symm.trans e
        exact j5 (hk.2 _ k1)

end Threads
end Verif
