import Verif.ThreadsHalf
/- Helper lemmas: the code in front of an instruction and the instruction, one after the other, are a step. -/
namespace Verif
namespace Threads
open Ir PassIr Linked

theorem sexec_at {avoid : Bool} {i : SIns} {fr fr' : IFrame} {g g' : IGlob} (h : sexec avoid fr g i = .ok (fr', g')) :
    fr'.fn = fr.fn ∧ fr'.blk = fr.blk ∧ fr'.idx = fr.idx := by
  cases i <;> simp only [sexec] at h
  case copy move d s n =>
    split at h
    · obtain ⟨x, -, h⟩ := Res.bind_eq_ok.1 h
      cases h
      exact ⟨rfl, rfl, rfl⟩
    · cases h
      exact ⟨rfl, rfl, rfl⟩
  all_goals
    first
    | (obtain ⟨⟨L, l⟩, -, h⟩ := Res.bind_eq_ok.1 h
       cases h
       exact ⟨rfl, rfl, rfl⟩)
    | (obtain ⟨x, -, h⟩ := Res.bind_eq_ok.1 h
       cases h
       exact ⟨rfl, rfl, rfl⟩)
    | (cases h; exact ⟨rfl, rfl, rfl⟩)

theorem sexecs_at {avoid : Bool} : ∀ {is : List SIns} {fr fr' : IFrame} {g g' : IGlob},
    sexecs avoid is fr g = .ok (fr', g') → fr'.fn = fr.fn ∧ fr'.blk = fr.blk ∧ fr'.idx = fr.idx
  | [], _, _, _, _, h => by cases h; exact ⟨rfl, rfl, rfl⟩
  | i :: is, fr, fr', g, g', h => by
    obtain ⟨⟨fr1, g1⟩, h1, h2⟩ := Res.bind_eq_ok.1 h
    obtain ⟨a1, a2, a3⟩ := sexec_at h1
    obtain ⟨b1, b2, b3⟩ := sexecs_at h2
    exact ⟨b1.trans a1, b2.trans a2, b3.trans a3⟩

/-- The two halves of a step. -/
theorem tstep_half {dom : Nat → Nat → Nat → Bool} {P : Prog} {inp : World} {io : Io} {s : IState} {T : Tracker} :
    tstep dom P inp io s T = (do
      match ← tcode dom P s T with
      | some (s', T') => tinstr dom P inp io s' T'
      | none => pure (.stuck, T)) := by
  obtain ⟨frames, g⟩ := s
  cases frames with
  | nil => rfl
  | cons fr rest =>
    simp only [tstep, tcode]
    cases hF : P[fr.fn]? with
    | none => rfl
    | some F =>
      dsimp only
      cases hB : F.blocks[fr.blk]? with
      | none => rfl
      | some B =>
        dsimp only
        cases hx : sexecs (instrument (dom fr.fn) F).avoid ((instrument (dom fr.fn) F).st.ann (fr.blk, fr.idx + 1)).pre fr
            { g with L := T.labels } with
        | ok x =>
          obtain ⟨fr', g'⟩ := x
          obtain ⟨e1, e2, e3⟩ := sexecs_at hx
          show _ = tinstr dom P inp io ⟨fr' :: rest, g'⟩ { T with labels := g'.L }
          simp only [Res.bind_ok, tinstr, e1, e2, e3, hF, hB]
          rfl
        | fatal => rfl
        | ub => rfl
        | hang => rfl

/-- Both halves one after the other are a step of the coarser model. -/
theorem both_halves {dom : Nat → Nat → Nat → Bool} {P : Prog} {inp : World} {io : Io} {H : HMulti} {i : Nat}
    (hi : H.ready i = false) :
    hrun dom P inp io [.code i, .instr i] H = (do
      match ← tmstep dom P inp io H.M (.run i) with
      | some M => pure (some ⟨M, H.ready⟩)
      | none => pure none) := by
  have hset : (fun j => !decide (j = i) && (decide (j = i) || H.ready j)) = H.ready := by
    funext j
    by_cases e : j = i
    · simp [e, hi]
    · simp [e]
  simp only [hrun, hstep, tmstep]
  cases ht : H.M.threads[i]? with
  | none => rfl
  | some t =>
    obtain ⟨hlt, -⟩ := List.getElem?_eq_some_iff.1 ht
    cases t with
    | ended v l => rfl
    | live frames a r sp =>
      rw [hi]
      dsimp only
      rw [tstep_half]
      cases hx : tcode dom P ⟨frames, { H.M.glob with argTls := a, retTls := r, sp }⟩ H.M.T with
      | ok x =>
        cases x with
        | none => rfl
        | some x =>
          obtain ⟨s, T⟩ := x
          simp only [Res.bind_ok, Res.pure_eq, List.getElem?_set_self hlt, if_true, List.set_set]
          cases hy : tinstr dom P inp io s T with
          | ok o =>
            obtain ⟨o, T'⟩ := o
            cases o with
            | next s' => simp [hset]
            | done v l g => simp [hset]
            | stuck => rfl
          | fatal => rfl
          | ub => rfl
          | hang => rfl
      | fatal => rfl
      | ub => rfl
      | hang => rfl

end Threads
end Verif
