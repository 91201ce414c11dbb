import Verif.Props.C23
/- C24: call stacks reported for control-flow events are right. -/
namespace Verif
open Spec Py CfLog

/-- Reports for leaving the functions `p` on top of the stack `base`. -/
def leaving (p base : List Nat) : List CfItem :=
  match p with
  | [] => []
  | x :: p => .leave (x :: p ++ base).reverse :: leaving p base

theorem leaving_snoc (p : List Nat) (g : Nat) (base : List Nat) :
    leaving (p ++ [g]) base = leaving p (g :: base) ++ [.leave (g :: base).reverse] := by
  induction p with
  | nil => simp [leaving]
  | cons x p ih => simp [leaving, ih]

theorem drain_leaving (p : List Nat) : drain p = leaving p [] := by
  induction p with
  | nil => rfl
  | cons x p ih => simp [leaving, drain, ih]

theorem unwound_pending {f : Nat} {p st : List Nat} (h : f ∉ p) :
    unwound f (p ++ f :: st) = f :: st ∧ unwinding f (p ++ f :: st) = leaving p (f :: st) := by
  induction p with
  | nil => simp [unwound, unwinding, leaving]
  | cons x p ih =>
    simp only [List.mem_cons, not_or] at h
    obtain ⟨h1, h2⟩ := ih h.2
    have hx : ¬ x = f := fun e => h.1 e.symm
    simp [unwound, unwinding, leaving, hx, h1, h2]

theorem replay_body (b : Body) : ∀ (f : Nat) (p base : List Nat) (es : List CfEvent),
    ((∃ st, base = f :: st) ∨ NoBranch b) → Tame f p b →
    ∃ out, replay (logOf f b ++ es) (p ++ base) =
        (out ++ (replay es (abandoned p b ++ base)).1, (replay es (abandoned p b ++ base)).2) ∧
      out ++ leaving (abandoned p b) base = leaving p base ++ reports base b := by
  induction b with
  | done => intro f p base es _ _; exact ⟨[], by simp [logOf, abandoned], by simp [reports, abandoned]⟩
  | branch l rest ih =>
    intro f p base es hb ht
    obtain ⟨st, rfl⟩ : ∃ st, base = f :: st := by
      rcases hb with hb | hb
      · exact hb
      · exact hb.elim
    obtain ⟨out, h1, h2⟩ := ih f [] (f :: st) es (Or.inl ⟨st, rfl⟩) ht.2
    obtain ⟨u1, u2⟩ := unwound_pending (st := st) ht.1
    refine ⟨leaving p (f :: st) ++ .tainted (f :: st).reverse l :: out, ?_, ?_⟩
    · simp only [List.nil_append] at h1
      simp [logOf, replay, u1, u2, h1, abandoned]
    · simp only [abandoned, List.append_assoc, List.cons_append, h2]
      simp [leaving, reports]
  | call g inner left rest ihi ihr =>
    intro f p base es hb ht
    obtain ⟨rfl, ht1, ht2, ht3⟩ := ht
    have hb' : (∃ st, base = f :: st) ∨ NoBranch rest := hb
    obtain ⟨o1, a1, a2⟩ := ihi g [] (g :: base)
      ((if left then [CfEvent.leave g] else []) ++ (logOf f rest ++ es)) (Or.inl ⟨base, rfl⟩) ht1
    obtain ⟨o2, b1, b2⟩ := ihr f _ base es hb' ht3
    simp only [leaving, List.nil_append] at a1 a2
    cases left with
    | true =>
      simp only [if_true, List.cons_append, List.nil_append] at a1 b1 b2
      obtain ⟨u1, u2⟩ := unwound_pending (st := base) (ht2 rfl)
      refine ⟨.enter (g :: base).reverse :: (o1 ++ (leaving (abandoned [] inner) (g :: base) ++
        .leave (g :: base).reverse :: o2)), ?_, ?_⟩
      · simp [logOf, replay, a1, u1, u2, b1, abandoned]
      · simp only [abandoned, if_true, List.cons_append, List.append_assoc, b2]
        rw [← List.append_assoc o1, a2]
        simp [leaving, reports]
    | false =>
      simp only [Bool.false_eq_true, if_false, List.nil_append] at a1 b1 b2
      refine ⟨.enter (g :: base).reverse :: (o1 ++ o2), ?_, ?_⟩
      · simp only [List.append_assoc, List.cons_append, List.nil_append] at b1
        simp [logOf, replay, a1, b1, abandoned]
      · simp only [abandoned, Bool.false_eq_true, if_false, List.cons_append, List.append_assoc, b2,
          leaving_snoc]
        rw [← List.append_assoc o1, a2]
        simp [leaving, reports]

theorem tame_of_returns (b : Body) : Returns b → abandoned [] b = [] ∧ ∀ f, Tame f [] b := by
  induction b with
  | done => intro _; exact ⟨rfl, fun _ => trivial⟩
  | branch l rest ih =>
    intro h
    obtain ⟨h1, h2⟩ := ih h
    exact ⟨h1, fun f => ⟨by simp, h2 f⟩⟩
  | call g inner left rest ihi ihr =>
    rintro ⟨rfl, hi, hr⟩
    obtain ⟨i1, i2⟩ := ihi hi
    obtain ⟨r1, r2⟩ := ihr hr
    exact ⟨by simpa [abandoned] using r1, fun f => ⟨rfl, i2 g, by simp [i1], by simpa using r2 f⟩⟩

/-- Partial (missing: non-local exits that are followed by a call, or that abandon an activation of
the same function that logs the next event; there the claim is false, see below). For every program
whose non-local exits are tame, the reader reports every event with exactly the call stack at that
point and reports the leaving of every abandoned function as if it had been logged. -/
theorem C24_stacks_partial (b : Body) (hb : NoBranch b) (ht : Tame 0 [] b) :
    iter ((logOf 0 b).flatMap encode) [] = (reports [] b, false) := by
  obtain ⟨out, h1, h2⟩ := replay_body b 0 [] [] [] (Or.inr hb) ht
  rw [C23_iter]
  simp only [List.append_nil, List.nil_append, leaving] at h1 h2
  rw [h1]
  simp only [replay, drain_leaving, h2]

/-- Every program in which all calls return normally: exact, without further conditions. -/
theorem C24_stacks (b : Body) (hb : NoBranch b) (hr : Returns b) :
    iter ((logOf 0 b).flatMap encode) [] = (reports [] b, false) :=
  C24_stacks_partial b hb ((tame_of_returns b hr).2 0)

/-- False when a call follows a non-local exit: 1 calls 2, 2 is abandoned, 1 calls 3. The reported
stack inside 3 is [1, 2, 3]. -/
theorem C24_call_after_exit_refuted :
    ∃ b, NoBranch b ∧ ¬ (iter ((logOf 0 b).flatMap encode) []).1 = reports [] b ∧
      CfItem.tainted [1, 2, 3] 7 ∈ (iter ((logOf 0 b).flatMap encode) []).1 ∧
      CfItem.tainted [1, 3] 7 ∈ reports [] b := by
  refine ⟨.call 1 (.call 2 .done false (.call 3 (.branch 7 .done) true .done)) true .done, trivial, ?_⟩
  rw [C23_iter]
  decide

/-- False when the abandoned function is the same as the one that continues: 1 calls itself, the
inner activation is abandoned, the outer one branches. The reported stack is [1, 1]. -/
theorem C24_recursion_refuted :
    ∃ b, NoBranch b ∧ ¬ (iter ((logOf 0 b).flatMap encode) []).1 = reports [] b ∧
      CfItem.tainted [1, 1] 7 ∈ (iter ((logOf 0 b).flatMap encode) []).1 ∧
      CfItem.tainted [1] 7 ∈ reports [] b := by
  refine ⟨.call 1 (.call 1 .done false (.branch 7 .done)) true .done, trivial, ?_⟩
  rw [C23_iter]
  decide

/-- The log has no thread ids: two threads that each enter and leave one function, interleaved, make
the reader fail with an exception. -/
theorem C24_threads_refuted :
    (iter ([CfEvent.enter 1, .enter 2, .leave 1, .leave 2].flatMap encode) []).2 = true := by
  rw [C23_iter]; decide

/-- A program with a non-local exit through two frames that is handled correctly. -/
example : ∃ b, NoBranch b ∧ Tame 0 [] b ∧ ¬ Returns b ∧ reports [] b =
    [.enter [1], .enter [1, 2], .enter [1, 2, 3], .leave [1, 2, 3], .leave [1, 2], .tainted [1] 9,
     .leave [1]] :=
  ⟨.call 1 (.call 2 (.call 3 .done false .done) false (.branch 9 .done)) true .done, by
    simp [NoBranch, Tame, Returns, abandoned, reports]⟩

end Verif
