import Verif.LabelsConcView
/- Concrete interleavings of two threads, used to show that hypotheses can be met. -/
namespace Verif
open Spec
namespace CSys

/-- Run a schedule in which every step must succeed. -/
def go (S : CSys) (ts : List Nat) : CSys :=
  match S.run ts with
  | some (.ok S') => S'
  | _ => S

theorem Reach.go {cap : Nat} {S : CSys} (h : Reach cap S) (ts : List Nat) : Reach cap (S.go ts) := by
  unfold CSys.go
  split
  · rename_i S' hr; exact h.run hr
  · exact h

/-- Thread 0 has read bytes 10..14 of source 3 into labels 1..5. -/
def exC1 : CSys := ((init 32).callSource 0 3 10 5).go (List.replicate 7 0)

/-- Threads 0 and 1 both ask for the union of labels 1 and 3, in lock step until the mutex stops
thread 1: neither sees the other's entry, and both store one. -/
def exC2 : CSys :=
  ((exC1.callUnion 0 1 3).callUnion 1 1 3).go
    ((List.replicate 7 [0, 1]).flatten ++ [0, 0, 0, 1, 1, 1])

/-- Thread 0 combines labels 6 and 5. -/
def exC3 : CSys := (exC2.callUnion 0 6 5).go (List.replicate 9 0)

/-- Thread 0 marks label 8 and stops after flagging it; thread 1 marks label 8 and returns. -/
def exC4 : CSys :=
  ((exC3.callMark 0 8).callMark 1 8).go [0, 0, 0, 0, 0, 1, 1]

/-- Both threads have returned. -/
def exC5 : CSys := exC4.go (List.replicate 15 0)

theorem exC1_reach : Reach 32 exC1 := (Reach.source .init rfl (by decide) (by decide) (by decide)).go _

theorem exC1_log : exC1.log = [.source 3 10 5 1] := by decide +kernel

theorem exC2_reach : Reach 32 exC2 := by
  refine Reach.go (Reach.union (Reach.union exC1_reach (by decide +kernel) ?_ ?_) (by decide +kernel) ?_ ?_) _
  all_goals exact ⟨.source 3 10 5 1, by decide +kernel, by simp [Returned]⟩

theorem exC2_log : exC2.log = [.source 3 10 5 1, .union 1 3 6, .union 1 3 7] := by decide +kernel

theorem exC3_reach : Reach 32 exC3 := by
  refine Reach.go (Reach.union exC2_reach (by decide +kernel) ⟨.union 1 3 6, by decide +kernel, rfl⟩
    ⟨.source 3 10 5 1, by decide +kernel, by simp [Returned]⟩) _

theorem exC3_log : exC3.log = [.source 3 10 5 1, .union 1 3 6, .union 1 3 7, .union 6 5 8] := by
  decide +kernel

theorem exC3_known8 : .union 6 5 8 ∈ exC3.log := by decide +kernel

theorem exC4_reach : Reach 32 exC4 := by
  refine Reach.go (Reach.mark (Reach.mark exC3_reach (by decide +kernel) ⟨_, exC3_known8, rfl⟩)
    (by decide +kernel) ⟨_, exC3_known8, rfl⟩) _

theorem exC4_log : exC4.log =
    [.source 3 10 5 1, .union 1 3 6, .union 1 3 7, .union 6 5 8, .mark 8] := by decide +kernel

theorem exC5_reach : Reach 32 exC5 := exC4_reach.go _

theorem go_other (S : CSys) (ts : List Nat) {u : Nat} (hu : u ∉ ts) : (S.go ts).threads u = S.threads u := by
  have key : ∀ (ts : List Nat) (S S' : CSys), S.run ts = some (.ok S') → u ∉ ts → S'.threads u = S.threads u := by
    intro ts
    induction ts with
    | nil => intro S S' h _; cases h; rfl
    | cons t ts ih =>
      intro S S' h hu
      simp only [List.mem_cons, not_or] at hu
      unfold CSys.run at h
      split at h
      · rename_i S1 h1
        rw [ih S1 S' h hu.2, step_other h1 hu.1]
      · rename_i h1
        exact absurd h (h1 S')
  unfold CSys.go
  split
  · rename_i S' hr; exact key ts S S' hr hu
  · rfl

/-- In the last state no thread is inside a call. -/
theorem exC5_idle (t : Nat) : exC5.threads t = .idle := by
  by_cases h0 : t = 0
  · subst h0; decide +kernel
  · by_cases h1 : t = 1
    · subst h1; decide +kernel
    · unfold exC5 exC4 exC3 exC2 exC1
      have g : ∀ (S : CSys) (u : Nat) (pc : PC), u ≠ t → (S.goto u pc).threads t = S.threads t :=
        fun S u pc h => goto_other S pc (Ne.symm h)
      simp only [callMark, callUnion, callSource]
      simp [go_other, goto_other, h0, h1, init]

end CSys
end Verif
