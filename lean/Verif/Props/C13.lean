import Verif.BitmapConcLemmas
/- C13: concurrent bitmap insertions lose nothing. -/
namespace Verif
open Spec BSys

/-- Every bucket width, capacity, assignment of insertion programs to (any number of) threads, and
every schedule of their atomic operations, including spurious compare-exchange failures: no access
leaves the memory, and once all threads have finished an index is set exactly when some thread was
asked to insert it; the number of used buckets covers it. -/
theorem C13_exact (W cap : Nat) (hW : 0 < W) (ps : Nat → List Ins) (hps : Fits cap ps)
    (sched : List (Nat × Bool)) :
    ∃ S, (init W cap ps).run sched = .ok S ∧
      (S.Done → ∀ i, (S.isSet i = true ↔ ∃ t, Covered (ps t) i) ∧
        ((∃ t, Covered (ps t) i) → i / W < S.used)) := by
  obtain ⟨S, h1, h2⟩ := run_inv hW hps sched (init_inv W cap ps)
  refine ⟨S, h1, fun hd i => ?_⟩
  have key : (∃ t, Covered (ps t) i) → S.isSet i = true ∧ i / W < S.used := by
    rintro ⟨t, r, hr, hc⟩
    obtain ⟨done, d1, d2, d3, -⟩ := h2.split t
    rw [hd t, List.append_nil] at d1
    obtain ⟨⟨p, hp, hpc⟩, c, hc1, hc2⟩ := compile_covers hW (hps t r hr).1 (hps t r hr).2 hc
    have hmem : ∀ q ∈ compile W r, q ∈ done := fun q hq => by
      rw [← d1, List.mem_flatMap]; exact ⟨r, hr, hq⟩
    refine ⟨d2 p (hmem p hp) i hpc, ?_⟩
    have := d3 _ (hmem _ hc1) c rfl
    omega
  exact ⟨⟨h2.sound i, fun h => (key h).1⟩, fun h => (key h).2⟩

/-- At every moment: a set bit was requested, and no index has been reported "new" twice. -/
theorem C13_no_double_new (W cap : Nat) (hW : 0 < W) (ps : Nat → List Ins) (hps : Fits cap ps)
    (sched : List (Nat × Bool)) (S : BSys) (hS : (init W cap ps).run sched = .ok S) (i : Nat) :
    (S.isSet i = true → ∃ t, Covered (ps t) i) ∧
    (S.log.filter (fun e => e.2.1 == i && !e.2.2)).length ≤ 1 := by
  obtain ⟨S', h1, h2⟩ := run_inv hW hps sched (init_inv W cap ps)
  rw [hS] at h1; cases h1
  exact ⟨h2.sound i, (h2.once i).1⟩

/-- Once all threads have finished, every `set` call has been answered exactly once, and of the
calls for an index that no range covers exactly one was told that the index was new. -/
theorem C13_one_new (W cap : Nat) (hW : 0 < W) (ps : Nat → List Ins) (hps : Fits cap ps)
    (sched : List (Nat × Bool)) (S : BSys) (hS : (init W cap ps).run sched = .ok S) (hd : S.Done)
    (i : Nat) :
    (∀ t, (S.log.filter (fun e => e.1 == t && e.2.1 == i)).length =
      ((ps t).filter (fun r => r == .one i)).length) ∧
    ((∃ t, Ins.one i ∈ ps t) →
      (∀ t b n, .range b n ∈ ps t → ¬ (Ins.range b n).covers i) →
      (S.log.filter (fun e => e.2.1 == i && !e.2.2)).length = 1) := by
  obtain ⟨S', h1, h2⟩ := run_inv hW hps sched (init_inv W cap ps)
  rw [hS] at h1; cases h1
  constructor
  · intro t
    obtain ⟨done, d1, -, -, d4⟩ := h2.split t
    rw [hd t, List.append_nil] at d1
    have := d4 i
    rw [answers, ← d1] at this
    rw [this]
    generalize ps t = rs
    induction rs with
    | nil => rfl
    | cons r rs ih =>
      rw [List.flatMap_cons, List.filter_append, List.length_append, ih, List.filter_cons]
      cases r with
      | one j =>
        by_cases hj : j = i
        · subst hj; simp [compile]; omega
        · simp [compile, hj]
      | range b n =>
        have : (compile W (.range b n)).filter (fun p => p.2 == some i) = [] := by
          rw [List.filter_eq_nil_iff]
          intro p hp
          simp only [compile] at hp
          split at hp
          · simp at hp
          · simp only [List.mem_map] at hp
            obtain ⟨a, -, rfl⟩ := hp
            simp
        rw [this]; simp
  · rintro ⟨t, ht⟩ hno
    obtain ⟨S2, k1, k2⟩ := C13_exact W cap hW ps hps sched
    rw [hS] at k1; cases k1
    exact h2.told i hno (((k2 hd i).1).2 ⟨t, _, ht, rfl⟩)

/-- Two threads inserting index 3 at the same time, one of them also a range: a schedule in which
thread 1 loses the race for index 3 and has a spurious failure later. -/
def exPrograms : Nat → List Ins := fun t =>
  if t = 0 then [.one 3] else if t = 1 then [.one 3, .range 7 4] else []

def exSchedule : List (Nat × Bool) :=
  [(0, false), (1, false), (0, false), (1, false), (1, false), (1, false), (1, false), (0, false),
   (0, false), (1, false), (1, true), (1, false), (1, false), (1, false), (1, false), (1, false),
   (1, false)]

example : Fits 20 exPrograms ∧ ∃ S, (init 8 20 exPrograms).run exSchedule = .ok S ∧ S.Done ∧
    S.log = [(0, 3, false), (1, 3, true)] ∧ S.buckets = [0b10001000, 0b111, 0] := by
  constructor
  · intro t r hr
    unfold exPrograms at hr
    split at hr
    · rw [List.mem_singleton] at hr; subst hr
      exact ⟨fun i (hi : _ = _) => by omega, fun b n h => by cases h⟩
    · split at hr
      · simp only [List.mem_cons, List.not_mem_nil, or_false] at hr
        rcases hr with rfl | rfl
        · exact ⟨fun i (hi : _ = _) => by omega, fun b n h => by cases h⟩
        · exact ⟨fun i (hi : _ ∧ _) => by omega, fun b n h => by cases h; omega⟩
      · simp at hr
  · have hok : (match (init 8 20 exPrograms).run exSchedule with
        | .ok S => decide ((S.threads 0).code = [] ∧ (S.threads 1).code = [] ∧
            S.log = [(0, 3, false), (1, 3, true)] ∧ S.buckets = [0b10001000, 0b111, 0])
        | _ => false) = true := by decide +kernel
    cases hS : (init 8 20 exPrograms).run exSchedule with
    | ok S =>
      rw [hS] at hok
      simp only [decide_eq_true_eq] at hok
      obtain ⟨h0, h1, h2, h3⟩ := hok
      refine ⟨S, rfl, fun t => ?_, h2, h3⟩
      by_cases ht0 : t = 0
      · subst ht0; exact h0
      · by_cases ht1 : t = 1
        · subst ht1; exact h1
        · have hne : ∀ e ∈ exSchedule, e.1 = 0 ∨ e.1 = 1 := by decide
          rw [run_other exSchedule (fun e he => by rcases hne e he with h | h <;> omega) hS]
          simp [init, exPrograms, ht0, ht1]
    | _ => rw [hS] at hok; cases hok

end Verif
