import Verif.RegionLemmas
/- C41: tainted calls are split into contiguous input chunks. -/
namespace Verif
open Spec Py

/-- The reported chunks are the maximal runs of the given offsets, in increasing order; any order and
any repetition of the offsets. -/
theorem C41_chunks (l : List Nat) : MaximalRuns (taintedChunks l) (fun o => o ∈ l) := by
  have hp : (l.mergeSort fun a b => decide (a ≤ b)).Pairwise (· ≤ ·) := by
    have := List.pairwise_mergeSort (le := fun a b : Nat => decide (a ≤ b)) (by simp; omega) (by simp; omega) l
    simpa using this
  have := chunkLoop_runs _ hp
  have e : (fun o => o ∈ l.mergeSort fun a b => decide (a ≤ b)) = (fun o => o ∈ l) := by
    funext o
    exact propext (List.mergeSort_perm l _).mem_iff
  rw [e] at this
  exact this

/-- The chunks of all sources: per source, the maximal runs of its offsets. -/
theorem C41_sources (d : Dict (List Nat) (List Nat)) (hd : d.keys.Nodup) (s : List Nat) :
    (∀ os, (s, os) ∈ d →
      MaximalRuns (((sourceChunks d).filter fun c => decide (c.1 = s)).map (·.2)) (fun o => o ∈ os)) ∧
    (s ∉ d.keys → (sourceChunks d).filter (fun c => decide (c.1 = s)) = []) := by
  have hnil : ∀ d : Dict (List Nat) (List Nat), s ∉ d.keys →
      (sourceChunks d).filter (fun c => decide (c.1 = s)) = [] := by
    intro d hs
    rw [List.filter_eq_nil_iff]
    intro c hc
    simp only [sourceChunks, List.mem_flatMap, List.mem_map] at hc
    obtain ⟨p, hp, x, _, rfl⟩ := hc
    simp only [decide_eq_true_eq]
    rintro rfl
    exact hs (List.mem_map.2 ⟨p, hp, rfl⟩)
  refine ⟨?_, hnil d⟩
  induction d with
  | nil => intro os h; cases h
  | cons p d ih =>
    intro os hm
    simp only [Dict.keys, List.map_cons, List.nodup_cons] at hd
    have hcons : sourceChunks (p :: d) = (taintedChunks p.2).map (fun c => (p.1, c)) ++ sourceChunks d := rfl
    rw [hcons, List.filter_append, List.map_append]
    rcases List.mem_cons.1 hm with hm | hm
    · subst hm
      rw [hnil d hd.1, List.map_nil, List.append_nil, List.filter_eq_self.2 (by
        intro a ha
        obtain ⟨x, _, rfl⟩ := List.mem_map.1 ha
        simp), List.map_map]
      have : ((fun c : List Nat × (Nat × Nat) => c.2) ∘ fun c => (s, c)) = id := rfl
      simp only [this, List.map_id]
      exact C41_chunks os
    · have hne : p.1 ≠ s := by
        rintro rfl
        exact hd.1 (List.mem_map.2 ⟨_, hm, rfl⟩)
      rw [List.filter_eq_nil_iff.2 (by
        intro a ha
        obtain ⟨x, _, rfl⟩ := List.mem_map.1 ha
        simpa using hne), List.map_nil, List.nil_append]
      exact ih hd.2 os hm

/-- Unordered offsets with a repetition: two chunks. -/
example : taintedChunks [7, 3, 4, 3, 5] = [(3, 6), (7, 8)] := by
  simp [taintedChunks, List.mergeSort, List.MergeSort.Internal.splitInTwo, List.splitAt, List.splitAt.go, chunkLoop]

end Verif
