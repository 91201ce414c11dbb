import Verif.CfCost
import Verif.Props.C08
/- C10: the work of marking control flow is bounded by the size of the label graph: false. -/
namespace Verif
open Spec Labels

/-- Counterexample to the claim: for every `n` there is a reachable store with fewer than `6n + 14`
labels (so fewer than `12n + 28` references), in which marking one label needs at least `2^(n+1) - 1`
iterations of the loop: with any smaller number of iterations the queue is still not empty. Labels
are flagged when they leave the queue, so a label reachable over many paths is queued many times. -/
theorem C10_refuted (n : Nat) (hn : 6 * n + 8 < 2 ^ 31) :
    ∃ es L label, Reach (2 ^ 31) es L ∧ 0 < label ∧ label < L.words.length ∧
      L.words.length = 6 * n + 8 ∧
      ∀ iterations, iterations < 2 ^ (n + 1) - 1 →
        L.affectsControlFlowIn iterations label = .hang := by
  obtain ⟨L, hL⟩ := fam_exists (cap := 2 ^ 31) (by omega) (Nat.le_refl _) (6 * n + 8) (by omega)
    (by omega)
  obtain ⟨es, hr⟩ := hL.reach
  refine ⟨es, L, 6 * (n + 1) + 1, hr, by omega, by rw [hL.len]; omega, hL.len, ?_⟩
  intro it hit
  exact fam_mark_hang (by omega) (Nat.le_refl _) hL (by omega) it hit

/-- What remains true: marking label `l` needs at most `2^(l+1)` iterations. Missing: any bound
polynomial in the size of the graph, see `C10_refuted`. -/
theorem C10_bound_partial (cap : Nat) (h0 : 0 < cap) (hcap : cap ≤ 2 ^ 31) (es : List Event)
    (L : Labels) (hr : Reach cap es L) (label : Nat) (hl : 0 < label) (hl' : label < L.words.length) :
    ∃ L', L.affectsControlFlowIn (2 ^ (label + 1)) label = .ok L' := by
  obtain ⟨L', h, -⟩ := C08_exact cap h0 hcap es L hr label hl hl'
  exact ⟨L', h⟩

/-- With 602 labels, more than 10^29 iterations. -/
example : ∃ es L label, Reach (2 ^ 31) es L ∧ L.words.length = 602 ∧
    L.affectsControlFlowIn (10 ^ 29) label = .hang := by
  obtain ⟨es, L, label, h1, -, -, h2, h3⟩ := C10_refuted 99 (by omega)
  exact ⟨es, L, label, h1, h2, h3 _ (by decide)⟩

end Verif
