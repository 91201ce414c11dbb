import Verif.HistoryLemmas
import Verif.Examples.Store
/- C08: marking control flow reaches exactly the contributing labels. -/
namespace Verif
open Spec Labels

/-- Marking any handed-out label in any reachable store terminates normally. Afterwards the flagged
labels are exactly the ones flagged before plus the label and everything it is transitively built
from, every label has the same taint value up to the flag, and no label was added. -/
theorem C08_exact (cap : Nat) (h0 : 0 < cap) (hcap : cap ≤ 2 ^ 31) (es : List Event)
    (L : Labels) (hr : Reach cap es L) (label : Nat) (hl : 0 < label) (hl' : label < L.words.length) :
    ∃ L', L.affectsControlFlow label = .ok L' ∧
      (∀ l, Flagged L'.graph l ↔ Flagged L.graph l ∨ BuiltFrom L.graph label l) ∧
      (∀ l, SameTaint L.graph L'.graph l) ∧
      L'.words.length = L.words.length ∧ L'.words[0]? = some 0 := by
  obtain ⟨L', h1, h2, h3, -, h5⟩ :=
    affectsControlFlow_spec (hr.good h0 hcap).wf (hr.good h0 hcap).closed hl hl'
  exact ⟨L', h1, h5, h3.sameTaint (hr.good h0 hcap).wf, h3.len, h2.zero⟩

/-- The loop needs at most `2^(label+1)` iterations: allowing more changes nothing. -/
theorem C08_terminates (cap : Nat) (h0 : 0 < cap) (hcap : cap ≤ 2 ^ 31) (es : List Event)
    (L : Labels) (hr : Reach cap es L) (label : Nat) (hl : 0 < label) (hl' : label < L.words.length)
    (fuel : Nat) (hf : 2 ^ (label + 1) ≤ fuel) :
    L.affectsControlFlowIn fuel label = L.affectsControlFlow label := by
  obtain ⟨L', h1, -⟩ :=
    affectsControlFlow_spec (hr.good h0 hcap).wf (hr.good h0 hcap).closed hl hl'
  rw [h1]
  exact affectsControlFlowIn_mono hf h1

/-- Marking a union label whose parts are ranges and a source, in a non-trivial store. -/
example : Reach 64 exEvents exStore ∧ 0 < 12 ∧ 12 < exStore.words.length ∧
    ¬ Flagged exStore.graph 12 ∧ Flagged exStore.graph 3 := by
  refine ⟨exReach, by decide +kernel, by decide, ?_, ⟨.source true 3 12, by decide, rfl⟩⟩
  rintro ⟨t, ht, hf⟩
  rw [show exStore.graph 12 = some (.union false 9 11) by decide +kernel] at ht
  cases ht; cases hf

end Verif
