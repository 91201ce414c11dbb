import Verif.HistoryLemmas
import Verif.Examples.Store
/- C03: a union label means exactly the union of the inputs. -/
namespace Verif
open Spec Labels

/-- After any history, combining any two handed-out labels either ends the program because the
label section is full, or returns a label denoting exactly the bytes of the two operands. It never
has undefined behaviour. -/
theorem C03_union_exact (cap : Nat) (h0 : 0 < cap) (hcap : cap ≤ 2 ^ 31) (es : List Event)
    (L : Labels) (hr : Reach cap es L) (l r : Nat) (hl : 0 < l ∧ l < L.words.length)
    (hr' : 0 < r ∧ r < L.words.length) :
    (∃ L' u, L.unionTaint l r = .ok (L', u) ∧ 0 < u ∧ u < L'.words.length ∧
      ∀ b, Denotes L'.graph u b ↔ Denotes L.graph l b ∨ Denotes L.graph r b) ∨
    (L.unionTaint l r = .fatal ∧ L.words.length = cap) := by
  rcases unionTaint_spec (hr.good h0 hcap).wf hl.1 hl.2 hr'.1 hr'.2 with
    ⟨h1, h2⟩ | ⟨L', u, h1, -, h3, h4, -, h5⟩
  · exact Or.inr ⟨h1, by rw [h2, hr.cap h0 hcap]⟩
  · exact Or.inl ⟨L', u, h1, h3, h4, h5⟩

/-- The stored label graph means, for every label, exactly what the sequence of calls and answers
says it should mean: a read label means its byte, a union label the union of its operands' meanings
at the time of the call, and marking changes no meaning. -/
theorem C03_history (cap : Nat) (h0 : 0 < cap) (hcap : cap ≤ 2 ^ 31) (es : List Event)
    (L : Labels) (hr : Reach cap es L) (l : Nat) (b : Nat × Nat) :
    Denotes L.graph l b ↔ Meaning es l b := hr.meaning h0 hcap l b

/-- Union is commutative, associative and idempotent in meaning; here: the order of operands does
not matter. -/
theorem C03_commutative (cap : Nat) (h0 : 0 < cap) (hcap : cap ≤ 2 ^ 31) (es : List Event)
    (L : Labels) (hr : Reach cap es L) (l r : Nat) (hl : 0 < l ∧ l < L.words.length)
    (hr' : 0 < r ∧ r < L.words.length) (L1 L2 : Labels) (u v : Nat)
    (h1 : L.unionTaint l r = .ok (L1, u)) (h2 : L.unionTaint r l = .ok (L2, v)) (b : Nat × Nat) :
    Denotes L1.graph u b ↔ Denotes L2.graph v b := by
  rcases C03_union_exact cap h0 hcap es L hr l r hl hr' with ⟨_, _, e, -, -, d⟩ | ⟨e, -⟩ <;>
    rw [h1] at e <;> cases e
  rcases C03_union_exact cap h0 hcap es L hr r l hr' hl with ⟨_, _, e, -, -, d'⟩ | ⟨e, -⟩ <;>
    rw [h2] at e <;> cases e
  rw [d, d', or_comm]

/-- A non-trivial reachable store with two labels to combine. -/
example : Reach 64 exEvents exStore ∧ 0 < 11 ∧ 11 < exStore.words.length := by
  exact ⟨exReach, by decide +kernel⟩

end Verif
