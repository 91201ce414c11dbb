import Verif.Examples.Conc
/- C34: concurrent unions and reads stay exact. -/
namespace Verif
open Spec CSys

/-- At every moment of every execution of any number of threads, every label that a completed call
returned denotes exactly the set of input bytes the completed calls give it. -/
theorem C34_exact (cap : Nat) (h0 : 0 < cap) (hcap : cap ≤ 2 ^ 31) (S : CSys) (hr : CSys.Reach cap S)
    (l : Nat) (hk : S.Known l) (b : Nat × Nat) : Denotes S.graph l b ↔ Meaning S.log l b := by
  obtain ⟨V, tail, h, -⟩ := hr.inv h0 hcap
  rw [h.denotesS (h.known l hk).2]
  exact h.meaning l hk b

/-- Each completed union has returned a label denoting the union of what its two operands denote;
each completed read has returned consecutive labels, one for each byte read. -/
theorem C34_request (cap : Nat) (h0 : 0 < cap) (hcap : cap ≤ 2 ^ 31) (S : CSys) (hr : CSys.Reach cap S) :
    (∀ l r u, .union l r u ∈ S.log → ∀ b, Denotes S.graph u b ↔ Denotes S.graph l b ∨ Denotes S.graph r b) ∧
    (∀ src off n first, .source src off n first ∈ S.log → ∀ k, k < n →
      ∃ cf, S.graph (first + k) = some (.source cf src (off + k))) := by
  obtain ⟨V, tail, h, -⟩ := hr.inv h0 hcap
  constructor
  · intro l r u hu b
    obtain ⟨hl, hr, hu, hd⟩ := h.answered _ hu
    rw [h.denotesS hl.2, h.denotesS hr.2, h.denotesS hu.2]
    exact hd b
  · intro src off n first hs k hk
    obtain ⟨cf, hg⟩ := h.answered _ hs k hk
    refine ⟨cf, ?_⟩
    rw [graph_lt h ((Labels.lab_graph h.wf).2 ⟨_, hg⟩).2]
    exact hg

/-- At every moment there is a number `n` of published entries: every label returned so far is below
it, the labels below it form a well-formed graph, and outside the mutex it is the whole section. -/
theorem C34_wellformed (cap : Nat) (h0 : 0 < cap) (hcap : cap ≤ 2 ^ 31) (S : CSys) (hr : CSys.Reach cap S) :
    ∃ n, n ≤ S.mem.length ∧ S.mem.length ≤ cap ∧ (S.lock = none → n = S.mem.length) ∧
      (∀ l, S.Known l → 0 < l ∧ l < n) ∧ S.graph 0 = none ∧
      ∀ l, 0 < l → l < n → ∃ t, S.graph l = some t ∧ LegalTaint t ∧ ∀ k, Ref t k → 0 < k ∧ k < l := by
  obtain ⟨V, tail, h, hc⟩ := hr.inv h0 hcap
  refine ⟨V.words.length, ?_, hc ▸ h.fits, ?_, h.known, ?_, ?_⟩
  · rw [h.mem, List.length_append]; omega
  · intro hl; rw [h.mem, h.free hl, List.append_nil]
  · rw [graph_lt h h.wf.nonempty]; exact h.wf.graph.none 0 (Or.inl rfl)
  · intro l h1 h2
    rw [graph_lt h h2]
    exact h.wf.read h1 h2

/-- No entry is overwritten: whatever happens later, the word of a label returned before is the same
up to the control-flow flag, which may have been added, and the calls completed before are still the
first ones of the log. -/
theorem C34_stable (cap : Nat) (h0 : 0 < cap) (hcap : cap ≤ 2 ^ 31) (S S' : CSys) (hr : CSys.Reach cap S)
    (hl : Later S S') :
    (∀ l, S.Known l → ∃ w, S.mem[l]? = some w ∧ (S'.mem[l]? = some w ∨ S'.mem[l]? = some (addCf w))) ∧
    ∃ es, S'.log = S.log ++ es := by
  obtain ⟨V, tail, h, -⟩ := hr.inv h0 hcap
  obtain ⟨V', tail', h', hg⟩ := h.later hl
  refine ⟨fun l hk => ?_, hl.log fun _ _ m => m.log⟩
  have hlab := h.known l hk
  have e1 : S.mem[l]? = V.words[l]? := by rw [h.mem, List.getElem?_append_left hlab.2]
  have e2 : S'.mem[l]? = V'.words[l]? := by rw [h'.mem, List.getElem?_append_left (hg.lab hlab).2]
  rw [e1, e2, List.getElem?_eq_getElem hlab.2]
  exact ⟨_, rfl, hg.word l _ (List.getElem?_eq_getElem hlab.2)⟩

/-- The only way for a thread not to get on is the store being full: then a union stops the program
with an error, and a read (which does not check) is undefined behaviour. -/
theorem C34_stops (cap : Nat) (h0 : 0 < cap) (hcap : cap ≤ 2 ^ 31) (S : CSys) (hr : CSys.Reach cap S)
    (t : Nat) (R : Res CSys) (hs : S.step t = some R) :
    (∃ S', R = .ok S') ∨
    (R = .fatal ∧ (∃ l r e, S.threads t = .uAlloc l r e) ∧ S.mem.length = cap) ∨
    (R = .ub ∧ ∃ src off n, S.threads t = .sAlloc src off n ∧ cap < S.mem.length + n) := by
  obtain ⟨V, tail, h, hc⟩ := hr.inv h0 hcap
  rcases h.step hs with ⟨S', -, -, he, -⟩ | ⟨a, b, -, d⟩ | ⟨a, src, off, n, b, -, d⟩
  · exact Or.inl ⟨S', he⟩
  · exact Or.inr (Or.inl ⟨a, b, hc ▸ d⟩)
  · exact Or.inr (Or.inr ⟨a, src, off, n, b, hc ▸ d⟩)

/-- No deadlock: while some thread is inside a call, some thread can move. -/
theorem C34_progress (cap : Nat) (h0 : 0 < cap) (hcap : cap ≤ 2 ^ 31) (S : CSys) (hr : CSys.Reach cap S)
    (hb : ∃ t, S.threads t ≠ .idle) : ∃ t R, S.step t = some R := by
  obtain ⟨V, tail, h, -⟩ := hr.inv h0 hcap
  have free : ∀ t, S.threads t ≠ .idle → S.lock = none → ∃ R, S.step t = some R := by
    intro t ht hl
    unfold CSys.step
    cases hpc : S.threads t with
    | idle => exact absurd hpc ht
    | _ =>
      simp only [hl, if_true]
      first | exact ⟨_, rfl⟩ | (split <;> first | exact ⟨_, rfl⟩ | (split <;> exact ⟨_, rfl⟩))
  cases hl : S.lock with
  | none => obtain ⟨t, ht⟩ := hb; exact ⟨t, free t ht hl⟩
  | some u =>
    have hu := (h.holder u).2 hl
    refine ⟨u, ?_⟩
    unfold CSys.step
    cases hpc : S.threads u with
    | uWrite l r e idx => simp only; split <;> exact ⟨_, rfl⟩
    | uUnlock l r idx => exact ⟨_, rfl⟩
    | sWrite src off n first k => simp only; split <;> (first | exact ⟨_, rfl⟩ | (split <;> exact ⟨_, rfl⟩))
    | _ => rw [hpc] at hu; exact absurd hu id

/-- Every call returns after a number of its own steps that only depends on its arguments, whatever
the other threads do: in any schedule, thread `t` moves at most `effort` times; the effort of a new
union is 107, of reading `n` bytes `n + 2`, of marking label `x` `8 * 4 ^ x + 4`. -/
theorem C34_bounded (cap : Nat) (h0 : 0 < cap) (hcap : cap ≤ 2 ^ 31) (S : CSys) (hr : CSys.Reach cap S)
    (sched : List Nat) (S' : CSys) (hs : S.run sched = some (.ok S')) (t : Nat) :
    sched.count t + effort (S'.threads t) ≤ effort (S.threads t) ∧
    (∀ pc, effort pc = 0 ↔ pc = .idle) ∧
    (∀ l r, effort (.uLeft l r) = 107) ∧ (∀ src off n, effort (.sAlloc src off n) = n + 2) ∧
    ∀ x, effort (.mChild x (LabelDeq.new Labels.queueSlots) x []) = 8 * 4 ^ x + 4 := by
  refine ⟨?_, ?_, fun _ _ => rfl, fun _ _ _ => rfl, ?_⟩
  · induction sched generalizing S with
    | nil => cases hs; simp
    | cons u us ih =>
      unfold CSys.run at hs
      split at hs
      · rename_i S1 h1
        have h2 := ih S1 (.step hr h1) hs
        obtain ⟨V, tail, h, -⟩ := hr.inv h0 hcap
        rw [List.count_cons]
        by_cases hu : u = t
        · subst hu
          have := h.effort h1
          simp; omega
        · have := step_other h1 (Ne.symm hu)
          rw [this] at h2
          simp [hu]; omega
      · rename_i h1
        exact absurd hs (h1 S')
  · intro pc
    constructor
    · intro he
      cases pc with
      | idle => rfl
      | mEnc x q l => have : 0 < 4 ^ l := Nat.pow_pos (by decide); simp only [effort] at he; omega
      | mSetLoad x q l e => have : 0 < 4 ^ l := Nat.pow_pos (by decide); simp only [effort] at he; omega
      | mSetStore x q l e w => have : 0 < 4 ^ l := Nat.pow_pos (by decide); simp only [effort] at he; omega
      | _ => simp only [effort] at he; omega
    · rintro rfl; rfl
  · intro x
    have := (Labels.holds_content (LabelDeq.new_holds (N := Labels.queueSlots) (by decide))).2
    simp only [effort, this, heavy, List.length_nil]; omega

/-- Two threads that ask for the same union at the same time: neither finds the other's entry, so
both add one, and both answers are right. -/
example : CSys.Reach 32 exC2 ∧ exC2.log = [.source 3 10 5 1, .union 1 3 6, .union 1 3 7] ∧
    exC2.Known 6 ∧ exC2.Known 7 ∧ exC2.graph 6 = exC2.graph 7 ∧ exC2.lock = none :=
  ⟨exC2_reach, exC2_log, ⟨.union 1 3 6, by rw [exC2_log]; simp, rfl⟩,
    ⟨.union 1 3 7, by rw [exC2_log]; simp, rfl⟩, by decide +kernel, by decide +kernel⟩

/-- A thread inside a call while the other one holds the mutex. -/
example : CSys.Reach 32 (((exC1.callUnion 0 1 3).callUnion 1 1 3).go ((List.replicate 7 [0, 1]).flatten ++ [0])) ∧
    (((exC1.callUnion 0 1 3).callUnion 1 1 3).go ((List.replicate 7 [0, 1]).flatten ++ [0])).step 1 = none := by
  refine ⟨?_, by decide +kernel⟩
  refine CSys.Reach.go (.union (.union exC1_reach (by decide +kernel) ?_ ?_) (by decide +kernel) ?_ ?_) _
  all_goals exact ⟨.source 3 10 5 1, by decide +kernel, by simp [Returned]⟩

end Verif
