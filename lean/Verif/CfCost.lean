import Verif.HistoryLemmas
/-
Helper lemmas for C10: a family of label stores on which marking takes exponentially many loop
iterations. Labels come in layers of six: the odd positions of layer k+1 are the three pairwise
unions of the odd positions of layer k; the even positions are input bytes that keep the labels
non-adjacent.
-/
namespace Verif
open Spec
namespace Labels

/-- Taint value of label `x` in the family. -/
def famT (x : Nat) : Taint :=
  if x ≤ 6 then .source false 0 x
  else if (x - 1) % 6 = 0 then .union false (x - 6) (x - 4)
  else if (x - 1) % 6 = 2 then .union false (x - 6) (x - 4)
  else if (x - 1) % 6 = 4 then .union false (x - 10) (x - 6)
  else .source false 0 x

/-- The call that creates label `x`. -/
def famOp (x : Nat) : Op :=
  match famT x with
  | .source _ _ _ => .source 0 x 1
  | .union _ lo hi => .union lo hi
  | .range _ _ _ => .mark 0

structure Fam (cap m : Nat) (L : Labels) : Prop where
  reach : ∃ es, Reach cap es L
  len : L.words.length = m
  graph : ∀ x, 0 < x → x < m → L.graph x = some (famT x)

theorem famT_cases (x : Nat) : famT x = .source false 0 x ∨
    ∃ lo hi, famT x = .union false lo hi ∧ 6 < x ∧ 0 < lo ∧ lo + 1 < hi ∧ hi < x := by
  unfold famT
  repeat' split
  · exact Or.inl rfl
  · exact Or.inr ⟨_, _, rfl, by omega, by omega, by omega, by omega⟩
  · exact Or.inr ⟨_, _, rfl, by omega, by omega, by omega, by omega⟩
  · exact Or.inr ⟨_, _, rfl, by omega, by omega, by omega, by omega⟩
  · exact Or.inl rfl

theorem famT_inj {x y lo hi : Nat} (hx : famT x = .union false lo hi)
    (hy : famT y = .union false lo hi) : x = y := by
  unfold famT at hx hy
  split at hx
  · cases hx
  split at hy
  · cases hy
  repeat' split at hx
  all_goals (first | (cases hx; done) | skip)
  all_goals (repeat' split at hy)
  all_goals (first | (cases hy; done) | skip)
  all_goals (simp only [Taint.union.injEq, true_and] at hx hy; omega)

theorem famT_flag (x : Nat) : flagOf (famT x) = false := by
  rcases famT_cases x with h | ⟨lo, hi, h, -⟩ <;> rw [h] <;> rfl

theorem famT_noflag (x : Nat) : withFlag false (famT x) = famT x := by
  rcases famT_cases x with h | ⟨lo, hi, h, -⟩ <;> rw [h] <;> rfl

theorem computeUU {l r a b c d : Nat} (h1 : b ≠ r) (h2 : a ≠ r) (h3 : d ≠ l) (h4 : c ≠ l)
    (h5 : ¬ (b = d ∧ a = c)) (h6 : l + 1 < r) :
    compute l (.union false a b) r (.union false c d) = .taint (.union false l r) := by
  have e1 : ¬ l + 1 = r := by omega
  have e2 : ¬ r + 1 = l := by omega
  have e3 : l < r := by omega
  simp [compute, enclosesUL, unionLabels, mkUnion, h1, h2, h3, h4, h5, e1, e2, e3]

/-- Combining two labels of one layer stores a union node. -/
theorem fam_compute {x lo hi : Nat} (h : famT x = .union false lo hi) :
    compute lo (famT lo) hi (famT hi) = .taint (.union false lo hi) := by
  have hx : ¬ x ≤ 6 := by
    intro hx; simp [famT, hx] at h
  have hcase : ∃ k, (lo = 6 * k + 1 ∧ hi = 6 * k + 3) ∨ (lo = 6 * k + 3 ∧ hi = 6 * k + 5) ∨
      (lo = 6 * k + 1 ∧ hi = 6 * k + 5) := by
    refine ⟨(x - 7) / 6, ?_⟩
    unfold famT at h
    rw [if_neg hx] at h
    repeat' split at h
    all_goals (first | (cases h; done) | skip)
    all_goals (simp only [Taint.union.injEq, true_and] at h; omega)
  obtain ⟨k, hk⟩ := hcase
  by_cases hk0 : k = 0
  · subst hk0
    rcases hk with ⟨rfl, rfl⟩ | ⟨rfl, rfl⟩ | ⟨rfl, rfl⟩ <;> decide
  · have e1 : famT (6 * k + 1) = .union false (6 * k - 5) (6 * k - 3) := by
      unfold famT
      rw [if_neg (by omega), if_pos (by omega)]; congr 1
    have e2 : famT (6 * k + 3) = .union false (6 * k - 3) (6 * k - 1) := by
      unfold famT
      rw [if_neg (by omega), if_neg (by omega), if_pos (by omega)]; congr 1
    have e3 : famT (6 * k + 5) = .union false (6 * k - 5) (6 * k - 1) := by
      unfold famT
      rw [if_neg (by omega), if_neg (by omega), if_neg (by omega), if_pos (by omega)]; congr 1
    rcases hk with ⟨rfl, rfl⟩ | ⟨rfl, rfl⟩ | ⟨rfl, rfl⟩
    · rw [e1, e2]; exact computeUU (by omega) (by omega) (by omega) (by omega) (by omega) (by omega)
    · rw [e2, e3]; exact computeUU (by omega) (by omega) (by omega) (by omega) (by omega) (by omega)
    · rw [e1, e3]; exact computeUU (by omega) (by omega) (by omega) (by omega) (by omega) (by omega)

theorem fam_init {cap : Nat} (h0 : 0 < cap) : Fam cap 1 (init cap) :=
  ⟨⟨[], .nil _⟩, by rw [(init_words h0).1]; rfl, fun x _ _ => by omega⟩

theorem fam_step {cap m : Nat} {L : Labels} (h0 : 0 < cap) (hcap : cap ≤ 2 ^ 31) (hm : m < cap)
    (h : Fam cap m L) : ∃ L', Fam cap (m + 1) L' := by
  obtain ⟨es, hr⟩ := h.reach
  have hg := hr.good h0 hcap
  have hwf := hg.wf
  have hc := hr.cap h0 hcap
  have hlen := h.len
  have hm0 : 0 < m := by have := hwf.nonempty; omega
  rcases famT_cases m with ht | ⟨lo, hi, ht, hm6, hlo, hlh, hhi⟩
  · have ha : L.Allowed (.source 0 m 1) := ⟨by omega, by omega, by omega, by omega⟩
    obtain ⟨L', e, hwf', hlen', hcap', hold, hnew⟩ :=
      createSourceLabels_spec hwf ha.2.1 ha.1 ha.2.2.1 ha.2.2.2
    refine ⟨L', ⟨_, .snoc hr ha (by simp [exec, e]; rfl)⟩, by omega, ?_⟩
    intro x hx0 hx
    by_cases hxm : x < m
    · rw [graph_congr_words (hold x (by omega))]; exact h.graph x hx0 hxm
    · have hxe : x = m := by omega
      subst hxe
      have := hnew 0 (by omega)
      rw [Nat.add_zero, Nat.add_zero, hlen] at this
      rw [this, ht]
  · have ha : L.Allowed (.union lo hi) := ⟨by omega, by omega, by omega, by omega⟩
    have glo := h.graph lo (by omega) (by omega)
    have ghi := h.graph hi (by omega) (by omega)
    have hok : OkAt L.words.length (.union false lo hi) :=
      ⟨⟨hlh, by omega⟩, fun k hk => by rcases hk with rfl | rfl <;> omega, rfl⟩
    have hdup : L.duplicateCheck (max lo hi) (encode (.union false lo hi)) = none := by
      cases hd : L.duplicateCheck (max lo hi) (encode (.union false lo hi)) with
      | none => rfl
      | some d =>
        obtain ⟨h1, h2, u, hu, hfl⟩ := duplicateCheck_some hwf hok (by omega) hd
        rw [h.graph d (by omega) (by omega)] at hu
        cases hu
        rw [famT_noflag] at hfl
        have := famT_inj hfl ht
        omega
    obtain ⟨L', hcon, hL', hwf', hgn⟩ := construct_spec hwf hok (by omega)
    have hexec : L.exec (.union lo hi) = .ok (L', .union lo hi m) := by
      have hne : lo ≠ hi := by omega
      simp only [exec, unionTaint, if_neg hne, readLabel_eq glo, readLabel_eq ghi, Res.bind_ok,
        fam_compute ht, hdup, hcon, Res.pure_eq, hlen]
    refine ⟨L', ⟨_, .snoc hr ha hexec⟩, by simp [hL', hlen], ?_⟩
    intro x hx0 hx
    by_cases hxm : x < m
    · rw [hL', graph_append_lt (by omega)]; exact h.graph x hx0 hxm
    · have hxe : x = m := by omega
      subst hxe
      rw [hlen] at hgn
      rw [hgn, ht]

theorem fam_exists {cap : Nat} (h0 : 0 < cap) (hcap : cap ≤ 2 ^ 31) :
    ∀ m, 0 < m → m ≤ cap → ∃ L, Fam cap m L := by
  intro m
  induction m with
  | zero => intro h; omega
  | succ m ih =>
    intro _ hm
    by_cases hm0 : m = 0
    · subst hm0; exact ⟨_, fam_init h0⟩
    · obtain ⟨L, hL⟩ := ih (by omega) (by omega)
      exact fam_step h0 hcap (by omega) hL

/-- Node of layer `K`: odd position. -/
def Node (K x : Nat) : Prop := x = 6 * K + 1 ∨ x = 6 * K + 3 ∨ x = 6 * K + 5

theorem node_famT {K x : Nat} (h : Node (K + 1) x) : ∃ lo hi, famT x = .union false lo hi ∧
    Node K lo ∧ Node K hi := by
  have hx : ¬ x ≤ 6 := by unfold Node at h; omega
  unfold famT Node at *
  rw [if_neg hx]
  rcases h with rfl | rfl | rfl
  · rw [if_pos (by omega)]; exact ⟨_, _, rfl, by omega, by omega⟩
  · rw [if_neg (by omega), if_pos (by omega)]; exact ⟨_, _, rfl, by omega, by omega⟩
  · rw [if_neg (by omega), if_neg (by omega), if_pos (by omega)]
    exact ⟨_, _, rfl, by omega, by omega⟩

theorem node_zero_famT {x : Nat} (h : Node 0 x) : famT x = .source false 0 x := by
  unfold Node at h; unfold famT; rw [if_pos (by omega)]

/-- Store of the family in which only labels of layers `≥ K` may carry flags. -/
structure Clean (m K : Nat) (L : Labels) : Prop where
  wf : L.WF
  len : L.words.length = m
  graph : ∀ x, 0 < x → x < m → ∃ c, L.graph x = some (withFlag c (famT x))
  clean : ∀ x, 0 < x → x < m → x ≤ 6 * K → L.graph x = some (famT x)

theorem Clean.lower {m K J : Nat} {L : Labels} (h : Clean m K L) (hJ : J ≤ K) : Clean m J L :=
  ⟨h.wf, h.len, h.graph, fun x h1 h2 h3 => h.clean x h1 h2 (by omega)⟩

theorem Clean.setCf {m K l : Nat} {L : Labels} (h : Clean m K L) (hl : 6 * K < l) (hlm : l < m) :
    ∃ L', L.setCf l = .ok L' ∧ Clean m K L' := by
  obtain ⟨c, hg⟩ := h.graph l (by omega) hlm
  obtain ⟨L', h1, h2, h3, h4, h5⟩ := setCf_spec h.wf hg
  refine ⟨L', h1, h2, by rw [h3.len, h.len], ?_, ?_⟩
  · intro x hx0 hx
    by_cases hxl : x = l
    · subst hxl
      refine ⟨true, ?_⟩
      rw [h4]; cases famT x <;> rfl
    · rw [h5 x hxl]; exact h.graph x hx0 hx
  · intro x hx0 hx hxK
    rw [h5 x (by omega)]; exact h.clean x hx0 hx hxK

/-- Visiting an unflagged union pushes it. -/
theorem visit_push {L : Labels} {c lo hi : Nat} {q : LabelDeq} {Q : List Nat}
    (hg : L.graph c = some (.union false lo hi)) (hq : q.Holds queueSlots Q) :
    ∃ q', visitChild (L, q) c = .ok (L, q') ∧ q'.Holds queueSlots (Q ++ [c]) := by
  obtain ⟨w, hw, hd⟩ := graph_eq_some.1 hg
  have h1 : checkCf w = false := C02_checkCf w _ hd
  have h2 : isSourceTaint w = false := by
    have := C02_isSource w _ hd
    simp only [reduceCtorEq, exists_false, iff_false, Bool.not_eq_true] at this
    exact this
  obtain ⟨q', hp, hq'⟩ := LabelDeq.pushBack_holds hq c
  refine ⟨q', ?_, hq'⟩
  simp only [visitChild, addToQ, getRes_eq_ok.2 hw, Res.bind_ok, h1, h2, Bool.false_eq_true,
    if_false, Res.pure_eq, if_true, hp]

/-- Visiting a source does not change the queue, and touches only that label. -/
theorem visit_source {m c i o : Nat} {cf : Bool} {L : Labels} {q : LabelDeq} (h : Clean m 0 L)
    (hc0 : 0 < c) (hc : c < m) (hg : L.graph c = some (.source cf i o)) :
    ∃ L', visitChild (L, q) c = .ok (L', q) ∧ Clean m 0 L' := by
  obtain ⟨w, hw, hd⟩ := graph_eq_some.1 hg
  have h2 : isSourceTaint w = true := (C02_isSource w _ hd).2 ⟨_, _, _, rfl⟩
  by_cases h1 : checkCf w = true
  · refine ⟨L, ?_, h⟩
    simp only [visitChild, addToQ, getRes_eq_ok.2 hw, Res.bind_ok, h1, Bool.false_eq_true,
      if_false, Res.pure_eq, if_true]
  · obtain ⟨L', hs, hc'⟩ := Clean.setCf h (l := c) (by omega) hc
    refine ⟨L', ?_, hc'⟩
    simp only [visitChild, addToQ, getRes_eq_ok.2 hw, Res.bind_ok, h1, h2, Bool.false_eq_true,
      if_false, Res.pure_eq, if_true, hs]

theorem step_upper {m K l : Nat} {L : Labels} {q : LabelDeq} {Q : List Nat}
    (h : Clean m (K + 2) L) (hl : Node (K + 2) l) (hlm : l < m)
    (hq : q.Holds queueSlots (l :: Q)) :
    ∃ L' q' lo hi, cfStep (L, q) = .ok (L', q') ∧ Clean m (K + 2) L' ∧
      q'.Holds queueSlots (Q ++ [lo, hi]) ∧ Node (K + 1) lo ∧ Node (K + 1) hi := by
  obtain ⟨lo, hi, ht, hlo, hhi⟩ := node_famT hl
  obtain ⟨lo1, hi1, ht1, -, -⟩ := node_famT hlo
  obtain ⟨lo2, hi2, ht2, -, -⟩ := node_famT hhi
  have hl6 : 6 * (K + 2) < l := by unfold Node at hl; omega
  obtain ⟨c, hg⟩ := h.graph l (by omega) hlm
  obtain ⟨w, hw, hd⟩ := graph_eq_some.1 hg
  obtain ⟨q1, hp, hq1⟩ := LabelDeq.popFront_holds hq
  obtain ⟨L1, hs, hc1⟩ := h.setCf hl6 hlm
  have glo : L1.graph lo = some (.union false lo1 hi1) := by
    rw [hc1.clean lo (by unfold Node at hlo; omega) (by unfold Node at hlo; omega)
      (by unfold Node at hlo; omega), ht1]
  have ghi : L1.graph hi = some (.union false lo2 hi2) := by
    rw [hc1.clean hi (by unfold Node at hhi; omega) (by unfold Node at hhi; omega)
      (by unfold Node at hhi; omega), ht2]
  obtain ⟨q2, hv2, hq2⟩ := visit_push glo hq1
  obtain ⟨q3, hv3, hq3⟩ := visit_push ghi hq2
  refine ⟨L1, q3, lo, hi, ?_, hc1, by simpa using hq3, hlo, hhi⟩
  rw [ht] at hd
  simp only [cfStep, hp, Res.bind_ok, getRes_eq_ok.2 hw, hs, hd, withFlag, childList, visitAll,
    hv2, hv3]

theorem step_bottom {m l : Nat} {L : Labels} {q : LabelDeq} {Q : List Nat}
    (h : Clean m 0 L) (hl : Node 1 l) (hlm : l < m) (hq : q.Holds queueSlots (l :: Q)) :
    ∃ L' q', cfStep (L, q) = .ok (L', q') ∧ Clean m 0 L' ∧ q'.Holds queueSlots Q := by
  obtain ⟨lo, hi, ht, hlo, hhi⟩ := node_famT hl
  have hl6 : 0 < l := by unfold Node at hl; omega
  obtain ⟨c, hg⟩ := h.graph l (by omega) hlm
  obtain ⟨w, hw, hd⟩ := graph_eq_some.1 hg
  obtain ⟨q1, hp, hq1⟩ := LabelDeq.popFront_holds hq
  obtain ⟨L1, hs, hc1⟩ := h.setCf (by omega) hlm
  have hlt : ∀ x, Node 0 x → 0 < x ∧ x < m := by
    intro x hx; unfold Node at hx hl; omega
  obtain ⟨c1, g1⟩ := hc1.graph lo (hlt lo hlo).1 (hlt lo hlo).2
  rw [node_zero_famT hlo] at g1
  obtain ⟨L2, hv2, hc2⟩ := visit_source (q := q1) hc1 (hlt lo hlo).1 (hlt lo hlo).2 g1
  obtain ⟨c2, g2⟩ := hc2.graph hi (hlt hi hhi).1 (hlt hi hhi).2
  rw [node_zero_famT hhi] at g2
  obtain ⟨L3, hv3, hc3⟩ := visit_source (q := q1) hc2 (hlt hi hhi).1 (hlt hi hhi).2 g2
  refine ⟨L3, q1, ?_, hc3, hq1⟩
  rw [ht] at hd
  simp only [cfStep, hp, Res.bind_ok, getRes_eq_ok.2 hw, hs, hd, withFlag, childList, visitAll,
    hv2, hv3]

/-- Iterations needed for `a` queued nodes of layer `K+1` followed by `b` of layer `K`. -/
def iters (K a b : Nat) : Nat := a + (b + 2 * a) * (2 ^ K - 1)

theorem loop_hang {m : Nat} : ∀ (fuel K : Nat) (A B : List Nat) (L : Labels) (q : LabelDeq),
    Clean m (if K = 0 then 0 else K + 1) L → q.Holds queueSlots (A ++ B) →
    (∀ x ∈ A, Node (K + 1) x ∧ x < m) → (∀ x ∈ B, Node K x ∧ x < m) → (K = 0 → B = []) →
    fuel < iters K A.length B.length → cfLoop fuel (L, q) = .hang := by
  intro fuel
  induction fuel with
  | zero =>
    intro K A B L q _ hq _ _ _ hf
    have : A ++ B ≠ [] := by
      intro h
      obtain ⟨rfl, rfl⟩ := List.append_eq_nil_iff.1 h
      simp [iters] at hf
    have he := LabelDeq.isEmpty_holds hq
    have he' : q.isEmpty = false := by rw [he]; simpa using this
    unfold cfLoop; simp [he']
  | succ n ih =>
    have main : ∀ (K : Nat) (a : Nat) (A B : List Nat) (L : Labels) (q : LabelDeq),
        Clean m (if K = 0 then 0 else K + 1) L → q.Holds queueSlots (a :: A ++ B) →
        (∀ x ∈ a :: A, Node (K + 1) x ∧ x < m) → (∀ x ∈ B, Node K x ∧ x < m) →
        (K = 0 → B = []) →
        n + 1 < iters K (a :: A).length B.length → cfLoop (n + 1) (L, q) = .hang := by
      intro K a A B L q hc hq hA hB hK hf
      have he := LabelDeq.isEmpty_holds hq
      have he' : q.isEmpty = false := by rw [he]; rfl
      unfold cfLoop
      simp only [he', Bool.false_eq_true, if_false]
      have ha := hA a (by simp)
      cases K with
      | zero =>
        obtain ⟨L', q', h1, h2, h3⟩ := step_bottom hc ha.1 ha.2 hq
        rw [h1]
        simp only [Res.bind_ok]
        refine ih 0 A B L' q' h2 h3 (fun x hx => hA x (by simp [hx])) hB hK ?_
        simp [iters] at hf ⊢; omega
      | succ K =>
        obtain ⟨L', q', lo, hi, h1, h2, h3, h4, h5⟩ := step_upper hc ha.1 ha.2 hq
        rw [h1]
        simp only [Res.bind_ok]
        refine ih (K + 1) A (B ++ [lo, hi]) L' q' h2 (by simpa using h3)
          (fun x hx => hA x (by simp [hx])) ?_ (by simp) ?_
        · intro x hx
          rw [List.mem_append] at hx
          rcases hx with hx | hx
          · exact hB x hx
          · have ham := ha.2
            have ha1 := ha.1
            simp only [List.mem_cons, List.not_mem_nil, or_false] at hx
            rcases hx with rfl | rfl
            · exact ⟨h4, by unfold Node at h4 ha1; omega⟩
            · exact ⟨h5, by unfold Node at h5 ha1; omega⟩
        · simp only [iters, List.length_cons, List.length_append, List.length_nil] at hf ⊢
          have e : B.length + (0 + 1 + 1) + 2 * A.length = B.length + 2 * (A.length + 1) := by omega
          rw [e]; omega
    intro K A B L q hc hq hA hB hK hf
    cases A with
    | cons a A => exact main K a A B L q hc hq hA hB hK hf
    | nil =>
      cases K with
      | zero => simp [iters] at hf
      | succ K =>
        cases B with
        | nil => simp [iters] at hf
        | cons b B =>
          refine main K b B [] L q ?_ (by simpa using hq) hB (by simp) (fun _ => rfl) ?_
          · split
            · exact hc.lower (by omega)
            · exact hc.lower (by simp)
          · simp only [iters, List.length_cons, List.length_nil, Nat.mul_zero, Nat.zero_add,
              Nat.add_zero] at hf ⊢
            have h2 : 2 ^ (K + 1) - 1 = 2 * (2 ^ K - 1) + 1 := by
              have := Nat.two_pow_pos K
              rw [Nat.pow_succ]; omega
            rw [h2] at hf
            rw [Nat.mul_add, Nat.mul_one] at hf
            have h3 : (B.length + 1) * (2 * (2 ^ K - 1)) = 2 * (B.length + 1) * (2 ^ K - 1) := by
              rw [← Nat.mul_assoc, Nat.mul_comm (B.length + 1) 2]
            rw [h3] at hf
            omega

theorem fam_mark_hang {cap m K : Nat} {L : Labels} (h0 : 0 < cap) (hcap : cap ≤ 2 ^ 31)
    (h : Fam cap m L) (hm : 6 * (K + 1) + 1 < m) (fuel : Nat) (hf : fuel < 2 ^ (K + 1) - 1) :
    L.affectsControlFlowIn fuel (6 * (K + 1) + 1) = .hang := by
  obtain ⟨es, hr⟩ := h.reach
  have hwf := (hr.good h0 hcap).wf
  have hclean : Clean m (if K = 0 then 0 else K + 1) L :=
    ⟨hwf, h.len, fun x h1 h2 => ⟨false, by rw [famT_noflag]; exact h.graph x h1 h2⟩,
      fun x h1 h2 _ => h.graph x h1 h2⟩
  have hnode : Node (K + 1) (6 * (K + 1) + 1) := Or.inl rfl
  obtain ⟨lo, hi, ht, -, -⟩ := node_famT hnode
  have hg := h.graph (6 * (K + 1) + 1) (by omega) hm
  rw [ht] at hg
  obtain ⟨w, hw, hd⟩ := graph_eq_some.1 hg
  have h1 : checkCf w = false := C02_checkCf w _ hd
  have h2 : isSourceTaint w = false := by
    have := C02_isSource w _ hd
    simp only [reduceCtorEq, exists_false, iff_false, Bool.not_eq_true] at this
    exact this
  obtain ⟨q, hp, hq⟩ := LabelDeq.pushBack_holds
    (LabelDeq.new_holds (N := queueSlots) (by decide)) (6 * (K + 1) + 1)
  simp only [affectsControlFlowIn, addToQ, getRes_eq_ok.2 hw, Res.bind_ok, h1, h2,
    Bool.false_eq_true, if_false, Res.pure_eq, if_true, hp]
  refine loop_hang fuel K [6 * (K + 1) + 1] [] L q hclean (by simpa using hq) ?_ (by simp)
    (fun _ => rfl) ?_
  · intro x hx
    simp at hx
    subst hx
    exact ⟨hnode, hm⟩
  · simp only [iters, List.length_cons, List.length_nil, Nat.zero_add, Nat.mul_one]
    have := Nat.two_pow_pos K
    rw [Nat.pow_succ] at hf
    omega

end Labels
end Verif
