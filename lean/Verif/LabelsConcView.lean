import Verif.LabelsConcStep
/- Observing the concurrent label store from outside, and what follows from its invariant. -/
namespace Verif
open Spec
namespace CSys
open Labels

/-- The section as any reader sees it: words up to the write position. -/
def labels (S : CSys) : Labels := ⟨S.cap, S.mem⟩

/-- Taint value of every label (labels.h 33-35, `read_label`). -/
def graph (S : CSys) : Graph := S.labels.graph

/-- One thread moves, or an idle thread enters a call. -/
inductive Move (S : CSys) : CSys → Prop where
  | step {t S'} : S.step t = some (.ok S') → Move S S'
  | union {t l r} : S.threads t = .idle → S.Known l → S.Known r → Move S (S.callUnion t l r)
  | source {t src off n} : S.threads t = .idle → src < 256 → 0 < n → off + n ≤ 2 ^ 54 →
      Move S (S.callSource t src off n)
  | mark {t x} : S.threads t = .idle → S.Known x → Move S (S.callMark t x)

/-- Any number of moves. -/
inductive Later (S : CSys) : CSys → Prop where
  | refl : Later S S
  | move {S' S''} : Later S S' → Move S' S'' → Later S S''

/-- Some thread is inside `affects_control_flow`. -/
def Busy (S : CSys) : Prop := ∃ t, root (S.threads t) ≠ none

theorem Reach.move {cap : Nat} {S S' : CSys} (h : Reach cap S) (m : Move S S') : Reach cap S' := by
  cases m with
  | step h' => exact .step h h'
  | union a b c => exact .union h a b c
  | source a b c d => exact .source h a b c d
  | mark a b => exact .mark h a b

theorem Reach.later {cap : Nat} {S S' : CSys} (h : Reach cap S) (m : Later S S') : Reach cap S' := by
  induction m with
  | refl => exact h
  | move _ m ih => exact ih.move m

theorem graph_lt {S : CSys} {V : Labels} {tail : List Nat} (h : Inv S V tail) {l : Nat} (hl : l < V.words.length) :
    S.graph l = V.graph l := by
  have e : S.labels = { S.labels with words := V.words ++ tail } := by
    unfold labels; rw [← h.mem]
  show S.labels.graph l = _
  have hc : S.labels = ({ V with words := V.words ++ tail } : Labels) := by
    unfold labels; rw [← h.mem, h.cap]
  rw [hc, graph_append_lt hl]

theorem Inv.sameS {S : CSys} {V : Labels} {tail : List Nat} (h : Inv S V tail) {l : Nat} (hl : l < V.words.length) :
    SameTaint V.graph S.graph l := by
  unfold SameTaint; rw [graph_lt h hl]

theorem Inv.denotesS {S : CSys} {V : Labels} {tail : List Nat} (h : Inv S V tail) {l : Nat} (hl : l < V.words.length)
    (b : Nat × Nat) : Denotes S.graph l b ↔ Denotes V.graph l b :=
  (denotes_congr (n := V.words.length) (h.wf.refs_lt _) (fun _ hx => h.sameS hx) l hl b).symm

theorem Inv.builtS {S : CSys} {V : Labels} {tail : List Nat} (h : Inv S V tail) {l k : Nat} (hl : l < V.words.length) :
    BuiltFrom S.graph l k ↔ BuiltFrom V.graph l k := by
  constructor
  · refine fun hb => builtFrom_congr (n := V.words.length) ?_ (fun _ hx => sameTaint_symm (h.sameS hx)) l k hl hb
    intro x hx t ht
    rw [graph_lt h hx] at ht
    exact h.wf.refs_lt _ x hx t ht
  · exact fun hb => builtFrom_congr (h.wf.refs_lt _) (fun _ hx => h.sameS hx) l k hl hb

theorem Inv.flaggedS {S : CSys} {V : Labels} {tail : List Nat} (h : Inv S V tail) {l : Nat} (hl : l < V.words.length) :
    Flagged S.graph l ↔ Flagged V.graph l := by
  unfold Flagged; rw [graph_lt h hl]

/-- Moves only add published entries and flags. -/
theorem Inv.move {S S' : CSys} {V : Labels} {tail : List Nat} (h : Inv S V tail) (m : Move S S') :
    ∃ V' tail', Inv S' V' tail' ∧ Grows V V' := by
  cases m with
  | step hs =>
    rcases h.step hs with ⟨S1, V', tail', he, hi', hg⟩ | ⟨he, -⟩ | ⟨he, -⟩
    · cases he; exact ⟨V', tail', hi', hg⟩
    · cases he
    · cases he
  | union a b c => exact ⟨V, tail, h.callUnion a b c, Grows.refl V⟩
  | source a b c d => exact ⟨V, tail, h.callSource a b c d, Grows.refl V⟩
  | mark a b => exact ⟨V, tail, h.callMark a b, Grows.refl V⟩

theorem Grows.trans {A B C : Labels} (h1 : Grows A B) (h2 : Grows B C) : Grows A C := by
  refine ⟨h2.cap.trans h1.cap, Nat.le_trans h1.len h2.len, fun l w hw => ?_⟩
  rcases h1.word l w hw with h | h
  · exact h2.word l w h
  · rcases h2.word l _ h with h' | h'
    · exact Or.inr h'
    · rw [C02_addCf_idem] at h'; exact Or.inr h'

theorem Inv.later {S S' : CSys} {V : Labels} {tail : List Nat} (h : Inv S V tail) (m : Later S S') :
    ∃ V' tail', Inv S' V' tail' ∧ Grows V V' := by
  induction m with
  | refl => exact ⟨V, tail, h, Grows.refl V⟩
  | move _ m ih =>
    obtain ⟨V1, t1, h1, g1⟩ := ih
    obtain ⟨V2, t2, h2, g2⟩ := h1.move m
    exact ⟨V2, t2, h2, Grows.trans g1 g2⟩

theorem Later.log {S S' : CSys} (m : Later S S') (hm : ∀ A B, Move A B → ∃ es, B.log = A.log ++ es) :
    ∃ es, S'.log = S.log ++ es := by
  induction m with
  | refl => exact ⟨[], by simp⟩
  | move _ m ih =>
    obtain ⟨a, ha⟩ := ih
    obtain ⟨b, hb⟩ := hm _ _ m
    exact ⟨a ++ b, by rw [hb, ha, List.append_assoc]⟩

/-- A schedule: the threads that move, in order. -/
def run (S : CSys) : List Nat → Option (Res CSys)
  | [] => some (.ok S)
  | t :: ts =>
    match S.step t with
    | some (.ok S') => S'.run ts
    | r => r

theorem Reach.run {cap : Nat} {S S' : CSys} (h : Reach cap S) {ts : List Nat} (hr : S.run ts = some (.ok S')) :
    Reach cap S' := by
  induction ts generalizing S with
  | nil => cases hr; exact h
  | cons t ts ih =>
    unfold CSys.run at hr
    split at hr
    · rename_i S1 h1
      exact ih (.step h h1) hr
    · rename_i h1
      exact absurd hr (h1 S')

/-- Weight of a list of labels. -/
def heavy : List Nat → Nat
  | [] => 0
  | q :: Q => 4 ^ q + heavy Q

theorem heavy_append (a b : List Nat) : heavy (a ++ b) = heavy a + heavy b := by
  induction a with
  | nil => simp [heavy]
  | cons x a ih => simp [heavy, ih]; omega

theorem length_heavy (a : List Nat) : a.length ≤ heavy a := by
  induction a with
  | nil => simp [heavy]
  | cons x a ih => have : 0 < 4 ^ x := Nat.pow_pos (by decide); simp only [List.length_cons, heavy]; omega

theorem heavy_range (f n : Nat) : 3 * heavy ((List.range n).map (f + ·)) + 4 ^ f = 4 ^ (f + n) := by
  induction n with
  | zero => simp [heavy]
  | succ n ih =>
    rw [List.range_succ, List.map_append, heavy_append]
    simp only [List.map_cons, List.map_nil, heavy]
    rw [show f + (n + 1) = (f + n) + 1 by omega, Nat.pow_succ]
    omega

theorem heavy_childList {t : Taint} {l : Nat} (hL : LegalTaint t) (hr : ∀ k, Ref t k → k < l) :
    3 * heavy (childList t) < 4 ^ l := by
  have mono : ∀ a b, a ≤ b → 4 ^ a ≤ 4 ^ b := fun a b h => Nat.pow_le_pow_right (by decide) h
  have pos : ∀ a, 0 < 4 ^ a := fun a => Nat.pow_pos (by decide)
  cases t with
  | source => simp [childList, heavy, pos]
  | range c f m =>
    have hL' : f ≤ m := Nat.le_of_lt hL.1
    have h1 := hr m ⟨hL', Nat.le_refl _⟩
    have h2 := heavy_range f (m + 1 - f)
    have h3 := mono (f + (m + 1 - f)) l (by omega)
    have h4 := pos f
    simp only [childList]; omega
  | union c lo hi =>
    have h1 := hr hi (Or.inr rfl)
    have h2 : lo < hi := by have := hL; simp only [LegalTaint] at this; omega
    have h3 := mono (lo + 1) hi h2
    have h4 := mono (hi + 1) l h1
    rw [Nat.pow_succ] at h3 h4
    have h5 := pos hi
    simp only [childList, heavy]; omega

/-- Upper bound on the number of steps the thread still needs to return from its call. -/
def effort : PC → Nat
  | .idle => 0
  | .uLeft _ _ => redundantLabelRange + 7
  | .uRight _ _ _ => redundantLabelRange + 6
  | .uSize _ _ _ => redundantLabelRange + 5
  | .uScan _ _ _ _ n => n + 4
  | .uAlloc _ _ _ => 3
  | .uWrite _ _ _ _ => 2
  | .uUnlock _ _ _ => 1
  | .sAlloc _ _ n => n + 2
  | .sWrite _ _ n _ k => n - k + 1
  | .mChild _ q c rest => 8 * heavy (content q) + 8 * heavy (c :: rest) + 3 * rest.length + 4
  | .mSrcLoad _ q c rest => 8 * heavy (content q) + 8 * heavy (c :: rest) + 3 * rest.length + 3
  | .mSrcStore _ q c rest _ => 8 * heavy (content q) + 8 * heavy (c :: rest) + 3 * rest.length + 2
  | .mPop _ q => 8 * heavy (content q) + 1
  | .mEnc _ q l => 8 * heavy (content q) + 8 * 4 ^ l
  | .mSetLoad _ q l _ => 8 * heavy (content q) + 8 * 4 ^ l - 1
  | .mSetStore _ q l _ _ => 8 * heavy (content q) + 8 * 4 ^ l - 2

theorem effort_next (x : Nat) (q : LabelDeq) (rest : List Nat) :
    effort (next x q rest) = 8 * heavy (content q) + 8 * heavy rest + 3 * rest.length + 1 := by
  cases rest with
  | nil => simp [next, effort, heavy]
  | cons c rest => simp only [next, effort, List.length_cons]; omega

theorem goto_self (S : CSys) (t : Nat) (pc : PC) : (S.goto t pc).threads t = pc := by simp [CSys.goto]
theorem finish_self (S : CSys) (t : Nat) (e : Event) : (S.finish t e).threads t = .idle := by
  simp [CSys.finish, CSys.goto]
theorem goto_other (S : CSys) {t u : Nat} (pc : PC) (h : u ≠ t) : (S.goto t pc).threads u = S.threads u := by
  simp [CSys.goto, h]
theorem finish_other (S : CSys) {t u : Nat} (e : Event) (h : u ≠ t) :
    (S.finish t e).threads u = S.threads u := by simp [CSys.finish, CSys.goto, h]

/-- Every step brings the moving thread closer to returning. -/
theorem Inv.effort {S : CSys} {V : Labels} {tail : List Nat} (h : Inv S V tail) {t : Nat} {S' : CSys}
    (hs : S.step t = some (.ok S')) : effort (S'.threads t) < effort (S.threads t) := by
  have hloc := h.loc t
  have pos : ∀ a, 0 < 4 ^ a := fun a => Nat.pow_pos (by decide)
  unfold CSys.step at hs
  cases hpc : S.threads t with
  | idle => rw [hpc] at hs; cases hs
  | uLeft l r =>
    rw [hpc] at hs
    simp only [Option.some.injEq, Res.bind_eq_ok, Res.pure_eq, Res.ok.injEq] at hs
    obtain ⟨_, -, _, -, rfl⟩ := hs
    rw [goto_self]; simp [CSys.effort]
  | uRight l r lv =>
    rw [hpc] at hs
    simp only [Option.some.injEq, Res.bind_eq_ok, Res.pure_eq] at hs
    obtain ⟨_, -, _, -, hs⟩ := hs
    split at hs
    · cases hs; rw [finish_self]; simp [CSys.effort]
    · cases hs; rw [goto_self]; simp [CSys.effort]
  | uSize l r e =>
    rw [hpc] at hs
    simp only at hs
    split at hs
    · cases hs; rw [goto_self]; simp only [CSys.effort]; split <;> omega
    · cases hs
  | uScan l r e i n =>
    rw [hpc] at hs
    cases n with
    | zero => cases hs; rw [goto_self]; simp [CSys.effort]
    | succ n =>
      simp only [Option.some.injEq, Res.bind_eq_ok, Res.pure_eq] at hs
      obtain ⟨_, -, hs⟩ := hs
      split at hs
      · cases hs; rw [finish_self]; simp [CSys.effort]
      · cases hs; rw [goto_self]; simp [CSys.effort]
  | uAlloc l r e =>
    rw [hpc] at hs
    simp only at hs
    split at hs
    · split at hs
      · cases hs; rw [goto_self]; simp [CSys.effort]
      · cases hs
    · cases hs
  | uWrite l r e idx =>
    rw [hpc] at hs
    simp only at hs
    split at hs
    · cases hs; rw [goto_self]; simp [CSys.effort]
    · cases hs
  | uUnlock l r idx =>
    rw [hpc] at hs
    cases hs; rw [finish_self]; simp [CSys.effort]
  | sAlloc src off n =>
    rw [hpc] at hs
    simp only at hs
    split at hs
    · split at hs
      · cases hs; rw [goto_self]; simp [CSys.effort]
      · cases hs
    · cases hs
  | sWrite src off n first k =>
    rw [hpc] at hs
    simp only at hs
    split at hs
    · split at hs
      · cases hs; rw [goto_self]; simp only [CSys.effort]; omega
      · cases hs
    · cases hs; rw [finish_self]; simp [CSys.effort]
  | mChild x q c rest =>
    have := pos c
    rw [hpc] at hs hloc
    obtain ⟨hq, -⟩ := (hloc : Marking V x q (.mChild x q c rest))
    simp only [Option.some.injEq, Res.bind_eq_ok, Res.pure_eq] at hs
    obtain ⟨_, -, hs⟩ := hs
    split at hs
    · cases hs; rw [goto_self, effort_next]; simp only [CSys.effort, heavy]; omega
    · split at hs
      · cases hs; rw [goto_self]; simp only [CSys.effort]; omega
      · obtain ⟨q', hq', hh⟩ := LabelDeq.pushBack_holds hq c
        obtain ⟨-, hcont⟩ := holds_content hh
        rw [hq'] at hs
        simp only [Res.bind_ok] at hs
        cases hs; rw [goto_self, effort_next]
        simp only [CSys.effort, hcont, heavy_append, heavy]; omega
  | mSrcLoad x q c rest =>
    rw [hpc] at hs
    simp only [Option.some.injEq, Res.bind_eq_ok, Res.pure_eq] at hs
    obtain ⟨_, -, hs⟩ := hs
    cases hs; rw [goto_self]; simp only [CSys.effort]; omega
  | mSrcStore x q c rest w =>
    have := pos c
    rw [hpc] at hs
    simp only at hs
    split at hs
    · cases hs; rw [goto_self, effort_next]; simp only [CSys.effort, heavy]; omega
    · cases hs
  | mPop x q =>
    rw [hpc] at hs hloc
    obtain ⟨hq, -⟩ := (hloc : Marking V x q (.mPop x q))
    simp only [Option.some.injEq] at hs
    split at hs
    · cases hs; rw [finish_self]; simp [CSys.effort]
    · rename_i hne
      have hem := LabelDeq.isEmpty_holds hq
      cases hcont : content q with
      | nil => rw [hcont] at hem; exact absurd hem hne
      | cons l ls =>
        unfold ValidQ at hq
        rw [hcont] at hq
        obtain ⟨q', hpop, hh⟩ := LabelDeq.popFront_holds hq
        obtain ⟨-, hc'⟩ := holds_content hh
        rw [hpop] at hs
        cases hs; rw [goto_self]; simp only [CSys.effort, hcont, hc', heavy]; omega
  | mEnc x q l =>
    rw [hpc] at hs
    simp only [Option.some.injEq, Res.bind_eq_ok, Res.pure_eq] at hs
    obtain ⟨_, -, hs⟩ := hs
    have := pos l
    cases hs; rw [goto_self]; simp only [CSys.effort]; omega
  | mSetLoad x q l e =>
    rw [hpc] at hs
    simp only [Option.some.injEq, Res.bind_eq_ok, Res.pure_eq] at hs
    obtain ⟨_, -, hs⟩ := hs
    have := pos l
    cases hs; rw [goto_self]; simp only [CSys.effort]; omega
  | mSetStore x q l e w =>
    rw [hpc] at hs hloc
    obtain ⟨-, ⟨ty, u, hd, hg, hsame⟩, -⟩ := hloc
    simp only at hs
    split at hs
    · simp only [hd, Res.bind_ok, Res.pure_eq] at hs
      have hu := h.wf.refs hg
      have hL : LegalTaint ty := by rw [withFlag_eq_cases hsame, LegalTaint_withFlag]; exact hu.2.2.1
      have h1 := heavy_childList (l := l) hL (fun k hk => (hu.2.2.2 k ((Ref_congr_flag hsame k).2 hk)).2)
      have h2 := length_heavy (childList ty)
      have := pos l
      cases hs; rw [goto_self, effort_next]; simp only [CSys.effort]; omega
    · cases hs

/-- A step only moves its own thread and may complete its call. -/
theorem step_shape {S S' : CSys} {t : Nat} (hs : S.step t = some (.ok S')) :
    (∃ A : CSys, ∃ pc, S' = A.goto t pc ∧ A.threads = S.threads ∧ A.log = S.log) ∨
    (∃ A : CSys, ∃ e, S' = A.finish t e ∧ A.threads = S.threads ∧ A.log = S.log) := by
  unfold CSys.step at hs
  cases hpc : S.threads t with
  | idle => rw [hpc] at hs; cases hs
  | _ =>
    rw [hpc] at hs
    simp only [Option.some.injEq, Res.bind_eq_ok, Res.pure_eq, Res.ok.injEq] at hs
    repeat' (first
      | (split at hs)
      | (simp only [Option.some.injEq, Res.bind_eq_ok, Res.ok.injEq, reduceCtorEq] at hs; done)
      | (simp only [Option.some.injEq, Res.bind_eq_ok, Res.ok.injEq] at hs)
      | (obtain ⟨_, _, hs⟩ := hs))
    all_goals first
      | exact Or.inl ⟨_, _, hs.symm, rfl, rfl⟩
      | exact Or.inr ⟨_, _, hs.symm, rfl, rfl⟩
      | exact Or.inl ⟨_, _, rfl, rfl, rfl⟩
      | exact Or.inr ⟨_, _, rfl, rfl, rfl⟩

theorem step_other {S S' : CSys} {t u : Nat} (hs : S.step t = some (.ok S')) (hu : u ≠ t) :
    S'.threads u = S.threads u := by
  rcases step_shape hs with ⟨A, pc, rfl, h1, h2⟩ | ⟨A, e, rfl, h1, h2⟩
  · rw [goto_other _ _ hu, h1]
  · rw [finish_other _ _ hu, h1]

/-- Calls already returned stay in the log. -/
theorem Move.log {S S' : CSys} (m : Move S S') : ∃ es, S'.log = S.log ++ es := by
  cases m with
  | step hs =>
    rcases step_shape hs with ⟨A, pc, rfl, h1, h2⟩ | ⟨A, e, rfl, h1, h2⟩
    · exact ⟨[], by simp [CSys.goto, h2]⟩
    · exact ⟨[e], by simp [CSys.finish, h2]⟩
  | @union t l r =>
    unfold CSys.callUnion
    split
    · exact ⟨[_], rfl⟩
    · exact ⟨[], by simp [CSys.goto]⟩
  | source => exact ⟨[], by simp [CSys.callSource, CSys.goto]⟩
  | mark => exact ⟨[], by simp [CSys.callMark, CSys.goto]⟩

end CSys
end Verif
