import Verif.PyCfgSpec
/- C87: questions about control flow. -/
namespace Verif
open Spec PyGraph PyCfg

/-- The blocks of a trace fit together: children and predecessors are sets of its blocks, and say the same. -/
structure PyCfg.Blocks.Ok (B : Blocks) : Prop where
  preds : ∀ p n, p ∈ B.preds n ↔ p ∈ B.all ∧ n ∈ B.all ∧ n ∈ B.children p
  inside : ∀ b ∈ B.all, ∀ c ∈ B.children b, c ∈ B.all
  nodup : ∀ n, (B.preds n).Nodup
  all : B.all.Nodup

/-- Control can go from `a` to `b`. -/
def PyCfg.Blocks.Jump (B : Blocks) (a b : Nat) : Prop := a ∈ B.preds b

theorem PyCfg.Blocks.Ok.cfg {B : Blocks} (h : B.Ok) :
    B.cfg.Wf ∧ B.cfg.E = B.Jump ∧ ∀ x, x ∈ B.cfg.nodes ↔ x ∈ B.all := by
  obtain ⟨h1, h2, h3⟩ := build_spec B.all B.children
  refine ⟨h1, ?_, fun x => ?_⟩
  · funext x y
    apply propext
    show (build B.all B.children).E x y ↔ x ∈ B.preds y
    rw [h2, h.preds]
    exact ⟨fun ⟨a, b⟩ => ⟨a, h.inside x a y b, b⟩, fun ⟨a, _, b⟩ => ⟨a, b⟩⟩
  · show x ∈ (build B.all B.children).nodes ↔ _
    rw [h3]
    constructor
    · rintro (h' | ⟨b, hb, hc⟩)
      · exact h'
      · exact h.inside b hb x hc
    · exact .inl

theorem PyCfg.Blocks.Ok.rooted {B : Blocks} (h : B.Ok) {r : Nat} (hr : r ∈ B.all) (htop : B.preds r = [])
    (hreach : ∀ x ∈ B.all, Linked B.Jump r x) : Rooted B.cfg.E B.cfg.nodes r := by
  obtain ⟨h1, h2, h3⟩ := h.cfg
  refine ⟨(h3 r).2 hr, fun p hp => ?_, fun x hx => ?_, fun x y he => ?_⟩
  · rw [h2] at hp
    have : p ∈ B.preds r := hp
    rw [htop] at this; cases this
  · rw [h2]; exact hreach x ((h3 x).1 hx)
  · exact ⟨(h1.ends x y he).1, (h1.ends x y he).2⟩

/-- What is_loop_entry computes when all blocks can be reached from a single root: whether the immediate dominator is
a predecessor and there is another one, both in the function of the block. There is no exception. -/
theorem C87_loop_computed (X : Nx) (hX : X.Ok) (B : Blocks) (hB : B.Ok) (r n : Nat) (hr : r ∈ B.all) (htop : B.preds r = [])
    (hreach : ∀ x ∈ B.all, Linked B.Jump r x) (hn : n ∈ B.all) :
    ∃ b, B.isLoopEntry X n = some b ∧ (b = true ↔ ∃ p q, IDom B.Jump r p n ∧ B.Jump p n ∧ B.fn p = B.fn n ∧
      B.Jump q n ∧ B.fn q = B.fn n ∧ q ≠ p) := by
  obtain ⟨h1, h2, h3⟩ := hB.cfg
  have hroot := hB.rooted hr htop hreach
  obtain ⟨f1, f2, f3, -⟩ := forest_spec hX h1 hroot
  rw [h2] at f2
  have hnd : ((B.preds n).filter (fun p => decide (B.fn n = B.fn p))).Nodup := (hB.nodup n).sublist List.filter_sublist
  have hmem : ∀ p, p ∈ (B.preds n).filter (fun p => decide (B.fn n = B.fn p)) ↔ B.Jump p n ∧ B.fn p = B.fn n := by
    intro p
    simp only [List.mem_filter, decide_eq_true_eq]
    exact ⟨fun ⟨a, b⟩ => ⟨a, b.symm⟩, fun ⟨a, b⟩ => ⟨a, b.symm⟩⟩
  have htwo := two_le_length hnd
  unfold Blocks.isLoopEntry
  by_cases hlen : ((B.preds n).filter (fun p => decide (B.fn n = B.fn p))).length < 2
  · refine ⟨false, if_pos hlen, by simp, ?_⟩
    rintro ⟨p, q, -, a, b, c, d, e⟩
    have := htwo.2 ⟨q, p, (hmem q).2 ⟨c, d⟩, (hmem p).2 ⟨a, b⟩, e⟩
    omega
  · have hnr : n ≠ r := by
      rintro rfl
      apply hlen
      rw [htop]; simp
    have hnf := f3 n ((h3 n).2 hn) hnr
    obtain ⟨d, hd⟩ := idom_exists (hreach n hn) hnr
    have hpred : ∀ p, p ∈ (forest X B.cfg).preds n ↔ p = d := by
      intro p
      rw [mem_preds, f2]
      exact ⟨fun h => h.unique hd, fun h => h ▸ hd⟩
    simp only [if_neg hlen]
    rw [if_neg (by simpa using hnf)]
    by_cases hdp : B.Jump d n ∧ B.fn d = B.fn n
    · have hany : ((forest X B.cfg).preds n).any
          (fun p => decide (p ∈ (B.preds n).filter (fun p => decide (B.fn n = B.fn p)))) = true := by
        rw [List.any_eq_true]
        exact ⟨d, (hpred d).2 rfl, by rw [decide_eq_true_eq]; exact (hmem d).2 hdp⟩
      rw [hany]
      refine ⟨_, rfl, ?_⟩
      rw [List.any_eq_true]
      constructor
      · rintro ⟨q, hq, hq'⟩
        rw [decide_eq_true_eq, hpred] at hq'
        exact ⟨d, q, hd, hdp.1, hdp.2, ((hmem q).1 hq).1, ((hmem q).1 hq).2, hq'⟩
      · rintro ⟨p, q, hp, _, _, c, e, hne⟩
        cases hp.unique hd
        exact ⟨q, (hmem q).2 ⟨c, e⟩, by rw [decide_eq_true_eq, hpred]; exact hne⟩
    · have hany : ((forest X B.cfg).preds n).any
          (fun p => decide (p ∈ (B.preds n).filter (fun p => decide (B.fn n = B.fn p)))) = false := by
        rw [List.any_eq_false]
        intro p hp hp'
        rw [decide_eq_true_eq, hmem] at hp'
        rw [hpred] at hp
        subst hp; exact hdp hp'
      rw [hany]
      refine ⟨false, rfl, by simp, ?_⟩
      rintro ⟨p, q, hp, a, b, -⟩
      cases hp.unique hd
      exact absurd ⟨a, b⟩ hdp

/-- A block with one predecessor that it does not dominate, in its function like the other predecessors, is said to be
the entry of a loop exactly if control can come back to it from a block that it dominates. Missing: blocks with more
such predecessors or with calls among them, and graphs with several roots or none. -/
theorem C87_loop_partial (X : Nx) (hX : X.Ok) (B : Blocks) (hB : B.Ok) (r n p : Nat) (hr : r ∈ B.all) (htop : B.preds r = [])
    (hreach : ∀ x ∈ B.all, Linked B.Jump r x) (hn : n ∈ B.all) (hp : B.Jump p n) (hd : ¬ Dom B.Jump r n p)
    (ho : ∀ q, B.Jump q n → q ≠ p → Dom B.Jump r n q) (hfn : ∀ q, B.Jump q n → B.fn q = B.fn n) :
    ∃ b, B.isLoopEntry X n = some b ∧ (b = true ↔ ∃ q, B.Jump q n ∧ Dom B.Jump r n q) := by
  obtain ⟨b, h1, h2⟩ := C87_loop_computed X hX B hB r n hr htop hreach hn
  have hi : IDom B.Jump r p n := idom_of_entry (fun q hq => by
    have : q ∈ B.preds r := hq
    rw [htop] at this; cases this) hp hd ho
  refine ⟨b, h1, h2.trans ⟨?_, ?_⟩⟩
  · rintro ⟨p', q, a, -, -, c, -, e⟩
    cases a.unique hi
    exact ⟨q, c, ho q c e⟩
  · rintro ⟨q, a, c⟩
    exact ⟨p, q, hi, hp, hfn p hp, a, hfn q a, fun e => hd (e ▸ c)⟩

/-- is_conditional: two successors in the function, and not what is_loop_entry says. -/
theorem C87_conditional (X : Nx) (hX : X.Ok) (B : Blocks) (hB : B.Ok) (r n : Nat) (hr : r ∈ B.all) (htop : B.preds r = [])
    (hreach : ∀ x ∈ B.all, Linked B.Jump r x) (hn : n ∈ B.all) (hc : (B.children n).Nodup) :
    ∃ b, B.isConditional X n = some b ∧
      (b = true ↔ (∃ c d, B.Jump n c ∧ B.fn c = B.fn n ∧ B.Jump n d ∧ B.fn d = B.fn n ∧ c ≠ d) ∧
        ¬ ∃ p q, IDom B.Jump r p n ∧ B.Jump p n ∧ B.fn p = B.fn n ∧ B.Jump q n ∧ B.fn q = B.fn n ∧ q ≠ p) := by
  obtain ⟨b, h1, h2⟩ := C87_loop_computed X hX B hB r n hr htop hreach hn
  have hj : ∀ c, B.Jump n c ↔ c ∈ B.children n := by
    intro c
    show n ∈ B.preds c ↔ _
    rw [hB.preds]
    exact ⟨fun h => h.2.2, fun h => ⟨hn, hB.inside n hn c h, h⟩⟩
  have htwo := two_le_length (l := (B.children n).filter (fun c => decide (B.fn c = B.fn n))) (hc.sublist List.filter_sublist)
  have hiff : (∃ a b, a ∈ (B.children n).filter (fun c => decide (B.fn c = B.fn n)) ∧
      b ∈ (B.children n).filter (fun c => decide (B.fn c = B.fn n)) ∧ a ≠ b) ↔
      ∃ c d, B.Jump n c ∧ B.fn c = B.fn n ∧ B.Jump n d ∧ B.fn d = B.fn n ∧ c ≠ d := by
    simp only [List.mem_filter, decide_eq_true_eq, hj]
    constructor
    · rintro ⟨c, d, ⟨x, y⟩, ⟨z, w⟩, e⟩; exact ⟨c, d, x, y, z, w, e⟩
    · rintro ⟨c, d, x, y, z, w, e⟩; exact ⟨c, d, ⟨x, y⟩, ⟨z, w⟩, e⟩
  unfold Blocks.isConditional
  by_cases h : 2 ≤ ((B.children n).filter (fun c => decide (B.fn c = B.fn n))).length
  · rw [if_pos h, h1]
    refine ⟨!b, rfl, ?_⟩
    rw [← h2]
    have := hiff.1 (htwo.1 h)
    constructor
    · intro hb
      exact ⟨this, fun h => by rw [h] at hb; cases hb⟩
    · intro hb
      cases b with
      | false => rfl
      | true => exact absurd rfl hb.2
  · rw [if_neg h]
    refine ⟨false, rfl, by simp, fun h' => ?_⟩
    exact absurd (htwo.2 (hiff.2 h'.1)) h

/-- For blocks without cycles is_cfg_connected says whether everything can be reached from one block. -/
theorem C87_connected_partial (B : Blocks) (hB : B.Ok) (rank : Nat → Nat) (hrank : ∀ a b, B.Jump a b → rank a < rank b) :
    B.isConnected = true ↔ ∃ r ∈ B.all, ∀ x ∈ B.all, Linked B.Jump r x := by
  have hmem : ∀ x, x ∈ B.cfgRoots ↔ x ∈ B.all ∧ B.preds x = [] := by
    intro x; simp [Blocks.cfgRoots, List.mem_filter]
  have hnd : B.cfgRoots.Nodup := hB.all.sublist List.filter_sublist
  have hup : ∀ k x, x ∈ B.all → rank x = k → ∃ r, r ∈ B.cfgRoots ∧ Linked B.Jump r x := by
    intro k
    induction k using Nat.strongRecOn with
    | ind k ih =>
      intro x hx hk
      cases hp : B.preds x with
      | nil => exact ⟨x, (hmem x).2 ⟨hx, hp⟩, .refl⟩
      | cons p ps =>
        have hj : B.Jump p x := by show p ∈ B.preds x; rw [hp]; simp
        obtain ⟨r, h1, h2⟩ := ih (rank p) (by have := hrank p x hj; omega) p ((hB.preds p x).1 hj).1 rfl
        exact ⟨r, h1, h2.step hj⟩
  have hroot : ∀ r x, x ∈ B.cfgRoots → Linked B.Jump r x → x = r := by
    intro r x hx hl
    obtain ⟨l, hl⟩ := hl
    cases hl with
    | nil => rfl
    | @snoc b _ l _ he =>
      have : b ∈ B.preds x := he
      rw [((hmem x).1 hx).2] at this; cases this
  have hlow : ∀ r x l, Walk B.Jump r x l → rank r ≤ rank x := by
    intro r x l h
    induction h with
    | nil => exact Nat.le_refl _
    | snoc _ he ih => have := hrank _ _ he; omega
  unfold Blocks.isConnected
  constructor
  · intro h
    match hr : B.cfgRoots with
    | [] => rw [hr] at h; cases h
    | [r] =>
      refine ⟨r, ((hmem r).1 (by rw [hr]; simp)).1, fun x hx => ?_⟩
      obtain ⟨q, h1, h2⟩ := hup _ x hx rfl
      rw [hr] at h1
      simp only [List.mem_singleton] at h1
      subst h1; exact h2
    | _ :: _ :: _ => rw [hr] at h; cases h
  · rintro ⟨r, h1, h2⟩
    obtain ⟨q, h3, h4⟩ := hup _ r h1 rfl
    have hq : q = r := hroot r q h3 (h2 q ((hmem q).1 h3).1)
    have hall : ∀ x ∈ B.cfgRoots, x = r := fun x hx => hroot r x hx (h2 x ((hmem x).1 hx).1)
    match hr : B.cfgRoots with
    | [] => rw [hr] at h3; cases h3
    | [_] => rfl
    | a :: b :: l =>
      rw [hr] at hnd hall
      have e1 := hall a (by simp)
      have e2 := hall b (by simp)
      simp [e1, e2] at hnd

/-- What the loop over the pairs finds: the first pair of functions with the same name and different taints. -/
theorem PyCfg.diffLoop_spec {τ : Type} [DecidableEq τ] (T1 T2 : Trace τ) (l1 l2 : List Nat) (nm : Nat) :
    diffLoop T1 T2 ((l1.map Obj.func).zip (l2.map Obj.func)) = some nm ↔
    ∃ (i : Nat) (a b : Nat), l1[i]? = some a ∧ l2[i]? = some b ∧ T1.name a = nm ∧ T2.name b = nm ∧ T1.taints a ≠ T2.taints b ∧
      ∀ (j c d : Nat), j < i → l1[j]? = some c → l2[j]? = some d → T1.name c = T2.name d → T1.taints c = T2.taints d := by
  induction l1 generalizing l2 with
  | nil => simp [diffLoop]
  | cons x l1 ih =>
    cases l2 with
    | nil => simp [diffLoop]
    | cons y l2 =>
      have hshift : (∃ (i : Nat) (a b : Nat), l1[i]? = some a ∧ l2[i]? = some b ∧ T1.name a = nm ∧ T2.name b = nm ∧
          T1.taints a ≠ T2.taints b ∧
          ∀ (j c d : Nat), j < i → l1[j]? = some c → l2[j]? = some d → T1.name c = T2.name d → T1.taints c = T2.taints d) →
          (T1.name x = T2.name y → T1.taints x = T2.taints y) →
          ∃ (i : Nat) (a b : Nat), (x :: l1)[i]? = some a ∧ (y :: l2)[i]? = some b ∧ T1.name a = nm ∧ T2.name b = nm ∧
          T1.taints a ≠ T2.taints b ∧ ∀ (j c d : Nat), j < i → (x :: l1)[j]? = some c → (y :: l2)[j]? = some d →
            T1.name c = T2.name d → T1.taints c = T2.taints d := by
        rintro ⟨i, a, b, h1, h2, h3, h4, h5, h6⟩ h0
        refine ⟨i + 1, a, b, by simpa using h1, by simpa using h2, h3, h4, h5, fun j c d hj hc hd hn => ?_⟩
        cases j with
        | zero => simp at hc hd; subst hc; subst hd; exact h0 hn
        | succ j => exact h6 j c d (by omega) (by simpa using hc) (by simpa using hd) hn
      have hback : (¬ (T1.name x = nm ∧ T2.name y = nm ∧ T1.taints x ≠ T2.taints y)) →
          (∃ (i : Nat) (a b : Nat), (x :: l1)[i]? = some a ∧ (y :: l2)[i]? = some b ∧ T1.name a = nm ∧ T2.name b = nm ∧
          T1.taints a ≠ T2.taints b ∧ ∀ (j c d : Nat), j < i → (x :: l1)[j]? = some c → (y :: l2)[j]? = some d →
            T1.name c = T2.name d → T1.taints c = T2.taints d) →
          ∃ (i : Nat) (a b : Nat), l1[i]? = some a ∧ l2[i]? = some b ∧ T1.name a = nm ∧ T2.name b = nm ∧
          T1.taints a ≠ T2.taints b ∧
          ∀ (j c d : Nat), j < i → l1[j]? = some c → l2[j]? = some d → T1.name c = T2.name d → T1.taints c = T2.taints d := by
        rintro h0 ⟨i, a, b, h1, h2, h3, h4, h5, h6⟩
        cases i with
        | zero => simp at h1 h2; subst h1; subst h2; exact absurd ⟨h3, h4, h5⟩ h0
        | succ i =>
          exact ⟨i, a, b, by simpa using h1, by simpa using h2, h3, h4, h5, fun j c d hj hc hd =>
            h6 (j + 1) c d (by omega) (by simpa using hc) (by simpa using hd)⟩
      simp only [List.map_cons, List.zip_cons_cons, diffLoop]
      by_cases hn : T1.name x = T2.name y
      · rw [if_neg (by simpa using hn)]
        by_cases ht : T1.taints x = T2.taints y
        · rw [if_neg (by simpa using ht), ih]
          exact ⟨fun h => hshift h (fun _ => ht), hback fun h => h.2.2 ht⟩
        · rw [if_pos ht]
          constructor
          · intro h
            simp only [Option.some.injEq] at h
            exact ⟨0, x, y, rfl, rfl, h, hn ▸ h, ht, fun j c d hj => by omega⟩
          · rintro ⟨i, a, b, h1, h2, h3, h4, h5, h6⟩
            cases i with
            | zero => simp at h1; subst h1; rw [h3]
            | succ i => exact absurd (h6 0 x y (by omega) rfl rfl hn) ht
      · rw [if_pos (by simpa using hn), ih]
        exact ⟨fun h => hshift h (fun e => absurd e hn), hback fun h => hn (h.1.trans h.2.1.symm)⟩

/-- The functions and calls of a trace fit together: from the function `r`, which nothing calls, all are called. -/
structure PyCfg.Trace.Ok {τ : Type} (T : Trace τ) (r : Nat) : Prop where
  inside : ∀ b ∈ T.all, ∀ c ∈ T.calls b, c ∈ T.all
  mem : r ∈ T.all
  top : ∀ b ∈ T.all, r ∉ T.calls b
  reach : ∀ x ∈ T.all, Linked (fun a b => a ∈ T.all ∧ b ∈ T.calls a) r x
  find : ∀ nm f, T.find nm = some f → f ∈ T.all ∧ T.name f = nm

/-- One function calls another. -/
def PyCfg.Trace.Calls {τ : Type} (T : Trace τ) (a b : Nat) : Prop := a ∈ T.all ∧ b ∈ T.calls a

theorem PyCfg.Trace.Ok.rooted {τ : Type} {T : Trace τ} {r : Nat} (h : T.Ok r) :
    T.cfg.Wf ∧ T.cfg.E = T.Calls ∧ (∀ x, x ∈ T.cfg.nodes ↔ x ∈ T.all) ∧ Rooted T.cfg.E T.cfg.nodes r := by
  obtain ⟨h1, h2, h3⟩ := build_spec T.all T.calls
  have hE : T.cfg.E = T.Calls := by funext x y; exact propext (h2 x y)
  have hN : ∀ x, x ∈ T.cfg.nodes ↔ x ∈ T.all := by
    intro x
    show x ∈ (build T.all T.calls).nodes ↔ _
    rw [h3]
    constructor
    · rintro (h' | ⟨b, hb, hc⟩)
      · exact h'
      · exact h.inside b hb x hc
    · exact .inl
  refine ⟨h1, hE, hN, (hN r).2 h.mem, fun p hp => ?_, fun x hx => ?_, fun x y he => h1.ends x y he⟩
  · rw [hE] at hp; exact h.top p hp.1 hp.2
  · rw [hE]; exact h.reach x ((hN x).1 hx)

/-- What first_function_with_different_control_flow computes for a function that both traces call: the lists of
functions that strictly dominate it, nearest first, are compared place by place, and the answer is the first name that is
the same in both and has different taints. Asking again gives the same. -/
theorem C87_diff_computed {τ : Type} [DecidableEq τ] (X : Nx) (hX : X.Ok) (T1 T2 : Trace τ) (r1 r2 nm f1 f2 : Nat)
    (h1 : T1.Ok r1) (h2 : T2.Ok r2) (hf1 : T1.find nm = some f1) (hf2 : T2.find nm = some f2) (hr1 : f1 ≠ r1) (hr2 : f2 ≠ r2) :
    ∃ (l1 l2 : List Nat) (r : Option Nat),
      (∀ x, x ∈ l1 ↔ SDom T1.Calls r1 x f1) ∧ l1.Pairwise (fun x y => SDom T1.Calls r1 y x) ∧
      (∀ x, x ∈ l2 ↔ SDom T2.Calls r2 x f2) ∧ l2.Pairwise (fun x y => SDom T2.Calls r2 y x) ∧
      (∀ D : Diff, D.done = false → D.ask X T1 T2 nm = (⟨true, r⟩, some r) ∧
        (⟨true, r⟩ : Diff).ask X T1 T2 nm = (⟨true, r⟩, some r)) ∧
      ∀ k, r = some k ↔ ∃ (i : Nat) (a b : Nat), l1[i]? = some a ∧ l2[i]? = some b ∧ T1.name a = k ∧ T2.name b = k ∧
        T1.taints a ≠ T2.taints b ∧
        ∀ (j c d : Nat), j < i → l1[j]? = some c → l2[j]? = some d → T1.name c = T2.name d → T1.taints c = T2.taints d := by
  obtain ⟨w1, e1, n1, q1⟩ := h1.rooted
  obtain ⟨w2, e2, n2, q2⟩ := h2.rooted
  obtain ⟨l1, a1, b1, c1, d1⟩ := ancestorsOf_eq hX w1 q1 ((n1 f1).2 (h1.find nm f1 hf1).1) hr1
  obtain ⟨l2, a2, b2, c2, d2⟩ := ancestorsOf_eq hX w2 q2 ((n2 f2).2 (h2.find nm f2 hf2).1) hr2
  rw [e1] at c1 d1
  rw [e2] at c2 d2
  have hnd : ∀ l : List Nat, l.Nodup → (l.map Obj.func).Nodup := by
    intro l hl
    refine List.Nodup.map ?_ hl
    intro a b h; cases h; rfl
  have hdiff : diff X T1 T2 nm = some (diffLoop T1 T2 ((l1.map Obj.func).zip (l2.map Obj.func))) := by
    unfold diff
    rw [hf1, hf2]
    simp only [a1, a2, Option.bind_eq_bind, Option.bind_some]
    have hg : ∀ l : List Nat, Obj.gen ∉ l.map Obj.func := by intro l h; simp at h
    rw [PyOset.new_of_nodup (hnd l1 b1), PyOset.new_of_nodup (hnd l2 b2), PyOset.iand_eq (hg l1), PyOset.iand_eq (hg l2)]
    split
    · rename_i h
      rcases h with h | h
      · rw [h]; rfl
      · rw [h, List.zip_nil_right]; rfl
    · rfl
  refine ⟨l1, l2, diffLoop T1 T2 ((l1.map Obj.func).zip (l2.map Obj.func)), c1, d1, c2, d2, fun D hD => ⟨?_, rfl⟩,
    fun k => diffLoop_spec T1 T2 l1 l2 k⟩
  unfold Diff.ask
  rw [hD, hdiff]; rfl

theorem PyCfg.sdom_asymm {E : Nat → Nat → Prop} {r a b : Nat} (h : SDom E r a b) (h' : SDom E r b a) : False :=
  (h.trans h').2.1 rfl

/-- There is one order. -/
theorem PyCfg.order_unique {E : Nat → Nat → Prop} {r : Nat} : ∀ {l m : List Nat}, (∀ x, x ∈ l ↔ x ∈ m) →
    l.Pairwise (fun x y => SDom E r y x) → m.Pairwise (fun x y => SDom E r y x) → l = m
  | [], [], _, _, _ => rfl
  | [], y :: m, h, _, _ => by have := (h y).2 (by simp); cases this
  | x :: l, [], h, _, _ => by have := (h x).1 (by simp); cases this
  | x :: l, y :: m, h, hl, hm => by
    rw [List.pairwise_cons] at hl hm
    have hxy : x = y := by
      apply Classical.byContradiction
      intro hne
      have h1 := (h x).1 (by simp)
      have h2 := (h y).2 (by simp)
      rcases List.mem_cons.1 h1 with e | h1
      · exact hne e
      rcases List.mem_cons.1 h2 with e | h2
      · exact hne e.symm
      exact sdom_asymm (hl.1 y h2) (hm.1 x h1)
    subst hxy
    have hx1 : x ∉ l := fun h => (hl.1 x h).2.1 rfl
    have hx2 : x ∉ m := fun h => (hm.1 x h).2.1 rfl
    rw [order_unique (fun z => ?_) hl.2 hm.2]
    have := h z
    simp only [List.mem_cons] at this
    constructor
    · intro hz
      rcases this.1 (.inr hz) with rfl | h'
      · exact absurd hz hx1
      · exact h'
    · intro hz
      rcases this.2 (.inr hz) with rfl | h'
      · exact absurd hz hx2
      · exact h'

/-- If the functions that dominate a function have the same names in both traces, in the same order, and no name twice:
the answer is the name of the nearest of them that has different taints in the two traces, or None if there is none. Missing:
functions that are dominated by different ones. -/
theorem C87_diff_partial {τ : Type} [DecidableEq τ] (X : Nx) (hX : X.Ok) (T1 T2 : Trace τ) (r1 r2 nm f1 f2 : Nat)
    (h1 : T1.Ok r1) (h2 : T2.Ok r2) (hf1 : T1.find nm = some f1) (hf2 : T2.find nm = some f2) (hr1 : f1 ≠ r1) (hr2 : f2 ≠ r2)
    (m1 m2 : List Nat) (hm1 : ∀ x, x ∈ m1 ↔ SDom T1.Calls r1 x f1) (hp1 : m1.Pairwise (fun x y => SDom T1.Calls r1 y x))
    (hm2 : ∀ x, x ∈ m2 ↔ SDom T2.Calls r2 x f2) (hp2 : m2.Pairwise (fun x y => SDom T2.Calls r2 y x))
    (hnames : m1.map T1.name = m2.map T2.name) (honce : (m1.map T1.name).Nodup) :
    ∃ r : Option Nat, (Diff.mk false none).ask X T1 T2 nm = (⟨true, r⟩, some r) ∧
      ∀ k, r = some k ↔ ∃ a b, SDom T1.Calls r1 a f1 ∧ SDom T2.Calls r2 b f2 ∧ T1.name a = k ∧ T2.name b = k ∧
        T1.taints a ≠ T2.taints b ∧
        ∀ c d, SDom T1.Calls r1 c f1 → SDom T2.Calls r2 d f2 → T1.name c = T2.name d → SDom T1.Calls r1 a c →
          T1.taints c = T2.taints d := by
  obtain ⟨l1, l2, r, a1, b1, a2, b2, hask, hr⟩ := C87_diff_computed X hX T1 T2 r1 r2 nm f1 f2 h1 h2 hf1 hf2 hr1 hr2
  have e1 : l1 = m1 := order_unique (fun x => (a1 x).trans (hm1 x).symm) b1 hp1
  have e2 : l2 = m2 := order_unique (fun x => (a2 x).trans (hm2 x).symm) b2 hp2
  subst e1; subst e2
  refine ⟨r, (hask _ rfl).1, fun k => (hr k).trans ?_⟩
  have hsame : ∀ (i j a b : Nat), l1[i]? = some a → l2[j]? = some b → T1.name a = T2.name b → i = j := by
    intro i j a b ha hb hn
    have x1 : (l1.map T1.name)[i]? = some (T1.name a) := by rw [List.getElem?_map, ha]; rfl
    have x2 : (l1.map T1.name)[j]? = some (T1.name a) := by rw [hnames, List.getElem?_map, hb, hn]; rfl
    have hi : i < (l1.map T1.name).length := (List.getElem?_eq_some_iff.1 x1).1
    exact (List.getElem?_inj hi honce).1 (x1.trans x2.symm)
  have hnear : ∀ (i j a c : Nat), l1[i]? = some a → l1[j]? = some c → (SDom T1.Calls r1 a c ↔ j < i) := by
    intro i j a c ha hc
    obtain ⟨hi, ha⟩ := List.getElem?_eq_some_iff.1 ha
    obtain ⟨hj, hc⟩ := List.getElem?_eq_some_iff.1 hc
    have hpw := List.pairwise_iff_getElem.1 b1
    constructor
    · intro hs
      rcases Nat.lt_trichotomy j i with h | h | h
      · exact h
      · subst h; rw [← ha, ← hc] at hs; exact absurd rfl hs.2.1
      · have := hpw i j hi hj h
        rw [ha, hc] at this
        exact (sdom_asymm hs this).elim
    · intro h
      have := hpw j i hj hi h
      rw [ha, hc] at this; exact this
  constructor
  · rintro ⟨i, a, b, ha, hb, na, nb, ht, hmin⟩
    refine ⟨a, b, (a1 a).1 (List.mem_of_getElem? ha), (a2 b).1 (List.mem_of_getElem? hb), na, nb, ht,
      fun c d hc hd hn hac => ?_⟩
    obtain ⟨j, hj⟩ := List.mem_iff_getElem?.1 ((a1 c).2 hc)
    obtain ⟨j', hj'⟩ := List.mem_iff_getElem?.1 ((a2 d).2 hd)
    have := hsame j j' c d hj hj' hn
    subst this
    exact hmin j c d ((hnear i j a c ha hj).1 hac) hj hj' hn
  · rintro ⟨a, b, ha, hb, na, nb, ht, hmin⟩
    obtain ⟨i, hi⟩ := List.mem_iff_getElem?.1 ((a1 a).2 ha)
    obtain ⟨i', hi'⟩ := List.mem_iff_getElem?.1 ((a2 b).2 hb)
    have := hsame i i' a b hi hi' (na.trans nb.symm)
    subst this
    refine ⟨i, a, b, hi, hi', na, nb, ht, fun j c d hj hc hd hn => ?_⟩
    exact hmin c d ((a1 c).1 (List.mem_of_getElem? hc)) ((a2 d).1 (List.mem_of_getElem? hd)) hn ((hnear i j a c hi hc).2 hj)

/-- Blocks from their edges. -/
def PyCfg.blocksOf (n : Nat) (es : List (Nat × Nat)) : Blocks :=
  ⟨List.range n, fun b => (es.filter (fun e => decide (e.1 = b))).map Prod.snd,
    fun b => (es.filter (fun e => decide (e.2 = b))).map Prod.fst, fun _ => 0⟩

theorem PyCfg.jump_iff {n : Nat} {es : List (Nat × Nat)} {a b : Nat} : (blocksOf n es).Jump a b ↔ (a, b) ∈ es := by
  show a ∈ (es.filter (fun e => decide (e.2 = b))).map Prod.fst ↔ _
  simp only [List.mem_map, List.mem_filter, decide_eq_true_eq, Prod.exists, exists_and_right, exists_eq_right]

theorem PyCfg.blocksOf_ok {n : Nat} {es : List (Nat × Nat)} (hn : es.Nodup) (hs : ∀ e ∈ es, e.1 < n ∧ e.2 < n) :
    (blocksOf n es).Ok := by
  have hc : ∀ a b, b ∈ (blocksOf n es).children a ↔ (a, b) ∈ es := by
    intro a b
    show b ∈ (es.filter (fun e => decide (e.1 = a))).map Prod.snd ↔ _
    simp only [List.mem_map, List.mem_filter, decide_eq_true_eq, Prod.exists, exists_eq_right]
  have ha : ∀ x, x ∈ (blocksOf n es).all ↔ x < n := fun x => List.mem_range
  refine ⟨fun p m => ?_, fun b hb c h => (ha c).2 (hs _ ((hc b c).1 h)).2, fun m => ?_, List.nodup_range⟩
  · have : p ∈ (blocksOf n es).preds m ↔ (p, m) ∈ es := jump_iff
    rw [this, ha, ha, hc]
    exact ⟨fun h => ⟨(hs _ h).1, (hs _ h).2, h⟩, fun h => h.2.2⟩
  · show ((es.filter (fun e => decide (e.2 = m))).map Prod.fst).Nodup
    refine List.Nodup.map_on ?_ (hn.sublist List.filter_sublist)
    rintro ⟨a, b⟩ h ⟨c, d⟩ h' rfl
    simp only [List.mem_filter, decide_eq_true_eq] at h h'
    rw [h.2, h'.2]

/-- A block after an `if` without `else` is said to be the entry of a loop, although control never comes back to it. And
if it ends with a branch, it is said not to be conditional. -/
theorem C87_branch_refuted (X : Nx) (hX : X.Ok) : ∃ (B : Blocks) (n : Nat), B.Ok ∧ B.isLoopEntry X n = some true ∧
    (∀ q, B.Jump q n → ¬ Linked B.Jump n q) ∧ B.Jump n 3 ∧ B.Jump n 4 ∧ B.isConditional X n = some false := by
  have hB : (blocksOf 5 [(0, 1), (0, 2), (1, 2), (2, 3), (2, 4)]).Ok := blocksOf_ok (by decide) (by decide)
  generalize hb : blocksOf 5 [(0, 1), (0, 2), (1, 2), (2, 3), (2, 4)] = B at hB
  have hj : ∀ a b, B.Jump a b ↔ (a, b) ∈ [(0, 1), (0, 2), (1, 2), (2, 3), (2, 4)] := by subst hb; exact fun a b => jump_iff
  have j := fun a b h => (hj a b).2 h
  have hreach : ∀ x ∈ B.all, Linked B.Jump 0 x := by
    have l0 : Linked B.Jump 0 0 := .refl
    have l1 := l0.step (j 0 1 (by decide))
    have l2 := l0.step (j 0 2 (by decide))
    have l3 := l2.step (j 2 3 (by decide))
    have l4 := l2.step (j 2 4 (by decide))
    intro x hx
    have : x < 5 := by subst hb; exact List.mem_range.1 hx
    match x, this with
    | 0, _ => exact l0
    | 1, _ => exact l1
    | 2, _ => exact l2
    | 3, _ => exact l3
    | 4, _ => exact l4
  have hall : 2 ∈ B.all ∧ 0 ∈ B.all ∧ B.preds 0 = [] ∧ (B.children 2).Nodup := by subst hb; decide
  have hfn : ∀ x, B.fn x = 0 := by subst hb; exact fun _ => rfl
  have hid : IDom B.Jump 0 0 2 := by
    refine ⟨⟨hreach 2 hall.1, by omega, root_dom⟩, fun e he => ?_⟩
    have := he.2.2 _ (.snoc .nil (j 0 2 (by decide)))
    simp only [List.mem_cons, List.not_mem_nil, or_false] at this
    rcases this with h | rfl
    · exact absurd h he.2.1
    · exact .refl
  obtain ⟨b, h1, h2⟩ := C87_loop_computed X hX B hB 0 2 hall.2.1 hall.2.2.1 hreach hall.1
  obtain ⟨c, h3, h4⟩ := C87_conditional X hX B hB 0 2 hall.2.1 hall.2.2.1 hreach hall.1 hall.2.2.2
  have hw : ∃ p q, IDom B.Jump 0 p 2 ∧ B.Jump p 2 ∧ B.fn p = B.fn 2 ∧ B.Jump q 2 ∧ B.fn q = B.fn 2 ∧ q ≠ p :=
    ⟨0, 1, hid, j 0 2 (by decide), by rw [hfn, hfn], j 1 2 (by decide), by rw [hfn, hfn], by omega⟩
  refine ⟨B, 2, hB, by rw [h1, h2.2 hw], fun q hq hl => ?_, j 2 3 (by decide), j 2 4 (by decide), ?_⟩
  · have hq' := (hj q 2).1 hq
    have hup : ∀ x l, Walk B.Jump 2 x l → 2 ≤ x := by
      intro x l h
      induction h with
      | nil => exact Nat.le_refl _
      | @snoc b c l _ he _ =>
        have := (hj b c).1 he
        simp only [List.mem_cons, Prod.mk.injEq, List.not_mem_nil, or_false] at this
        omega
    obtain ⟨l, hl⟩ := hl
    have := hup q l hl
    simp only [List.mem_cons, Prod.mk.injEq, List.not_mem_nil, or_false] at hq'
    omega
  · rw [h3]
    cases c with
    | false => rfl
    | true => exact absurd hw (h4.1 rfl).2

/-- A loop that is entered from two blocks has no entry. -/
theorem C87_header_refuted (X : Nx) (hX : X.Ok) : ∃ (B : Blocks) (n q : Nat), B.Ok ∧ B.isLoopEntry X n = some false ∧
    B.Jump q n ∧ Linked B.Jump 0 q ∧ Dom B.Jump 0 n q := by
  have hB : (blocksOf 5 [(0, 1), (0, 2), (1, 3), (2, 3), (3, 4), (4, 3)]).Ok := blocksOf_ok (by decide) (by decide)
  generalize hb : blocksOf 5 [(0, 1), (0, 2), (1, 3), (2, 3), (3, 4), (4, 3)] = B at hB
  have hj : ∀ a b, B.Jump a b ↔ (a, b) ∈ [(0, 1), (0, 2), (1, 3), (2, 3), (3, 4), (4, 3)] := by subst hb; exact fun a b => jump_iff
  have j := fun a b h => (hj a b).2 h
  have hreach : ∀ x ∈ B.all, Linked B.Jump 0 x := by
    have l0 : Linked B.Jump 0 0 := .refl
    have l1 := l0.step (j 0 1 (by decide))
    have l2 := l0.step (j 0 2 (by decide))
    have l3 := l2.step (j 2 3 (by decide))
    have l4 := l3.step (j 3 4 (by decide))
    intro x hx
    have : x < 5 := by subst hb; exact List.mem_range.1 hx
    match x, this with
    | 0, _ => exact l0
    | 1, _ => exact l1
    | 2, _ => exact l2
    | 3, _ => exact l3
    | 4, _ => exact l4
  have hall : 3 ∈ B.all ∧ 0 ∈ B.all ∧ B.preds 0 = [] ∧ 4 ∈ B.all := by subst hb; decide
  obtain ⟨b, h1, h2⟩ := C87_loop_computed X hX B hB 0 3 hall.2.1 hall.2.2.1 hreach hall.1
  have hb' : b = false := by
    cases b with
    | false => rfl
    | true =>
      obtain ⟨p, q, hi, hp, -⟩ := h2.1 rfl
      have w1 := hi.1.2.2 _ (.snoc (.snoc .nil (j 0 1 (by decide))) (j 1 3 (by decide)))
      have w2 := hi.1.2.2 _ (.snoc (.snoc .nil (j 0 2 (by decide))) (j 2 3 (by decide)))
      have hp' := (hj p 3).1 hp
      have hne := hi.1.2.1
      simp only [List.mem_cons, Prod.mk.injEq, List.not_mem_nil, or_false] at w1 w2 hp'
      omega
  refine ⟨B, 3, 4, hB, by rw [h1, hb'], j 4 3 (by decide), hreach 4 hall.2.2.2, fun l hl => ?_⟩
  cases hl with
  | @snoc b _ l hw he =>
    have := (hj b 4).1 he
    simp only [List.mem_cons, Prod.mk.injEq, List.not_mem_nil, or_false] at this
    have : b = 3 := by omega
    subst this
    exact List.mem_cons_of_mem _ hw.mem_end

/-- Without a block that has no predecessors there is an exception. -/
theorem C87_rootless_refuted (X : Nx) : ∃ B : Blocks, B.Ok ∧ B.isLoopEntry X 0 = none := by
  refine ⟨blocksOf 2 [(0, 1), (1, 0), (0, 0)], blocksOf_ok (by decide) (by decide), ?_⟩
  have hf : forest X (blocksOf 2 [(0, 1), (1, 0), (0, 0)]).cfg = .empty := by
    unfold forest
    rw [show (blocksOf 2 [(0, 1), (1, 0), (0, 0)]).cfg.findRoots = [] by decide]
    rfl
  unfold Blocks.isLoopEntry
  rw [if_neg (by decide)]
  simp only [hf]
  rfl

/-- A cycle is not connected, and a block with a cycle beside it is. -/
theorem C87_connected_refuted :
    (∃ B : Blocks, B.Ok ∧ B.isConnected = false ∧ ∀ x ∈ B.all, ∀ y ∈ B.all, Linked B.Jump x y) ∧
    ∃ B : Blocks, B.Ok ∧ B.isConnected = true ∧ ∃ x ∈ B.all, ∃ y ∈ B.all, ¬ Linked B.Jump x y ∧ ¬ Linked B.Jump y x := by
  constructor
  · refine ⟨blocksOf 2 [(0, 1), (1, 0)], blocksOf_ok (by decide) (by decide), by decide, fun x hx y hy => ?_⟩
    have hx' : x < 2 := List.mem_range.1 hx
    have hy' : y < 2 := List.mem_range.1 hy
    have a : Linked (blocksOf 2 [(0, 1), (1, 0)]).Jump 0 1 := Linked.refl.step (jump_iff.2 (by decide))
    have b : Linked (blocksOf 2 [(0, 1), (1, 0)]).Jump 1 0 := Linked.refl.step (jump_iff.2 (by decide))
    match x, y, hx', hy' with
    | 0, 0, _, _ => exact .refl
    | 0, 1, _, _ => exact a
    | 1, 0, _, _ => exact b
    | 1, 1, _, _ => exact .refl
  · refine ⟨blocksOf 2 [(1, 1)], blocksOf_ok (by decide) (by decide), by decide, 0, by decide, 1, by decide, ?_, ?_⟩
    · rintro ⟨l, hl⟩
      have : ∀ x l, Walk (blocksOf 2 [(1, 1)]).Jump 0 x l → x = 0 := by
        intro x l h
        induction h with
        | nil => rfl
        | snoc _ he ih => have := jump_iff.1 he; simp at this; omega
      have := this 1 l hl
      omega
    · rintro ⟨l, hl⟩
      cases hl with
      | snoc _ he => have := jump_iff.1 he; simp at this

/-- A trace from its calls; names are the numbers. -/
def PyCfg.traceOf (n : Nat) (es : List (Nat × Nat)) (taints : Nat → Nat) : Trace Nat :=
  ⟨List.range n, fun b => (es.filter (fun e => decide (e.1 = b))).map Prod.snd, id, taints, fun k => if k < n then some k else none⟩

theorem PyCfg.calls_iff {n : Nat} {es : List (Nat × Nat)} {t : Nat → Nat} (hs : ∀ e ∈ es, e.1 < n ∧ e.2 < n) {a b : Nat} :
    (traceOf n es t).Calls a b ↔ (a, b) ∈ es := by
  show a ∈ List.range n ∧ b ∈ (es.filter (fun e => decide (e.1 = a))).map Prod.snd ↔ _
  simp only [List.mem_map, List.mem_filter, decide_eq_true_eq, Prod.exists, exists_eq_right, List.mem_range]
  exact ⟨fun h => h.2, fun h => ⟨(hs _ h).1, h⟩⟩

theorem PyCfg.traceOf_ok {n : Nat} {es : List (Nat × Nat)} {t : Nat → Nat} (hs : ∀ e ∈ es, e.1 < n ∧ e.2 < n) (hn : 0 < n)
    (htop : ∀ e ∈ es, e.2 ≠ 0) (hreach : ∀ x, x < n → Linked (traceOf n es t).Calls 0 x) : (traceOf n es t).Ok 0 := by
  have hc : ∀ a b, b ∈ (traceOf n es t).calls a ↔ (a, b) ∈ es := by
    intro a b
    show b ∈ (es.filter (fun e => decide (e.1 = a))).map Prod.snd ↔ _
    simp only [List.mem_map, List.mem_filter, decide_eq_true_eq, Prod.exists, exists_eq_right]
  refine ⟨fun b _ c h => List.mem_range.2 (hs _ ((hc b c).1 h)).2, List.mem_range.2 hn, fun b _ h => htop _ ((hc b 0).1 h) rfl,
    fun x hx => hreach x (List.mem_range.1 hx), fun nm f h => ?_⟩
  simp only [traceOf] at h ⊢
  split at h
  · cases h; exact ⟨List.mem_range.2 (by assumption), rfl⟩
  · cases h

/-- The only caller dominates. -/
theorem PyCfg.sdom_only {E : Nat → Nat → Prop} {r p n : Nat} (hl : Linked E r p) (he : E p n) (hn : n ≠ r) (hpn : p ≠ n)
    (ho : ∀ q, E q n → q = p) : SDom E r p n := by
  refine ⟨hl.step he, hpn, fun l hw => ?_⟩
  cases hw with
  | nil => exact absurd rfl hn
  | snoc hw' he' => cases ho _ he'; exact List.mem_cons_of_mem _ hw'.mem_end

/-- A function that dominates in both traces and has different taints is missed if something lies between in one of
them. -/
theorem C87_diff_refuted (X : Nx) (hX : X.Ok) : ∃ (T1 T2 : Trace Nat), T1.Ok 0 ∧ T2.Ok 0 ∧
    SDom T1.Calls 0 1 2 ∧ SDom T2.Calls 0 1 2 ∧ T1.name 1 = T2.name 1 ∧ T1.taints 1 ≠ T2.taints 1 ∧
    ((Diff.mk false none).ask X T1 T2 2).2 = some none := by
  have c1 : ∀ a b, (traceOf 3 [(0, 1), (1, 2)] fun _ => 0).Calls a b ↔ (a, b) ∈ [(0, 1), (1, 2)] :=
    fun a b => calls_iff (by decide)
  have c2 : ∀ a b, (traceOf 4 [(0, 1), (1, 3), (3, 2)] fun _ => 1).Calls a b ↔ (a, b) ∈ [(0, 1), (1, 3), (3, 2)] :=
    fun a b => calls_iff (by decide)
  have x0 : Linked (traceOf 3 [(0, 1), (1, 2)] fun _ => 0).Calls 0 0 := .refl
  have x1 := x0.step ((c1 0 1).2 (by decide))
  have x2 := x1.step ((c1 1 2).2 (by decide))
  have y0 : Linked (traceOf 4 [(0, 1), (1, 3), (3, 2)] fun _ => 1).Calls 0 0 := .refl
  have y1 := y0.step ((c2 0 1).2 (by decide))
  have y3 := y1.step ((c2 1 3).2 (by decide))
  have y2 := y3.step ((c2 3 2).2 (by decide))
  have o1 : (traceOf 3 [(0, 1), (1, 2)] fun _ => 0).Ok 0 := traceOf_ok (by decide) (by decide) (by decide) (by
    intro x hx
    match x, hx with
    | 0, _ => exact x0
    | 1, _ => exact x1
    | 2, _ => exact x2)
  have o2 : (traceOf 4 [(0, 1), (1, 3), (3, 2)] fun _ => 1).Ok 0 := traceOf_ok (by decide) (by decide) (by decide) (by
    intro x hx
    match x, hx with
    | 0, _ => exact y0
    | 1, _ => exact y1
    | 2, _ => exact y2
    | 3, _ => exact y3)
  have s01 : SDom (traceOf 3 [(0, 1), (1, 2)] fun _ => 0).Calls 0 0 1 :=
    sdom_only x0 ((c1 0 1).2 (by decide)) (by decide) (by decide) (fun q hq => by have := (c1 q 1).1 hq; simp at this; omega)
  have s12 : SDom (traceOf 3 [(0, 1), (1, 2)] fun _ => 0).Calls 0 1 2 :=
    sdom_only x1 ((c1 1 2).2 (by decide)) (by decide) (by decide) (fun q hq => by have := (c1 q 2).1 hq; simp at this; omega)
  have t01 : SDom (traceOf 4 [(0, 1), (1, 3), (3, 2)] fun _ => 1).Calls 0 0 1 :=
    sdom_only y0 ((c2 0 1).2 (by decide)) (by decide) (by decide) (fun q hq => by have := (c2 q 1).1 hq; simp at this; omega)
  have t13 : SDom (traceOf 4 [(0, 1), (1, 3), (3, 2)] fun _ => 1).Calls 0 1 3 :=
    sdom_only y1 ((c2 1 3).2 (by decide)) (by decide) (by decide) (fun q hq => by have := (c2 q 3).1 hq; simp at this; omega)
  have t32 : SDom (traceOf 4 [(0, 1), (1, 3), (3, 2)] fun _ => 1).Calls 0 3 2 :=
    sdom_only y3 ((c2 3 2).2 (by decide)) (by decide) (by decide) (fun q hq => by have := (c2 q 2).1 hq; simp at this; omega)
  obtain ⟨l1, l2, r, a1, b1, a2, b2, hask, hr⟩ := C87_diff_computed X hX _ _ 0 0 2 2 2 o1 o2 rfl rfl (by decide) (by decide)
  have e1 : l1 = [1, 0] := by
    refine order_unique (fun x => (a1 x).trans ?_) b1 (by simp [s01])
    constructor
    · intro h
      have := h.2.2 _ (.snoc (.snoc .nil ((c1 0 1).2 (by decide))) ((c1 1 2).2 (by decide)))
      have := h.2.1
      simp_all
    · intro h
      simp only [List.mem_cons, List.not_mem_nil, or_false] at h
      rcases h with rfl | rfl
      · exact s12
      · exact s01.trans s12
  have e2 : l2 = [3, 1, 0] := by
    refine order_unique (fun x => (a2 x).trans ?_) b2 (by simp [t01, t13, t01.trans t13])
    constructor
    · intro h
      have := h.2.2 _ (.snoc (.snoc (.snoc .nil ((c2 0 1).2 (by decide))) ((c2 1 3).2 (by decide))) ((c2 3 2).2 (by decide)))
      have := h.2.1
      simp_all
    · intro h
      simp only [List.mem_cons, List.not_mem_nil, or_false] at h
      rcases h with rfl | rfl | rfl
      · exact t32
      · exact t13.trans t32
      · exact (t01.trans t13).trans t32
  refine ⟨_, _, o1, o2, s12, t13.trans t32, rfl, by decide, ?_⟩
  rw [(hask _ rfl).1]
  cases hr' : r with
  | none => rfl
  | some k =>
    obtain ⟨i, a, b, ha, hb, na, nb, -⟩ := (hr k).1 hr'
    rw [e1] at ha
    rw [e2] at hb
    have na' : a = k := na
    have nb' : b = k := nb
    subst na'; subst nb'
    match i with
    | 0 => simp at ha hb; omega
    | 1 => simp at ha hb; omega
    | i + 2 => simp at ha

/-- A program that only calls one function: an exception, and None when asked again. -/
theorem C87_single_refuted (X : Nx) (hX : X.Ok) : ∃ T : Trace Nat, T.Ok 0 ∧
    (Diff.mk false none).ask X T T 0 = (⟨true, none⟩, none) ∧ (Diff.mk true none).ask X T T 0 = (⟨true, none⟩, some none) := by
  have hOk : (traceOf 1 [] fun _ => 0).Ok 0 := by
    refine ⟨fun b _ c hc => ?_, by decide, fun b _ h => ?_, fun x hx => ?_, fun nm f h => ?_⟩
    · simp [traceOf] at hc
    · simp [traceOf] at h
    · have : x < 1 := List.mem_range.1 hx
      have : x = 0 := by omega
      subst this; exact .refl
    · simp only [traceOf] at h ⊢
      split at h
      · cases h; exact ⟨List.mem_range.2 (by assumption), rfl⟩
      · cases h
  refine ⟨traceOf 1 [] fun _ => 0, hOk, ?_, rfl⟩
  obtain ⟨w, e, n, q⟩ := hOk.rooted
  obtain ⟨f1, f2, -, f4⟩ := forest_spec hX w q
  obtain ⟨f, hf, -, -, f5⟩ := f4
  cases hf
  have hno : 0 ∉ (forest X (traceOf 1 [] fun _ => 0).cfg).nodes := by
    rw [f5]
    have hnone : ∀ a b, ¬ (traceOf 1 [] fun _ => 0).cfg.E a b := by
      intro a b h
      rw [e] at h
      have := h.2
      simp [traceOf] at this
    have : ∀ d m, ¬ IDom (traceOf 1 [] fun _ => 0).cfg.E 0 d m := by
      intro d m h
      obtain ⟨l, hl⟩ := h.1.1
      cases hl with
      | nil => exact not_sdom_root h.1
      | snoc _ he => exact hnone _ _ he
    rintro ⟨y, h | h⟩
    · exact this _ _ ((f2 _ _).1 h)
    · exact this _ _ ((f2 _ _).1 h)
  have hd : diff X (traceOf 1 [] fun _ => 0) (traceOf 1 [] fun _ => 0) 0 = none := by
    unfold diff
    rw [show (traceOf 1 [] fun _ => 0).find 0 = some 0 from rfl]
    simp only
    rw [show ancestorsOf X (forest X (traceOf 1 [] fun _ => 0).cfg) 0 = none from if_neg fun h => hno h.1]
    rfl
  unfold Diff.ask
  rw [hd]; rfl

/-- There are such functions of networkx, and a loop: 0 → 1 → 2 → 1, with what C87_loop_partial asks for. -/
example : ∃ (X : Nx) (B : Blocks), X.Ok ∧ B.Ok ∧ B.isLoopEntry X 1 = some true ∧ B.isLoopEntry X 2 = some false := by
  obtain ⟨X, hX⟩ := nx_exists
  have hB : (blocksOf 3 [(0, 1), (1, 2), (2, 1)]).Ok := blocksOf_ok (by decide) (by decide)
  have hj : ∀ a b, (blocksOf 3 [(0, 1), (1, 2), (2, 1)]).Jump a b ↔ (a, b) ∈ [(0, 1), (1, 2), (2, 1)] := fun a b => jump_iff
  have l0 : Linked (blocksOf 3 [(0, 1), (1, 2), (2, 1)]).Jump 0 0 := .refl
  have l1 := l0.step ((hj 0 1).2 (by decide))
  have l2 := l1.step ((hj 1 2).2 (by decide))
  have hreach : ∀ x ∈ (blocksOf 3 [(0, 1), (1, 2), (2, 1)]).all, Linked (blocksOf 3 [(0, 1), (1, 2), (2, 1)]).Jump 0 x := by
    intro x hx
    have : x < 3 := List.mem_range.1 hx
    match x, this with
    | 0, _ => exact l0
    | 1, _ => exact l1
    | 2, _ => exact l2
  have hdom : Dom (blocksOf 3 [(0, 1), (1, 2), (2, 1)]).Jump 0 1 2 := by
    intro l hl
    cases hl with
    | @snoc b _ l hw he =>
      have := (hj b 2).1 he
      simp only [List.mem_cons, Prod.mk.injEq, List.not_mem_nil, or_false] at this
      have : b = 1 := by omega
      subst this
      exact List.mem_cons_of_mem _ hw.mem_end
  have hnd : ¬ Dom (blocksOf 3 [(0, 1), (1, 2), (2, 1)]).Jump 0 1 0 := fun h => by
    have := h _ .nil
    simp at this
  obtain ⟨b, h1, h2⟩ := C87_loop_partial X hX _ hB 0 1 0 (by decide) (by decide) hreach (by decide) ((hj 0 1).2 (by decide)) hnd
    (fun q hq hne => by
      have := (hj q 1).1 hq
      simp only [List.mem_cons, Prod.mk.injEq, List.not_mem_nil, or_false] at this
      have : q = 2 := by omega
      subst this; exact hdom) (fun _ _ => rfl)
  exact ⟨X, _, hX, hB, by rw [h1, h2.2 ⟨2, (hj 2 1).2 (by decide), hdom⟩], rfl⟩

end Verif
