import Verif.PassIrStatic
import Mathlib.Data.List.Induction
/- Helper lemmas: visiting one place, and the whole function (compile-time facts). -/
namespace Verif
namespace PassIr
open Ir

theorem Mid.combineLoop {F : Func} {V : Pt → Prop} {p : Pt} {st0 : PSt} (hc : Ctx F V p)
    {dom : Nat → Nat → Bool} (hd : DomSound F dom) : ∀ (os : List Opd) {st : PSt} {s : SV},
    Mid F V p st0 st → st.OkAt F p s → (∀ o ∈ os, F.Usable p o) →
    Mid F V p st0 (combineLoop dom F p os st s).1 ∧ Below st (combineLoop dom F p os st s).1 ∧
      (combineLoop dom F p os st s).1.OkAt F p (combineLoop dom F p os st s).2 := by
  intro os
  induction os with
  | nil => intro st s h hs _; exact ⟨h, .refl _, hs⟩
  | cons o os ih =>
    intro st s h hs ho
    obtain ⟨h1, h2, h3⟩ := h.combine hc hd hs (h.getShadow (ho o (by simp)))
    obtain ⟨h4, h5, h6⟩ := ih h1 h3 (fun o h => ho o (by simp [h]))
    exact ⟨h4, h2.trans h5, h6⟩

theorem Mid.combineOperands {F : Func} {V : Pt → Prop} {p : Pt} {st0 st : PSt} (hc : Ctx F V p)
    {dom : Nat → Nat → Bool} (hd : DomSound F dom) (h : Mid F V p st0 st) (os : List Opd)
    (ho : ∀ o ∈ os, F.Usable p o) :
    Mid F V p st0 (combineOperands dom F p st os).1 ∧ Below st (combineOperands dom F p st os).1 ∧
      (combineOperands dom F p st os).1.OkAt F p (combineOperands dom F p st os).2 := by
  cases os with
  | nil => exact ⟨h, .refl _, fun n e => by simp [PassIr.combineOperands] at e⟩
  | cons o os =>
    exact Mid.combineLoop hc hd os h (h.getShadow (ho o (by simp))) (fun o h => ho o (by simp [h]))

/-- What visiting `p` does. -/
structure Visited (F : Func) (V : Pt → Prop) (p : Pt) (st0 st1 : PSt) : Prop where
  inv : SInv F (fun q => V q ∨ q = p) st1
  ext : Ext V st0 st1
  new : ∀ n, st0.next ≤ n → n < st1.next → st1.place n = p
  em : st1.em = []

theorem Mid.close {F : Func} {V : Pt → Prop} {p : Pt} {st0 st : PSt} (hc : Ctx F V p)
    (h : Mid F V p st0 st) (xs : List SV) (d : Option Nat) :
    Visited F V p st0 (st.close p xs d) := by
  refine ⟨⟨h.inv.seen, h.inv.elems, h.inv.cached, h.inv.shadow⟩,
    ⟨⟨h.next, h.place, h.elems⟩, ?_, ?_, ?_,
      fun n h1 h2 hv => hc.notin (h.new n h1 h2 ▸ hv)⟩, h.new, rfl⟩
  · intro r _; simp only [PSt.close, h.shadow]
  · intro q hq
    simp only [PSt.close]
    rw [if_neg (fun e : q = p => hc.notin (e ▸ hq)), h.ann]
  · intro r _; simp only [PSt.close, h.phis]

theorem Mid.finish {F : Func} {V : Pt → Prop} {p : Pt} {st0 st : PSt} (hc : Ctx F V p)
    (h : Mid F V p st0 st) {r : Reg} (hr : r.pt = p) (hdef : F.Defines r) {s : SV}
    (hs : st.OkAt F p s) (xs : List SV) (d : Option Nat) :
    Visited F V p st0 ((st.setShadow r s).close p xs d) := by
  refine ⟨⟨h.inv.seen, h.inv.elems, h.inv.cached, ?_⟩,
    ⟨⟨h.next, h.place, h.elems⟩, ?_, ?_, ?_,
      fun n h1 h2 hv => hc.notin (h.new n h1 h2 ▸ hv)⟩, h.new, rfl⟩
  · intro r' s' hs'
    simp only [PSt.close, PSt.setShadow] at hs'
    split at hs'
    · rename_i e
      cases hs'
      subst e
      exact ⟨Or.inr hr, hdef, by rw [hr]; exact hs⟩
    · obtain ⟨h1, h2, h3⟩ := h.inv.shadow r' s' hs'
      exact ⟨h1, h2, h3⟩
  · intro r' hV
    simp only [PSt.close, PSt.setShadow, h.shadow]
    rw [if_neg]
    intro e
    subst e
    rw [hr] at hV
    exact hc.notin hV
  · intro q hq
    simp only [PSt.close, PSt.setShadow]
    rw [if_neg (fun e : q = p => hc.notin (e ▸ hq)), h.ann]
  · intro r _; simp only [PSt.close, PSt.setShadow, h.phis]

theorem okAt_zero {F : Func} {p : Pt} {st : PSt} : st.OkAt F p .zero := by
  intro n e; cases e

theorem okAt_fresh {F : Func} {p : Pt} {st : PSt} (em : List SIns) :
    { (st.fresh p).1 with em }.OkAt F p (.v st.next) := by
  intro n e
  cases e
  exact ⟨Nat.lt_succ_self _, Or.inr (by simp [PSt.fresh])⟩

theorem visitInstr_spec {F : Func} {V : Pt → Prop} {b j : Nat} {st0 : PSt} {B : Block} {I : Instr}
    (hc : Ctx F V (b, j + 1)) {dom : Nat → Nat → Bool} (hd : DomSound F dom) (hi : SInv F V st0)
    (hB : F.blocks[b]? = some B) (hI : B.body[j]? = some I)
    (ho : ∀ o ∈ I.opds, F.Usable (b, j + 1) o) :
    Visited F V (b, j + 1) st0 (visitInstr dom F b j st0 I) := by
  have hdef : F.Defines (.ins b j) := ⟨B, hB, (List.getElem?_eq_some_iff.1 hI).1⟩
  have h0 : Mid F V (b, j + 1) st0 st0 := .start hi
  cases I with
  | op f args =>
    obtain ⟨h1, -, h3⟩ := h0.combineOperands hc hd args ho
    exact h1.finish hc rfl hdef h3 [] none
  | untracked f args => exact h0.finish hc rfl hdef okAt_zero [] none
  | load a n =>
    unfold visitInstr
    dsimp only
    split
    · exact h0.finish hc rfl hdef okAt_zero [] none
    · have h1 := h0.fresh.emit ((st0.fresh (b, j + 1)).1.em ++ [.load st0.next a n])
      obtain ⟨h2, -, h3⟩ := h1.combine hc hd (okAt_fresh _) (h1.getShadow (ho a (by simp [Instr.opds])))
      exact h2.finish hc rfl hdef h3 [] none
  | store a v n =>
    unfold visitInstr
    dsimp only
    split
    · exact h0.close hc [] none
    · exact (h0.emit _).close hc [] none
  | select c t e =>
    unfold visitInstr
    have hsc := h0.getShadow (ho c (by simp [Instr.opds]))
    dsimp only
    split
    · obtain ⟨h2, -, h3⟩ := h0.combine hc hd hsc (h0.getShadow (ho t (by simp [Instr.opds])))
      exact h2.finish hc rfl hdef h3 [] none
    · have h1 := h0.fresh.emit ((st0.fresh (b, j + 1)).1.em ++
        [.sel st0.next c (st0.getShadow F t) (st0.getShadow F e)])
      obtain ⟨h2, -, h3⟩ := h1.combine hc hd (h1.getShadow (ho c (by simp [Instr.opds]))) (okAt_fresh _)
      exact h2.finish hc rfl hdef h3 [] none
  | call void f args =>
    unfold visitInstr
    dsimp only
    split
    · exact (h0.emit _).close hc [] none
    · have h1 := (h0.emit (st0.em ++ argStores F st0 0 args)).fresh
      exact h1.finish hc rfl hdef (okAt_fresh _) [] _
  | alloca n => exact h0.finish hc rfl hdef okAt_zero [] none
  | getVar k =>
    unfold visitInstr
    have h1 := h0.fresh.emit ((st0.fresh (b, j + 1)).1.em ++ [.getVar st0.next k])
    obtain ⟨h2, -, h3⟩ := h1.combine hc hd (okAt_fresh _) okAt_zero
    exact h2.finish hc rfl hdef h3 [] none
  | setVar k v => exact (h0.emit _).close hc [] none
  | getc => exact h0.fresh.finish hc rfl hdef (okAt_fresh _) [] _
  | read a n => exact h0.fresh.finish hc rfl hdef (okAt_fresh _) _ _
  | write a n => exact h0.fresh.finish hc rfl hdef (okAt_fresh _) _ _
  | putc v => exact h0.close hc _ none
  | memset d c n => exact (h0.emit _).close hc [] none
  | memcpy move d s n => exact (h0.emit _).close hc [] none
  | rmw f a args n => exact (h0.emit _).finish hc rfl hdef okAt_zero [] none
  | hook k v =>
    cases k with
    | enter f => exact h0.finish hc rfl hdef okAt_zero [] none
    | leave f => exact h0.finish hc rfl hdef okAt_zero [] none
    | taken f => exact h0.fresh.finish hc rfl hdef (okAt_fresh _) _ _
    | noted => exact h0.close hc _ none

theorem visitTerm_spec {F : Func} {V : Pt → Prop} {p : Pt} {st0 : PSt} (hc : Ctx F V p)
    (hi : SInv F V st0) (T : Term) : Visited F V p st0 (visitTerm F p st0 T) := by
  have h0 : Mid F V p st0 st0 := .start hi
  unfold visitTerm
  split
  · exact (h0.emit _).close hc [] none
  · exact h0.close hc [] none

/-! ### Phis -/

/-- The state after the phis `k, k + 1, …` (`n` of them) of block `b` have been visited. -/
structure PhiSt (b k n : Nat) (st st' : PSt) : Prop where
  next : st'.next = st.next + n
  placeNew : ∀ i, i < n → st'.place (st.next + i) = (b, 0)
  placeOld : ∀ m, m < st.next → st'.place m = st.place m
  shNew : ∀ i, i < n → st'.shadow (.phi b (k + i)) = some (.v (st.next + i))
  shOld : ∀ r, (∀ i, i < n → r ≠ .phi b (k + i)) → st'.shadow r = st.shadow r
  phNew : ∀ i, i < n → st'.phis (.phi b (k + i)) = st.next + i
  phOld : ∀ r, (∀ i, i < n → r ≠ .phi b (k + i)) → st'.phis r = st.phis r
  elems : st'.elems = st.elems
  cached : st'.cached = st.cached
  em : st'.em = st.em
  ann : st'.ann = st.ann

theorem visitPhis_spec (b : Nat) : ∀ (ps : List (List (Nat × Opd))) (k : Nat) (st : PSt),
    PhiSt b k ps.length st (visitPhis b k ps st) := by
  intro ps
  induction ps with
  | nil =>
    intro k st
    exact ⟨rfl, fun i h => absurd h (by simp), fun _ _ => rfl, fun i h => absurd h (by simp),
      fun _ _ => rfl, fun i h => absurd h (by simp), fun _ _ => rfl, rfl, rfl, rfl, rfl⟩
  | cons q ps ih =>
    intro k st
    unfold visitPhis
    dsimp only
    have h := ih (k + 1) { (((st.fresh (b, 0)).1).setShadow (.phi b k) (.v st.next)) with
      phis := fun r => if r = .phi b k then st.next else st.phis r }
    have hne : ∀ i, i < ps.length → Reg.phi b k ≠ .phi b (k + 1 + i) := by
      intro i _ e
      simp only [Reg.phi.injEq, true_and] at e
      omega
    have hn : (((st.fresh (b, 0)).1).setShadow (.phi b k) (.v st.next)).next = st.next + 1 := rfl
    refine ⟨?_, ?_, ?_, ?_, ?_, ?_, ?_, h.elems, h.cached, h.em, h.ann⟩
    · refine h.next.trans ?_
      rw [show ∀ x, PSt.next { (((st.fresh (b, 0)).1).setShadow (.phi b k) (.v st.next)) with
        phis := x } = st.next + 1 from fun _ => rfl, List.length_cons]
      omega
    · intro i hi
      cases i with
      | zero =>
        have := h.placeOld st.next (Nat.lt_succ_self _)
        rw [Nat.add_zero]
        refine this.trans ?_
        simp [PSt.setShadow, PSt.fresh]
      | succ i =>
        have := h.placeNew i (by simpa using hi)
        simp only [hn] at this
        rw [show st.next + (i + 1) = st.next + 1 + i by omega]
        exact this
    · intro m hm
      refine (h.placeOld m (Nat.lt_succ_of_lt hm)).trans ?_
      simp only [PSt.setShadow, PSt.fresh]
      rw [if_neg (by omega)]
    · intro i hi
      cases i with
      | zero =>
        rw [Nat.add_zero]
        refine (h.shOld _ hne).trans ?_
        simp [PSt.setShadow]
      | succ i =>
        have := h.shNew i (by simpa using hi)
        simp only [hn] at this
        rw [show st.next + (i + 1) = st.next + 1 + i by omega, show k + (i + 1) = k + 1 + i by omega]
        exact this
    · intro r hr
      refine (h.shOld r (fun i hi => ?_)).trans ?_
      · have := hr (i + 1) (by simpa using hi)
        rwa [show k + (i + 1) = k + 1 + i by omega] at this
      · simp only [PSt.setShadow, PSt.fresh]
        rw [if_neg (by have := hr 0 (by simp); simpa using this)]
    · intro i hi
      cases i with
      | zero =>
        rw [Nat.add_zero]
        refine (h.phOld _ hne).trans ?_
        simp
      | succ i =>
        have := h.phNew i (by simpa using hi)
        simp only [hn] at this
        rw [show st.next + (i + 1) = st.next + 1 + i by omega, show k + (i + 1) = k + 1 + i by omega]
        exact this
    · intro r hr
      refine (h.phOld r (fun i hi => ?_)).trans ?_
      · have := hr (i + 1) (by simpa using hi)
        rwa [show k + (i + 1) = k + 1 + i by omega] at this
      · simp only
        rw [if_neg (by have := hr 0 (by simp); simpa using this)]

theorem PhiSt.visited {F : Func} {V : Pt → Prop} {b : Nat} {B : Block} {st0 st1 : PSt}
    (hc : Ctx F V (b, 0)) (hi : SInv F V st0) (he : st0.em = [])
    (hB : F.blocks[b]? = some B) (h : PhiSt b 0 B.phis.length st0 st1) :
    Visited F V (b, 0) st0 st1 := by
  have hbel : Below st0 st1 :=
    ⟨by rw [h.next]; omega, h.placeOld, fun s _ => by rw [h.elems]⟩
  have helems : ∀ s, st1.elemsOf s = st0.elemsOf s := fun s => by unfold PSt.elemsOf; rw [h.elems]
  have hVne : ∀ r : Reg, V r.pt → ∀ i, i < B.phis.length → r ≠ .phi b (0 + i) := by
    intro r hr i _ e
    subst e
    exact hc.notin hr
  have hnew : ∀ n, st0.next ≤ n → n < st1.next → st1.place n = (b, 0) := by
    intro n h1 h2
    have := h.placeNew (n - st0.next) (by have := h.next; omega)
    rwa [show st0.next + (n - st0.next) = n by omega] at this
  refine ⟨⟨?_, ?_, ?_, ?_⟩, ⟨hbel, ?_, ?_, ?_, fun n h1 h2 hv => hc.notin (hnew n h1 h2 ▸ hv)⟩, hnew,
    by rw [h.em, he]⟩
  · intro n hn
    by_cases c : n < st0.next
    · rw [h.placeOld n c]; exact Or.inl (hi.seen n c)
    · have := h.placeNew (n - st0.next) (by have := h.next; omega)
      rw [show st0.next + (n - st0.next) = n by omega] at this
      exact Or.inr this
  · intro s E hs
    rw [h.elems] at hs
    obtain ⟨n, e, hn, hm⟩ := hi.elems s E hs
    refine ⟨n, e, Nat.lt_of_lt_of_le hn hbel.next, fun m hmE => ?_⟩
    obtain ⟨h1, h2⟩ := hm m hmE
    rw [hbel.place m (by omega), hbel.place n hn]
    exact ⟨h1, h2⟩
  · intro x y blk s hs
    rw [h.cached] at hs
    obtain ⟨n, E, e, hn, h1, h2, h3, h4, h5⟩ := hi.cached x y blk s hs
    refine ⟨n, E, e, Nat.lt_of_lt_of_le hn hbel.next, by rw [hbel.place n hn]; exact h1,
      by rw [h.elems]; exact h2, ?_, hbel.old h4, hbel.old h5⟩
    intro e
    rw [helems, helems]
    exact h3 e
  · intro r s hs
    by_cases c : ∃ i, i < B.phis.length ∧ r = .phi b (0 + i)
    · obtain ⟨i, hi', rfl⟩ := c
      rw [h.shNew i hi'] at hs
      cases hs
      refine ⟨Or.inr rfl, ⟨B, hB, by simpa using hi'⟩, ?_⟩
      intro n e
      cases e
      exact ⟨by rw [h.next]; omega, Or.inr (h.placeNew i hi')⟩
    · rw [h.shOld r (fun i hi e => c ⟨i, hi, e⟩)] at hs
      obtain ⟨h1, h2, h3⟩ := hi.shadow r s hs
      exact ⟨Or.inl h1, h2, hbel.okAt h3⟩
  · intro r hr; exact h.shOld r (hVne r hr)
  · intro q _; rw [h.ann]
  · intro r hr; exact h.phOld r (hVne r hr)

/-! ### The whole function -/

/-- Visiting one place. -/
def visitPt (dom : Nat → Nat → Bool) (F : Func) (st : PSt) (p : Pt) : PSt :=
  match F.blocks[p.1]? with
  | none => st
  | some B =>
    match p.2 with
    | 0 => visitPhis p.1 0 B.phis st
    | j + 1 =>
      match B.body[j]? with
      | some I => visitInstr dom F p.1 j st I
      | none => visitTerm F p st B.term

/-- The places of a block. -/
def blockPts (F : Func) (b : Nat) : List Pt :=
  match F.blocks[b]? with
  | none => []
  | some B => (List.range (B.body.length + 2)).map (fun k => (b, k))

/-- The places in the order in which they are visited. -/
def pts (F : Func) : List Pt := (order F).flatMap (blockPts F)

theorem visitBody_eq {dom : Nat → Nat → Bool} {F : Func} {b : Nat} {B : Block}
    (hB : F.blocks[b]? = some B) : ∀ (Is : List Instr) (j : Nat) (st : PSt),
    (∀ i, Is[i]? = B.body[j + i]?) →
    visitBody dom F b j Is st =
      ((List.range' j Is.length).map (fun i => (b, i + 1))).foldl (visitPt dom F) st := by
  intro Is
  induction Is with
  | nil => intro j st _; rfl
  | cons I Is ih =>
    intro j st h
    unfold visitBody
    rw [ih (j + 1) _ (fun i => by
      have := h (i + 1)
      rw [show j + 1 + i = j + (i + 1) by omega, ← this]; simp)]
    simp only [List.length_cons, List.range'_succ, List.map_cons, List.foldl_cons]
    congr 1
    have h0 := h 0
    simp only [List.getElem?_cons_zero, Nat.add_zero] at h0
    simp only [visitPt, hB, ← h0]

theorem visitBlock_eq {dom : Nat → Nat → Bool} {F : Func} (b : Nat) (st : PSt) :
    visitBlock dom F st b = (blockPts F b).foldl (visitPt dom F) st := by
  unfold visitBlock blockPts
  cases hB : F.blocks[b]? with
  | none => rfl
  | some B =>
    dsimp only
    rw [visitBody_eq hB B.body 0 _ (fun i => by simp)]
    have hr : List.range (B.body.length + 2) =
        0 :: ((List.range B.body.length).map (· + 1) ++ [B.body.length + 1]) := by
      rw [List.range_succ, List.range_succ_eq_map]
      rfl
    rw [hr]
    simp only [List.map_cons, List.map_append, List.map_map, List.map_nil, List.foldl_cons,
      List.foldl_append, List.foldl_nil]
    have e1 : visitPt dom F st (b, 0) = visitPhis b 0 B.phis st := by simp [visitPt, hB]
    have e2 : ∀ st, visitPt dom F st (b, B.body.length + 1) =
        visitTerm F (b, B.body.length + 1) st B.term := by
      intro st; simp [visitPt, hB]
    rw [e1, e2, List.range_eq_range']
    rfl

theorem instrument_eq (dom : Nat → Nat → Bool) (F : Func) :
    (instrument dom F).st = (pts F).foldl (visitPt dom F) PSt.init := by
  unfold instrument pts
  dsimp only
  generalize PSt.init = st
  generalize order F = os
  induction os generalizing st with
  | nil => rfl
  | cons b os ih =>
    rw [List.foldl_cons, ih, visitBlock_eq, List.flatMap_cons, List.foldl_append]

theorem flatMap_split {α β : Type} {f : α → List β} : ∀ {l : List α} {pre post : List β} {p : β},
    l.flatMap f = pre ++ p :: post → ∃ l1 a l2 q1 q2, l = l1 ++ a :: l2 ∧ f a = q1 ++ p :: q2 ∧
      pre = l1.flatMap f ++ q1 := by
  intro l
  induction l with
  | nil => intro pre post p h; simp at h
  | cons a l ih =>
    intro pre post p h
    rw [List.flatMap_cons] at h
    rcases List.append_eq_append_iff.1 h with ⟨c, h1, h2⟩ | ⟨c, h1, h2⟩
    · obtain ⟨l1, a', l2, q1, q2, e1, e2, e3⟩ := ih h2
      exact ⟨a :: l1, a', l2, q1, q2, by rw [e1]; rfl, e2,
        by rw [h1, e3, List.flatMap_cons, List.append_assoc]⟩
    · match c with
      | [] =>
        obtain ⟨l1, a', l2, q1, q2, e1, e2, e3⟩ := ih (pre := []) h2.symm
        refine ⟨a :: l1, a', l2, q1, q2, by rw [e1]; rfl, e2, ?_⟩
        rw [List.flatMap_cons, List.append_assoc, ← e3]
        simpa using h1.symm
      | x :: c =>
        simp only [List.cons_append, List.cons.injEq] at h2
        obtain ⟨rfl, h2⟩ := h2
        exact ⟨[], a, l, pre, c, rfl, h1, by simp⟩

theorem blockPts_mem {F : Func} {b : Nat} {q : Pt} (h : q ∈ blockPts F b) :
    q.1 = b ∧ ∃ B, F.blocks[b]? = some B ∧ q.2 ≤ B.body.length + 1 := by
  unfold blockPts at h
  cases hB : F.blocks[b]? with
  | none => rw [hB] at h; simp at h
  | some B =>
    rw [hB] at h
    simp only [List.mem_map, List.mem_range] at h
    obtain ⟨k, hk, rfl⟩ := h
    exact ⟨rfl, B, rfl, by simp only; omega⟩

theorem mem_blockPts {F : Func} {b k : Nat} {B : Block} (hB : F.blocks[b]? = some B)
    (hk : k ≤ B.body.length + 1) : (b, k) ∈ blockPts F b := by
  unfold blockPts
  rw [hB]
  simp only [List.mem_map, List.mem_range, Prod.mk.injEq, true_and]
  exact ⟨k, by omega, rfl⟩

theorem blockPts_split {F : Func} {b : Nat} {q1 q2 : List Pt} {p : Pt}
    (h : blockPts F b = q1 ++ p :: q2) : q1 = (List.range p.2).map (fun k => (b, k)) := by
  unfold blockPts at h
  cases hB : F.blocks[b]? with
  | none => rw [hB] at h; simp at h
  | some B =>
    rw [hB] at h
    simp only at h
    have hlen := congrArg List.length h
    simp at hlen
    have hp : p.2 = q1.length := by
      have := congrArg (fun l => l[q1.length]?) h
      simp only [List.getElem?_map, List.getElem?_append_right (Nat.le_refl _), Nat.sub_self,
        List.getElem?_cons_zero] at this
      rw [List.getElem?_range (by omega)] at this
      simp only [Option.map_some, Option.some.injEq] at this
      rw [← this]
    have := congrArg (List.take q1.length) h
    rw [List.take_left] at this
    rw [← this, ← List.map_take, List.take_range, hp]
    congr 1
    congr 1
    omega

theorem pts_ctx {F : Func} (hv : F.Valid) (h0 : F.blocks ≠ []) {pre post : List Pt} {p : Pt}
    (h : pts F = pre ++ p :: post) : Ctx F (· ∈ pre) p := by
  have ho := order_spec hv h0
  -- paths
  have hpath : ∀ (n : Nat) (l1 : List Nat) (b : Nat) (l2 : List Nat) (k : Nat) (B : Block),
      l1.length = n → order F = l1 ++ b :: l2 → F.blocks[b]? = some B → k ≤ B.body.length + 1 →
      F.PathIn (· ∈ l1.flatMap (blockPts F) ++ (List.range k).map (fun k => (b, k))) (b, k) := by
    intro n
    induction n using Nat.strongRecOn with
    | _ n ih =>
      intro l1 b l2 k B hn he hB hk
      induction k with
      | zero =>
        by_cases hl : l1 = []
        · subst hl
          obtain ⟨r, hr⟩ := ho.head
          rw [he] at hr
          simp only [List.nil_append, List.cons.injEq] at hr
          rw [hr.1]
          exact .entry
        · obtain ⟨y, hy, hby⟩ := ho.tree l1 b l2 he hl
          obtain ⟨a1, a2, rfl⟩ := List.append_of_mem hy
          cases hY : F.blocks[y]? with
          | none => simp [succOf, hY] at hby
          | some Y =>
            simp only [succOf, hY] at hby
            have hp := ih a1.length (by rw [← hn]; simp) a1 y (a2 ++ b :: l2)
              (Y.body.length + 1) Y rfl (by rw [he]; simp) hY (Nat.le_refl _)
            refine .step (hp.mono ?_) ?_ (.jump hY hby)
            · intro q hq
              simp only [List.flatMap_append, List.flatMap_cons, List.mem_append] at hq ⊢
              rcases hq with hq | hq
              · exact Or.inl (Or.inl hq)
              · obtain ⟨i, hi, rfl⟩ := List.mem_map.1 hq
                simp only [List.mem_range] at hi
                exact Or.inl (Or.inr (Or.inl (mem_blockPts hY (by omega))))
            · simp only [List.flatMap_append, List.flatMap_cons, List.mem_append]
              exact Or.inl (Or.inr (Or.inl (mem_blockPts hY (Nat.le_refl _))))
      | succ k ihk =>
        have hp := ihk (by omega)
        refine .step (hp.mono ?_) ?_ (.seq hB (by omega))
        · intro q hq
          rw [List.range_succ, List.map_append]
          rcases List.mem_append.1 hq with hq | hq
          · exact List.mem_append.2 (Or.inl hq)
          · exact List.mem_append.2 (Or.inr (List.mem_append.2 (Or.inl hq)))
        · rw [List.range_succ, List.map_append]
          simp
  obtain ⟨l1, b, l2, q1, q2, e1, e2, e3⟩ := flatMap_split h
  have hq1 := blockPts_split e2
  have hpb : p ∈ blockPts F b := by rw [e2]; simp
  obtain ⟨hp1, B, hB, hpk⟩ := blockPts_mem hpb
  have hpeq : p = (b, p.2) := by rw [← hp1]
  have hp := hpath _ l1 b l2 p.2 B rfl e1 hB hpk
  rw [← hq1, ← e3, ← hpeq] at hp
  refine ⟨?_, ?_, hp.reach, fun d hd => hp.avail hd⟩
  · rintro q (hq | rfl)
    · rw [e3] at hq
      rcases List.mem_append.1 hq with hq | hq
      · obtain ⟨c, -, hc⟩ := List.mem_flatMap.1 hq
        obtain ⟨f1, f2⟩ := blockPts_mem hc
        rw [f1]; exact f2
      · have : q ∈ blockPts F b := by rw [e2]; simp [hq]
        obtain ⟨f1, f2⟩ := blockPts_mem this
        rw [f1]; exact f2
    · rw [hp1]; exact ⟨B, hB, hpk⟩
  · intro q hq hqp
    rw [e3] at hq
    rcases List.mem_append.1 hq with hq | hq
    · exfalso
      obtain ⟨c, hc, hc'⟩ := List.mem_flatMap.1 hq
      obtain ⟨f1, -⟩ := blockPts_mem hc'
      have hcb : c = b := by rw [← f1, hqp, hp1]
      subst hcb
      have hnd := ho.nodup
      rw [e1] at hnd
      exact (List.nodup_append.1 hnd).2.2 c hc c (by simp) rfl
    · rw [hq1] at hq
      obtain ⟨i, hi, rfl⟩ := List.mem_map.1 hq
      simpa using hi

/-- Every reachable place is visited. -/
theorem mem_pts {F : Func} (hv : F.Valid) (h0 : F.blocks ≠ []) {p : Pt} (hr : F.Reach p) :
    p ∈ pts F := by
  have ho := order_spec hv h0
  have hin : ∀ b k, b ∈ order F → (∃ B, F.blocks[b]? = some B ∧ k ≤ B.body.length + 1) →
      (b, k) ∈ pts F := by
    rintro b k hb ⟨B, hB, hk⟩
    exact List.mem_flatMap.2 ⟨b, hb, mem_blockPts hB hk⟩
  have hout : ∀ q ∈ pts F, q.1 ∈ order F := by
    intro q hq
    obtain ⟨b, hb, hq⟩ := List.mem_flatMap.1 hq
    rw [(blockPts_mem hq).1]; exact hb
  have hblk : ∀ b ∈ order F, ∃ B, F.blocks[b]? = some B :=
    fun b hb => ⟨_, List.getElem?_eq_getElem (ho.lt b hb)⟩
  induction hr with
  | entry =>
    have : 0 ∈ order F := by obtain ⟨r, hr⟩ := ho.head; rw [hr]; simp
    obtain ⟨B, hB⟩ := hblk 0 this
    exact hin 0 0 this ⟨B, hB, Nat.zero_le _⟩
  | step hp e ih =>
    cases e with
    | seq hB hk => exact hin _ _ (hout _ ih) ⟨_, hB, by omega⟩
    | @jump b B t hB ht =>
      have hb := hout _ ih
      have : t ∈ order F := by
        rcases ho.closed b hb t (by simp only [succOf, hB]; exact ht) with h | ⟨cs, h, -⟩
        · exact h
        · cases h
      obtain ⟨T, hT⟩ := hblk t this
      exact hin t 0 this ⟨T, hT, Nat.zero_le _⟩

theorem visitPt_spec {F : Func} (hv : F.Valid) {V : Pt → Prop} {p : Pt} {st0 : PSt}
    (hc : Ctx F V p) {dom : Nat → Nat → Bool} (hd : DomSound F dom) (hi : SInv F V st0)
    (he : st0.em = []) : Visited F V p st0 (visitPt dom F st0 p) := by
  obtain ⟨B, hB, hk⟩ := hc.valid p (Or.inr rfl)
  obtain ⟨b, k⟩ := p
  simp only at hB hk
  unfold visitPt
  simp only [hB]
  cases k with
  | zero => exact (visitPhis_spec b B.phis 0 st0).visited hc hi he hB
  | succ j =>
    dsimp only
    cases hI : B.body[j]? with
    | some I => exact visitInstr_spec hc hd hi hB hI (hv.ins b B j I hB hI hc.reach)
    | none => exact visitTerm_spec hc hi B.term

theorem init_inv (F : Func) : SInv F (· ∈ ([] : List Pt)) PSt.init :=
  ⟨fun n hn => absurd hn (Nat.not_lt_zero _), fun s E h => by simp [PSt.init] at h,
   fun a b blk s h => by simp [PSt.init] at h, fun r s h => by simp [PSt.init] at h⟩

/-- At every place the state is in order, and the state after it agrees with the final one. -/
theorem pts_states {F : Func} (hv : F.Valid) (h0 : F.blocks ≠ []) {dom : Nat → Nat → Bool}
    (hd : DomSound F dom) : ∀ (pre post : List Pt), pts F = pre ++ post →
      SInv F (· ∈ pre) (pre.foldl (visitPt dom F) PSt.init) ∧
      (pre.foldl (visitPt dom F) PSt.init).em = [] := by
  intro pre
  induction pre using List.reverseRecOn with
  | nil => intro post _; exact ⟨init_inv F, rfl⟩
  | append_singleton pre p ih =>
    intro post h
    rw [List.append_assoc] at h
    obtain ⟨h1, h2⟩ := ih _ h
    have := visitPt_spec hv (pts_ctx hv h0 h) hd h1 h2
    rw [List.foldl_append]
    refine ⟨this.inv.mono (fun q hq => ?_), this.em⟩
    simp only [List.mem_append, List.mem_singleton]
    exact hq

theorem pts_ext {F : Func} (hv : F.Valid) (h0 : F.blocks ≠ []) {dom : Nat → Nat → Bool}
    (hd : DomSound F dom) : ∀ (post pre : List Pt), pts F = pre ++ post →
      Ext (· ∈ pre) (pre.foldl (visitPt dom F) PSt.init) (instrument dom F).st := by
  intro post
  induction post with
  | nil =>
    intro pre h
    rw [instrument_eq, h, List.append_nil]
    exact .refl _ _
  | cons p post ih =>
    intro pre h
    obtain ⟨h1, h2⟩ := pts_states hv h0 hd pre (p :: post) h
    have hvis := visitPt_spec hv (pts_ctx hv h0 h) hd h1 h2
    have := ih (pre ++ [p]) (by rw [h]; simp)
    rw [List.foldl_append] at this
    exact hvis.ext.trans this (fun q hq => by simp [hq])

/-- What is known about a reachable place in the instrumented function. -/
theorem place_facts {F : Func} (hv : F.Valid) (h0 : F.blocks ≠ []) {dom : Nat → Nat → Bool}
    (hd : DomSound F dom) {p : Pt} (hr : F.Reach p) :
    ∃ (V : Pt → Prop) (st0 : PSt), Ctx F V p ∧ SInv F V st0 ∧ st0.em = [] ∧
      Visited F V p st0 (visitPt dom F st0 p) ∧
      Ext (fun q => V q ∨ q = p) (visitPt dom F st0 p) (instrument dom F).st := by
  obtain ⟨pre, post, h⟩ := List.append_of_mem (mem_pts hv h0 hr)
  obtain ⟨h1, h2⟩ := pts_states hv h0 hd pre (p :: post) h
  have hc := pts_ctx hv h0 h
  have he := pts_ext hv h0 hd post (pre ++ [p]) (by rw [h]; simp)
  rw [List.foldl_append] at he
  have hm : (fun q => q ∈ pre ++ [p]) = (fun q => q ∈ pre ∨ q = p) := by
    funext q; simp
  rw [hm] at he
  exact ⟨(· ∈ pre), _, hc, h1, h2, visitPt_spec hv hc hd h1 h2, he⟩

/-- The final state is in order. -/
theorem final_inv {F : Func} (hv : F.Valid) (h0 : F.blocks ≠ []) {dom : Nat → Nat → Bool}
    (hd : DomSound F dom) : SInv F (· ∈ pts F) (instrument dom F).st := by
  rw [instrument_eq]
  exact (pts_states hv h0 hd (pts F) [] (by simp)).1

end PassIr
end Verif
