import Verif.IrGraph
/- Helper lemmas: what the state of the pass looks like at each instruction (compile-time facts). -/
namespace Verif
namespace PassIr
open Ir

/-- The shadow value exists. -/
def PSt.Old (st : PSt) (a : SV) : Prop := ∀ n, a = .v n → n < st.next

/-- The shadow value exists and is computed before or at `p` on every path to `p`. -/
def PSt.OkAt (F : Func) (p : Pt) (st : PSt) (a : SV) : Prop :=
  ∀ n, a = .v n → n < st.next ∧ (F.Avail (st.place n) p ∨ st.place n = p)

theorem PSt.OkAt.old {F : Func} {p : Pt} {st : PSt} {a : SV} (h : st.OkAt F p a) : st.Old a :=
  fun n e => (h n e).1

/-- What the pass state satisfies after visiting the places `V`. -/
structure SInv (F : Func) (V : Pt → Prop) (st : PSt) : Prop where
  seen : ∀ n, n < st.next → V (st.place n)
  elems : ∀ s E, st.elems s = some E → ∃ n, s = .v n ∧ n < st.next ∧
    ∀ m, .v m ∈ E → m < n ∧ (F.Avail (st.place m) (st.place n) ∨ st.place m = st.place n)
  cached : ∀ a b blk s, st.cached (a, b) = some (blk, s) → ∃ n E, s = .v n ∧ n < st.next ∧
    (st.place n).1 = blk ∧ st.elems s = some E ∧
    (∀ e, e ∈ E ↔ e ∈ st.elemsOf a ∨ e ∈ st.elemsOf b) ∧ st.Old a ∧ st.Old b
  shadow : ∀ r s, st.shadow r = some s → V r.pt ∧ F.Defines r ∧ st.OkAt F r.pt s

/-- The later state has all the earlier one knew about shadows. -/
structure Below (st st' : PSt) : Prop where
  next : st.next ≤ st'.next
  place : ∀ n, n < st.next → st'.place n = st.place n
  elems : ∀ s, st.Old s → st'.elems s = st.elems s

theorem Below.refl (st : PSt) : Below st st := ⟨Nat.le_refl _, fun _ _ => rfl, fun _ _ => rfl⟩

theorem Below.old {st st' : PSt} (h : Below st st') {s : SV} (ho : st.Old s) : st'.Old s :=
  fun n e => Nat.lt_of_lt_of_le (ho n e) h.next

theorem Below.okAt {F : Func} {p : Pt} {st st' : PSt} (h : Below st st') {s : SV}
    (ho : st.OkAt F p s) : st'.OkAt F p s := by
  intro n e
  obtain ⟨h1, h2⟩ := ho n e
  exact ⟨Nat.lt_of_lt_of_le h1 h.next, by rw [h.place n h1]; exact h2⟩

theorem Below.elemsOf {st st' : PSt} (h : Below st st') {s : SV} (ho : st.Old s) :
    st'.elemsOf s = st.elemsOf s := by
  unfold PSt.elemsOf; rw [h.elems s ho]

theorem Below.trans {a b c : PSt} (h1 : Below a b) (h2 : Below b c) : Below a c :=
  ⟨Nat.le_trans h1.next h2.next,
   fun n hn => by rw [h2.place n (Nat.lt_of_lt_of_le hn h1.next), h1.place n hn],
   fun s hs => by rw [h2.elems s (h1.old hs), h1.elems s hs]⟩

/-- The later state also agrees about everything at the places `V`. -/
structure Ext (V : Pt → Prop) (st st' : PSt) : Prop extends Below st st' where
  shadow : ∀ r : Reg, V r.pt → st'.shadow r = st.shadow r
  ann : ∀ q, V q → st'.ann q = st.ann q
  phis : ∀ r : Reg, V r.pt → st'.phis r = st.phis r
  away : ∀ n, st.next ≤ n → n < st'.next → ¬ V (st'.place n)

theorem Ext.refl (V : Pt → Prop) (st : PSt) : Ext V st st :=
  ⟨Below.refl _, fun _ _ => rfl, fun _ _ => rfl, fun _ _ => rfl, fun n h1 h2 => by omega⟩

theorem Ext.trans {V W : Pt → Prop} {a b c : PSt} (h1 : Ext V a b) (h2 : Ext W b c)
    (hVW : ∀ q, V q → W q) : Ext V a c :=
  ⟨h1.toBelow.trans h2.toBelow,
   fun r hr => by rw [h2.shadow r (hVW _ hr), h1.shadow r hr],
   fun q hq => by rw [h2.ann q (hVW _ hq), h1.ann q hq],
   fun r hr => by rw [h2.phis r (hVW _ hr), h1.phis r hr],
   fun n ha hc => by
    by_cases hb : n < b.next
    · rw [h2.place n hb]; exact h1.away n ha hb
    · exact fun hv => h2.away n (by omega) hc (hVW _ hv)⟩

/-- The situation when `p` is visited after the places `V`. -/
structure Ctx (F : Func) (V : Pt → Prop) (p : Pt) : Prop where
  valid : ∀ q, V q ∨ q = p → ∃ B, F.blocks[q.1]? = some B ∧ q.2 ≤ B.body.length + 1
  same : ∀ q, V q → q.1 = p.1 → q.2 < p.2
  reach : F.Reach p
  path : ∀ d, F.Avail d p → V d

theorem Ctx.notin {F : Func} {V : Pt → Prop} {p : Pt} (h : Ctx F V p) : ¬ V p :=
  fun hp => Nat.lt_irrefl _ (h.same p hp rfl)

/-- The state in the middle of visiting `p`, begun in state `st0`. -/
structure Mid (F : Func) (V : Pt → Prop) (p : Pt) (st0 st : PSt) : Prop extends Below st0 st where
  inv : SInv F (fun q => V q ∨ q = p) st
  new : ∀ n, st0.next ≤ n → n < st.next → st.place n = p
  shadow : st.shadow = st0.shadow
  ann : st.ann = st0.ann
  phis : st.phis = st0.phis

theorem SInv.mono {F : Func} {V W : Pt → Prop} {st : PSt} (h : SInv F V st) (hVW : ∀ q, V q → W q) :
    SInv F W st :=
  ⟨fun n hn => hVW _ (h.seen n hn), h.elems, h.cached,
   fun r s hr => by obtain ⟨h1, h2, h3⟩ := h.shadow r s hr; exact ⟨hVW _ h1, h2, h3⟩⟩

theorem Mid.start {F : Func} {V : Pt → Prop} {p : Pt} {st : PSt} (h : SInv F V st) :
    Mid F V p st st :=
  ⟨Below.refl _, h.mono (fun _ => Or.inl), fun n h1 h2 => by omega, rfl, rfl, rfl⟩

theorem fresh_below (st : PSt) (p : Pt) : Below st (st.fresh p).1 :=
  ⟨Nat.le_succ _, fun n hn => by simp only [PSt.fresh]; rw [if_neg (by omega)], fun _ _ => rfl⟩

/-- Adding a shadow without elements. -/
theorem SInv.fresh {F : Func} {V : Pt → Prop} {p : Pt} {st : PSt} (h : SInv F V st) (hp : V p) :
    SInv F V (st.fresh p).1 := by
  have hb := fresh_below st p
  refine ⟨?_, ?_, ?_, ?_⟩
  · intro n hn
    simp only [PSt.fresh] at hn ⊢
    split
    · exact hp
    · exact h.seen n (by omega)
  · intro s E hs
    obtain ⟨n, e, hn, hm⟩ := h.elems s E hs
    refine ⟨n, e, Nat.lt_of_lt_of_le hn hb.next, fun m hmE => ?_⟩
    obtain ⟨h1, h2⟩ := hm m hmE
    rw [hb.place m (by omega), hb.place n hn]
    exact ⟨h1, h2⟩
  · intro a b blk s hc
    obtain ⟨n, E, e, hn, h1, h2, h3, h4, h5⟩ := h.cached a b blk s hc
    exact ⟨n, E, e, Nat.lt_of_lt_of_le hn hb.next, by rw [hb.place n hn]; exact h1, h2, h3,
      hb.old h4, hb.old h5⟩
  · intro r s hr
    obtain ⟨h1, h2, h3⟩ := h.shadow r s hr
    exact ⟨h1, h2, hb.okAt h3⟩

theorem Mid.fresh {F : Func} {V : Pt → Prop} {p : Pt} {st0 st : PSt} (h : Mid F V p st0 st) :
    Mid F V p st0 (st.fresh p).1 := by
  have hb := fresh_below st p
  refine ⟨h.toBelow.trans hb, h.inv.fresh (Or.inr rfl), ?_, h.shadow, h.ann, h.phis⟩
  intro n h1 h2
  simp only [PSt.fresh] at h2 ⊢
  split
  · rfl
  · exact h.new n h1 (by omega)

theorem SInv.emit {F : Func} {V : Pt → Prop} {st : PSt} (h : SInv F V st) (em : List SIns) :
    SInv F V { st with em } := ⟨h.seen, h.elems, h.cached, h.shadow⟩

theorem Below.emit (st : PSt) (em : List SIns) : Below st { st with em } :=
  ⟨Nat.le_refl _, fun _ _ => rfl, fun _ _ => rfl⟩

theorem Mid.emit {F : Func} {V : Pt → Prop} {p : Pt} {st0 st : PSt} (h : Mid F V p st0 st)
    (em : List SIns) : Mid F V p st0 { st with em } :=
  ⟨h.toBelow.trans (.emit _ _), h.inv.emit _, h.new, h.shadow, h.ann, h.phis⟩

/-- The shadow `combine` finds without inserting code, if any. -/
def found (dom : Nat → Nat → Bool) (p : Pt) (st : PSt) (a b : SV) : Option SV :=
  if a = .zero then some b
  else if b = .zero then some a
  else if a = b then some a
  else
    match st.included a b with
    | some s => some s
    | none => st.cachedFor dom p a b

/-- The state after inserting a union. -/
def united (p : Pt) (st : PSt) (a b : SV) : PSt :=
  { st with
    next := st.next + 1
    place := fun n => if n = st.next then p else st.place n
    em := st.em ++ [.union st.next a b]
    cached := fun k => if k = key a b then some (p.1, .v st.next) else st.cached k
    elems := fun s => if s = .v st.next then some (st.elemsOf a ++ st.elemsOf b) else st.elems s }

theorem combine_eq (dom : Nat → Nat → Bool) (p : Pt) (st : PSt) (a b : SV) :
    combine dom p st a b = match found dom p st a b with
      | some s => (st, s)
      | none => (united p st a b, .v st.next) := by
  unfold combine found
  split
  · rfl
  split
  · rfl
  split
  · rfl
  cases st.included a b with
  | some s => rfl
  | none =>
    dsimp only
    cases st.cachedFor dom p a b with
    | some s => rfl
    | none => rfl

/-- Which shadow `found` answers, and why it is the union. -/
inductive FoundCase (F : Func) (p : Pt) (st : PSt) (a b : SV) : SV → Prop where
  | zeroL : a = .zero → FoundCase F p st a b b
  | zeroR : b = .zero → FoundCase F p st a b a
  | same : a = b → FoundCase F p st a b a
  | inL (ea) : st.elems a = some ea → (∀ e ∈ st.elemsOf b, e ∈ ea) → FoundCase F p st a b a
  | inR (eb) : st.elems b = some eb → (∀ e ∈ st.elemsOf a, e ∈ eb) → FoundCase F p st a b b
  | hit (n E) : st.OkAt F p (.v n) → st.elems (.v n) = some E →
      (∀ e, e ∈ E ↔ e ∈ st.elemsOf a ∨ e ∈ st.elemsOf b) → FoundCase F p st a b (.v n)

/-- The dominator tree is right. -/
def DomSound (F : Func) (dom : Nat → Nat → Bool) : Prop :=
  ∀ a b, dom a b = true → a = b ∨ ¬ F.BAvoid a b

theorem okAt_of_place {F : Func} {V : Pt → Prop} {p : Pt} (hc : Ctx F V p)
    {dom : Nat → Nat → Bool} (hd : DomSound F dom) {q : Pt} (hq : V q ∨ q = p)
    (hdom : dom q.1 p.1 = true) : F.Avail q p ∨ q = p := by
  rcases hq with hq | hq
  · obtain ⟨B, hB, hk⟩ := hc.valid q (Or.inl hq)
    by_cases e : q.1 = p.1
    · have := hc.same q hq e
      left
      have := Func.avail_same hB hk this
      rw [show p = (q.1, p.2) by rw [e]]
      exact this
    · rcases hd _ _ hdom with h | h
      · exact absurd h e
      · exact Or.inl (Func.avail_dom hB hk e h)
  · exact Or.inr hq

theorem found_case {F : Func} {V : Pt → Prop} {p : Pt} {st : PSt} (hc : Ctx F V p)
    {dom : Nat → Nat → Bool} (hd : DomSound F dom) (hi : SInv F (fun q => V q ∨ q = p) st)
    {a b s : SV} (h : found dom p st a b = some s) : FoundCase F p st a b s := by
  unfold found at h
  split at h
  · rename_i e; cases h; exact .zeroL e
  split at h
  · rename_i e; cases h; exact .zeroR e
  split at h
  · rename_i e; cases h; exact .same e
  split at h
  · rename_i t hk
    cases h
    unfold PSt.included at hk
    split at hk
    · rename_i ea eb h1 h2
      split at hk
      · rename_i hall
        cases hk
        refine .inL ea h1 (fun e he => ?_)
        simp only [PSt.elemsOf, h2, Option.getD_some] at he
        simpa using List.all_eq_true.1 hall e he
      · split at hk
        · rename_i hall
          cases hk
          refine .inR eb h2 (fun e he => ?_)
          simp only [PSt.elemsOf, h1, Option.getD_some] at he
          simpa using List.all_eq_true.1 hall e he
        · cases hk
    · rename_i ea h1 h2
      split at hk
      · rename_i hm
        cases hk
        refine .inL ea h1 (fun e he => ?_)
        simp only [PSt.elemsOf, h2, Option.getD_none, List.mem_singleton] at he
        subst he; exact hm
      · cases hk
    · rename_i eb h1 h2
      split at hk
      · rename_i hm
        cases hk
        refine .inR eb h2 (fun e he => ?_)
        simp only [PSt.elemsOf, h1, Option.getD_none, List.mem_singleton] at he
        subst he; exact hm
      · cases hk
    · cases hk
  · unfold PSt.cachedFor at h
    split at h
    · rename_i blk t hcache
      split at h
      · rename_i hdom
        cases h
        have hkey : key a b = (a, b) ∨ key a b = (b, a) := by
          unfold key; split
          · exact Or.inr rfl
          · exact Or.inl rfl
        rcases hkey with e | e
        · rw [e] at hcache
          obtain ⟨n, E, rfl, hn, h1, h2, h3, -, -⟩ := hi.cached _ _ _ _ hcache
          refine .hit n E ?_ h2 h3
          intro m hm; cases hm
          exact ⟨hn, okAt_of_place hc hd (hi.seen n hn) (by rw [h1]; exact hdom)⟩
        · rw [e] at hcache
          obtain ⟨n, E, rfl, hn, h1, h2, h3, -, -⟩ := hi.cached _ _ _ _ hcache
          refine .hit n E ?_ h2 (fun e => (h3 e).trans Or.comm)
          intro m hm; cases hm
          exact ⟨hn, okAt_of_place hc hd (hi.seen n hn) (by rw [h1]; exact hdom)⟩
      · cases h
    · cases h

theorem elems_new {F : Func} {V : Pt → Prop} {st : PSt} (h : SInv F V st) :
    st.elems (.v st.next) = none := by
  cases he : st.elems (.v st.next) with
  | none => rfl
  | some E =>
    obtain ⟨n, e, hn, -⟩ := h.elems _ _ he
    cases e; omega

theorem united_below {p : Pt} {st : PSt} (a b : SV) :
    Below st (united p st a b) :=
  ⟨Nat.le_succ _, fun n hn => by simp only [united]; rw [if_neg (by omega)],
   fun s hs => by
    simp only [united]
    rw [if_neg]
    intro e
    have := hs _ e
    omega⟩

/-- Elements of an existing shadow come before `p`. -/
theorem elemsOf_ok {F : Func} {V : Pt → Prop} {p : Pt} {st : PSt} (h : SInv F V st) {a : SV}
    (ha : st.OkAt F p a) {m : Nat} (hm : .v m ∈ st.elemsOf a) :
    m < st.next ∧ (F.Avail (st.place m) p ∨ st.place m = p) := by
  unfold PSt.elemsOf at hm
  cases he : st.elems a with
  | none =>
    simp only [he, Option.getD_none, List.mem_singleton] at hm
    exact ha m hm.symm
  | some E =>
    simp only [he, Option.getD_some] at hm
    obtain ⟨n, e, hn, hE⟩ := h.elems a E he
    obtain ⟨h1, h2⟩ := hE m hm
    obtain ⟨h3, h4⟩ := ha n e
    refine ⟨by omega, ?_⟩
    rcases h2 with h2 | h2
    · rcases h4 with h4 | h4
      · exact Or.inl (Func.avail_trans h2 h4)
      · rw [h4] at h2; exact Or.inl h2
    · rw [h2]; exact h4

theorem united_inv {F : Func} {V : Pt → Prop} {p : Pt} {st : PSt} (h : SInv F V st) (hp : V p)
    {a b : SV} (ha : st.OkAt F p a) (hb : st.OkAt F p b) : SInv F V (united p st a b) := by
  have hbel := united_below (p := p) (st := st) a b
  have hpl : (united p st a b).place st.next = p := by simp [united]
  have hnew : (united p st a b).elems (.v st.next) = some (st.elemsOf a ++ st.elemsOf b) := by
    simp [united]
  refine ⟨?_, ?_, ?_, ?_⟩
  · intro n hn
    simp only [united] at hn ⊢
    split
    · exact hp
    · exact h.seen n (by omega)
  · intro s E hs
    by_cases e : s = .v st.next
    · subst e
      refine ⟨st.next, rfl, Nat.lt_succ_self _, fun m hm => ?_⟩
      rw [hnew, Option.some.injEq] at hs
      subst hs
      have : m < st.next ∧ (F.Avail (st.place m) p ∨ st.place m = p) := by
        rcases List.mem_append.1 hm with hm | hm
        · exact elemsOf_ok h ha hm
        · exact elemsOf_ok h hb hm
      rw [hpl, hbel.place m this.1]
      exact this
    · have hs' : st.elems s = some E := by simpa [united, e] using hs
      obtain ⟨n, e, hn, hm⟩ := h.elems s E hs'
      refine ⟨n, e, Nat.lt_of_lt_of_le hn hbel.next, fun m hmE => ?_⟩
      obtain ⟨h1, h2⟩ := hm m hmE
      rw [hbel.place m (by omega), hbel.place n hn]
      exact ⟨h1, h2⟩
  · intro x y blk s hc
    by_cases e : (x, y) = key a b
    · have hc' : some (p.1, SV.v st.next) = some (blk, s) := by
        simpa [united, e] using hc
      cases hc'
      have ho : st.Old x ∧ st.Old y ∧ ∀ e, e ∈ st.elemsOf a ++ st.elemsOf b ↔
          e ∈ st.elemsOf x ∨ e ∈ st.elemsOf y := by
        unfold key at e
        split at e
        · cases e
          exact ⟨hb.old, ha.old, fun e => by rw [List.mem_append]; exact Or.comm⟩
        · cases e
          exact ⟨ha.old, hb.old, fun e => List.mem_append⟩
      obtain ⟨ox, oy, hE⟩ := ho
      refine ⟨st.next, _, rfl, Nat.lt_succ_self _, by rw [hpl], hnew, ?_, hbel.old ox, hbel.old oy⟩
      intro e
      rw [hbel.elemsOf ox, hbel.elemsOf oy]
      exact hE e
    · have hc' : st.cached (x, y) = some (blk, s) := by simpa [united, e] using hc
      obtain ⟨n, E, rfl, hn, h1, h2, h3, h4, h5⟩ := h.cached x y blk s hc'
      refine ⟨n, E, rfl, Nat.lt_of_lt_of_le hn hbel.next, by rw [hbel.place n hn]; exact h1, ?_, ?_,
        hbel.old h4, hbel.old h5⟩
      · rw [hbel.elems _ (fun m e => by cases e; exact hn)]; exact h2
      · intro e
        rw [hbel.elemsOf h4, hbel.elemsOf h5]
        exact h3 e
  · intro r s hr
    obtain ⟨h1, h2, h3⟩ := h.shadow r s hr
    exact ⟨h1, h2, hbel.okAt h3⟩

theorem Mid.united {F : Func} {V : Pt → Prop} {p : Pt} {st0 st : PSt} (h : Mid F V p st0 st)
    {a b : SV} (ha : st.OkAt F p a) (hb : st.OkAt F p b) : Mid F V p st0 (united p st a b) := by
  refine ⟨h.toBelow.trans (united_below a b), united_inv h.inv (Or.inr rfl) ha hb, ?_, h.shadow, h.ann,
    h.phis⟩
  intro n h1 h2
  simp only [PassIr.united] at h2 ⊢
  split
  · rfl
  · exact h.new n h1 (by omega)

theorem FoundCase.okAt {F : Func} {p : Pt} {st : PSt} {a b s : SV} (h : FoundCase F p st a b s)
    (ha : st.OkAt F p a) (hb : st.OkAt F p b) : st.OkAt F p s := by
  cases h with
  | zeroL _ => exact hb
  | zeroR _ => exact ha
  | same _ => exact ha
  | inL _ _ _ => exact ha
  | inR _ _ _ => exact hb
  | hit n E h _ _ => exact h

/-- Combining two shadows keeps the state in order and gives a shadow available at `p`. -/
theorem Mid.combine {F : Func} {V : Pt → Prop} {p : Pt} {st0 st : PSt} (hc : Ctx F V p)
    {dom : Nat → Nat → Bool} (hd : DomSound F dom) (h : Mid F V p st0 st)
    {a b : SV} (ha : st.OkAt F p a) (hb : st.OkAt F p b) :
    Mid F V p st0 (combine dom p st a b).1 ∧ Below st (combine dom p st a b).1 ∧
      (combine dom p st a b).1.OkAt F p (combine dom p st a b).2 := by
  rw [combine_eq]
  cases hf : found dom p st a b with
  | some s => exact ⟨h, .refl _, (found_case hc hd h.inv hf).okAt ha hb⟩
  | none =>
    refine ⟨h.united ha hb, united_below a b, ?_⟩
    intro n hn
    cases hn
    refine ⟨Nat.lt_succ_self _, Or.inr ?_⟩
    simp [PassIr.united]

/-- Shadows of usable operands are available. -/
theorem Mid.getShadow {F : Func} {V : Pt → Prop} {p : Pt} {st0 st : PSt}
    (h : Mid F V p st0 st) {o : Opd} (ho : F.Usable p o) : st.OkAt F p (st.getShadow F o) := by
  cases o with
  | const v => intro n e; simp [PSt.getShadow] at e
  | arg i =>
    intro n e
    simp only [PSt.getShadow] at e
    split at e <;> simp at e
  | reg r =>
    intro n e
    simp only [PSt.getShadow] at e
    cases hs : st.shadow r with
    | none => rw [hs] at e; cases e
    | some s =>
      rw [hs, Option.getD_some] at e
      obtain ⟨-, -, h3⟩ := h.inv.shadow r s hs
      obtain ⟨h4, h5⟩ := h3 n e
      refine ⟨h4, ?_⟩
      rcases h5 with h5 | h5
      · exact Or.inl (Func.avail_trans h5 ho.2)
      · rw [h5]; exact Or.inl ho.2

end PassIr
end Verif
