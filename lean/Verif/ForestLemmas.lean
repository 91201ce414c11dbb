import Verif.PyGraph
/- Invariant of the taint forest. -/
namespace Verif
open Spec Py
namespace Py.Forest

/-- `Chain st cf f c m`: in the cache, `c` is label `f` itself or a synthetic node joining the labels
`f .. m` one after the other. -/
inductive Chain (st : Forest) (cf : Bool) (f : Nat) : Int → Nat → Prop where
  | base : Chain st cf f (f : Int) f
  | step {s c : Int} {m : Nat} : s < 0 →
      st.cache.get s = some (some ⟨s, none, cf, some (c, ((m + 1 : Nat) : Int))⟩) →
      Chain st cf f c m → Chain st cf f s (m + 1)

/-- `nd` is a correct node for label `l` with taint value `t`. -/
def NodeT (F : TDFile) (st : Forest) (l : Nat) : Taint → FNode → Prop
  | .source cf i _, nd => ∃ inp, F.inputOf i = some inp ∧ nd = ⟨l, some inp, cf, none⟩
  | .union cf lo hi, nd => nd = ⟨l, none, cf, some ((hi : Int), (lo : Int))⟩
  | .range cf f t, nd => ∃ c, nd = ⟨l, none, cf, some (c, (t : Int))⟩ ∧ Chain st cf f c (t - 1)

/-- Nodes are never replaced. -/
def Extends (st st' : Forest) : Prop :=
  ∀ l nd, st.cache.get l = some (some nd) → st'.cache.get l = some (some nd)

structure Inv (F : TDFile) (g : Graph) (n : Nat) (st : Forest) : Prop where
  cnt : st.cnt < 0
  zero : st.cache.get 0 = some (some ⟨0, none, false, none⟩)
  key : ∀ l : Int, (∃ v, st.cache.get l = some v) ↔ st.cnt < l ∧ l < n
  empty : ∀ l : Int, st.cache.get l = some none → 0 < l
  real : ∀ (l : Nat) nd, 0 < l → st.cache.get (l : Int) = some (some nd) →
    ∃ t, g l = some t ∧ NodeT F st l t nd
  synth : ∀ (s : Int) nd, s < 0 → st.cache.get s = some (some nd) →
    ∃ L cf f t c k, g L = some (.range cf f t) ∧ nd = ⟨s, none, cf, some (c, ((k + 1 : Nat) : Int))⟩ ∧
      k + 1 < t ∧ Chain st cf f c k

theorem Chain.mono {st st' : Forest} (he : Extends st st') {cf : Bool} {f m : Nat} {c : Int}
    (h : Chain st cf f c m) : Chain st' cf f c m := by
  induction h with
  | base => exact .base
  | step h1 h2 _ ih => exact .step h1 (he _ _ h2) ih

theorem NodeT.mono {F : TDFile} {st st' : Forest} (he : Extends st st') {l : Nat} {t : Taint} {nd : FNode}
    (h : NodeT F st l t nd) : NodeT F st' l t nd := by
  cases t with
  | source => exact h
  | union => exact h
  | range cf f t =>
    obtain ⟨c, h1, h2⟩ := h
    exact ⟨c, h1, h2.mono he⟩

theorem Extends.refl (st : Forest) : Extends st st := fun _ _ h => h
theorem Extends.trans {a b c : Forest} (h : Extends a b) (h' : Extends b c) : Extends a c :=
  fun l nd k => h' l nd (h l nd k)

theorem get_range'_map (n : Nat) (l : Int) :
    Dict.get ((List.range' 1 n).map fun (i : Nat) => ((i : Int), (none : Option FNode))) l =
      if 1 ≤ l ∧ l ≤ n then some none else none := by
  have : ∀ k a : Nat, Dict.get ((List.range' a k).map fun (i : Nat) => ((i : Int), (none : Option FNode))) l =
      if (a : Int) ≤ l ∧ l < a + k then some none else none := by
    intro k
    induction k with
    | zero => intro a; rw [if_neg (by omega)]; rfl
    | succ k ih =>
      intro a
      rw [List.range'_succ, List.map_cons, Dict.get, ih (a + 1)]
      by_cases h : (a : Int) = l
      · rw [if_pos h, if_pos (by omega)]
      · rw [if_neg h]
        by_cases h2 : ((a + 1 : Nat) : Int) ≤ l ∧ l < ((a + 1 : Nat) : Int) + k
        · rw [if_pos h2, if_pos (by omega)]
        · rw [if_neg h2, if_neg (by omega)]
  rw [this]
  by_cases h : 1 ≤ l ∧ l ≤ n
  · rw [if_pos h, if_pos (by omega)]
  · rw [if_neg h, if_neg (by omega)]

theorem new_inv {F : TDFile} {g : Graph} {n : Nat} (hF : F.Shows g n) :
    ∃ st, new F = some st ∧ Inv F g n st := by
  refine ⟨⟨(0, some ⟨0, none, false, none⟩) ::
      ((List.range' 1 (n - 1)).map fun (i : Nat) => ((i : Int), none)), -1⟩, ?_, ?_⟩
  · rw [new, hF.count]; rfl
  · have hpos := hF.pos
    have hget : ∀ l : Int, Dict.get ((0, some ⟨0, none, false, none⟩) ::
        ((List.range' 1 (n - 1)).map fun (i : Nat) => ((i : Int), (none : Option FNode)))) l =
        if l = 0 then some (some ⟨0, none, false, none⟩) else if 1 ≤ l ∧ l < n then some none else none := by
      intro l
      rw [Dict.get, get_range'_map]
      by_cases h : (0 : Int) = l
      · rw [if_pos h, if_pos h.symm]
      · rw [if_neg h, if_neg (Ne.symm h)]
        by_cases h2 : 1 ≤ l ∧ l ≤ ((n - 1 : Nat) : Int)
        · rw [if_pos h2, if_pos (by omega)]
        · rw [if_neg h2, if_neg (by omega)]
    refine ⟨(by show (-1 : Int) < 0; decide), by rw [hget]; rfl, ?_, ?_, ?_, ?_⟩
    · intro l
      simp only [hget]
      by_cases h : l = 0
      · simp [h]; omega
      · rw [if_neg h]
        by_cases h2 : 1 ≤ l ∧ l < n
        · rw [if_pos h2]; simp; omega
        · rw [if_neg h2]; simp; omega
    · intro l hl
      simp only [hget] at hl
      split at hl
      · cases hl
      · split at hl
        · omega
        · cases hl
    · intro l nd h0 hl
      simp only [hget] at hl
      rw [if_neg (by omega)] at hl
      split at hl <;> cases hl
    · intro l nd h0 hl
      simp only [hget] at hl
      rw [if_neg (by omega), if_neg (by omega)] at hl
      cases hl

theorem unfoldRange_spec {F : TDFile} {g : Graph} {n L f t : Nat} {cf : Bool}
    (hL : g L = some (.range cf f t)) (hn : 0 < n) : ∀ (k : Nat) (curr : Int) (m : Nat) (st : Forest), Inv F g n st →
    Chain st cf f curr m → m + 1 + k = t → ∀ c st', unfoldRange cf k curr (m + 1) st = (c, st') →
    Inv F g n st' ∧ Extends st st' ∧ Chain st' cf f c (t - 1) ∧
      (∀ l : Int, 0 ≤ l → st'.cache.get l = st.cache.get l) := by
  intro k
  induction k with
  | zero =>
    intro curr m st hi hch hk c st' h
    cases h
    exact ⟨hi, .refl _, (show t - 1 = m by omega) ▸ hch, fun _ _ => rfl⟩
  | succ k ih =>
    intro curr m st hi hch hk c st' h
    simp only [unfoldRange, Forest.synth] at h
    generalize hnd : (⟨st.cnt, none, cf, some (curr, ((m + 1 : Nat) : Int))⟩ : FNode) = nd at h
    generalize hst : (⟨st.cache.set st.cnt (some nd), st.cnt - 1⟩ : Forest) = st1 at h
    have hneg := hi.cnt
    have hfresh : st.cache.get st.cnt = none := by
      cases hx : st.cache.get st.cnt with
      | none => rfl
      | some v => have := (hi.key st.cnt).1 ⟨v, hx⟩; omega
    have hget : ∀ l, st1.cache.get l = if l = st.cnt then some (some nd) else st.cache.get l := by
      intro l; subst hst; exact Dict.get_set _ _ _ _
    have hcnt : st1.cnt = st.cnt - 1 := by subst hst; rfl
    have hext : Extends st st1 := by
      intro l x hx
      rw [hget]
      split
      · rename_i e; rw [e, hfresh] at hx; cases hx
      · exact hx
    have hi1 : Inv F g n st1 := by
      refine ⟨by omega, ?_, ?_, ?_, ?_, ?_⟩
      · exact hext _ _ hi.zero
      · intro l
        rw [hget, hcnt]
        split
        · rename_i e; simp; omega
        · rename_i e; rw [hi.key]; omega
      · intro l hl
        rw [hget] at hl
        split at hl
        · cases hl
        · exact hi.empty l hl
      · intro l x h0 hl
        rw [hget, if_neg (by omega)] at hl
        obtain ⟨t, h1, h2⟩ := hi.real l x h0 hl
        exact ⟨t, h1, h2.mono hext⟩
      · intro s x h0 hl
        rw [hget] at hl
        split at hl
        · rename_i e
          cases hl
          refine ⟨L, cf, f, t, curr, m, hL, ?_, by omega, hch.mono hext⟩
          rw [← hnd, e]
        · obtain ⟨L', cf', f', t', c', k', h1, h2, h3, h4⟩ := hi.synth s x h0 hl
          exact ⟨L', cf', f', t', c', k', h1, h2, h3, h4.mono hext⟩
    have hch1 : Chain st1 cf f st.cnt (m + 1) := by
      refine .step hneg ?_ (hch.mono hext)
      rw [hget, if_pos rfl, ← hnd]
    obtain ⟨h1, h2, h3, h4⟩ := ih st.cnt (m + 1) st1 hi1 hch1 (by omega) c st' h
    refine ⟨h1, hext.trans h2, h3, ?_⟩
    intro l hl
    rw [h4 l hl, hget, if_neg (by omega)]

/-- Storing the node of a label. -/
theorem Inv.store {F : TDFile} {g : Graph} {n : Nat} {st : Forest} (hi : Inv F g n st) {l : Nat} (h0 : 0 < l)
    (hl : st.cache.get (l : Int) = some none) {t : Taint} (hg : g l = some t) {nd : FNode}
    (hnd : NodeT F st l t nd) :
    Inv F g n { st with cache := st.cache.set (l : Int) (some nd) } ∧
    Extends st { st with cache := st.cache.set (l : Int) (some nd) } := by
  generalize hst : ({ st with cache := st.cache.set (l : Int) (some nd) } : Forest) = st1
  have hget : ∀ x, st1.cache.get x = if x = (l : Int) then some (some nd) else st.cache.get x := by
    intro x; subst hst; exact Dict.get_set _ _ _ _
  have hcnt : st1.cnt = st.cnt := by subst hst; rfl
  have hext : Extends st st1 := by
    intro x y hx
    rw [hget]
    split
    · rename_i e; rw [e, hl] at hx; cases hx
    · exact hx
  refine ⟨⟨by rw [hcnt]; exact hi.cnt, hext _ _ hi.zero, ?_, ?_, ?_, ?_⟩, hext⟩
  · intro x
    rw [hget, hcnt]
    split
    · rename_i e
      have := (hi.key (l : Int)).1 ⟨_, hl⟩
      simp; omega
    · exact hi.key x
  · intro x hx
    rw [hget] at hx
    split at hx
    · cases hx
    · exact hi.empty x hx
  · intro x y hx0 hx
    rw [hget] at hx
    split at hx
    · rename_i e
      cases hx
      have : x = l := by omega
      subst this
      exact ⟨t, hg, hnd.mono hext⟩
    · obtain ⟨t', h1, h2⟩ := hi.real x y hx0 hx
      exact ⟨t', h1, h2.mono hext⟩
  · intro s y hs hx
    rw [hget, if_neg (by omega)] at hx
    obtain ⟨L', cf', f', t', c', k', h1, h2, h3, h4⟩ := hi.synth s y hs hx
    exact ⟨L', cf', f', t', c', k', h1, h2, h3, h4.mono hext⟩

/-- A query for a known label succeeds, extends the forest, and the answer is what the cache then
holds. -/
theorem get_spec {F : TDFile} {g : Graph} {n : Nat} (hF : F.Shows g n) {st : Forest} (hi : Inv F g n st)
    (l : Int) (hl : st.cnt < l ∧ l < n) :
    ∃ nd st', st.get F l = some (nd, st') ∧ Inv F g n st' ∧ Extends st st' ∧
      st'.cache.get l = some (some nd) := by
  obtain ⟨v, hv⟩ := (hi.key l).2 hl
  cases v with
  | some nd =>
    refine ⟨nd, st, ?_, hi, .refl _, hv⟩
    rw [get, hv]
  | none =>
    have h0 := hi.empty l hv
    obtain ⟨l, rfl⟩ : ∃ k : Nat, l = (k : Int) := ⟨l.toNat, by omega⟩
    have hl0 : 0 < l := by omega
    obtain ⟨t, hg, hleg, hrefs⟩ := hF.wf.legal l hl0 (by omega)
    have hdec : F.decodeNode l = some (nodeOf t) := by rw [hF.node l hl0, hg]; rfl
    have hget : st.get F (l : Int) = (create F st l).bind fun p =>
        some (p.1, { p.2 with cache := p.2.cache.set (l : Int) (some p.1) }) := by
      rw [get, hv]
      simp only [guard, show (0 : Int) ≤ (l : Int) by omega, Int.toNat_natCast]
      rfl
    have hcr : create F st l = match nodeOf t with
        | .source idx _ cf => (F.inputOf idx).bind fun inp => some (⟨(l : Int), some inp, cf, none⟩, st)
        | .union a b cf => some (⟨(l : Int), none, cf, some ((a : Int), (b : Int))⟩, st)
        | .range f b cf => some (⟨(l : Int), none, cf, some ((unfoldRange cf (b - (f + 1)) f (f + 1) st).1, (b : Int))⟩,
            (unfoldRange cf (b - (f + 1)) f (f + 1) st).2)
        | .untainted => none := by
      rw [create, hdec]
      cases t <;> rfl
    cases t with
    | source cf i o =>
      have hi' := hF.header l cf i o hg
      have hin : F.inputOf i = some ⟨F.fdHeaders[i].2.fd, F.fdHeaders[i].1, F.fdHeaders[i].2.size⟩ := by
        rw [TDFile.inputOf, List.getElem?_eq_getElem hi']; rfl
      have hnd : NodeT F st l (.source cf i o) ⟨(l : Int), some ⟨F.fdHeaders[i].2.fd, F.fdHeaders[i].1,
          F.fdHeaders[i].2.size⟩, cf, none⟩ := ⟨_, hin, rfl⟩
      obtain ⟨h1, h2⟩ := hi.store hl0 hv hg hnd
      refine ⟨_, _, ?_, h1, h2, Dict.get_set_eq _ _ _⟩
      rw [hget, hcr]
      simp only [nodeOf, hin, Option.bind_some]
    | union cf lo hi' =>
      have hnd : NodeT F st l (.union cf lo hi') ⟨(l : Int), none, cf, some ((hi' : Int), (lo : Int))⟩ := rfl
      obtain ⟨h1, h2⟩ := hi.store hl0 hv hg hnd
      refine ⟨_, _, ?_, h1, h2, Dict.get_set_eq _ _ _⟩
      rw [hget, hcr]
      simp only [nodeOf, Option.bind_some]
    | range cf f t =>
      cases hu : unfoldRange cf (t - (f + 1)) f (f + 1) st with
      | mk c st1 =>
        obtain ⟨h1, h2, h3, h4⟩ := unfoldRange_spec hg hF.pos (t - (f + 1)) f f st hi .base
          (by have := hleg.1; omega) c st1 hu
        have hnd : NodeT F st1 l (.range cf f t) ⟨(l : Int), none, cf, some (c, (t : Int))⟩ := ⟨c, rfl, h3⟩
        obtain ⟨k1, k2⟩ := h1.store hl0 (by rw [h4 _ (by omega)]; exact hv) hg hnd
        refine ⟨_, _, ?_, k1, h2.trans k2, Dict.get_set_eq _ _ _⟩
        rw [hget, hcr]
        simp only [nodeOf, Option.bind_some, hu]

theorem get_none {F : TDFile} {g : Graph} {n : Nat} {st : Forest} (hi : Inv F g n st)
    (l : Int) (hl : ¬ (st.cnt < l ∧ l < n)) : st.get F l = none := by
  have : st.cache.get l = none := by
    cases h : st.cache.get l with
    | none => rfl
    | some v => exact absurd ((hi.key l).1 ⟨v, h⟩) hl
  rw [get, this]

theorem get_some {F : TDFile} {g : Graph} {n : Nat} (hF : F.Shows g n) {st st' : Forest} (hi : Inv F g n st)
    {l : Int} {nd : FNode} (h : st.get F l = some (nd, st')) :
    (st.cnt < l ∧ l < n) ∧ Inv F g n st' ∧ Extends st st' ∧ st'.cache.get l = some (some nd) := by
  by_cases hl : st.cnt < l ∧ l < n
  · obtain ⟨nd', st'', h1, h2⟩ := get_spec hF hi l hl
    rw [h] at h1
    cases h1
    exact ⟨hl, h2⟩
  · rw [get_none hi l hl] at h; cases h

/-- Nodes in the cache carry their label. -/
theorem Inv.label {F : TDFile} {g : Graph} {n : Nat} {st : Forest} (hi : Inv F g n st) {l : Int} {nd : FNode}
    (h : st.cache.get l = some (some nd)) : nd.label = l := by
  by_cases h0 : l < 0
  · obtain ⟨_, _, _, _, _, _, -, rfl, -⟩ := hi.synth l nd h0 h; rfl
  · by_cases h1 : l = 0
    · subst h1; rw [hi.zero] at h; cases h; rfl
    · obtain ⟨k, rfl⟩ : ∃ k : Nat, l = (k : Int) := ⟨l.toNat, by omega⟩
      obtain ⟨t, -, ht⟩ := hi.real k nd (by omega) h
      cases t with
      | source cf i o => obtain ⟨_, -, rfl⟩ := ht; rfl
      | union cf lo hi => obtain rfl := ht; rfl
      | range cf f t => obtain ⟨c, rfl, -⟩ := ht; rfl

theorem Chain.key {F : TDFile} {g : Graph} {n : Nat} {st : Forest} (hi : Inv F g n st)
    {cf : Bool} {f m : Nat} {c : Int} (hc : Chain st cf f c m) (hf : f < n) : st.cnt < c ∧ c < n := by
  cases hc with
  | base => exact ⟨by have := hi.cnt; omega, by omega⟩
  | step h1 h2 h3 => exact (hi.key _).1 ⟨_, h2⟩

theorem Chain.le {st : Forest} {cf : Bool} {f m : Nat} {c : Int} (hc : Chain st cf f c m) : f ≤ m := by
  induction hc with
  | base => exact Nat.le_refl _
  | step _ _ _ ih => omega

end Py.Forest
end Verif
