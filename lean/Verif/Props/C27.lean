import Verif.ForestLemmas
import Verif.Props.C17
/- C27: the taint forest denotes the same sets as the label graph. -/
namespace Verif
open Spec Py File Tracker

/-- The states a forest can be in: any sequence of queries since its construction. -/
inductive Py.Forest.Reachable (F : TDFile) : Forest → Prop where
  | new {st} : Forest.new F = some st → Reachable F st
  | query {st l nd st'} : Reachable F st → st.get F l = some (nd, st') → Reachable F st'

/-- Later states. -/
inductive Py.Forest.Later (F : TDFile) : Forest → Forest → Prop where
  | refl (st) : Later F st st
  | query {st st' l nd st''} : Later F st st' → st'.get F l = some (nd, st'') → Later F st st''

/-- Input bytes found by walking from a node to its parents, where any queries may be made in
between. -/
inductive Py.Forest.Finds (F : TDFile) : Forest → FNode → Input × Nat → Prop where
  | leaf {st nd b} : Forest.fileOffset F nd = some b → Finds F st nd b
  | parent {st nd p q r m st' b} : nd.parents = some (p, q) → r = p ∨ r = q →
      st.get F r = some (m, st') → Finds F st' m b → Finds F st nd b
  | other {st l m st' nd b} : st.get F l = some (m, st') → Finds F st' nd b → Finds F st nd b

/-- `p` is one of the parents of `l` in the forest built so far. -/
def Py.Forest.Parent (st : Forest) (p l : Int) : Prop :=
  ∃ nd a b, st.cache.get l = some (some nd) ∧ nd.parents = some (a, b) ∧ (p = a ∨ p = b)

namespace Py.Forest

theorem Reachable.inv {F : TDFile} {g : Graph} {n : Nat} (hF : F.Shows g n) {st : Forest}
    (h : Reachable F st) : Inv F g n st := by
  induction h with
  | new h =>
    obtain ⟨st', h1, h2⟩ := new_inv hF
    rw [h] at h1; cases h1; exact h2
  | query _ h2 ih => exact (get_some hF ih h2).2.1

theorem Later.inv {F : TDFile} {g : Graph} {n : Nat} (hF : F.Shows g n) {st st' : Forest}
    (h : Later F st st') (hi : Inv F g n st) : Inv F g n st' ∧ Extends st st' := by
  induction h with
  | refl => exact ⟨hi, .refl _⟩
  | query _ h2 ih =>
    obtain ⟨-, h3, h4, -⟩ := get_some hF (ih).1 h2
    exact ⟨h3, ih.2.trans h4⟩

theorem Later.reach {F : TDFile} {st st' : Forest} (h : Later F st st') (hr : Reachable F st) :
    Reachable F st' := by
  induction h with
  | refl => exact hr
  | query _ h2 ih => exact .query ih h2

/-- Labels of parents are labels. -/
theorem Inv.parents {F : TDFile} {g : Graph} {n : Nat} (hF : F.Shows g n) {st : Forest} (hi : Inv F g n st)
    {l : Int} {nd : FNode} (h : st.cache.get l = some (some nd)) {p q : Int}
    (hp : nd.parents = some (p, q)) : (st.cnt < p ∧ p < n) ∧ st.cnt < q ∧ q < n := by
  have hc := hi.cnt
  by_cases h0 : l < 0
  · obtain ⟨L, cf, f, t, c, k, hg, rfl, hk, hch⟩ := hi.synth l nd h0 h
    cases hp
    have hL : 0 < L ∧ L < n := by
      by_cases hL : L = 0 ∨ n ≤ L
      · rw [hF.wf.none L hL] at hg; cases hg
      · omega
    obtain ⟨t', h1, h2, h3⟩ := hF.wf.legal L hL.1 hL.2
    rw [hg] at h1; cases h1
    have hf := h3 f ⟨Nat.le_refl _, Nat.le_of_lt h2.1⟩
    have ht := h3 t ⟨Nat.le_of_lt h2.1, Nat.le_refl _⟩
    have := hch.key hi (by omega)
    omega
  · by_cases h1 : l = 0
    · subst h1; rw [hi.zero] at h; cases h; cases hp
    · obtain ⟨k, rfl⟩ : ∃ k : Nat, l = (k : Int) := ⟨l.toNat, by omega⟩
      have hkn := (hi.key _).1 ⟨_, h⟩
      obtain ⟨t, hg, ht⟩ := hi.real k nd (by omega) h
      obtain ⟨t', h1, h2, h3⟩ := hF.wf.legal k (by omega) (by omega)
      rw [hg] at h1; cases h1
      cases t with
      | source cf i o => obtain ⟨_, -, rfl⟩ := ht; cases hp
      | union cf lo hi' =>
        obtain rfl := ht; cases hp
        have := h3 lo (Or.inl rfl)
        have := h3 hi' (Or.inr rfl)
        omega
      | range cf f t =>
        obtain ⟨c, rfl, hch⟩ := ht; cases hp
        have hf := h3 f ⟨Nat.le_refl _, Nat.le_of_lt h2.1⟩
        have ht := h3 t ⟨Nat.le_of_lt h2.1, Nat.le_refl _⟩
        have := hch.key hi (by omega)
        omega

theorem fileOffset_real {F : TDFile} {g : Graph} {n : Nat} (hF : F.Shows g n) {st : Forest}
    {l : Nat} (h0 : 0 < l) {nd : FNode} {t : Taint} (hg : g l = some t) (ht : NodeT F st l t nd)
    (b : Input × Nat) : fileOffset F nd = some b ↔
      ∃ cf i o, t = .source cf i o ∧ F.inputOf i = some b.1 ∧ b.2 = o := by
  have hdec : F.decodeNode l = some (nodeOf t) := by rw [hF.node l h0, hg]; rfl
  cases t with
  | source cf i o =>
    obtain ⟨inp, hin, rfl⟩ := ht
    have : fileOffset F ⟨(l : Int), some inp, cf, none⟩ = some (inp, o) := by
      simp only [fileOffset, guard, show (0 : Int) ≤ (l : Int) by omega, Int.toNat_natCast, hdec]
      rfl
    rw [this]
    constructor
    · intro h; cases h; exact ⟨cf, i, o, rfl, hin, rfl⟩
    · rintro ⟨cf', i', o', h1, h2, h3⟩
      cases h1
      rw [hin] at h2
      obtain ⟨x, y⟩ := b
      cases h2; cases h3; rfl
  | union cf lo hi =>
    obtain rfl := ht
    constructor
    · intro h; cases h
    · rintro ⟨_, _, _, h1, -⟩; cases h1
  | range cf f t =>
    obtain ⟨c, rfl, -⟩ := ht
    constructor
    · intro h; cases h
    · rintro ⟨_, _, _, h1, -⟩; cases h1

/-- Soundness of walking. -/
theorem Finds.sound {F : TDFile} {g : Graph} {n : Nat} (hF : F.Shows g n) {st : Forest} {nd : FNode}
    {b : Input × Nat} (h : Finds F st nd b) : ∀ (_ : Inv F g n st) (l : Int),
    st.cache.get l = some (some nd) →
    (∀ k : Nat, l = (k : Int) → ∃ i, Denotes g k (i, b.2) ∧ F.inputOf i = some b.1) ∧
    (∀ cf f m, l < 0 → Chain st cf f l m →
      ∃ k i, f ≤ k ∧ k ≤ m ∧ Denotes g k (i, b.2) ∧ F.inputOf i = some b.1) := by
  induction h with
  | @leaf st nd b h =>
    intro hi l hl
    constructor
    · rintro k rfl
      by_cases hk : k = 0
      · subst hk
        rw [show ((0 : Nat) : Int) = 0 from rfl, hi.zero] at hl
        cases hl; cases h
      · obtain ⟨t, hg, ht⟩ := hi.real k nd (by omega) hl
        obtain ⟨cf, i, o, rfl, h1, h2⟩ := (fileOffset_real hF (by omega) hg ht b).1 h
        exact ⟨i, h2 ▸ .source hg, h1⟩
    · intro cf f m hneg _
      obtain ⟨_, _, _, _, _, _, -, rfl, -⟩ := hi.synth l nd hneg hl
      cases h
  | @parent st nd p q r m st' b hp hr hget _ ih =>
    intro hi l hl
    obtain ⟨-, hi', hext, hm⟩ := get_some hF hi hget
    obtain ⟨ih1, ih2⟩ := ih hi' r hm
    -- what a chain element below or equal to `m` contributes
    have hchain : ∀ cf f c k, Chain st cf f c k → r = c →
        ∃ j i, f ≤ j ∧ j ≤ k ∧ Denotes g j (i, b.2) ∧ F.inputOf i = some b.1 := by
      intro cf f c k hch hrc
      subst hrc
      cases hch with
      | base =>
        obtain ⟨i, h1, h2⟩ := ih1 f rfl
        exact ⟨f, i, Nat.le_refl _, Nat.le_refl _, h1, h2⟩
      | step h1 h2 h3 => exact ih2 cf f _ h1 ((Chain.step h1 h2 h3).mono hext)
    constructor
    · rintro k rfl
      by_cases hk : k = 0
      · subst hk
        rw [show ((0 : Nat) : Int) = 0 from rfl, hi.zero] at hl
        cases hl; cases hp
      · obtain ⟨t, hg, ht⟩ := hi.real k nd (by omega) hl
        cases t with
        | source cf i o => obtain ⟨_, -, rfl⟩ := ht; cases hp
        | union cf lo hi' =>
          obtain rfl := ht; cases hp
          rcases hr with rfl | rfl
          · obtain ⟨i, h1, h2⟩ := ih1 _ rfl
            exact ⟨i, .higher hg h1, h2⟩
          · obtain ⟨i, h1, h2⟩ := ih1 _ rfl
            exact ⟨i, .lower hg h1, h2⟩
        | range cf f t =>
          obtain ⟨c, rfl, hch⟩ := ht; obtain ⟨rfl, rfl⟩ : c = p ∧ _ = q := by simpa using hp
          have hle := hch.le
          have hft : f < t := by
            have := (hi.key _).1 ⟨_, hl⟩
            obtain ⟨t', h1, h2, -⟩ := hF.wf.legal k (by omega) (by omega)
            rw [hg] at h1; cases h1; exact h2.1
          rcases hr with hr | rfl
          · obtain ⟨j, i, h1, h2, h3, h4⟩ := hchain cf f c _ hch hr
            exact ⟨i, .range hg h1 (by omega) h3, h4⟩
          · obtain ⟨i, h1, h2⟩ := ih1 _ rfl
            exact ⟨i, .range hg (by omega) (Nat.le_refl _) h1, h2⟩
    · intro cf f k hneg hch
      cases hch with
      | base => omega
      | @step _ c k' h1 h2 h3 =>
        rw [hl] at h2; cases h2; obtain ⟨rfl, rfl⟩ : c = p ∧ _ = q := by simpa using hp
        have hle := h3.le
        rcases hr with hr | rfl
        · obtain ⟨j, i, h4, h5, h6, h7⟩ := hchain cf f c _ h3 hr
          exact ⟨j, i, h4, by omega, h6, h7⟩
        · obtain ⟨i, h4, h5⟩ := ih1 _ rfl
          exact ⟨_, i, by omega, Nat.le_refl _, h4, h5⟩
  | @other st l' m st' nd b hget _ ih =>
    intro hi l hl
    obtain ⟨-, hi', hext, -⟩ := get_some hF hi hget
    obtain ⟨ih1, ih2⟩ := ih hi' l (hext _ _ hl)
    exact ⟨ih1, fun cf f m h1 h2 => ih2 cf f m h1 (h2.mono hext)⟩

/-- Completeness of walking. -/
theorem finds_complete {F : TDFile} {g : Graph} {n : Nat} (hF : F.Shows g n) {l : Nat} {x : Nat × Nat}
    (h : Denotes g l x) : ∀ (st : Forest) (nd : FNode) (inp : Input), Inv F g n st →
    st.cache.get (l : Int) = some (some nd) → F.inputOf x.1 = some inp → Finds F st nd (inp, x.2) := by
  have pos : ∀ {l t}, g l = some t → 0 < l := by
    intro l t hg
    by_cases hl : l = 0 ∨ n ≤ l
    · rw [hF.wf.none l hl] at hg; cases hg
    · omega
  -- walking through one parent
  have thru : ∀ (st : Forest) (nd : FNode) (inp : Input) (l : Int) (p q r : Int), Inv F g n st →
      st.cache.get l = some (some nd) → nd.parents = some (p, q) → r = p ∨ r = q →
      (∀ (st' : Forest) (m : FNode), Inv F g n st' → Extends st st' → st'.cache.get r = some (some m) →
        Finds F st' m (inp, x.2)) → Finds F st nd (inp, x.2) := by
    intro st nd inp l p q r hi hl hp hr k
    obtain ⟨hpb, hqb⟩ := hi.parents hF hl hp
    obtain ⟨m, st', h1, h2, h3, h4⟩ := get_spec hF hi r (by rcases hr with rfl | rfl <;> assumption)
    exact .parent hp hr h1 (k st' m h2 h3 h4)
  induction h with
  | @source l cf i o hg =>
    intro st nd inp hi hl hin
    obtain ⟨t, h1, h2⟩ := hi.real l nd (pos hg) hl
    rw [hg] at h1; cases h1
    exact .leaf ((fileOffset_real hF (pos hg) hg h2 _).2 ⟨cf, i, o, rfl, hin, rfl⟩)
  | @lower l cf lo hi' b hg _ ih =>
    intro st nd inp hi hl hin
    obtain ⟨t, h1, h2⟩ := hi.real l nd (pos hg) hl
    rw [hg] at h1; cases h1
    obtain rfl := h2
    exact thru st _ inp _ _ _ _ hi hl rfl (Or.inr rfl) (fun st' m k1 _ k3 => ih thru st' m inp k1 k3 hin)
  | @higher l cf lo hi' b hg _ ih =>
    intro st nd inp hi hl hin
    obtain ⟨t, h1, h2⟩ := hi.real l nd (pos hg) hl
    rw [hg] at h1; cases h1
    obtain rfl := h2
    exact thru st _ inp _ _ _ _ hi hl rfl (Or.inl rfl) (fun st' m k1 _ k3 => ih thru st' m inp k1 k3 hin)
  | @range l cf f t k b hg hfk hkt _ ih =>
    intro st nd inp hi hl hin
    obtain ⟨t', h1, h2⟩ := hi.real l nd (pos hg) hl
    rw [hg] at h1; cases h1
    obtain ⟨c, rfl, hch⟩ := h2
    by_cases hk : k = t
    · subst hk
      exact thru st _ inp _ _ _ _ hi hl rfl (Or.inr rfl) (fun st' m k1 _ k3 => ih thru st' m inp k1 k3 hin)
    · have down : ∀ (c : Int) (m0 : Nat), Chain st cf f c m0 → k ≤ m0 → ∀ (st' : Forest) (m : FNode),
          Inv F g n st' → Extends st st' → st'.cache.get c = some (some m) → Finds F st' m (inp, b.2) := by
        intro c m0 hc
        induction hc with
        | base =>
          intro hkm st' m k1 _ k3
          obtain rfl : k = f := by omega
          exact ih thru st' m inp k1 k3 hin
        | @step s c m1 h1 h2 h3 ih2 =>
          intro hkm st' m k1 k2 k3
          have h2' := k2 _ _ h2
          rw [k3] at h2'
          obtain rfl : m = _ := (Option.some.inj (Option.some.inj h2'))
          by_cases hk' : k = m1 + 1
          · subst hk'
            exact thru st' _ inp _ _ _ _ k1 k3 rfl (Or.inr rfl)
              (fun st'' m k1 _ k3 => ih thru st'' m inp k1 k3 hin)
          · exact thru st' _ inp _ _ _ _ k1 k3 rfl (Or.inl rfl)
              (fun st'' m' j1 j2 j3 => ih2 (by omega) st'' m' j1 (k2.trans j2) j3)
      exact thru st _ inp _ _ _ _ hi hl rfl (Or.inl rfl)
        (fun st' m k1 k2 k3 => down c (t - 1) hch (by omega) st' m k1 k2 k3)

/-- The rest of the iteration below label 0: the state does not change any more. -/
theorem nodesFrom_synth {F : TDFile} {g : Graph} {n : Nat} {st : Forest} (hi : Inv F g n st) :
    ∀ (k : Nat) (fuel : Nat), k < fuel → (∀ l : Int, l = st.cnt + k → l < 0 →
      ∃ ns, nodesFrom F fuel st l = some (ns, st) ∧
        ns.map (·.label) = (List.range k).map (fun i : Nat => l - (i : Int)) ∧
        ∀ nd ∈ ns, st.cache.get nd.label = some (some nd)) := by
  intro k
  induction k with
  | zero =>
    intro fuel hf l hl hneg
    match fuel, hf with
    | fuel + 1, _ =>
      refine ⟨[], ?_, rfl, by simp⟩
      rw [nodesFrom]
      have : st.cache.get l = none := by
        cases h : st.cache.get l with
        | none => rfl
        | some v => have := (hi.key l).1 ⟨v, h⟩; omega
      rw [this]
  | succ k ih =>
    intro fuel hf l hl hneg
    match fuel, hf with
    | fuel + 1, hf =>
      have hcl : st.cnt < l ∧ l < n := by omega
      obtain ⟨v, hv⟩ := (hi.key l).2 hcl
      cases v with
      | none => have := hi.empty l hv; omega
      | some nd =>
        obtain ⟨ns, h1, h2, h3⟩ := ih fuel (by omega) (l - 1) (by omega) (by omega)
        have hlab := hi.label hv
        refine ⟨nd :: ns, ?_, ?_, ?_⟩
        · rw [nodesFrom, hv]
          simp only [Forest.get, hv, Option.bind_eq_bind, Option.bind_some, h1]
          rfl
        · rw [List.map_cons, h2, List.range_succ_eq_map, List.map_cons, List.map_map, hlab]
          simp only [Int.ofNat_zero, Int.sub_zero, List.cons.injEq, true_and]
          apply List.map_congr_left
          intro i _
          simp only [Function.comp_apply, Nat.succ_eq_add_one]
          omega
        · intro x hx
          rcases List.mem_cons.1 hx with rfl | hx
          · rw [hlab]; exact hv
          · exact h3 x hx

theorem nodesFrom_spec {F : TDFile} {g : Graph} {n : Nat} (hF : F.Shows g n) : ∀ (k : Nat) (st : Forest),
    Inv F g n st → k ≤ n → ∃ N ns st', (∀ fuel, N ≤ fuel → nodesFrom F fuel st ((k : Int) - 1) = some (ns, st')) ∧
      Inv F g n st' ∧ Later F st st' ∧
      ns.map (·.label) = (List.range (((k : Int) - 1 - st'.cnt).toNat)).map (fun i : Nat => (k : Int) - 1 - (i : Int)) ∧
      ∀ nd ∈ ns, st'.cache.get nd.label = some (some nd) := by
  intro k
  induction k with
  | zero =>
    intro st hi _
    have hneg := hi.cnt
    obtain ⟨ns, h1, h2, h3⟩ := nodesFrom_synth hi (-1 - st.cnt).toNat ((-1 - st.cnt).toNat + 1) (by omega)
      (-1) (by omega) (by omega)
    refine ⟨(-1 - st.cnt).toNat + 1, ns, st, ?_, hi, .refl _, ?_, h3⟩
    · intro fuel hf
      obtain ⟨ns', k1, k2, k3⟩ := nodesFrom_synth hi (-1 - st.cnt).toNat fuel (by omega)
        (-1) (by omega) (by omega)
      rw [show ((0 : Nat) : Int) - 1 = -1 by omega, k1]
      congr 2
      have hlen : ns'.map (·.label) = ns.map (·.label) := by rw [k2, h2]
      -- a node is determined by its label
      clear h1 h2 k1 k2
      induction ns' generalizing ns with
      | nil =>
        cases ns with
        | nil => rfl
        | cons _ _ => simp at hlen
      | cons a ns' ih =>
        cases ns with
        | nil => simp at hlen
        | cons b ns =>
          simp only [List.map_cons, List.cons.injEq] at hlen
          have ha := k3 a (by simp)
          have hb := h3 b (by simp)
          rw [hlen.1, hb] at ha
          rw [Option.some.inj (Option.some.inj ha), ih ns (fun x hx => h3 x (by simp [hx]))
            (fun x hx => k3 x (by simp [hx])) hlen.2]
    · simpa using h2
  | succ k ih =>
    intro st hi hk
    have hc := hi.cnt
    obtain ⟨nd, st1, g1, g2, g3, g4⟩ := get_spec hF hi (k : Int) (by omega)
    obtain ⟨N, ns, st', h1, h2, h3, h4, h5⟩ := ih st1 g2 (by omega)
    have hl : Later F st st' := by
      have base : Later F st st1 := .query (.refl _) g1
      clear h1 h2 h4 h5
      induction h3 with
      | refl => exact base
      | query _ e ih => exact .query ih e
    have hc' := h2.cnt
    obtain ⟨-, hext⟩ := h3.inv hF g2
    have hlab := g2.label g4
    refine ⟨N + 1, nd :: ns, st', ?_, h2, hl, ?_, ?_⟩
    · intro fuel hf
      match fuel, hf with
      | fuel + 1, hf =>
        rw [nodesFrom, show (((k + 1 : Nat) : Int) - 1) = (k : Int) by omega]
        obtain ⟨v, hv⟩ := (hi.key (k : Int)).2 (by omega)
        rw [hv]
        simp only [g1, Option.bind_eq_bind, Option.bind_some, h1 fuel (by omega)]
        rfl
    · rw [List.map_cons, h4, hlab, show (((k + 1 : Nat) : Int) - 1 - st'.cnt).toNat =
        ((k : Int) - 1 - st'.cnt).toNat + 1 by omega, List.range_succ_eq_map, List.map_cons, List.map_map]
      congr 1
      · simp
      · apply List.map_congr_left
        intro i _
        simp only [Function.comp_apply, Nat.succ_eq_add_one]
        omega
    · intro x hx
      rcases List.mem_cons.1 hx with rfl | hx
      · rw [hlab]; exact hext _ _ g4
      · exact h5 x hx

theorem foldl_max (ks : List Int) (a : Int) : a ≤ ks.foldl max a ∧ (∀ k ∈ ks, k ≤ ks.foldl max a) ∧
    (ks.foldl max a = a ∨ ks.foldl max a ∈ ks) := by
  induction ks generalizing a with
  | nil => simp
  | cons k ks ih =>
    obtain ⟨h1, h2, h3⟩ := ih (max a k)
    rw [List.foldl_cons]
    refine ⟨by omega, ?_, ?_⟩
    · intro x hx
      rcases List.mem_cons.1 hx with rfl | hx
      · omega
      · exact h2 x hx
    · rcases h3 with h3 | h3
      · by_cases hak : a ≤ k
        · exact Or.inr (by rw [h3]; simp; omega)
        · exact Or.inl (by rw [h3]; omega)
      · exact Or.inr (by simp [h3])

theorem maxKey_eq {F : TDFile} {g : Graph} {n : Nat} (hF : F.Shows g n) {st : Forest} (hi : Inv F g n st) :
    maxKey st.cache.keys = some ((n : Int) - 1) := by
  have hpos := hF.pos
  have hk : ∀ l : Int, l ∈ st.cache.keys ↔ st.cnt < l ∧ l < n := by
    intro l; rw [← Dict.get_isSome_iff, hi.key]
  have hneg := hi.cnt
  generalize st.cache.keys = ks at hk
  match ks with
  | [] => exact absurd ((hk 0).2 (by omega)) (by simp)
  | k :: ks =>
    obtain ⟨h1, h2, h3⟩ := foldl_max ks k
    rw [maxKey]
    have hmem : ks.foldl max k ∈ k :: ks := by
      rcases h3 with h3 | h3
      · rw [h3]; simp
      · simp [h3]
    have := (hk _).1 hmem
    have hn1 := (hk ((n : Int) - 1)).2 (by omega)
    have : (n : Int) - 1 ≤ ks.foldl max k := by
      rcases List.mem_cons.1 hn1 with e | e
      · omega
      · exact h2 _ e
    congr 1
    omega

/-- Ranking of the nodes: label `l` has rank 2 l, the synthetic node that adds label `k` has rank
2 k + 1. -/
def rank (st : Forest) (l : Int) : Int :=
  if 0 ≤ l then 2 * l else
    match st.cache.get l with
    | some (some nd) => match nd.parents with
      | some (_, k) => 2 * k + 1
      | none => 0
    | _ => 0

theorem rank_chain {st : Forest} {cf : Bool} {f m : Nat} {c : Int} (h : Chain st cf f c m) :
    rank st c ≤ 2 * m + 1 := by
  cases h with
  | base => simp only [rank]; rw [if_pos (by omega)]; omega
  | step h1 h2 h3 => simp only [rank, h2]; rw [if_neg (by omega)]; omega

theorem Parent.rank_lt {F : TDFile} {g : Graph} {n : Nat} (hF : F.Shows g n) {st : Forest} (hi : Inv F g n st)
    {p l : Int} (h : Parent st p l) : rank st p < rank st l := by
  obtain ⟨nd, a, b, hl, hp, hpab⟩ := h
  by_cases h0 : l < 0
  · obtain ⟨L, cf, f, t, c, k, hg, rfl, hk, hch⟩ := hi.synth l nd h0 hl
    obtain ⟨rfl, rfl⟩ : c = a ∧ _ = b := by simpa using hp
    have : rank st l = 2 * ((k + 1 : Nat) : Int) + 1 := by
      simp only [rank, hl]; rw [if_neg (by omega)]
    rw [this]
    rcases hpab with rfl | rfl
    · have := rank_chain hch; omega
    · simp only [rank]; rw [if_pos (by omega)]; omega
  · by_cases h1 : l = 0
    · subst h1; rw [hi.zero] at hl; cases hl; cases hp
    · obtain ⟨k, rfl⟩ : ∃ k : Nat, l = (k : Int) := ⟨l.toNat, by omega⟩
      have hkn := (hi.key _).1 ⟨_, hl⟩
      obtain ⟨t, hg, ht⟩ := hi.real k nd (by omega) hl
      obtain ⟨t', h1, h2, h3⟩ := hF.wf.legal k (by omega) (by omega)
      rw [hg] at h1; cases h1
      have hrk : rank st (k : Int) = 2 * (k : Int) := by simp only [rank]; rw [if_pos (by omega)]
      rw [hrk]
      cases t with
      | source cf i o => obtain ⟨_, -, rfl⟩ := ht; cases hp
      | union cf lo hi' =>
        obtain rfl := ht
        have := h3 lo (Or.inl rfl)
        have := h3 hi' (Or.inr rfl)
        obtain ⟨rfl, rfl⟩ : _ = a ∧ _ = b := by simpa using hp
        rcases hpab with rfl | rfl <;> (simp only [rank]; rw [if_pos (by omega)]; omega)
      | range cf f t =>
        obtain ⟨c, rfl, hch⟩ := ht
        obtain ⟨rfl, rfl⟩ : _ = a ∧ _ = b := by simpa using hp
        have ht := h3 t ⟨Nat.le_of_lt h2.1, Nat.le_refl _⟩
        have := h2.1
        rcases hpab with rfl | rfl
        · have := rank_chain hch; omega
        · simp only [rank]; rw [if_pos (by omega)]; omega

end Py.Forest
open Py.Forest

/-- In every state, a query for any label below the label count succeeds and gives a node with that
label, whose flag says whether the label affected control flow; the node is a leaf with an input
exactly for source labels. -/
theorem C27_node (F : TDFile) (g : Graph) (n : Nat) (hF : F.Shows g n) (st : Forest) (hr : Reachable F st)
    (l : Nat) (hl : l < n) : ∃ nd st', st.get F l = some (nd, st') ∧ nd.label = l ∧
      (nd.cf = true ↔ Flagged g l) ∧
      (nd.source.isSome = true ↔ ∃ cf i o, g l = some (.source cf i o)) ∧
      (∀ i o cf, g l = some (.source cf i o) → nd.source = F.inputOf i ∧ nd.parents = none) ∧
      (nd.parents = none ↔ l = 0 ∨ ∃ cf i o, g l = some (.source cf i o)) := by
  have hi := hr.inv hF
  have hc := hi.cnt
  obtain ⟨nd, st', h1, h2, h3, h4⟩ := get_spec hF hi (l : Int) (by omega)
  refine ⟨nd, st', h1, h2.label h4, ?_⟩
  by_cases h0 : l = 0
  · subst h0
    rw [show ((0 : Nat) : Int) = 0 from rfl, h2.zero] at h4
    cases h4
    have hn := hF.wf.none 0 (Or.inl rfl)
    simp [Flagged, hn]
  · obtain ⟨t, hg, ht⟩ := h2.real l nd (by omega) h4
    cases t with
    | source cf i o =>
      obtain ⟨inp, hin, rfl⟩ := ht
      refine ⟨by simp [Flagged, hg, flagOf], by simp [hg], ?_, by simp [hg]⟩
      intro i' o' cf' e; rw [hg] at e; cases e; exact ⟨hin.symm, rfl⟩
    | union cf lo hi =>
      obtain rfl := ht
      refine ⟨by simp [Flagged, hg, flagOf], by simp [hg], ?_, by simp [hg, h0]⟩
      intro i' o' cf' e; rw [hg] at e; cases e
    | range cf f t =>
      obtain ⟨c, rfl, -⟩ := ht
      refine ⟨by simp [Flagged, hg, flagOf], by simp [hg], ?_, by simp [hg, h0]⟩
      intro i' o' cf' e; rw [hg] at e; cases e

/-- Walking the forest from the node of a label finds exactly the input bytes the label denotes,
whatever was asked before and whatever is asked in between. -/
theorem C27_bytes (F : TDFile) (g : Graph) (n : Nat) (hF : F.Shows g n) (st st' : Forest) (hr : Reachable F st)
    (l : Nat) (nd : FNode) (h : st.get F l = some (nd, st')) (inp : Input) (o : Nat) :
    Finds F st' nd (inp, o) ↔ ∃ i, Denotes g l (i, o) ∧ F.inputOf i = some inp := by
  obtain ⟨-, hi', -, hm⟩ := get_some hF (hr.inv hF) h
  constructor
  · intro hb
    exact (hb.sound hF hi' _ hm).1 l rfl
  · rintro ⟨i, h1, h2⟩
    exact finds_complete hF h1 st' nd inp hi' hm h2

/-- Asking again, after any further queries, gives the same node and changes nothing. -/
theorem C27_same (F : TDFile) (g : Graph) (n : Nat) (hF : F.Shows g n) (st st' st'' : Forest)
    (hr : Reachable F st) (l : Int) (nd : FNode) (h : st.get F l = some (nd, st')) (hl : Later F st' st'') :
    st''.get F l = some (nd, st'') := by
  obtain ⟨-, hi', -, hm⟩ := get_some hF (hr.inv hF) h
  have := (hl.inv hF hi').2 _ _ hm
  rw [Forest.get, this]

/-- The parents of every node can be asked for. -/
theorem C27_parents (F : TDFile) (g : Graph) (n : Nat) (hF : F.Shows g n) (st st' : Forest)
    (hr : Reachable F st) (l : Int) (nd : FNode) (h : st.get F l = some (nd, st')) (p q : Int)
    (hp : nd.parents = some (p, q)) : (st'.get F p).isSome = true ∧ (st'.get F q).isSome = true := by
  obtain ⟨-, hi', -, hm⟩ := get_some hF (hr.inv hF) h
  obtain ⟨h1, h2⟩ := hi'.parents hF hm hp
  obtain ⟨_, _, k1, -⟩ := get_spec hF hi' p h1
  obtain ⟨_, _, k2, -⟩ := get_spec hF hi' q h2
  rw [k1, k2]; exact ⟨rfl, rfl⟩

/-- No node is its own ancestor. -/
theorem C27_acyclic (F : TDFile) (g : Graph) (n : Nat) (hF : F.Shows g n) (st : Forest) (hr : Reachable F st)
    (l : Int) : ¬ Relation.TransGen (Parent st) l l := by
  have hi := hr.inv hF
  have : ∀ a b, Relation.TransGen (Parent st) a b → rank st a < rank st b := by
    intro a b h
    induction h with
    | single h => exact h.rank_lt hF hi
    | tail _ h ih => have := h.rank_lt hF hi; omega
  intro h
  have := this l l h
  omega

/-- Iterating over the forest ends, and yields every node there is after the iteration (in particular
one for each label) exactly once, in order of decreasing labels. -/
theorem C27_nodes (F : TDFile) (g : Graph) (n : Nat) (hF : F.Shows g n) (st : Forest) (hr : Reachable F st) :
    ∃ N ns st', (∀ fuel, N ≤ fuel → st.nodes F fuel = some (ns, st')) ∧ Later F st st' ∧
      (ns.map (·.label)).Pairwise (· > ·) ∧
      (∀ nd, nd ∈ ns ↔ ∃ l, st'.cache.get l = some (some nd)) ∧
      ∀ l : Nat, l < n → (l : Int) ∈ ns.map (·.label) := by
  have hi := hr.inv hF
  obtain ⟨N, ns, st', h1, h2, h3, h4, h5⟩ := nodesFrom_spec hF n st hi (Nat.le_refl _)
  have hc := h2.cnt
  have hpos := hF.pos
  have hmem : ∀ l : Int, l ∈ ns.map (·.label) ↔ st'.cnt < l ∧ l < n := by
    intro l
    rw [h4, List.mem_map]
    constructor
    · rintro ⟨i, hi, rfl⟩
      rw [List.mem_range] at hi; omega
    · intro hl
      exact ⟨((n : Int) - 1 - l).toNat, by rw [List.mem_range]; omega, by omega⟩
  refine ⟨N, ns, st', ?_, h3, ?_, ?_, ?_⟩
  · intro fuel hf
    rw [Forest.nodes, maxKey_eq hF hi]
    exact h1 fuel hf
  · rw [h4, List.pairwise_map]
    refine List.Pairwise.imp ?_ List.pairwise_lt_range
    intro a b hab; omega
  · intro nd
    constructor
    · intro hn; exact ⟨_, h5 nd hn⟩
    · rintro ⟨l, hl⟩
      have hk := (h2.key l).1 ⟨_, hl⟩
      obtain ⟨x, hx, hxl⟩ := List.mem_map.1 ((hmem l).2 hk)
      have := h5 x hx
      rw [hxl, hl] at this
      rw [Option.some.inj (Option.some.inj this)]
      exact hx
  · intro l hl
    exact (hmem _).2 (by omega)

/-- All this applies to the file left by every run that ends in an orderly way: there, walking the
forest from the node of a label finds exactly the bytes the label meant, and the flags are those of
the run. -/
theorem C27_run (c : Config) (base : Nat) (hc : c.Ok base) (h : Trace) (T : Tracker)
    (hr : Tracker.Reach c base h T) (hroom : T.labels.words.length + 64 ≤ c.indexCap)
    (hu : ∀ n ∈ names h, utf8 n = true) (pads : Pads) :
    ∃ F, parse (closed pads c base T) = some F ∧ (Forest.new F).isSome = true ∧
      ∀ st, Reachable F st → ∀ l < T.labels.words.length, ∃ nd st', st.get F l = some (nd, st') ∧
        (nd.cf = true ↔ Flagged T.labels.graph l) ∧
        ∀ inp o, Finds F st' nd (inp, o) ↔ ∃ i e, Denotes T.labels.graph l (i, o) ∧
          (registered h)[i]? = some e ∧ inp = ⟨e.2.1, pathStr e.1, e.2.2⟩ := by
  obtain ⟨F, hF, hs, hrec⟩ := shows_reach c base hc h T hr hroom hu pads
  refine ⟨F, hF, ?_, ?_⟩
  · obtain ⟨st, h1, -⟩ := new_inv hs
    rw [h1]; rfl
  · intro st hst l hl
    obtain ⟨nd, st', h1, -, h2, -⟩ := C27_node F _ _ hs st hst l hl
    refine ⟨nd, st', h1, h2, ?_⟩
    intro inp o
    rw [C27_bytes F _ _ hs st st' hst l nd h1]
    have hio : ∀ i, F.inputOf i = ((registered h)[i]?).map fun e => ⟨e.2.1, pathStr e.1, e.2.2⟩ := by
      intro i
      have := congrArg (fun x => x[i]?) hrec.sources
      simp only [List.getElem?_map] at this
      rw [TDFile.inputOf]
      cases h1 : F.fdHeaders[i]? with
      | none =>
        cases h2 : (registered h)[i]? with
        | none => rfl
        | some e => rw [h1, h2] at this; cases this
      | some p =>
        cases h2 : (registered h)[i]? with
        | none => rw [h1, h2] at this; cases this
        | some e =>
          rw [h1, h2] at this
          simp only [Option.map_some, Option.some.injEq, Prod.mk.injEq] at this
          obtain ⟨e1, e2, e3⟩ := this
          simp only [Option.bind_eq_bind, Option.bind_some, Option.map_some]
          show some _ = _
          rw [e1, e2, e3]
    constructor
    · rintro ⟨i, h3, h4⟩
      rw [hio i] at h4
      cases h5 : (registered h)[i]? with
      | none => rw [h5] at h4; cases h4
      | some e => rw [h5] at h4; cases h4; exact ⟨i, e, h3, h5, rfl⟩
    · rintro ⟨i, e, h3, h4, rfl⟩
      exact ⟨i, h3, by rw [hio i, h4]; rfl⟩

/-- A run with a range over four labels and a union of non-adjacent labels. -/
def forestCalls : List Call :=
  [.openFile 3 [97] (some 10), .read 3 (some 1000) none 6, .union 1 2, .union 7 3, .union 8 4,
   .union 9 6, .mark 8]

/-- The file of that run. -/
def forestFile : Option TDFile :=
  (run exCfg 4096 forestCalls).bind fun p => parse (closed zeroPads exCfg 4096 p.1)

/-- The hypotheses of the theorems above hold of it. -/
example : ∃ h T F, Tracker.Reach exCfg 4096 h T ∧ parse (closed zeroPads exCfg 4096 T) = some F ∧
    F.Shows T.labels.graph T.labels.words.length ∧ ∃ st, Reachable F st := by
  have hrun : (run exCfg 4096 forestCalls).isSome = true := by decide +kernel
  obtain ⟨⟨T, h⟩, hx⟩ := Option.isSome_iff_exists.1 hrun
  have key : (match run exCfg 4096 forestCalls with
      | none => false
      | some (T, h) => decide (T.labels.words.length + 64 ≤ exCfg.indexCap ∧
          ∀ n ∈ names h, utf8 n = true)) = true := by decide +kernel
  rw [hx] at key
  simp only [decide_eq_true_eq] at key
  obtain ⟨F, h1, h2, -⟩ := shows_reach exCfg 4096 exCfg_ok h T (run_reach hx) key.1 key.2 zeroPads
  obtain ⟨st, h3, -⟩ := new_inv h2
  exact ⟨h, T, F, run_reach hx, h1, h2, st, .new h3⟩

/-- Label 9 is the range 1..4: it is unfolded into two synthetic nodes below it. -/
example : (forestFile.bind fun F => (Forest.new F).bind fun st => (st.get F 9).map fun p =>
    p.2.cache.filterMap (·.2)) =
    some [⟨0, none, false, none⟩, ⟨9, none, false, some (-2, 4)⟩, ⟨-1, none, false, some (1, 2)⟩,
      ⟨-2, none, false, some (-1, 3)⟩] := by
  decide +kernel

end Verif
