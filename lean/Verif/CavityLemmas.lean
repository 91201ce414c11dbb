import Verif.MappingLemmas
import Verif.Spec.Runs
/- Lemmas about `file_cavities`. -/
namespace Verif
open Spec Py

/-! ### Marker arrays to ranges -/

theorem maximalRuns_of {rs : List (Nat × Nat)} {P : Nat → Prop} (h1 : ∀ r ∈ rs, r.1 < r.2)
    (h2 : rs.Pairwise fun a b => a.2 < b.1) (h3 : ∀ o, (∃ r ∈ rs, r.1 ≤ o ∧ o < r.2) ↔ P o) :
    MaximalRuns rs P := by
  have key : ∀ a b : Nat × Nat, a ∈ rs → b ∈ rs → a = b ∨ a.2 < b.1 ∨ b.2 < a.1 := by
    intro a b ha hb
    by_cases hab : a = b
    · exact Or.inl hab
    · right
      clear h3 h1
      induction rs with
      | nil => cases ha
      | cons x rs ih =>
        rw [List.pairwise_cons] at h2
        rcases List.mem_cons.1 ha with ea | ha'
        · rcases List.mem_cons.1 hb with eb | hb'
          · exact absurd (ea.trans eb.symm) hab
          · subst ea; exact Or.inl (h2.1 b hb')
        · rcases List.mem_cons.1 hb with eb | hb'
          · subst eb; exact Or.inr (h2.1 a ha')
          · exact ih h2.2 ha' hb'
  refine ⟨h1, h2, h3, ?_⟩
  intro r hr
  have hr1 := h1 r hr
  constructor
  · intro hp
    obtain ⟨q, hq, h4, h5⟩ := (h3 _).2 hp
    rcases key r q hr hq with h | h | h
    · subst h; omega
    · omega
    · omega
  · intro h0 hp
    obtain ⟨q, hq, h4, h5⟩ := (h3 _).2 hp
    rcases key r q hr hq with h | h | h
    · subst h; omega
    · omega
    · omega

theorem rangesFrom_spec (m : List Nat) : ∀ (i : Nat) (start : Option Nat), (∀ s, start = some s → s < i) →
    (∀ r ∈ rangesFrom i start m, r.1 < r.2 ∧ start.getD i ≤ r.1) ∧
    (rangesFrom i start m).Pairwise (fun a b => a.2 < b.1) ∧
    ∀ o, (∃ r ∈ rangesFrom i start m, r.1 ≤ o ∧ o < r.2) ↔
      (∃ s, start = some s ∧ s ≤ o ∧ o < i) ∨ (i ≤ o ∧ m[o - i]? = some 0) := by
  induction m with
  | nil =>
    intro i start hs
    cases start with
    | none => simp [rangesFrom]
    | some s => have := hs s rfl; simp [rangesFrom, this]
  | cons v m ih =>
    intro i start hs
    have hcons : ∀ o, i ≤ o → ((v :: m)[o - i]? = some 0 ↔ (o = i ∧ v = 0) ∨ (i + 1 ≤ o ∧ m[o - (i + 1)]? = some 0)) := by
      intro o ho
      by_cases h : o = i
      · subst h
        simp
        omega
      · rw [show o - i = (o - (i + 1)) + 1 by omega, List.getElem?_cons_succ]
        constructor
        · intro k; exact Or.inr ⟨by omega, k⟩
        · rintro (⟨k, -⟩ | ⟨-, k⟩)
          · omega
          · exact k
    by_cases hv : v = 0
    · have he : rangesFrom i start (v :: m) = rangesFrom (i + 1) (some (start.getD i)) m := by
        cases start <;> simp [rangesFrom, hv]
      rw [he]
      have hlt : start.getD i < i + 1 := by
        cases start with
        | none => simp
        | some s => have := hs s rfl; simp; omega
      obtain ⟨h1, h2, h3⟩ := ih (i + 1) (some (start.getD i)) (fun s e => by cases e; exact hlt)
      refine ⟨fun r hr => h1 r hr, h2, ?_⟩
      intro o
      rw [h3]
      constructor
      · rintro (⟨s, e, k1, k2⟩ | ⟨k1, k2⟩)
        · cases e
          by_cases ho : o = i
          · exact Or.inr ⟨by omega, (hcons o (by omega)).2 (Or.inl ⟨ho, hv⟩)⟩
          · cases start with
            | none => simp at k1; omega
            | some s => exact Or.inl ⟨s, rfl, k1, by omega⟩
        · exact Or.inr ⟨by omega, (hcons o (by omega)).2 (Or.inr ⟨k1, k2⟩)⟩
      · rintro (⟨s, rfl, k1, k2⟩ | ⟨k1, k2⟩)
        · exact Or.inl ⟨s, rfl, k1, by omega⟩
        · rcases (hcons o k1).1 k2 with ⟨rfl, -⟩ | ⟨k3, k4⟩
          · refine Or.inl ⟨_, rfl, ?_, by omega⟩
            cases start with
            | none => simp
            | some s => have := hs s rfl; simp; omega
          · exact Or.inr ⟨k3, k4⟩
    · obtain ⟨h1, h2, h3⟩ := ih (i + 1) none (fun s e => by cases e)
      have hrest : ∀ o, (i ≤ o ∧ (v :: m)[o - i]? = some 0) ↔ (i + 1 ≤ o ∧ m[o - (i + 1)]? = some 0) := by
        intro o
        constructor
        · rintro ⟨k1, k2⟩
          rcases (hcons o k1).1 k2 with ⟨-, k⟩ | k
          · exact absurd k hv
          · exact k
        · rintro ⟨k1, k2⟩
          exact ⟨by omega, (hcons o (by omega)).2 (Or.inr ⟨k1, k2⟩)⟩
      cases start with
      | none =>
        have he : rangesFrom i none (v :: m) = rangesFrom (i + 1) none m := by simp [rangesFrom, hv]
        rw [he]
        refine ⟨fun r hr => ⟨(h1 r hr).1, by have := (h1 r hr).2; simp at this ⊢; omega⟩, h2, ?_⟩
        intro o
        rw [h3, hrest]
        simp
      | some s =>
        have hsi := hs s rfl
        have he : rangesFrom i (some s) (v :: m) = (s, i) :: rangesFrom (i + 1) none m := by simp [rangesFrom, hv]
        rw [he]
        refine ⟨?_, ?_, ?_⟩
        · intro r hr
          rcases List.mem_cons.1 hr with rfl | hr
          · exact ⟨hsi, Nat.le_refl _⟩
          · have := h1 r hr
            simp at this ⊢
            omega
        · rw [List.pairwise_cons]
          refine ⟨?_, h2⟩
          intro r hr
          have := (h1 r hr).2
          simp at this ⊢
          omega
        · intro o
          rw [hrest]
          constructor
          · rintro ⟨r, hr, k1, k2⟩
            rcases List.mem_cons.1 hr with rfl | hr
            · exact Or.inl ⟨s, rfl, k1, k2⟩
            · rcases (h3 o).1 ⟨r, hr, k1, k2⟩ with ⟨_, e, -⟩ | k
              · cases e
              · exact Or.inr k
          · rintro (⟨s', e, k1, k2⟩ | k)
            · cases e; exact ⟨(s, i), by simp, k1, k2⟩
            · obtain ⟨r, hr, k⟩ := (h3 o).2 (Or.inr k)
              exact ⟨r, by simp [hr], k⟩

theorem markerToRanges_spec (m : List Nat) : MaximalRuns (markerToRanges m) (fun o => m[o]? = some 0) := by
  obtain ⟨h1, h2, h3⟩ := rangesFrom_spec m 0 none (fun s e => by cases e)
  exact maximalRuns_of (fun r hr => (h1 r hr).1) h2 (fun o => by
    rw [markerToRanges, h3]; simp)

/-! ### Marker arrays -/

/-- All entries are 0 or 1. -/
def Bits (v : List Nat) : Prop := ∀ x ∈ v, x = 0 ∨ x = 1

/-- The byte is marked. -/
def Marked (m : Dict Nat (List Nat)) (b : Nat × Nat) : Prop := ∃ v, m.get b.1 = some v ∧ v[b.2]? = some 1

theorem getElem?_set_one {v : List Nat} {o o' : Nat} (h : o < v.length) :
    (v.set o 1)[o']? = some 1 ↔ v[o']? = some 1 ∨ o' = o := by
  rw [List.getElem?_set]
  by_cases e : o = o'
  · subst e; simp [h]
  · simp [e, Ne.symm e]

theorem Bits.set {v : List Nat} (h : Bits v) (o : Nat) : Bits (v.set o 1) := by
  intro x hx
  rcases List.mem_or_eq_of_mem_set hx with h1 | h1
  · exact h x h1
  · exact Or.inr h1

theorem isExtent_empty (b : Nat) : IsExtent b (fun _ => False) b :=
  ⟨⟨Nat.le_refl _, fun _ h => h.elim⟩, fun _ h => h.1⟩

theorem Spec.IsExtent.add {b L off : Nat} {Q : Nat → Prop} (h : IsExtent b Q L) :
    IsExtent b (fun o => Q o ∨ o = off) (max L (off + 1)) := by
  obtain ⟨⟨h1, h2⟩, h3⟩ := h
  refine ⟨⟨by omega, ?_⟩, ?_⟩
  · rintro o (ho | rfl)
    · have := h2 o ho; omega
    · omega
  · rintro L' ⟨k1, k2⟩
    have := h3 L' ⟨k1, fun o ho => k2 o (Or.inl ho)⟩
    have := k2 off (Or.inr rfl)
    omega

theorem Spec.IsExtent.congr {b L : Nat} {Q Q' : Nat → Prop} (h : IsExtent b Q L) (hq : ∀ o, Q o ↔ Q' o) :
    IsExtent b Q' L := by
  have : Q = Q' := funext fun o => propext (hq o)
  exact this ▸ h

theorem Spec.IsExtent.unique {b L L' : Nat} {Q : Nat → Prop} (h : IsExtent b Q L) (h' : IsExtent b Q L') : L = L' := by
  have := h.2 L' h'.1
  have := h'.2 L h.1
  omega

/-- The recorded size of an input, 0 if it is unknown. -/
def Py.TDFile.knownSize (F : TDFile) (i : Nat) : Nat :=
  match F.fdHeaders[i]? with
  | some h => if h.2.size = 0xFFFFFFFFFFFFFFFF then 0 else h.2.size
  | none => 0

/-- State of the first sweep after the labels `P`. -/
structure SweepInv (F : TDFile) (g : Graph) (P : List Nat) (m : Dict Nat (List Nat)) : Prop where
  nodup : m.keys.Nodup
  keys : ∀ i, i ∈ m.keys ↔ ∃ l ∈ P, ∃ cf o, g l = some (.source cf i o)
  bits : ∀ i v, m.get i = some v → Bits v
  len : ∀ i v, m.get i = some v →
    IsExtent (F.knownSize i) (fun o => ∃ l ∈ P, ∃ cf, g l = some (.source cf i o)) v.length
  mark : ∀ b, Marked m b ↔ ∃ l ∈ P, g l = some (.source true b.1 b.2)

theorem ljust_length (v : List Nat) (n : Nat) : (ljust v n).length = max v.length n := by
  simp [ljust]; omega

theorem ljust_bits {v : List Nat} (h : Bits v) (n : Nat) : Bits (ljust v n) := by
  intro x hx
  rcases List.mem_append.1 hx with h1 | h1
  · exact h x h1
  · exact Or.inl (List.eq_of_mem_replicate h1)

theorem ljust_one (v : List Nat) (n o : Nat) : (ljust v n)[o]? = some 1 ↔ v[o]? = some 1 := by
  rw [ljust]
  by_cases h : o < v.length
  · rw [List.getElem?_append_left h]
  · rw [List.getElem?_append_right (by omega), List.getElem?_replicate, List.getElem?_eq_none (by omega)]
    split <;> simp

theorem sweepStep_spec {F : TDFile} {g : Graph} {n : Nat} (hF : F.Shows g n) {P : List Nat}
    {m : Dict Nat (List Nat)} (hi : SweepInv F g P m) {l : Nat} {cf : Bool} {i o : Nat}
    (hl : g l = some (.source cf i o)) : ∃ m', sweepStep F m l = some m' ∧ SweepInv F g (P ++ [l]) m' := by
  have hl0 := (shows_lt hF hl).1
  have hdec : F.decodeNode l = some (.source i o cf) := by rw [hF.node l hl0, hl]; rfl
  have hh := hF.header l cf i o hl
  -- the array used
  have hmk : ∃ v, markerOf F m i o = some v ∧ Bits v ∧
      IsExtent (F.knownSize i) (fun x => (∃ k ∈ P, ∃ cf, g k = some (.source cf i x)) ∨ x = o) (max v.length (o + 1)) ∧
      ∀ x, v[x]? = some 1 ↔ Marked m (i, x) := by
    rw [markerOf]
    cases hg : m.get i with
    | some v =>
      refine ⟨v, rfl, hi.bits i v hg, (hi.len i v hg).add, ?_⟩
      intro x
      simp [Marked, hg]
    | none =>
      rw [List.getElem?_eq_getElem hh]
      have hnone : ∀ x, ¬ ∃ k ∈ P, ∃ cf, g k = some (.source cf i x) := by
        rintro x ⟨k, hk, cf', h⟩
        exact (Dict.get_none_iff m i).1 hg ((hi.keys i).2 ⟨k, hk, cf', x, h⟩)
      refine ⟨_, rfl, ?_, ?_, ?_⟩
      · intro x hx; exact Or.inl (List.eq_of_mem_replicate hx)
      · have h1 := (isExtent_empty (F.knownSize i)).add (off := o)
        have h2 : max (F.knownSize i) (o + 1) = max (List.replicate (if F.fdHeaders[i].2.size = 0xFFFFFFFFFFFFFFFF
            then o + 1 else F.fdHeaders[i].2.size) 0).length (o + 1) := by
          rw [List.length_replicate, TDFile.knownSize, List.getElem?_eq_getElem hh]
          simp only
          split <;> omega
        rw [h2] at h1
        exact h1.congr (fun x => ⟨fun h => h.elim False.elim Or.inr, fun h => h.elim (fun h => absurd h (hnone x)) Or.inr⟩)
      · intro x
        rw [List.getElem?_replicate]
        constructor
        · intro h; split at h <;> simp at h
        · rintro ⟨v, h1, -⟩; rw [hg] at h1; cases h1
  obtain ⟨v, h1, h2, h3, h4⟩ := hmk
  -- the array stored
  generalize hw : (if v.length ≤ o then ljust v (o + 1) else v) = w
  have hwl : w.length = max v.length (o + 1) := by
    subst hw; split
    · rw [ljust_length]
    · omega
  have hwb : Bits w := by
    subst hw; split
    · exact ljust_bits h2 _
    · exact h2
  have hw1 : ∀ x, w[x]? = some 1 ↔ Marked m (i, x) := by
    intro x; rw [← h4]; subst hw; split
    · rw [ljust_one]
    · rfl
  generalize hu : (if cf then w.set o 1 else w) = u
  have hul : u.length = max v.length (o + 1) := by subst hu; split <;> simp [hwl]
  have hub : Bits u := by subst hu; split; exact hwb.set o; exact hwb
  have hu1 : ∀ x, u[x]? = some 1 ↔ Marked m (i, x) ∨ (cf = true ∧ x = o) := by
    intro x; subst hu
    cases cf with
    | true => rw [if_pos rfl, getElem?_set_one (by omega), hw1]; simp
    | false => rw [if_neg (by simp), hw1]; simp
  refine ⟨m.set i u, ?_, ?_⟩
  · simp only [sweepStep, hdec, Option.bind_eq_bind, Option.bind_some, h1, hw, hu]
    rfl
  · have hget : ∀ j, (m.set i u).get j = if j = i then some u else m.get j := fun j => Dict.get_set m i j u
    refine ⟨Dict.keys_set_nodup hi.nodup i u, ?_, ?_, ?_, ?_⟩
    · intro j
      rw [Dict.mem_keys_set, hi.keys]
      constructor
      · rintro (rfl | ⟨k, hk, h⟩)
        · exact ⟨l, by simp, cf, o, hl⟩
        · exact ⟨k, by simp [hk], h⟩
      · rintro ⟨k, hk, cf', o', h⟩
        rcases List.mem_append.1 hk with hk | hk
        · exact Or.inr ⟨k, hk, cf', o', h⟩
        · rw [List.mem_singleton.1 hk, hl] at h
          cases h; exact Or.inl rfl
    · intro j x hx
      rw [hget] at hx
      split at hx
      · cases hx; exact hub
      · exact hi.bits j x hx
    · intro j x hx
      rw [hget] at hx
      split at hx
      · rename_i e
        subst e
        cases hx
        rw [hul]
        refine h3.congr (fun y => ?_)
        constructor
        · rintro (⟨k, hk, h⟩ | rfl)
          · exact ⟨k, by simp [hk], h⟩
          · exact ⟨l, by simp, cf, hl⟩
        · rintro ⟨k, hk, cf', h⟩
          rcases List.mem_append.1 hk with hk | hk
          · exact Or.inl ⟨k, hk, cf', h⟩
          · rw [List.mem_singleton.1 hk, hl] at h
            cases h; exact Or.inr rfl
      · rename_i e
        refine (hi.len j x hx).congr (fun y => ?_)
        constructor
        · rintro ⟨k, hk, h⟩; exact ⟨k, by simp [hk], h⟩
        · rintro ⟨k, hk, cf', h⟩
          rcases List.mem_append.1 hk with hk | hk
          · exact ⟨k, hk, cf', h⟩
          · rw [List.mem_singleton.1 hk, hl] at h
            cases h; exact absurd rfl e
    · rintro ⟨j, y⟩
      have hm : Marked (m.set i u) (j, y) ↔ Marked m (j, y) ∨ (cf = true ∧ j = i ∧ y = o) := by
        simp only [Marked, hget]
        by_cases e : j = i
        · subst e
          simp only [if_true, Option.some.injEq, exists_eq_left', hu1, Marked, true_and]
        · simp [e]
      rw [hm, hi.mark]
      constructor
      · rintro (⟨k, hk, h⟩ | ⟨rfl, rfl, rfl⟩)
        · exact ⟨k, by simp [hk], h⟩
        · exact ⟨l, by simp, hl⟩
      · rintro ⟨k, hk, h⟩
        rcases List.mem_append.1 hk with hk | hk
        · exact Or.inl ⟨k, hk, h⟩
        · rw [List.mem_singleton.1 hk, hl] at h
          cases h; exact Or.inr ⟨rfl, rfl, rfl⟩

theorem sweep_spec {F : TDFile} {g : Graph} {n : Nat} (hF : F.Shows g n) : ∀ (ls P : List Nat)
    (m : Dict Nat (List Nat)), (∀ l ∈ ls, ∃ cf i o, g l = some (.source cf i o)) → SweepInv F g P m →
    ∃ m', sweep F ls m = some m' ∧ SweepInv F g (P ++ ls) m' := by
  intro ls
  induction ls with
  | nil => intro P m _ hi; exact ⟨m, rfl, by simpa using hi⟩
  | cons l ls ih =>
    intro P m hls hi
    obtain ⟨cf, i, o, hl⟩ := hls l (by simp)
    obtain ⟨m1, h1, h2⟩ := sweepStep_spec hF hi hl
    obtain ⟨m2, h3, h4⟩ := ih (P ++ [l]) m1 (fun k hk => hls k (by simp [hk])) h2
    refine ⟨m2, ?_, by simpa using h4⟩
    rw [sweep, h1]
    exact h3

/-! ### Marking what reaches the sinks -/

/-- Same keys and lengths, entries 0 or 1. -/
structure Shape (m₀ m : Dict Nat (List Nat)) : Prop where
  keys : m.keys = m₀.keys
  len : ∀ i, (m.get i).map List.length = (m₀.get i).map List.length
  bits : ∀ i v, m.get i = some v → Bits v

theorem markByte_spec {m₀ m : Dict Nat (List Nat)} (hs : Shape m₀ m) {i o : Nat} {v₀ : List Nat}
    (h₀ : m₀.get i = some v₀) (ho : o < v₀.length) :
    ∃ m', markByte m i o = some m' ∧ Shape m₀ m' ∧ ∀ b, Marked m' b ↔ Marked m b ∨ b = (i, o) := by
  have hl := hs.len i
  rw [h₀] at hl
  cases hm : m.get i with
  | none => rw [hm] at hl; cases hl
  | some v =>
    rw [hm] at hl
    have hl : v.length = v₀.length := by simpa using hl
    have hget : ∀ j, (m.set i (v.set o 1)).get j = if j = i then some (v.set o 1) else m.get j :=
      fun j => Dict.get_set m i j _
    refine ⟨m.set i (v.set o 1), ?_, ⟨?_, ?_, ?_⟩, ?_⟩
    · simp [markByte, hm, guard, hl, ho]
    · rw [Dict.keys_set_of_mem, hs.keys]
      exact (Dict.get_isSome_iff m i).1 ⟨v, hm⟩
    · intro j
      rw [hget]
      split
      · rename_i e; subst e; rw [h₀]; simp [hl]
      · exact hs.len j
    · intro j x hx
      rw [hget] at hx
      split at hx
      · cases hx; exact (hs.bits i v hm).set o
      · exact hs.bits j x hx
    · rintro ⟨j, y⟩
      simp only [Marked, hget]
      by_cases e : j = i
      · subst e
        simp only [if_true, Option.some.injEq, exists_eq_left', getElem?_set_one (by omega : o < v.length), hm,
          Prod.mk.injEq, true_and]
      · simp [e]

/-- The byte belongs to a source label that affected control flow. -/
def FlaggedByte (g : Graph) (b : Nat × Nat) : Prop := ∃ l, g l = some (.source true b.1 b.2)

theorem flagged_denotes {g : Graph} (hcl : FlagsClosed g) {l : Nat} {b : Nat × Nat} (h : Denotes g l b) :
    Flagged g l → FlaggedByte g b := by
  induction h with
  | @source l cf i o h =>
    rintro ⟨t, h1, h2⟩
    rw [h] at h1; cases h1
    simp only [flagOf] at h2; subst h2
    exact ⟨_, h⟩
  | range h k1 k2 _ ih =>
    rintro ⟨t, h1, h2⟩
    rw [h] at h1; cases h1
    exact ih (hcl _ _ _ h h2 ⟨k1, k2⟩)
  | lower h _ ih =>
    rintro ⟨t, h1, h2⟩
    rw [h] at h1; cases h1
    exact ih (hcl _ _ _ h h2 (Or.inl rfl))
  | higher h _ ih =>
    rintro ⟨t, h1, h2⟩
    rw [h] at h1; cases h1
    exact ih (hcl _ _ _ h h2 (Or.inr rfl))

/-- State between two sinks. `ss` are the sinks processed so far. -/
structure CavInv (g : Graph) (m₀ : Dict Nat (List Nat)) (ss : List Sink) (m : Dict Nat (List Nat))
    (seen : List Nat) : Prop where
  shape : Shape m₀ m
  flagged : ∀ b, FlaggedByte g b → Marked m b
  sound : ∀ b, Marked m b → FlaggedByte g b ∨ ∃ s ∈ ss, Denotes g s.label b
  done : ∀ s ∈ ss, ∀ b, Denotes g s.label b → Marked m b
  seen : ∀ l ∈ seen, ∀ b, Denotes g l b → Marked m b

theorem cavSink_spec {F : TDFile} {g : Graph} {n : Nat} (hF : F.Shows g n) {m₀ : Dict Nat (List Nat)}
    (h₀ : ∀ l cf i o, g l = some (.source cf i o) → ∃ v, m₀.get i = some v ∧ o < v.length)
    {ss : List Sink} {m : Dict Nat (List Nat)} {seen : List Nat} (hi : CavInv g m₀ ss m seen)
    (s : Sink) (hs : 0 < s.label ∧ s.label < n) :
    ∃ N m' seen', (∀ fuel, N ≤ fuel → cavSink F fuel s m seen = some (m', seen')) ∧
      CavInv g m₀ (ss ++ [s]) m' seen' := by
  obtain ⟨t, hg, -, -⟩ := hF.wf.legal s.label hs.1 hs.2
  have hdec : F.decodeNode s.label = some (nodeOf t) := by rw [hF.node _ hs.1, hg]; rfl
  have hcf : (nodeOf t).cf = flagOf t := by cases t <;> rfl
  by_cases hfl : flagOf t = true
  · -- already accounted for by the first sweep
    refine ⟨0, m, seen, ?_, hi.shape, hi.flagged, ?_, ?_, hi.seen⟩
    · intro fuel _
      simp only [cavSink, hdec, Option.bind_eq_bind, Option.bind_some, hcf, hfl, if_true]
      rfl
    · intro b hb
      rcases hi.sound b hb with h | ⟨s', h1, h2⟩
      · exact Or.inl h
      · exact Or.inr ⟨s', by simp [h1], h2⟩
    · intro s' hs' b hb
      rcases List.mem_append.1 hs' with h | h
      · exact hi.done s' h b hb
      · rw [List.mem_singleton.1 h] at hb
        exact hi.flagged b (flagged_denotes hF.closed hb ⟨t, hg, hfl⟩)
  · by_cases hsrc : ∃ cf i o, t = .source cf i o
    · obtain ⟨cf, i, o, rfl⟩ := hsrc
      obtain ⟨v₀, k1, k2⟩ := h₀ _ _ _ _ hg
      obtain ⟨m', k3, k4, k5⟩ := markByte_spec hi.shape k1 k2
      have hden : ∀ b, Denotes g s.label b ↔ b = (i, o) := fun b => denotes_iff hg b
      refine ⟨0, m', seen, ?_, k4, ?_, ?_, ?_, ?_⟩
      · intro fuel _
        simp only [flagOf] at hfl
        simp only [cavSink, hdec, Option.bind_eq_bind, Option.bind_some]
        simp [nodeOf, Node.cf, k3, hfl]
      · intro b hb; exact (k5 b).2 (Or.inl (hi.flagged b hb))
      · intro b hb
        rcases (k5 b).1 hb with h | h
        · rcases hi.sound b h with h | ⟨s', h1, h2⟩
          · exact Or.inl h
          · exact Or.inr ⟨s', by simp [h1], h2⟩
        · exact Or.inr ⟨s, by simp, (hden b).2 h⟩
      · intro s' hs' b hb
        rcases List.mem_append.1 hs' with h | h
        · exact (k5 b).2 (Or.inl (hi.done s' h b hb))
        · rw [List.mem_singleton.1 h] at hb
          exact (k5 b).2 (Or.inr ((hden b).1 hb))
      · intro l hl b hb; exact (k5 b).2 (Or.inl (hi.seen l hl b hb))
    · let I : List Nat → List Nat → Dict Nat (List Nat) → Prop := fun stack seen m =>
        (∀ l ∈ stack, BuiltFrom g s.label l ∧ 0 < l ∧ l < n) ∧
        (s.label ∈ seen ∨ s.label ∈ stack) ∧ Shape m₀ m ∧ (∀ b, FlaggedByte g b → Marked m b) ∧
        (∀ b, Marked m b → FlaggedByte g b ∨ ∃ s' ∈ ss ++ [s], Denotes g s'.label b) ∧
        (∀ s' ∈ ss, ∀ b, Denotes g s'.label b → Marked m b) ∧
        ∀ l ∈ seen, (∀ b, Denotes g l b → Marked m b) ∨
          ∃ t, g l = some t ∧ (∀ cf i o, t ≠ .source cf i o) ∧ ∀ k, Ref t k → k ∈ seen ∨ k ∈ stack
      obtain ⟨N, m', seen', h1, h2⟩ := dfs_rule F cavBody n I
        (fun l stack seen m hI => (hI.1 l (by simp)).2.2)
        (by
          rintro l stack seen m ⟨a1, a2, a3, a4, a5, a6, a7⟩ hl
          refine ⟨fun k hk => a1 k (by simp [hk]), ?_, a3, a4, a5, a6, ?_⟩
          · rcases a2 with h | h
            · exact Or.inl h
            · rcases List.mem_cons.1 h with h | h
              · exact Or.inl (h ▸ hl)
              · exact Or.inr h
          · intro k hk
            rcases a7 k hk with h | ⟨t, ht, hts, h⟩
            · exact Or.inl h
            · refine Or.inr ⟨t, ht, hts, fun j hr => ?_⟩
              rcases h j hr with h | h
              · exact Or.inl h
              · rcases List.mem_cons.1 h with h | h
                · exact Or.inl (h ▸ hl)
                · exact Or.inr h)
        (by
          rintro l stack seen m ⟨a1, a2, a3, a4, a5, a6, a7⟩ hl
          obtain ⟨hb, hl0, hln⟩ := a1 l (by simp)
          obtain ⟨u, hu, -, hrefs⟩ := hF.wf.legal l hl0 hln
          have hdu : F.decodeNode l = some (nodeOf u) := by rw [hF.node l hl0, hu]; rfl
          have hstack : ∀ k ∈ pushed (nodeOf u) ++ stack, BuiltFrom g s.label k ∧ 0 < k ∧ k < n := by
            intro k hk
            rcases List.mem_append.1 hk with hk | hk
            · have hr := mem_pushed.1 hk
              have := hrefs k hr
              exact ⟨builtFrom_trans hb (.step hu hr (.refl _)), by omega, by omega⟩
            · exact a1 k (by simp [hk])
          have hstart : ∀ seen' : List Nat, (∀ x ∈ l :: seen, x ∈ seen') →
              s.label ∈ seen' ∨ s.label ∈ pushed (nodeOf u) ++ stack := by
            intro seen' hsub
            rcases a2 with h | h
            · exact Or.inl (hsub _ (by simp [h]))
            · rcases List.mem_cons.1 h with h | h
              · exact Or.inl (hsub _ (by simp [h]))
              · exact Or.inr (List.mem_append_right _ h)
          -- old seen labels keep their status
          have hold : ∀ (m' : Dict Nat (List Nat)) (seen' : List Nat), (∀ b, Marked m b → Marked m' b) →
              (∀ x ∈ l :: seen, x ∈ seen') → ∀ k ∈ seen, (∀ b, Denotes g k b → Marked m' b) ∨
              ∃ t, g k = some t ∧ (∀ cf i o, t ≠ .source cf i o) ∧ ∀ j, Ref t j →
                j ∈ seen' ∨ j ∈ pushed (nodeOf u) ++ stack := by
            intro m' seen' hm hsub k hk
            rcases a7 k hk with h | ⟨t, ht, hts, h⟩
            · exact Or.inl (fun b hb => hm b (h b hb))
            · refine Or.inr ⟨t, ht, hts, fun j hr => ?_⟩
              rcases h j hr with h | h
              · exact Or.inl (hsub _ (by simp [h]))
              · rcases List.mem_cons.1 h with h | h
                · exact Or.inl (hsub _ (by simp [h]))
                · exact Or.inr (List.mem_append_right _ h)
          by_cases hus : ∃ cf i o, u = .source cf i o
          · obtain ⟨cf, i, o, rfl⟩ := hus
            obtain ⟨v₀, k1, k2⟩ := h₀ _ _ _ _ hu
            obtain ⟨m', k3, k4, k5⟩ := markByte_spec a3 k1 k2
            have hden : ∀ b, Denotes g l b ↔ b = (i, o) := fun b => denotes_iff hu b
            refine ⟨_, m', l :: seen, hdu, ?_, fun x hx => hx, hstack, hstart _ (fun x hx => hx), k4, ?_, ?_, ?_, ?_⟩
            · simp [cavBody, nodeOf, k3]
            · intro b hb; exact (k5 b).2 (Or.inl (a4 b hb))
            · intro b hb'
              rcases (k5 b).1 hb' with h | h
              · exact a5 b h
              · refine Or.inr ⟨s, by simp, ?_⟩
                rw [h]
                exact denotes_iff_builtFrom.2 ⟨l, cf, hb, hu⟩
            · intro s' hs' b hb'; exact (k5 b).2 (Or.inl (a6 s' hs' b hb'))
            · intro k hk
              rcases List.mem_cons.1 hk with rfl | hk
              · exact Or.inl (fun b hb' => (k5 b).2 (Or.inr ((hden b).1 hb')))
              · exact hold m' _ (fun b hb' => (k5 b).2 (Or.inl hb')) (fun x hx => hx) k hk
          · have hns : ∀ cf i o, u ≠ .source cf i o := fun cf i o e => hus ⟨cf, i, o, e⟩
            by_cases huf : flagOf u = true
            · -- pruned: everything below is flagged and marked already
              have hflag : Flagged g l := ⟨u, hu, huf⟩
              have hbody : ∃ seen', cavBody m (l :: seen) l (nodeOf u) = some (m, seen') ∧
                  (∀ x, x ∈ seen' ↔ x ∈ l :: seen ∨ Ref u x) := by
                cases u with
                | source cf i o => exact absurd rfl (hns cf i o)
                | union cf lo hi =>
                  simp only [flagOf] at huf; subst huf
                  refine ⟨_, rfl, fun x => ?_⟩
                  simp [Ref]
                  constructor
                  · rintro (h | h | h | h) <;> simp [h]
                  · rintro ((h | h) | (h | h)) <;> simp [h]
                | range cf f t =>
                  simp only [flagOf] at huf; subst huf
                  refine ⟨_, rfl, fun x => ?_⟩
                  simp only [Ref, List.mem_append, List.mem_range'_1]
                  constructor
                  · rintro (h | h)
                    · exact Or.inr (by omega)
                    · exact Or.inl h
                  · rintro (h | h)
                    · exact Or.inr h
                    · exact Or.inl (by omega)
              obtain ⟨seen', k1, k2⟩ := hbody
              have hsub : ∀ x ∈ l :: seen, x ∈ seen' := fun x hx => (k2 x).2 (Or.inl hx)
              refine ⟨_, m, seen', hdu, k1, hsub, hstack, hstart _ hsub, a3, a4, a5, a6, ?_⟩
              intro k hk
              rcases (k2 k).1 hk with hk | hk
              · rcases List.mem_cons.1 hk with rfl | hk
                · exact Or.inl (fun b hb' => a4 b (flagged_denotes hF.closed hb' hflag))
                · exact hold m _ (fun b hb' => hb') hsub k hk
              · exact Or.inl (fun b hb' => a4 b (flagged_denotes hF.closed hb' (hF.closed l u k hu huf hk)))
            · have hbody : cavBody m (l :: seen) l (nodeOf u) = some (m, l :: seen) := by
                cases u with
                | source cf i o => exact absurd rfl (hns cf i o)
                | union cf lo hi =>
                  have : cf = false := by simpa [flagOf] using huf
                  subst this; rfl
                | range cf f t =>
                  have : cf = false := by simpa [flagOf] using huf
                  subst this; rfl
              refine ⟨_, m, l :: seen, hdu, hbody, fun x hx => hx, hstack, hstart _ (fun x hx => hx), a3, a4, a5, a6, ?_⟩
              intro k hk
              rcases List.mem_cons.1 hk with rfl | hk
              · exact Or.inr ⟨u, hu, hns, fun j hr => Or.inr (List.mem_append_left _ (mem_pushed.2 hr))⟩
              · exact hold m _ (fun b hb' => hb') (fun x hx => hx) k hk)
        [s.label] seen m
        ⟨by simp; exact ⟨.refl _, hs.1, hs.2⟩, by simp, hi.shape, hi.flagged,
         (fun b hb => by
          rcases hi.sound b hb with h | ⟨s', h1, h2⟩
          · exact Or.inl h
          · exact Or.inr ⟨s', by simp [h1], h2⟩), hi.done, fun l hl => Or.inl (hi.seen l hl)⟩
      obtain ⟨-, b2, b3, b4, b5, b6, b7⟩ := h2
      have hseen : ∀ l, l ∈ seen' → ∀ b, Denotes g l b → Marked m' b := by
        intro l
        induction l using Nat.strongRecOn with
        | _ l ih =>
          intro hl b hb
          rcases b7 l hl with h | ⟨t', ht', hts, h⟩
          · exact h b hb
          · have hd := (denotes_iff ht' b).1 hb
            cases t' with
            | source cf i o =>
              exact absurd rfl (hts cf i o)
            | union cf lo hi =>
              rcases hd with hd | hd
              · exact ih lo (shows_ref hF ht' (Or.inl rfl)).2
                  ((h lo (Or.inl rfl)).resolve_right (by simp)) b hd
              · exact ih hi (shows_ref hF ht' (Or.inr rfl)).2
                  ((h hi (Or.inr rfl)).resolve_right (by simp)) b hd
            | range cf f t =>
              obtain ⟨k, k1, k2, k3⟩ := hd
              exact ih k (shows_ref hF ht' ⟨k1, k2⟩).2
                ((h k ⟨k1, k2⟩).resolve_right (by simp)) b k3
      refine ⟨N, m', seen', ?_, b3, b4, b5, ?_, hseen⟩
      · intro fuel hf
        rw [← h1 fuel hf]
        simp only [cavSink, hdec, Option.bind_eq_bind, Option.bind_some, hcf, hfl]
        cases t with
        | source cf i o => exact absurd ⟨cf, i, o, rfl⟩ hsrc
        | union cf lo hi => rfl
        | range cf f t => rfl
      · intro s' hs' b hb
        rcases List.mem_append.1 hs' with h | h
        · exact b6 s' h b hb
        · rw [List.mem_singleton.1 h] at hb
          exact hseen s.label (b2.resolve_right (by simp)) b hb

theorem cavSinks_spec {F : TDFile} {g : Graph} {n : Nat} (hF : F.Shows g n) {m₀ : Dict Nat (List Nat)}
    (h₀ : ∀ l cf i o, g l = some (.source cf i o) → ∃ v, m₀.get i = some v ∧ o < v.length) :
    ∀ (rest ss : List Sink) (m : Dict Nat (List Nat)) (seen : List Nat), CavInv g m₀ ss m seen →
    (∀ s ∈ rest, 0 < s.label ∧ s.label < n) →
    ∃ N m' seen', (∀ fuel, N ≤ fuel → cavSinks F fuel rest m seen = some m') ∧
      CavInv g m₀ (ss ++ rest) m' seen' := by
  intro rest
  induction rest with
  | nil => intro ss m seen hi _; exact ⟨0, m, seen, fun _ _ => rfl, by simpa using hi⟩
  | cons s rest ih =>
    intro ss m seen hi hr
    obtain ⟨N1, m1, seen1, h1, h2⟩ := cavSink_spec hF h₀ hi s (hr s (by simp))
    obtain ⟨N2, m2, seen2, h3, h4⟩ := ih (ss ++ [s]) m1 seen1 h2 (fun k hk => hr k (by simp [hk]))
    refine ⟨max N1 N2, m2, seen2, ?_, by simpa using h4⟩
    intro fuel hf
    rw [cavSinks, h1 fuel (by omega)]
    exact h3 fuel (by omega)

/-! ### Merging by path -/

/-- The path of the source with the given index is `p`. -/
def PathIs (F : TDFile) (k : Nat) (p : List Nat) : Prop := ∃ h, F.fdHeaders[k]? = some h ∧ h.1 = p

/-- Result of merging the arrays `ms`. -/
structure MergeInv (F : TDFile) (ms : List (Nat × List Nat)) (r : Dict (List Nat) (List Nat)) : Prop where
  absent : ∀ p, r.get p = none → ∀ e ∈ ms, ¬ PathIs F e.1 p
  present : ∀ p w, r.get p = some w → (∃ e ∈ ms, PathIs F e.1 p) ∧
    (∀ o, o < w.length ↔ ∀ e ∈ ms, PathIs F e.1 p → o < e.2.length) ∧
    ∀ o : Nat, w[o]? = some 0 ↔ ∀ e ∈ ms, PathIs F e.1 p → e.2[o]? = some 0

theorem zipWith_or_zero {w v : List Nat} (o : Nat) :
    (List.zipWith (· ||| ·) w v)[o]? = some 0 ↔ w[o]? = some 0 ∧ v[o]? = some 0 := by
  rw [List.getElem?_zipWith]
  cases w[o]? with
  | none => simp
  | some a =>
    cases v[o]? with
    | none => simp
    | some b => simp [Nat.or_eq_zero_iff]

theorem merge_spec {F : TDFile} : ∀ (rest ms : List (Nat × List Nat)) (r : Dict (List Nat) (List Nat)),
    MergeInv F ms r → (∀ e ∈ rest, e.1 < F.fdHeaders.length) →
    ∃ r', merge F rest r = some r' ∧ MergeInv F (ms ++ rest) r' := by
  intro rest
  induction rest with
  | nil => intro ms r hi _; exact ⟨r, rfl, by simpa using hi⟩
  | cons e rest ih =>
    obtain ⟨k, v⟩ := e
    intro ms r hi hr
    have hk : k < F.fdHeaders.length := hr (k, v) (by simp)
    generalize hhd : F.fdHeaders[k] = hd
    have hget : F.fdHeaders[k]? = some hd := by rw [List.getElem?_eq_getElem hk, hhd]
    have hpath : ∀ p, PathIs F k p ↔ p = hd.1 := by
      intro p
      simp only [PathIs, hget, Option.some.injEq, exists_eq_left']
      exact eq_comm
    have hother : ∀ (q : List Nat) (Q : List Nat → Prop), q ≠ hd.1 →
        ((∀ e ∈ ms ++ [(k, v)], PathIs F e.1 q → Q e.2) ↔ ∀ e ∈ ms, PathIs F e.1 q → Q e.2) := by
      intro q Q hq
      constructor
      · intro h e he; exact h e (by simp [he])
      · intro h e he hp
        rcases List.mem_append.1 he with he | he
        · exact h e he hp
        · rw [List.mem_singleton.1 he] at hp
          exact absurd ((hpath q).1 hp) hq
    have hsame : ∀ (Q : List Nat → Prop),
        ((∀ e ∈ ms ++ [(k, v)], PathIs F e.1 hd.1 → Q e.2) ↔ (∀ e ∈ ms, PathIs F e.1 hd.1 → Q e.2) ∧ Q v) := by
      intro Q
      constructor
      · intro h
        exact ⟨fun e he => h e (by simp [he]), h (k, v) (by simp) ((hpath _).2 rfl)⟩
      · rintro ⟨h1, h2⟩ e he hp
        rcases List.mem_append.1 he with he | he
        · exact h1 e he hp
        · rw [List.mem_singleton.1 he]; exact h2
    -- one step
    have key : ∀ w' : List Nat, (∀ o, o < w'.length ↔ (∀ e ∈ ms, PathIs F e.1 hd.1 → o < e.2.length) ∧ o < v.length) →
        (∀ o : Nat, w'[o]? = some 0 ↔ (∀ e ∈ ms, PathIs F e.1 hd.1 → e.2[o]? = some 0) ∧ v[o]? = some 0) →
        MergeInv F (ms ++ [(k, v)]) (r.set hd.1 w') := by
      intro w' hl hz
      refine ⟨?_, ?_⟩
      · intro p hp e he hpe
        rw [Dict.get_set] at hp
        split at hp
        · cases hp
        · rename_i hne
          rcases List.mem_append.1 he with he | he
          · exact hi.absent p hp e he hpe
          · rw [List.mem_singleton.1 he] at hpe
            exact hne ((hpath p).1 hpe)
      · intro p w hp
        rw [Dict.get_set] at hp
        split at hp
        · rename_i e
          subst e
          cases hp
          refine ⟨⟨(k, v), by simp, (hpath _).2 rfl⟩, fun o => ?_, fun o => ?_⟩
          · rw [hl, hsame (fun x => o < x.length)]
          · rw [hz, hsame (fun x => x[o]? = some 0)]
        · rename_i hne
          obtain ⟨⟨e, h1, h2⟩, h3, h4⟩ := hi.present p w hp
          refine ⟨⟨e, by simp [h1], h2⟩, fun o => ?_, fun o => ?_⟩
          · rw [h3, hother p (fun x => o < x.length) hne]
          · rw [h4, hother p (fun x => x[o]? = some 0) hne]
    cases hg : r.get hd.1 with
    | none =>
      have hno := hi.absent _ hg
      obtain ⟨r', h1, h2⟩ := ih (ms ++ [(k, v)]) _ (key v
        (fun o => ⟨fun h => ⟨fun e he hp => absurd hp (hno e he), h⟩, fun h => h.2⟩)
        (fun o => ⟨fun h => ⟨fun e he hp => absurd hp (hno e he), h⟩, fun h => h.2⟩))
        (fun e he => hr e (by simp [he]))
      refine ⟨r', ?_, by simpa using h2⟩
      rw [merge, hget]
      simp only [Option.bind_eq_bind, Option.bind_some, hg]
      exact h1
    | some w =>
      obtain ⟨-, h3, h4⟩ := hi.present _ _ hg
      obtain ⟨r', h1, h2⟩ := ih (ms ++ [(k, v)]) _ (key (List.zipWith (· ||| ·) w v)
        (fun o => by rw [← h3, List.length_zipWith]; omega)
        (fun o => by rw [zipWith_or_zero, h4]))
        (fun e he => hr e (by simp [he]))
      refine ⟨r', ?_, by simpa using h2⟩
      rw [merge, hget]
      simp only [Option.bind_eq_bind, Option.bind_some, hg]
      exact h1

theorem Py.Dict.get_mapVal {κ α β : Type} [DecidableEq κ] (f : α → β) (d : Dict κ α) (k : κ) :
    Dict.get (d.map fun p => (p.1, f p.2)) k = (d.get k).map f := by
  induction d with
  | nil => rfl
  | cons p d ih =>
    obtain ⟨a, b⟩ := p
    simp only [List.map_cons, Dict.get] at ih ⊢
    split <;> simp_all

end Verif
