import Verif.PyRegions
import Verif.CavityLemmas
/- Lemmas about grouping offsets. -/
namespace Verif
open Spec Py

theorem chunkLoop_spec : ∀ (l : List Nat) (a b : Nat), a ≤ b → (∀ o ∈ l, b ≤ o) → l.Pairwise (· ≤ ·) →
    (∀ r ∈ chunkLoop (some (a, b)) l, r.1 < r.2 ∧ a ≤ r.1) ∧
    (chunkLoop (some (a, b)) l).Pairwise (fun x y => x.2 < y.1) ∧
    ∀ o, (∃ r ∈ chunkLoop (some (a, b)) l, r.1 ≤ o ∧ o < r.2) ↔ (a ≤ o ∧ o ≤ b) ∨ o ∈ l := by
  intro l
  induction l with
  | nil =>
    intro a b hab _ _
    simp only [chunkLoop, List.mem_singleton, forall_eq, exists_eq_left, List.not_mem_nil, or_false]
    refine ⟨by omega, by simp, fun o => by omega⟩
  | cons x l ih =>
    intro a b hab hb hp
    rw [List.pairwise_cons] at hp
    have hx := hb x List.mem_cons_self
    simp only [chunkLoop]
    split
    · rename_i hn
      obtain ⟨h1, h2, h3⟩ := ih x x (Nat.le_refl _) hp.1 hp.2
      refine ⟨?_, ?_, ?_⟩
      · intro r hr
        rcases List.mem_cons.1 hr with rfl | hr
        · exact ⟨by simp only; omega, Nat.le_refl _⟩
        · have := h1 r hr; omega
      · rw [List.pairwise_cons]
        refine ⟨fun r hr => ?_, h2⟩
        have := h1 r hr
        simp only
        omega
      · intro o
        simp only [List.mem_cons]
        constructor
        · rintro ⟨r, rfl | hr, ho⟩
          · left; simp only at ho; omega
          · rcases (h3 o).1 ⟨r, hr, ho⟩ with h | h
            · right; left; omega
            · right; right; exact h
        · rintro (h | h | h)
          · exact ⟨_, .inl rfl, by simp only; omega⟩
          · obtain ⟨r, hr, ho⟩ := (h3 o).2 (.inl (by omega))
            exact ⟨r, .inr hr, ho⟩
          · obtain ⟨r, hr, ho⟩ := (h3 o).2 (.inr h)
            exact ⟨r, .inr hr, ho⟩
    · rename_i hn
      obtain ⟨h1, h2, h3⟩ := ih a x (by omega) hp.1 hp.2
      refine ⟨h1, h2, fun o => ?_⟩
      rw [h3 o, List.mem_cons]
      constructor
      · rintro (h | h)
        · by_cases ho : o = x
          · exact .inr (.inl ho)
          · left; omega
        · exact .inr (.inr h)
      · rintro (h | h | h)
        · left; omega
        · left; omega
        · exact .inr h

theorem chunkLoop_runs (l : List Nat) (hp : l.Pairwise (· ≤ ·)) :
    MaximalRuns (chunkLoop none l) (fun o => o ∈ l) := by
  cases l with
  | nil => exact maximalRuns_of (by simp [chunkLoop]) (by simp [chunkLoop]) (by simp [chunkLoop])
  | cons x l =>
    rw [List.pairwise_cons] at hp
    obtain ⟨h1, h2, h3⟩ := chunkLoop_spec l x x (Nat.le_refl _) hp.1 hp.2
    refine maximalRuns_of (fun r hr => (h1 r hr).1) h2 (fun o => ?_)
    show (∃ r ∈ chunkLoop (some (x, x)) l, _) ↔ _
    rw [h3 o, List.mem_cons]
    constructor
    · rintro (h | h)
      · left; omega
      · exact .inr h
    · rintro (h | h)
      · left; omega
      · exact .inr h

/-- A region of one input given as first offset and one past the last. -/
def mkRegion (i : InputRef) (r : Nat × Nat) : Region := ⟨i, r.1, r.2 - r.1⟩

theorem regionLoop_other (i : InputRef) : ∀ (l : List ByteOffset) (p : Nat) (r : Region),
    (∀ o ∈ l, o.source ≠ i) →
    regionLoop (some i) (some p) (some r) l = r :: l.map (fun o => ⟨o.source, o.offset, 1⟩) := by
  intro l
  induction l with
  | nil => intro p r _; rfl
  | cons o l ih =>
    intro p r h
    have h1 : i ≠ o.source := fun e => h o List.mem_cons_self e.symm
    simp only [regionLoop, h1, ne_eq, not_false_eq_true, decide_true, Bool.true_or, if_true]
    rw [ih _ _ (fun o' ho' => h o' (List.mem_cons_of_mem _ ho'))]
    rfl

theorem regionLoop_same (i : InputRef) (l2 : List ByteOffset) (h2 : ∀ o ∈ l2, o.source ≠ i) :
    ∀ (l : List Nat) (a b : Nat), a ≤ b → (∀ o ∈ l, b < o) → l.Pairwise (· < ·) →
    regionLoop (some i) (some b) (some ⟨i, a, b + 1 - a⟩) (l.map (fun o => ⟨i, o⟩) ++ l2) =
      (chunkLoop (some (a, b)) l).map (mkRegion i) ++ l2.map (fun o => ⟨o.source, o.offset, 1⟩) := by
  intro l
  induction l with
  | nil =>
    intro a b hab _ _
    rw [List.map_nil, List.nil_append, regionLoop_other i l2 _ _ h2]
    rfl
  | cons x l ih =>
    intro a b hab hb hp
    rw [List.pairwise_cons] at hp
    have hx := hb x List.mem_cons_self
    by_cases hn : b + 1 = x
    · simp only [List.map_cons, List.cons_append, regionLoop, chunkLoop, ne_eq, not_true_eq_false, decide_false,
        Bool.false_or, hn, Bool.false_eq_true, if_false, List.nil_append, and_false]
      have e : b + 1 - a + 1 = x + 1 - a := by omega
      rw [← hn] at e ⊢
      rw [e]
      rw [hn]
      exact ih a x (by omega) hp.1 hp.2
    · have hn' : ¬ x = b ∧ ¬ x = b + 1 := by omega
      simp only [List.map_cons, List.cons_append, regionLoop, chunkLoop, ne_eq, not_true_eq_false, decide_false,
        Bool.false_or, hn, not_false_eq_true, decide_true, if_true, hn', and_self]
      have := ih x x (Nat.le_refl _) hp.1 hp.2
      rw [Nat.add_sub_cancel_left] at this
      rw [this]
      rfl

/-- Regions of a list that starts with all offsets of one input in increasing order: the maximal runs
of that input, then one region per remaining offset. -/
theorem toRegions_eq (i : InputRef) (l : List Nat) (l2 : List ByteOffset) (hl : l ≠ []) (hp : l.Pairwise (· < ·))
    (h2 : ∀ o ∈ l2, o.source ≠ i) :
    toRegions (l.map (fun o => ⟨i, o⟩) ++ l2) true =
      (chunkLoop none l).map (mkRegion i) ++ l2.map (fun o => ⟨o.source, o.offset, 1⟩) := by
  cases l with
  | nil => exact absurd rfl hl
  | cons x l =>
    rw [List.pairwise_cons] at hp
    have := regionLoop_same i l2 h2 l x x (Nat.le_refl _) hp.1 hp.2
    rw [Nat.add_sub_cancel_left] at this
    simp only [toRegions, if_true, List.map_cons, List.cons_append, regionLoop, Bool.false_eq_true, if_false,
      List.nil_append, chunkLoop]
    exact this

/-! ### The collection -/

theorem mem_addNew {α : Type} [DecidableEq α] {s : List α} {x y : α} : y ∈ addNew s x ↔ y ∈ s ∨ y = x := by
  unfold addNew
  split
  · rename_i h
    constructor
    · exact .inl
    · rintro (h' | rfl)
      · exact h'
      · exact h
  · simp

theorem addNew_nodup {α : Type} [DecidableEq α] {s : List α} (h : s.Nodup) (x : α) : (addNew s x).Nodup := by
  unfold addNew
  split
  · exact h
  · rename_i hx
    rw [List.nodup_append]
    refine ⟨h, by simp, ?_⟩
    intro a ha b hb e
    simp only [List.mem_singleton] at hb
    subst hb
    subst e
    exact hx ha

/-- What the grouping dictionary holds after the offsets in `done`. -/
structure Grouped (done : List ByteOffset) (d : Dict InputRef (List ByteOffset)) : Prop where
  keys : d.keys.Nodup
  group : ∀ s os, (s, os) ∈ d → os.Nodup ∧ os ≠ [] ∧ ∀ o, o ∈ os ↔ o ∈ done ∧ o.source = s
  all : ∀ o ∈ done, o.source ∈ d.keys

theorem Grouped.nil : Grouped [] [] := ⟨by simp [Dict.keys], fun s os h => (by cases h), fun o h => (by cases h)⟩

theorem Grouped.step {done : List ByteOffset} {d : Dict InputRef (List ByteOffset)} (h : Grouped done d) (o : ByteOffset) :
    Grouped (done ++ [o]) (d.set o.source (addNew ((d.get o.source).getD []) o)) := by
  have hk := Dict.keys_set_nodup h.keys o.source (addNew ((d.get o.source).getD []) o)
  have hold : ((d.get o.source).getD []).Nodup ∧ ∀ x, x ∈ (d.get o.source).getD [] ↔ x ∈ done ∧ x.source = o.source := by
    cases hg : d.get o.source with
    | none =>
      refine ⟨by simp, fun x => ?_⟩
      simp only [Option.getD_none, List.not_mem_nil, false_iff]
      rintro ⟨h1, h2⟩
      exact (Dict.get_none_iff d o.source).1 hg (h2 ▸ h.all x h1)
    | some os =>
      have := h.group _ _ (Dict.mem_of_get hg)
      exact ⟨this.1, this.2.2⟩
  refine ⟨hk, ?_, ?_⟩
  · intro s os hm
    have hg := Dict.get_of_mem hk hm
    rw [Dict.get_set] at hg
    split at hg
    · rename_i e
      cases hg
      refine ⟨addNew_nodup hold.1 o, ?_, ?_⟩
      · intro hnil
        have : o ∈ addNew ((d.get o.source).getD []) o := mem_addNew.2 (.inr rfl)
        rw [hnil] at this
        cases this
      · intro x
        rw [mem_addNew, hold.2, e]
        simp only [List.mem_append, List.mem_singleton]
        constructor
        · rintro (⟨h1, h2⟩ | rfl)
          · exact ⟨.inl h1, h2⟩
          · exact ⟨.inr rfl, rfl⟩
        · rintro ⟨h1 | h1, h2⟩
          · exact .inl ⟨h1, h2⟩
          · exact .inr h1
    · rename_i e
      obtain ⟨h1, h2, h3⟩ := h.group s os (Dict.mem_of_get hg)
      refine ⟨h1, h2, fun x => ?_⟩
      rw [h3]
      simp only [List.mem_append, List.mem_singleton]
      constructor
      · rintro ⟨a, b⟩; exact ⟨.inl a, b⟩
      · rintro ⟨a | a, b⟩
        · exact ⟨a, b⟩
        · subst a; exact absurd b.symm e
  · intro x hx
    rw [Dict.mem_keys_set]
    simp only [List.mem_append, List.mem_singleton] at hx
    rcases hx with hx | rfl
    · exact .inr (h.all x hx)
    · exact .inl rfl

theorem groupBySource_grouped : ∀ (l done : List ByteOffset) (d : Dict InputRef (List ByteOffset)), Grouped done d →
    Grouped (done ++ l) (groupBySource l d) := by
  intro l
  induction l with
  | nil => intro done d h; simpa [groupBySource] using h
  | cons o l ih =>
    intro done d h
    have := ih (done ++ [o]) _ (h.step o)
    simpa [groupBySource] using this

theorem ByteOffset.le_trans' (a b c : ByteOffset) (h1 : a.le b = true) (h2 : b.le c = true) : a.le c = true := by
  simp only [ByteOffset.le, Bool.or_eq_true, decide_eq_true_eq, Bool.and_eq_true, beq_iff_eq] at *
  omega

theorem ByteOffset.le_total' (a b : ByteOffset) : (a.le b || b.le a) = true := by
  simp only [ByteOffset.le, Bool.or_eq_true, decide_eq_true_eq, Bool.and_eq_true, beq_iff_eq] at *
  omega

theorem sortOffsets_perm (l : List ByteOffset) : (sortOffsets l).Perm l := List.mergeSort_perm l _

theorem sortOffsets_sorted (l : List ByteOffset) : (sortOffsets l).Pairwise (fun a b => a.le b = true) :=
  List.pairwise_mergeSort ByteOffset.le_trans' ByteOffset.le_total' l

/-- A sorted list of distinct offsets of one input is that input paired with increasing offsets. -/
theorem sorted_source {os : List ByteOffset} {s : InputRef} (hn : os.Nodup) (hs : ∀ o ∈ os, o.source = s)
    (hp : os.Pairwise (fun a b => a.le b = true)) :
    os = (os.map (·.offset)).map (fun o => ⟨s, o⟩) ∧ (os.map (·.offset)).Pairwise (· < ·) := by
  constructor
  · rw [List.map_map]
    refine (List.map_id os).symm.trans ?_
    apply List.map_congr_left
    intro o ho
    simp only [id, Function.comp_apply]
    rw [← hs o ho]
  · rw [List.pairwise_map]
    refine (List.Pairwise.and hp hn).imp_of_mem ?_
    intro a b ha hb ⟨h1, h2⟩
    have e1 := hs a ha
    have e2 := hs b hb
    simp only [ByteOffset.le, Bool.or_eq_true, decide_eq_true_eq, Bool.and_eq_true, beq_iff_eq, e1, e2] at h1
    have : a.offset ≠ b.offset := by
      intro e
      apply h2
      cases a; cases b
      simp_all
    omega

/-- What a collection of taints holds. -/
structure IsTaints (l : List ByteOffset) (t : Dict InputRef (List ByteOffset)) : Prop where
  keys : t.keys.Nodup
  group : ∀ s os, (s, os) ∈ t → ∃ ns : List Nat, ns ≠ [] ∧ ns.Pairwise (· < ·) ∧ os = ns.map (fun o => ⟨s, o⟩) ∧
    ∀ o, o ∈ ns ↔ ⟨s, o⟩ ∈ l
  all : ∀ o ∈ l, o.source ∈ t.keys

theorem taints_mk (l : List ByteOffset) : IsTaints l (Taints.mk l) := by
  have hg := groupBySource_grouped l [] [] Grouped.nil
  rw [List.nil_append] at hg
  have hkeys : (Taints.mk l).keys = (groupBySource l []).keys := by
    simp [Taints.mk, Dict.keys, Function.comp_def]
  refine ⟨hkeys ▸ hg.keys, ?_, fun o ho => hkeys ▸ hg.all o ho⟩
  intro s os hm
  simp only [Taints.mk, List.mem_map, Prod.mk.injEq] at hm
  obtain ⟨⟨s', os'⟩, hm', hs', hos⟩ := hm
  simp only at hs' hos
  subst hs' hos
  obtain ⟨h1, h2, h3⟩ := hg.group _ _ hm'
  have hperm := sortOffsets_perm os'
  have hnd : (sortOffsets os').Nodup := hperm.nodup_iff.2 h1
  have hsrc : ∀ o ∈ sortOffsets os', o.source = s' := fun o ho => ((h3 o).1 (hperm.mem_iff.1 ho)).2
  obtain ⟨e, hlt⟩ := sorted_source hnd hsrc (sortOffsets_sorted os')
  refine ⟨(sortOffsets os').map (·.offset), ?_, hlt, e, ?_⟩
  · intro hnil
    rw [hnil] at e
    apply h2
    have := hperm.length_eq
    rw [e] at this
    exact List.length_eq_zero_iff.1 this.symm
  · intro o
    rw [List.mem_map]
    constructor
    · rintro ⟨x, hx, rfl⟩
      have := (h3 x).1 (hperm.mem_iff.1 hx)
      rw [← this.2]
      exact this.1
    · intro ho
      exact ⟨⟨s', o⟩, hperm.mem_iff.2 ((h3 _).2 ⟨ho, rfl⟩), rfl⟩

end Verif
