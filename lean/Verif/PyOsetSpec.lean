import Verif.PyOset
/- Helper lemmas: ordered sets. -/
namespace Verif.PyOset
variable {α : Type} [DecidableEq α]

theorem mem_add {s : List α} {x y : α} : y ∈ add s x ↔ y ∈ s ∨ y = x := by
  unfold add
  split
  · constructor
    · exact .inl
    · rintro (h | rfl) <;> assumption
  · simp

theorem add_prefix (s : List α) (x : α) : s <+: add s x := by
  unfold add
  split
  · exact List.prefix_refl _
  · exact List.prefix_append _ _

theorem add_nodup {s : List α} (h : s.Nodup) (x : α) : (add s x).Nodup := by
  unfold add
  split
  · exact h
  · rename_i hx
    rw [List.nodup_append]
    exact ⟨h, by simp, fun a ha b hb => by simp at hb; subst hb; rintro rfl; exact hx ha⟩

theorem mem_discard {s : List α} {x y : α} : y ∈ discard s x ↔ y ∈ s ∧ y ≠ x := by
  unfold discard
  split
  · simp
  · rename_i h
    exact ⟨fun hy => ⟨hy, fun e => h (e ▸ hy)⟩, fun hy => hy.1⟩

theorem discard_sublist (s : List α) (x : α) : (discard s x).Sublist s := by
  unfold discard
  split
  · exact List.filter_sublist
  · exact List.Sublist.refl _

theorem mem_ior {t s : List α} {y : α} : y ∈ ior s t ↔ y ∈ s ∨ y ∈ t := by
  unfold ior
  induction t generalizing s with
  | nil => simp
  | cons x t ih => rw [List.foldl_cons, ih, mem_add, List.mem_cons, or_assoc]

theorem ior_prefix (t s : List α) : s <+: ior s t := by
  unfold ior
  induction t generalizing s with
  | nil => exact List.prefix_refl _
  | cons x t ih => exact (add_prefix s x).trans (ih _)

theorem ior_nodup {t s : List α} (h : s.Nodup) : (ior s t).Nodup := by
  unfold ior
  induction t generalizing s with
  | nil => exact h
  | cons x t ih => exact ih (add_nodup h x)

theorem mem_discards {t s : List α} {y : α} : y ∈ t.foldl discard s ↔ y ∈ s ∧ y ∉ t := by
  induction t generalizing s with
  | nil => simp
  | cons x t ih => rw [List.foldl_cons, ih, mem_discard, List.mem_cons, and_assoc, not_or]

theorem discards_sublist (t s : List α) : (t.foldl discard s).Sublist s := by
  induction t generalizing s with
  | nil => exact List.Sublist.refl _
  | cons x t ih => exact (ih _).trans (discard_sublist s x)

theorem mem_toggles {t s : List α} (ht : t.Nodup) {y : α} :
    y ∈ t.foldl (fun s x => if x ∈ s then discard s x else add s x) s ↔ (y ∈ s ∧ y ∉ t) ∨ (y ∉ s ∧ y ∈ t) := by
  induction t generalizing s with
  | nil => simp
  | cons x t ih =>
    rw [List.nodup_cons] at ht
    rw [List.foldl_cons, ih ht.2]
    have h1 : ∀ z, z ∈ (if x ∈ s then discard s x else add s x) ↔ (z ≠ x ∧ z ∈ s) ∨ (z = x ∧ x ∉ s) := by
      intro z
      split
      · rename_i hx
        rw [mem_discard]
        constructor
        · rintro ⟨a, b⟩; exact .inl ⟨b, a⟩
        · rintro (⟨a, b⟩ | ⟨_, b⟩)
          · exact ⟨b, a⟩
          · exact absurd hx b
      · rename_i hx
        rw [mem_add]
        constructor
        · rintro (a | rfl)
          · exact .inl ⟨fun e => hx (e ▸ a), a⟩
          · exact .inr ⟨rfl, hx⟩
        · rintro (⟨_, a⟩ | ⟨a, _⟩)
          · exact .inl a
          · exact .inr a
    rw [h1, List.mem_cons]
    by_cases hyx : y = x
    · subst hyx
      have := ht.1
      by_cases hs : y ∈ s <;> simp [hs, this]
    · by_cases hs : y ∈ s <;> by_cases hy : y ∈ t <;> simp [hyx, hs, hy]

theorem toggles_nodup {t s : List α} (h : s.Nodup) :
    (t.foldl (fun s x => if x ∈ s then discard s x else add s x) s).Nodup := by
  induction t generalizing s with
  | nil => exact h
  | cons x t ih =>
    rw [List.foldl_cons]
    apply ih
    split
    · exact h.sublist (discard_sublist s x)
    · exact add_nodup h x

theorem new_nodup (items : List α) : (new items).Nodup := ior_nodup (s := []) (by simp)

theorem mem_new {items : List α} {x : α} : x ∈ new items ↔ x ∈ items := by
  have := mem_ior (s := []) (t := items) (y := x)
  simpa [new, ior] using this

/-- Items that are different stay as they are. -/
theorem ior_of_nodup {t s : List α} (h : (s ++ t).Nodup) : ior s t = s ++ t := by
  induction t generalizing s with
  | nil => simp [ior]
  | cons x t ih =>
    have hx : x ∉ s := by
      intro hx
      rw [List.nodup_append] at h
      exact h.2.2 x hx x (by simp) rfl
    have : ior s (x :: t) = ior (s ++ [x]) t := by
      show t.foldl add (add s x) = _
      rw [add, if_neg hx]; rfl
    rw [this, ih (by simpa using h)]; simp

theorem new_of_nodup {t : List α} (h : t.Nodup) : new t = t := by
  have := ior_of_nodup (s := []) (t := t) (by simpa using h)
  simpa [new, ior] using this

/-- `&=` removes nothing. -/
theorem iand_eq {gen : α} {s : List α} (h : gen ∉ s) (t : List α) : iand gen s t = s := by
  show discard s gen = s
  rw [discard, if_neg h]

/-- The order of the items is the order of their first occurrence. -/
theorem new_order (items : List α) : (new items).Pairwise (fun x y => items.idxOf x < items.idxOf y) := by
  have key : ∀ (t done s : List α), (∀ x, x ∈ s ↔ x ∈ done) →
      s.Pairwise (fun x y => (done ++ t).idxOf x < (done ++ t).idxOf y) →
      (t.foldl add s).Pairwise (fun x y => (done ++ t).idxOf x < (done ++ t).idxOf y) := by
    intro t
    induction t with
    | nil => intro done s _ h; exact h
    | cons a t ih =>
      intro done s hm h
      have e : done ++ a :: t = (done ++ [a]) ++ t := by simp
      rw [List.foldl_cons, e]
      refine ih (done ++ [a]) (add s a) (fun x => by rw [mem_add, hm]; simp) ?_
      rw [← e]
      unfold add
      split
      · exact h
      · rename_i ha
        rw [List.pairwise_append]
        refine ⟨h, by simp, fun x hx y hy => ?_⟩
        simp only [List.mem_singleton] at hy
        subst hy
        have hx' := (hm x).1 hx
        have ha' : y ∉ done := fun h => ha ((hm y).2 h)
        rw [List.idxOf_append_of_mem hx', List.idxOf_append_of_notMem ha']
        have := List.idxOf_lt_length_iff.2 hx'
        omega
  exact key items [] [] (by simp) (by simp)

end Verif.PyOset
