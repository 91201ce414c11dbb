/- Python dictionaries: association lists in insertion order. -/
namespace Verif.Py

/-- A `dict`, oldest key first. -/
abbrev Dict (κ α : Type) := List (κ × α)

namespace Dict
variable {κ α : Type} [DecidableEq κ]

/-- `d.get(k)`. -/
def get : Dict κ α → κ → Option α
  | [], _ => none
  | (k', v) :: d, k => if k' = k then some v else get d k

/-- `d[k] = v`: replaces the value in place or appends the key. -/
def set : Dict κ α → κ → α → Dict κ α
  | [], k, v => [(k, v)]
  | (k', v') :: d, k, v => if k' = k then (k', v) :: d else (k', v') :: set d k v

/-- `d.keys()`. -/
def keys (d : Dict κ α) : List κ := d.map (·.1)

/-- `del d[k]` / `d.pop(k)`. -/
def del (d : Dict κ α) (k : κ) : Dict κ α := d.filter fun p => p.1 ≠ k

theorem get_set_eq (d : Dict κ α) (k : κ) (v : α) : (d.set k v).get k = some v := by
  induction d with
  | nil => simp [set, get]
  | cons p d ih =>
    obtain ⟨k', v'⟩ := p
    rw [set]
    split
    · rename_i h; simp [get, h]
    · rename_i h; simp [get, h, ih]

theorem get_set_ne (d : Dict κ α) {k k' : κ} (v : α) (h : k' ≠ k) : (d.set k v).get k' = d.get k' := by
  induction d with
  | nil => simp [set, get, Ne.symm h]
  | cons p d ih =>
    obtain ⟨k1, v'⟩ := p
    rw [set]
    split
    · rename_i h1; subst h1; simp [get, Ne.symm h]
    · rename_i h1; simp [get, ih]

theorem get_set (d : Dict κ α) (k k' : κ) (v : α) :
    (d.set k v).get k' = if k' = k then some v else d.get k' := by
  split
  · rename_i h; rw [h, get_set_eq]
  · rename_i h; exact get_set_ne d v h

theorem get_isSome_iff (d : Dict κ α) (k : κ) : (∃ v, d.get k = some v) ↔ k ∈ d.keys := by
  induction d with
  | nil => simp [get, keys]
  | cons p d ih =>
    obtain ⟨k1, v'⟩ := p
    simp only [get, keys, List.map_cons, List.mem_cons]
    split
    · rename_i h; simp [h]
    · rename_i h; rw [ih, keys]; simp [Ne.symm h]

theorem get_none_iff (d : Dict κ α) (k : κ) : d.get k = none ↔ k ∉ d.keys := by
  rw [← get_isSome_iff]
  cases d.get k <;> simp

theorem keys_set_of_mem (d : Dict κ α) {k : κ} (v : α) (h : k ∈ d.keys) : (d.set k v).keys = d.keys := by
  induction d with
  | nil => simp [keys] at h
  | cons p d ih =>
    obtain ⟨k1, v'⟩ := p
    rw [set]
    split
    · rfl
    · rename_i h1
      simp only [keys, List.map_cons] at h ih ⊢
      rw [ih]
      exact (List.mem_cons.1 h).resolve_left (Ne.symm h1)

theorem keys_set_of_not_mem (d : Dict κ α) {k : κ} (v : α) (h : k ∉ d.keys) :
    d.set k v = d ++ [(k, v)] := by
  induction d with
  | nil => rfl
  | cons p d ih =>
    obtain ⟨k1, v'⟩ := p
    simp only [keys, List.map_cons, List.mem_cons, not_or] at h
    rw [set, if_neg (Ne.symm h.1), ih (by simpa [keys] using h.2)]
    rfl

theorem mem_of_get {d : Dict κ α} {k : κ} {v : α} (h : d.get k = some v) : (k, v) ∈ d := by
  induction d with
  | nil => simp [get] at h
  | cons p d ih =>
    obtain ⟨k1, v'⟩ := p
    rw [get] at h
    split at h
    · rename_i h1; cases h; simp [h1]
    · exact List.mem_cons_of_mem _ (ih h)

theorem get_of_mem {d : Dict κ α} (hd : d.keys.Nodup) {k : κ} {v : α} (h : (k, v) ∈ d) :
    d.get k = some v := by
  induction d with
  | nil => cases h
  | cons p d ih =>
    obtain ⟨k1, v'⟩ := p
    simp only [keys, List.map_cons, List.nodup_cons] at hd
    rw [get]
    rcases List.mem_cons.1 h with h | h
    · cases h; simp
    · rw [if_neg, ih hd.2 h]
      intro e
      exact hd.1 (List.mem_map.2 ⟨_, h, e.symm⟩)

theorem keys_set_nodup {d : Dict κ α} (hd : d.keys.Nodup) (k : κ) (v : α) : (d.set k v).keys.Nodup := by
  by_cases h : k ∈ d.keys
  · rw [keys_set_of_mem d v h]; exact hd
  · rw [keys_set_of_not_mem d v h]
    simp only [keys, List.map_append, List.map_cons, List.map_nil]
    rw [List.nodup_append]
    refine ⟨hd, by simp, ?_⟩
    intro a ha b hb
    simp only [List.mem_singleton] at hb
    subst hb
    intro e; subst e; exact h ha

theorem mem_keys_set (d : Dict κ α) (k k' : κ) (v : α) : k' ∈ (d.set k v).keys ↔ k' = k ∨ k' ∈ d.keys := by
  rw [← get_isSome_iff, ← get_isSome_iff, get_set]
  split
  · rename_i h; simp [h]
  · rename_i h; simp [h]

end Dict
end Verif.Py
