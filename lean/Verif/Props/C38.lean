import Verif.PyCache
import Verif.Spec.Cache
import Mathlib.Data.List.Perm.Subperm
/- C38: the cache is bounded and evicts the least recently used entry. -/
namespace Verif
open Py Spec.Cache
variable {κ α : Type} [DecidableEq κ]

/-- The states of the cache and the histories that lead to them. -/
inductive Lru.Run (maxSize : Option Nat) : List (Ev κ α) → Dict κ α → Prop
  | init : Run maxSize [] []
  | hit {h d k v d'} : Run maxSize h d → Lru.getItem d k = some (v, d') → Run maxSize (.got k v :: h) d'
  | miss {h d k} : Run maxSize h d → Lru.getItem d k = none → Run maxSize (.missed k :: h) d
  | put {h d k v ev d'} : Run maxSize h d → Lru.setItem maxSize d k v = (ev, d') →
      Run maxSize (.put k v ev :: h) d'
  | del {h d k d'} : Run maxSize h d → Lru.delItem d k = some d' → Run maxSize (.deleted k :: h) d'

namespace Lru
open Py.Lru

omit [DecidableEq κ] in
theorem evict_none (d : Dict κ α) : evict none d = ([], d) := by
  cases d <;> rfl

omit [DecidableEq κ] in
theorem evict_some (n : Nat) (d : Dict κ α) :
    evict (some n) d = ((d.take (d.length - n)).map (·.1), d.drop (d.length - n)) := by
  induction d with
  | nil => simp [evict]
  | cons p d ih =>
    obtain ⟨k, v⟩ := p
    simp only [evict]
    split
    · rename_i h
      simp only [List.length_cons] at h
      have e : ((k, v) :: d).length - n = (d.length - n) + 1 := by simp only [List.length_cons]; omega
      rw [ih, e]
      rfl
    · rename_i h
      rw [Nat.sub_eq_zero_of_le (by omega)]
      rfl

theorem lastUse_le (h : List (Ev κ α)) (k : κ) : lastUse h k ≤ h.length := by
  induction h with
  | nil => simp [lastUse]
  | cons e h ih =>
    cases e <;> simp only [lastUse, List.length_cons]
    · split <;> omega
    · omega
    · split <;> omega
    · omega

/-- What the history says about the items. -/
structure Inv (h : List (Ev κ α)) (d : Dict κ α) : Prop where
  nodup : d.keys.Nodup
  held : ∀ k, held h k = true ↔ k ∈ d.keys
  stored : ∀ k v, (k, v) ∈ d → lastStored h k = some v
  sorted : d.Pairwise (fun p q => lastUse h p.1 < lastUse h q.1)

omit [DecidableEq κ] in
theorem mem_keys {d : Dict κ α} {k : κ} : k ∈ d.keys ↔ ∃ v, (k, v) ∈ d := by
  simp [Dict.keys]

theorem keys_del (d : Dict κ α) (k : κ) : (d.del k).keys = d.keys.filter (· ≠ k) := by
  simp only [Dict.keys, Dict.del, List.filter_map]
  rfl

theorem del_nodup {d : Dict κ α} (h : d.keys.Nodup) (k : κ) : (d.del k).keys.Nodup := by
  rw [keys_del]; exact h.filter _

theorem mem_keys_del {d : Dict κ α} {k x : κ} : x ∈ (d.del k).keys ↔ x ∈ d.keys ∧ x ≠ k := by
  rw [keys_del]; simp

theorem held_false_iff {h : List (Ev κ α)} {d : Dict κ α} (hi : Inv h d) (k : κ) :
    Spec.Cache.held h k = false ↔ k ∉ d.keys := by
  rw [← hi.held]
  simp

/-- Storing into the dictionary, before eviction. -/
theorem Inv.set {h : List (Ev κ α)} {d : Dict κ α} (hi : Inv h d) (k : κ) (v : α) :
    Inv (.put k v [] :: h) (d.set k v) := by
  refine ⟨Dict.keys_set_nodup hi.nodup k v, ?_, ?_, ?_⟩
  · intro x
    simp only [Spec.Cache.held, List.not_mem_nil, if_false]
    rw [Dict.mem_keys_set]
    split
    · rename_i hx; simp [hx]
    · rename_i hx; rw [hi.held]; simp [hx]
  · intro x w hx
    have hg := Dict.get_of_mem (Dict.keys_set_nodup hi.nodup k v) hx
    rw [Dict.get_set] at hg
    simp only [lastStored]
    split
    · rename_i e; rw [if_pos e] at hg; exact hg
    · rename_i e; rw [if_neg e] at hg; exact hi.stored x w (Dict.mem_of_get hg)
  · by_cases hk : k ∈ d.keys
    · have hh : Spec.Cache.held h k = true := (hi.held k).2 hk
      have hu : ∀ x, lastUse (.put k v [] :: h) x = lastUse h x := by
        intro x
        simp only [lastUse]
        rw [if_neg]
        rintro ⟨rfl, h2⟩
        rw [hh] at h2; cases h2
      simp only [hu]
      have hks := Dict.keys_set_of_mem d v hk
      have h1 : (d.keys).Pairwise (fun p q => lastUse h p < lastUse h q) := by
        simp only [Dict.keys, List.pairwise_map]; exact hi.sorted
      rw [← hks] at h1
      simp only [Dict.keys, List.pairwise_map] at h1
      exact h1
    · rw [Dict.keys_set_of_not_mem d v hk, List.pairwise_append]
      have hf : Spec.Cache.held h k = false := (held_false_iff hi k).2 hk
      refine ⟨?_, by simp, ?_⟩
      · refine hi.sorted.imp_of_mem ?_
        intro p q hp hq hpq
        have n1 : p.1 ≠ k := fun e => hk (mem_keys.2 ⟨p.2, by rw [← e]; exact hp⟩)
        have n2 : q.1 ≠ k := fun e => hk (mem_keys.2 ⟨q.2, by rw [← e]; exact hq⟩)
        simp only [lastUse]
        rw [if_neg (fun h => n1 h.1), if_neg (fun h => n2 h.1)]
        exact hpq
      · intro p hp q hq
        simp only [List.mem_singleton] at hq
        subst hq
        have n1 : p.1 ≠ k := fun e => hk (mem_keys.2 ⟨p.2, by rw [← e]; exact hp⟩)
        simp only [lastUse]
        rw [if_neg (fun h => n1 h.1), if_pos (by simp [hf])]
        have := lastUse_le h p.1
        omega

theorem lastUse_put (k : κ) (v : α) (ev : List κ) (h : List (Ev κ α)) (x : κ) :
    lastUse (.put k v ev :: h) x = lastUse (.put k v [] :: h) x := rfl

theorem Inv.evicted {h : List (Ev κ α)} {d : Dict κ α} {k : κ} {v : α} {t : Nat}
    (hi : Inv (.put k v [] :: h) d) :
    Inv (.put k v ((d.take t).map (·.1)) :: h) (d.drop t) := by
  have hd : d.take t ++ d.drop t = d := List.take_append_drop t d
  have hn := hi.nodup
  rw [← hd] at hn
  simp only [Dict.keys, List.map_append] at hn
  rw [List.nodup_append] at hn
  refine ⟨hn.2.1, ?_, ?_, ?_⟩
  · intro x
    have := hi.held x
    simp only [Spec.Cache.held, List.not_mem_nil, if_false] at this ⊢
    by_cases hx : x ∈ (d.take t).map (·.1)
    · rw [if_pos hx]
      constructor
      · intro h; cases h
      · intro h
        exact absurd rfl (hn.2.2 x hx x h)
    · rw [if_neg hx, this]
      constructor
      · intro h
        rw [← hd] at h
        simp only [Dict.keys, List.map_append, List.mem_append] at h
        exact h.resolve_left hx
      · intro h
        rw [← hd]
        simp only [Dict.keys, List.map_append, List.mem_append]
        exact .inr h
  · intro x w hx
    exact hi.stored x w (List.mem_of_mem_drop hx)
  · exact hi.sorted.sublist (List.drop_sublist t d)

theorem Run.inv {maxSize : Option Nat} {h : List (Ev κ α)} {d : Dict κ α} (hr : Run maxSize h d) :
    Inv h d := by
  induction hr with
  | init =>
    refine ⟨by simp [Dict.keys], ?_, ?_, List.Pairwise.nil⟩
    · intro k; simp [Spec.Cache.held, Dict.keys]
    · intro k v hk; cases hk
  | @hit h d k v d' hr hg ih =>
    unfold getItem at hg
    split at hg
    · cases hg
    · rename_i w hw
      cases hg
      have hk : k ∈ d.keys := (Dict.get_isSome_iff d k).1 ⟨_, hw⟩
      refine ⟨?_, ?_, ?_, ?_⟩
      · simp only [moveToEnd, Dict.keys, List.map_append, List.map_cons, List.map_nil]
        rw [List.nodup_append]
        refine ⟨del_nodup ih.nodup k, by simp, ?_⟩
        intro a ha b hb
        simp only [List.mem_singleton] at hb
        subst hb
        exact (mem_keys_del.1 ha).2
      · intro x
        simp only [Spec.Cache.held, moveToEnd, Dict.keys, List.map_append, List.map_cons, List.map_nil,
          List.mem_append, List.mem_singleton]
        rw [ih.held x]
        constructor
        · intro hx
          by_cases e : x = k
          · exact .inr e
          · exact .inl (mem_keys_del.2 ⟨hx, e⟩)
        · rintro (hx | hx)
          · exact (mem_keys_del.1 hx).1
          · rw [hx]; exact hk
      · intro x w hx
        simp only [moveToEnd, List.mem_append, List.mem_singleton] at hx
        simp only [lastStored]
        rcases hx with hx | hx
        · exact ih.stored x w (List.mem_of_mem_filter hx)
        · cases hx; exact ih.stored _ _ (Dict.mem_of_get hw)
      · simp only [moveToEnd]
        rw [List.pairwise_append]
        refine ⟨?_, by simp, ?_⟩
        · refine (ih.sorted.sublist List.filter_sublist).imp_of_mem ?_
          intro p q hp hq hpq
          have n1 : p.1 ≠ k := by simpa using (List.mem_filter.1 hp).2
          have n2 : q.1 ≠ k := by simpa using (List.mem_filter.1 hq).2
          simp only [lastUse, n1, n2, if_false]
          exact hpq
        · intro p hp q hq
          simp only [List.mem_singleton] at hq
          subst hq
          have n1 : p.1 ≠ k := by simpa using (List.mem_filter.1 hp).2
          simp only [lastUse, n1, if_false, if_true]
          have := lastUse_le h p.1
          omega
  | miss hr hg ih => exact ⟨ih.nodup, ih.held, ih.stored, ih.sorted⟩
  | @put h d k v ev d' hr hg ih =>
    unfold setItem at hg
    cases maxSize with
    | none =>
      rw [evict_none] at hg
      cases hg
      exact ih.set k v
    | some n =>
      rw [evict_some] at hg
      cases hg
      exact (ih.set k v).evicted
  | @del h d k d' hr hg ih =>
    unfold delItem at hg
    split at hg
    · cases hg
    · cases hg
      refine ⟨del_nodup ih.nodup k, ?_, ?_, ?_⟩
      · intro x
        simp only [Spec.Cache.held]
        rw [mem_keys_del]
        split
        · rename_i e; simp [e]
        · rename_i e; rw [ih.held]; simp [e]
      · intro x w hx
        exact ih.stored x w (List.mem_of_mem_filter hx)
      · exact ih.sorted.sublist List.filter_sublist

theorem Run.bounded {n : Nat} {h : List (Ev κ α)} {d : Dict κ α} (hr : Run (some n) h d) :
    d.length ≤ n := by
  induction hr with
  | init => simp
  | @hit h d k v d' hr hg ih =>
    unfold getItem at hg
    split at hg
    · cases hg
    · rename_i hw
      cases hg
      have hm : (k, v) ∈ d := Dict.mem_of_get hw
      simp only [moveToEnd, List.length_append, List.length_singleton, Dict.del]
      have : (d.filter fun p => decide (p.1 ≠ k)).length < d.length := by
        apply List.length_filter_lt_length_iff_exists.2
        exact ⟨_, hm, by simp⟩
      omega
  | miss hr hg ih => exact ih
  | @put h d k v ev d' hr hg ih =>
    unfold setItem at hg
    rw [evict_some] at hg
    cases hg
    simp only [List.length_drop]
    omega
  | @del h d k d' hr hg ih =>
    unfold delItem at hg
    split at hg
    · cases hg
    · cases hg
      exact Nat.le_trans (List.length_filter_le _ _) ih

end Lru

/-- After any sequence of operations the cache holds at most `n` entries: `len(cache)` is at most `n`,
and so is the number of keys it holds. -/
theorem C38_bounded {n : Nat} {h : List (Ev κ α)} {d : Dict κ α} (hr : Lru.Run (some n) h d) :
    d.length ≤ n ∧ ∀ ks : List κ, ks.Nodup → (∀ k ∈ ks, held h k = true) → ks.length ≤ n := by
  refine ⟨hr.bounded, fun ks hks hh => ?_⟩
  have hsub : ks ⊆ d.keys := fun k hk => (hr.inv.held k).1 (hh k hk)
  have := (List.subperm_of_subset hks hsub).length_le
  simp only [Dict.keys, List.length_map] at this
  exact Nat.le_trans this hr.bounded

/-- A lookup succeeds exactly for the keys still held, and returns the value stored last. -/
theorem C38_value {maxSize : Option Nat} {h : List (Ev κ α)} {d : Dict κ α}
    (hr : Lru.Run maxSize h d) (k : κ) :
    (held h k = true → ∃ v d', Lru.getItem d k = some (v, d') ∧ lastStored h k = some v) ∧
    (held h k = false → Lru.getItem d k = none) := by
  constructor
  · intro hk
    obtain ⟨v, hv⟩ := (Dict.get_isSome_iff d k).2 ((hr.inv.held k).1 hk)
    refine ⟨v, Lru.moveToEnd d k v, by simp [Lru.getItem, hv], hr.inv.stored k v (Dict.mem_of_get hv)⟩
  · intro hk
    have := (Dict.get_none_iff d k).2 ((Lru.held_false_iff hr.inv k).1 hk)
    simp [Lru.getItem, this]

/-- Without a limit nothing is evicted; with a limit, storing evicts at most one entry, only when the
cache would be too large, and only an entry that was used before every entry that stays.
Missing for the full claim: "used" means looked up or inserted; replacing the value of a key that is
already in the cache does not count (`C38_store_refuted`). -/
theorem C38_evicts_partial {maxSize : Option Nat} {h : List (Ev κ α)} {d : Dict κ α}
    (hr : Lru.Run maxSize h d) (k : κ) (v : α) {ev : List κ} {d' : Dict κ α}
    (hs : Lru.setItem maxSize d k v = (ev, d')) :
    (maxSize = none → ev = []) ∧
    (∀ e ∈ ev, (held h e = true ∨ e = k) ∧ held (.put k v ev :: h) e = false ∧
      ∀ x, held (.put k v ev :: h) x = true → lastUse (.put k v ev :: h) e < lastUse (.put k v ev :: h) x) ∧
    ev.length ≤ 1 ∧
    (ev ≠ [] → ∀ n, maxSize = some n → held h k = false ∧ d.length = n) := by
  cases maxSize with
  | none =>
    rw [Lru.setItem, Lru.evict_none] at hs
    cases hs
    simp
  | some n =>
    have hi := hr.inv.set k v
    have hfin := (Lru.Run.put hr hs).inv
    have hb := hr.bounded
    rw [Lru.setItem, Lru.evict_some] at hs
    have hlen : (d.set k v).length ≤ n + 1 ∧ (n < (d.set k v).length → k ∉ d.keys ∧ d.length = n) := by
      by_cases hk : k ∈ d.keys
      · have e := congrArg List.length (Dict.keys_set_of_mem d v hk)
        simp only [Dict.keys, List.length_map] at e
        omega
      · rw [Dict.keys_set_of_not_mem d v hk]
        simp only [List.length_append, List.length_singleton]
        exact ⟨by omega, fun _ => ⟨hk, by omega⟩⟩
    simp only [Prod.mk.injEq] at hs
    obtain ⟨hev, hd'⟩ := hs
    refine ⟨fun h => (by cases h), ?_, ?_, ?_⟩
    · intro e he
      have hmem := he
      rw [← hev] at hmem
      obtain ⟨p, hp, hpe⟩ := List.mem_map.1 hmem
      have hset : e ∈ (d.set k v).keys := List.mem_map.2 ⟨p, List.mem_of_mem_take hp, hpe⟩
      refine ⟨?_, ?_, ?_⟩
      · rcases (Dict.mem_keys_set d k e v).1 hset with h1 | h1
        · exact .inr h1
        · exact .inl ((hr.inv.held e).2 h1)
      · simp only [held, he, if_true]
      · intro x hx
        obtain ⟨w, hw⟩ := Lru.mem_keys.1 ((hfin.held x).1 hx)
        rw [← hd'] at hw
        have hsort := hi.sorted
        rw [← List.take_append_drop ((d.set k v).length - n) (d.set k v), List.pairwise_append] at hsort
        have := hsort.2.2 p hp (x, w) hw
        rw [hpe] at this
        exact this
    · rw [← hev]
      simp only [List.length_map, List.length_take]
      omega
    · intro hne m hm
      cases hm
      have : n < (d.set k v).length := by
        by_cases hlt : n < (d.set k v).length
        · exact hlt
        · exfalso
          apply hne
          rw [← hev, Nat.sub_eq_zero_of_le (by omega)]
          rfl
      obtain ⟨h1, h2⟩ := hlen.2 this
      exact ⟨(Lru.held_false_iff hr.inv k).2 h1, h2⟩

/-- The full claim is false: storing a new value for a key does not make it recently used. With limit
2, after storing 1, 2 and again 1, storing 3 evicts 1 and keeps 2. -/
theorem C38_store_refuted : ∃ (h : List (Ev Nat Nat)) (d d' : Dict Nat Nat),
    Lru.Run (some 2) h d ∧ Lru.setItem (some 2) d 3 0 = ([1], d') ∧
    held (.put 3 0 [1] :: h) 2 = true ∧
    lastAccess (.put 3 0 [1] :: h) 2 < lastAccess (.put 3 0 [1] :: h) 1 :=
  ⟨[.put 1 7 [], .put 2 5 [], .put 1 5 []], [(1, 7), (2, 5)], [(2, 5), (3, 0)],
    .put (d := [(1, 5), (2, 5)]) (.put (d := [(1, 5)]) (.put (d := []) .init rfl) rfl) rfl, rfl, rfl,
    by decide⟩

/-- A run with a hit, a miss, an eviction and a deletion. -/
example : Lru.Run (some 2) ([.deleted 1, .missed 2, .put 3 0 [2], .got 1 5, .put 2 6 [], .put 1 5 []] :
    List (Ev Nat Nat)) [(3, 0)] :=
  .del (d := [(1, 5), (3, 0)]) (.miss (d := [(1, 5), (3, 0)]) (.put (d := [(2, 6), (1, 5)])
    (.hit (d := [(1, 5), (2, 6)]) (.put (d := [(1, 5)]) (.put (d := []) .init rfl) rfl) rfl) rfl) rfl) rfl

theorem Lru.iterate_aux : ∀ (todo done : Dict κ α) (fuel : Nat) (yielded : List κ),
    (todo ++ done).keys.Nodup → (∀ k, k ∈ yielded ↔ k ∈ done.keys) → todo.length < fuel →
    Lru.iterate fuel yielded (todo ++ done) = (todo.keys, done ++ todo) := by
  intro todo
  induction todo with
  | nil =>
    intro done fuel yielded hn hy hf
    obtain ⟨f, rfl⟩ : ∃ f, fuel = f + 1 := ⟨fuel - 1, by simp at hf; omega⟩
    simp only [List.nil_append, Lru.iterate]
    have : done.find? (fun p => decide (p.1 ∉ yielded)) = none := by
      rw [List.find?_eq_none]
      intro p hp
      simp only [decide_eq_true_eq, Decidable.not_not]
      exact (hy p.1).2 (List.mem_map.2 ⟨p, hp, rfl⟩)
    rw [this]
    simp [Dict.keys]
  | cons p todo ih =>
    intro done fuel yielded hn hy hf
    obtain ⟨k, v⟩ := p
    simp only [List.length_cons] at hf
    obtain ⟨f, rfl⟩ : ∃ f, fuel = f + 1 := ⟨fuel - 1, by omega⟩
    simp only [List.cons_append, Dict.keys, List.map_cons, List.map_append, List.nodup_cons,
      List.mem_append, not_or] at hn
    have hk : k ∉ yielded := fun h => hn.1.2 ((hy k).1 h)
    have hfind : ((k, v) :: (todo ++ done)).find? (fun p => decide (p.1 ∉ yielded)) = some (k, v) := by
      simp [List.find?, hk]
    have hdel : Dict.del ((k, v) :: (todo ++ done)) k = todo ++ done := by
      simp only [Dict.del, List.filter_cons]
      simp only [ne_eq, not_true_eq_false, decide_false, Bool.false_eq_true, if_false]
      rw [List.filter_eq_self]
      intro q hq
      simp only [decide_eq_true_eq]
      intro e
      rcases List.mem_append.1 hq with h | h
      · exact hn.1.1 (List.mem_map.2 ⟨q, h, e⟩)
      · exact hn.1.2 (List.mem_map.2 ⟨q, h, e⟩)
    simp only [List.cons_append, Lru.iterate, hfind, Lru.moveToEnd, hdel, List.append_assoc]
    rw [ih (done ++ [(k, v)]) f (k :: yielded) ?_ ?_ (by omega)]
    · simp [Dict.keys]
    · simp only [Dict.keys, List.map_append, List.map_cons, List.map_nil]
      have h2 := hn.2
      rw [← List.append_assoc]
      rw [List.nodup_append]
      refine ⟨h2, by simp, ?_⟩
      intro a ha b hb
      simp only [List.mem_singleton] at hb
      subst hb
      intro e
      subst e
      rcases List.mem_append.1 ha with h | h
      · exact hn.1.1 h
      · exact hn.1.2 h
    · intro x
      simp only [List.mem_cons, hy, Dict.keys, List.map_append, List.map_cons, List.map_nil, List.mem_append,
        List.not_mem_nil, or_false]
      exact or_comm

/-- Iterating over the cache yields every held key exactly once, least recently used first, and leaves
the cache as it was. -/
theorem C38_iterate {maxSize : Option Nat} {h : List (Ev κ α)} {d : Dict κ α}
    (hr : Lru.Run maxSize h d) (fuel : Nat) (hf : d.length < fuel) :
    ∃ ks, Lru.iterate fuel [] d = (ks, d) ∧ ks.Nodup ∧ (∀ k, k ∈ ks ↔ held h k = true) ∧
      ks.Pairwise (fun a b => lastUse h a < lastUse h b) := by
  have hi := hr.inv
  have := Lru.iterate_aux d [] fuel [] (by simpa using hi.nodup) (by simp [Dict.keys]) hf
  simp only [List.append_nil, List.nil_append] at this
  refine ⟨d.keys, this, hi.nodup, fun k => (hi.held k).symm, ?_⟩
  simp only [Dict.keys, List.pairwise_map]
  exact hi.sorted

end Verif
