import Verif.PyOsetSpec
/- C88: OrderedSet and Memoized. -/
namespace Verif
open PyOset

section
variable {α : Type} [DecidableEq α]

/-- `OrderedSet(*items)` has the items, each once, in the order of their first occurrence. -/
theorem C88_new (items : List α) : (new items).Nodup ∧ (∀ x, x ∈ new items ↔ x ∈ items) ∧
    (new items).Pairwise (fun x y => items.idxOf x < items.idxOf y) :=
  ⟨new_nodup items, fun _ => mem_new, new_order items⟩

/-- add, discard, `|=`, `-=`, `^=`, pop do what they do for sets; what stays keeps its place, what is new comes at
the end. Missing: the other operators. -/
theorem C88_update_partial (s t : List α) (hs : s.Nodup) (ht : t.Nodup) (x : α) (same : Bool) (he : same = true → s = t) :
    ((add s x).Nodup ∧ s <+: add s x ∧ ∀ y, y ∈ add s x ↔ y ∈ s ∨ y = x) ∧
    ((discard s x).Nodup ∧ (discard s x).Sublist s ∧ ∀ y, y ∈ discard s x ↔ y ∈ s ∧ y ≠ x) ∧
    ((ior s t).Nodup ∧ s <+: ior s t ∧ ∀ y, y ∈ ior s t ↔ y ∈ s ∨ y ∈ t) ∧
    ((isub same s t).Nodup ∧ (isub same s t).Sublist s ∧ ∀ y, y ∈ isub same s t ↔ y ∈ s ∧ y ∉ t) ∧
    ((ixor same s t).Nodup ∧ ∀ y, y ∈ ixor same s t ↔ (y ∈ s ∧ y ∉ t) ∨ (y ∉ s ∧ y ∈ t)) ∧
    ((pop s = none ↔ s = []) ∧ ∀ y r, pop s = some (y, r) → s = y :: r) := by
  refine ⟨⟨add_nodup hs x, add_prefix s x, fun _ => mem_add⟩,
    ⟨hs.sublist (discard_sublist s x), discard_sublist s x, fun _ => mem_discard⟩,
    ⟨ior_nodup hs, ior_prefix t s, fun _ => mem_ior⟩, ?_, ?_, ?_⟩
  · unfold isub
    cases same with
    | true => cases he rfl; exact ⟨by simp, by simp, fun y => by simp⟩
    | false =>
      exact ⟨hs.sublist (discards_sublist t s), discards_sublist t s, fun _ => mem_discards⟩
  · unfold ixor
    cases same with
    | true => cases he rfl; exact ⟨by simp, fun y => by simp⟩
    | false => exact ⟨toggles_nodup hs, fun _ => mem_toggles ht⟩
  · cases s with
    | nil => exact ⟨by simp [pop], by simp [pop]⟩
    | cons a s =>
      refine ⟨by simp [pop], fun y r h => ?_⟩
      simp only [pop, PyOset.discard, List.mem_cons, true_or, if_true, Option.some.injEq, Prod.mk.injEq] at h
      obtain ⟨rfl, rfl⟩ := h
      rw [List.nodup_cons] at hs
      rw [List.filter_cons_of_neg (by simp), List.filter_eq_self.2]
      intro b hb
      simpa using fun e : b = a => hs.1 (e ▸ hb)

/-- `&`, `|`, `-`, `^` of any sets: one item, which was in neither set; and `&=` changes nothing. -/
theorem C88_operators (s t : List α) (g1 g2 g3 : α) (h1 : g1 ∉ s) (h2 : g1 ∉ t) (h3 : g3 ∉ s) (h4 : g3 ∉ t) :
    (andSet g1 s t = [g1] ∧ orSet g1 s t = [g1] ∧ subSet g1 s t = [g1] ∧ xorSet g1 g2 g3 s t = [g3]) ∧
    (∀ x, x ∈ s ∨ x ∈ t → x ∉ andSet g1 s t ∧ x ∉ orSet g1 s t ∧ x ∉ subSet g1 s t ∧ x ∉ xorSet g1 g2 g3 s t) ∧
    iand g1 s t = s := by
  refine ⟨⟨rfl, rfl, rfl, rfl⟩, fun x hx => ?_, iand_eq h1 t⟩
  have a : x ≠ g1 := by rintro rfl; exact hx.elim h1 h2
  have b : x ≠ g3 := by rintro rfl; exact hx.elim h3 h4
  have e : ∀ g : α, fromIterable g = [g] := fun _ => rfl
  simp only [andSet, orSet, subSet, xorSet, e, List.mem_singleton]
  exact ⟨a, a, a, b⟩

end

/-- So operators do not do what they do for sets: an item of both sets is not in `&`, and `&=` keeps one that is only in
the first. -/
theorem C88_operators_refuted : ∃ (s t : List (Option Nat)), s.Nodup ∧ t.Nodup ∧ none ∉ s ∧ none ∉ t ∧
    (∃ x, x ∈ s ∧ x ∈ t ∧ x ∉ andSet none s t) ∧ (∃ x, x ∈ s ∧ x ∉ orSet none s t) ∧
    (∃ x, x ∈ s ∧ x ∉ t ∧ x ∉ subSet none s t) ∧ ∃ x, x ∈ iand none s t ∧ x ∉ t :=
  ⟨[some 1, some 2], [some 2, some 3], by decide, by decide, by decide, by decide, ⟨some 2, by decide⟩, ⟨some 1, by decide⟩,
    ⟨some 1, by decide⟩, some 1, by decide⟩

/-- A memoized function without arguments that raises no exception is called once and all calls give its result. Missing:
arguments, exceptions. -/
theorem C88_memo_partial {R : Type} (f : Unit → Option R) (r : R) (hf : f () = some r) (n : Nat) :
    ((Memo.new.run f (List.replicate n ())).2 = List.replicate n (some (some r))) := by
  cases n with
  | zero => rfl
  | succ n =>
    have hc : (Memo.new.call f ()) = (⟨true, some r⟩, some (some r)) := by simp [Memo.call, Memo.new, hf]
    have key : ∀ n, ((⟨true, some r⟩ : Memo R).run f (List.replicate n ())).2 = List.replicate n (some (some r)) := by
      intro n
      induction n with
      | zero => rfl
      | succ n ih => simp only [List.replicate_succ, Memo.run, Memo.call, if_true, ih]
    simp only [List.replicate_succ, Memo.run, hc, key]

/-- With arguments every later call gives what the first gave; after an exception they give None. -/
theorem C88_memo_frozen {A R : Type} (f : A → Option R) (a : A) (as : List A) :
    (Memo.new.run f (a :: as)).2 = (f a).map some :: List.replicate as.length (some (f a)) := by
  have key : ∀ (as : List A) (c : Option R), ((⟨true, c⟩ : Memo R).run f as).2 = List.replicate as.length (some c) := by
    intro as c
    induction as with
    | nil => rfl
    | cons b as ih => simp only [List.length_cons, List.replicate_succ, Memo.run, Memo.call, if_true, ih]
  simp only [Memo.run]
  cases h : f a with
  | none =>
    have hc : (Memo.new.call f a) = (⟨true, none⟩, none) := by simp [Memo.call, Memo.new, h]
    rw [hc, key]; rfl
  | some r =>
    have hc : (Memo.new.call f a) = (⟨true, some r⟩, some (some r)) := by simp [Memo.call, Memo.new, h]
    rw [hc, key]; rfl

/-- Hence a memoized function of an argument gives wrong results, and an exception becomes None. -/
theorem C88_memo_refuted :
    (∃ f : Nat → Option Nat, (Memo.new.run f [1, 2]).2[1]? = some (some (some 1)) ∧ f 2 = some 2) ∧
    ∃ f : Unit → Option Nat, (Memo.new.run f [(), ()]).2 = [none, some none] ∧ f () = none :=
  ⟨⟨some, rfl, rfl⟩, fun _ => none, rfl, rfl⟩

example : new [3, 1, 3, 2, 1] = [3, 1, 2] ∧ ior [3, 1] [2, 1] = [3, 1, 2] ∧ ixor false [3, 1] [1, 2] = [3, 2] ∧
    isub false [3, 1, 2] [1, 7] = [3, 2] ∧ pop [3, 1, 2] = some (3, [1, 2]) := by decide

end Verif
