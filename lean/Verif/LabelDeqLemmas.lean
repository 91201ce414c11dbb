import Verif.LabelDeq
/- Helper lemmas: the ring/deque queue refines a list. -/
namespace Verif

namespace Ring

/-- Number of items in a ring. -/
def count (N : Nat) (a : Ring) : Nat := (a.first + N - a.last) % N

/-- Items of a ring in queue order. -/
def items (N : Nat) (a : Ring) : List Nat :=
  (List.range (a.count N)).map (fun k => a.arr.getD ((a.last + k) % N) 0)

structure Inv (N : Nat) (a : Ring) : Prop where
  len : a.arr.length = N
  first : a.first < N
  last : a.last < N

theorem mod_cases {N x : Nat} (h : x < 2 * N) :
    (x < N ∧ x % N = x) ∨ (N ≤ x ∧ x % N = x - N) := by
  by_cases hx : x < N
  · exact Or.inl ⟨hx, Nat.mod_eq_of_lt hx⟩
  · right
    refine ⟨by omega, ?_⟩
    rw [Nat.mod_eq_sub_mod (by omega), Nat.mod_eq_of_lt (by omega)]

theorem isEmpty_iff {N : Nat} {a : Ring} (h : a.Inv N) : a.isEmpty = (a.items N == []) := by
  have hf := h.first
  have hl := h.last
  have hc : a.count N = 0 ↔ a.first = a.last := by
    unfold count
    rcases mod_cases (N := N) (x := a.first + N - a.last) (by omega) with ⟨h1, h2⟩ | ⟨h1, h2⟩ <;>
      rw [h2] <;> omega
  by_cases he : a.first = a.last
  · simp [isEmpty, items, hc.2 he, he]
  · have : a.count N ≠ 0 := fun h => he (hc.1 h)
    have h1 : a.isEmpty = false := by simp [isEmpty, he]
    rw [h1]
    unfold items
    cases hk : a.count N with
    | zero => exact absurd hk this
    | succ k => rw [List.range_succ_eq_map]; rfl

theorem popFront_spec {N : Nat} {a : Ring} (h : a.Inv N) {x : Nat} {rest : List Nat}
    (hi : a.items N = x :: rest) :
    ∃ a', a.popFront N = .ok (x, a') ∧ a'.Inv N ∧ a'.items N = rest := by
  have hf := h.first
  have hl := h.last
  have hlen := h.len
  have hcount : a.count N = rest.length + 1 := by
    have := congrArg List.length hi
    simpa [items] using this
  have hx : a.arr.getD a.last 0 = x := by
    have := congrArg (fun l => l[0]?) hi
    simp only [items, List.getElem?_map, hcount] at this
    rw [List.getElem?_range (by omega)] at this
    simp only [Nat.add_zero, Option.map_some, List.getElem?_cons_zero, Option.some.injEq] at this
    rw [Nat.mod_eq_of_lt hl] at this
    exact this
  have hget : a.arr[a.last]? = some x := by
    rw [List.getD_eq_getElem?_getD, List.getElem?_eq_getElem (by omega)] at hx
    rw [List.getElem?_eq_getElem (by omega)]
    simpa using hx
  have hN : 0 < N := by omega
  have hnext : next N a.last < N := Nat.mod_lt _ hN
  have hc' : count N { a with last := next N a.last } = rest.length := by
    have : a.count N = rest.length + 1 := hcount
    unfold count at this ⊢
    unfold next
    simp only
    rcases mod_cases (N := N) (x := a.first + N - a.last) (by omega) with ⟨h1, h2⟩ | ⟨h1, h2⟩ <;>
    rcases mod_cases (N := N) (x := a.last + 1) (by omega) with ⟨h3, h4⟩ | ⟨h3, h4⟩ <;>
    rw [h4] <;> rw [h2] at this
    all_goals
      first
        | (rcases mod_cases (N := N) (x := a.first + N - (a.last + 1)) (by omega) with ⟨h5, h6⟩ | ⟨h5, h6⟩ <;>
            rw [h6] <;> omega)
        | (rcases mod_cases (N := N) (x := a.first + N - (a.last + 1 - N)) (by omega) with ⟨h5, h6⟩ | ⟨h5, h6⟩ <;>
            rw [h6] <;> omega)
  refine ⟨{ a with last := next N a.last }, ?_, ⟨hlen, hf, hnext⟩, ?_⟩
  · simp [popFront, getRes, hget]
  · have hi2 : rest = (a.items N).tail := by rw [hi]; rfl
    rw [hi2]
    unfold items
    rw [hc', hcount]
    rw [List.range_succ_eq_map]
    simp only [List.map_cons, List.map_map, List.tail_cons]
    apply List.map_congr_left
    intro k _
    simp only [Function.comp, next]
    congr 1
    rw [Nat.mod_add_mod]
    congr 1; omega

theorem pushBack_spec {N : Nat} {a : Ring} (h : a.Inv N) (hfull : a.full N = false) (x : Nat) :
    ∃ a', a.pushBack N x = .ok a' ∧ a'.Inv N ∧ a'.items N = a.items N ++ [x] := by
  have hf := h.first
  have hl := h.last
  have hlen := h.len
  have hN : 0 < N := by omega
  have hnext : next N a.first < N := Nat.mod_lt _ hN
  have hne : a.last ≠ next N a.first := by simpa [full] using hfull
  have hc' : count N { a with arr := a.arr.set a.first x, first := next N a.first } =
      a.count N + 1 := by
    unfold count
    unfold next at hne ⊢
    simp only
    rcases mod_cases (N := N) (x := a.first + N - a.last) (by omega) with ⟨h1, h2⟩ | ⟨h1, h2⟩ <;>
    rcases mod_cases (N := N) (x := a.first + 1) (by omega) with ⟨h3, h4⟩ | ⟨h3, h4⟩ <;>
    rw [h4] <;> rw [h4] at hne <;> rw [h2]
    all_goals
      first
        | (rcases mod_cases (N := N) (x := a.first + 1 + N - a.last) (by omega) with ⟨h5, h6⟩ | ⟨h5, h6⟩ <;>
            rw [h6] <;> omega)
        | (rcases mod_cases (N := N) (x := a.first + 1 - N + N - a.last) (by omega) with ⟨h5, h6⟩ | ⟨h5, h6⟩ <;>
            rw [h6] <;> omega)
  refine ⟨{ a with arr := a.arr.set a.first x, first := next N a.first }, ?_,
    ⟨by simpa using hlen, hnext, hl⟩, ?_⟩
  · simp [pushBack, hlen, hf]
  · unfold items
    rw [hc', List.range_succ, List.map_append]
    have hcnt : a.count N < N := Nat.mod_lt _ hN
    have hpos : (a.last + a.count N) % N = a.first := by
      unfold count
      rw [Nat.add_mod_mod]
      have : a.last + (a.first + N - a.last) = a.first + N := by omega
      rw [this, Nat.add_mod_right, Nat.mod_eq_of_lt hf]
    congr 1
    · apply List.map_congr_left
      intro k hk
      rw [List.mem_range] at hk
      have hkne : (a.last + k) % N ≠ a.first := by
        rw [← hpos]
        rcases mod_cases (N := N) (x := a.last + k) (by omega) with ⟨h1, h2⟩ | ⟨h1, h2⟩ <;>
        rcases mod_cases (N := N) (x := a.last + a.count N) (by omega) with ⟨h3, h4⟩ | ⟨h3, h4⟩ <;>
        rw [h2, h4] <;> omega
      simp only [List.getD_eq_getElem?_getD]
      rw [List.getElem?_set_ne (Ne.symm hkne)]
    · simp only [List.map_cons, List.map_nil]
      rw [hpos, List.getD_eq_getElem?_getD, List.getElem?_set_self (by omega)]
      rfl

theorem new_inv {N : Nat} (hN : 0 < N) : (Ring.new N).Inv N ∧ (Ring.new N).items N = [] := by
  refine ⟨⟨by simp [new], hN, hN⟩, ?_⟩
  simp [items, count, new]

end Ring

namespace LabelDeq

/-- The queue `q` holds exactly `l`. -/
def Holds (N : Nat) : LabelDeq → List Nat → Prop
  | .arr a, l => a.Inv N ∧ a.items N = l
  | .deq d, l => d = l

theorem new_holds {N : Nat} (hN : 0 < N) : (new N).Holds N [] := Ring.new_inv hN

theorem isEmpty_holds {N : Nat} {q : LabelDeq} {l : List Nat} (h : q.Holds N l) :
    q.isEmpty = (l == []) := by
  cases q with
  | arr a => rw [← h.2]; exact Ring.isEmpty_iff h.1
  | deq d => cases (h : d = l); cases l <;> rfl

theorem popFront_nil {N : Nat} {q : LabelDeq} (h : q.Holds N []) : q.popFront N = .ub := by
  have := isEmpty_holds h
  simp only [BEq.rfl] at this
  simp [popFront, this]

theorem popFront_holds {N : Nat} {q : LabelDeq} {x : Nat} {l : List Nat} (h : q.Holds N (x :: l)) :
    ∃ q', q.popFront N = .ok (x, q') ∧ q'.Holds N l := by
  have he := isEmpty_holds h
  have he' : q.isEmpty = false := by rw [he]; rfl
  unfold popFront
  rw [he']
  cases q with
  | arr a =>
    obtain ⟨a', h1, h2, h3⟩ := Ring.popFront_spec h.1 h.2
    exact ⟨.arr a', by simp [h1], h2, h3⟩
  | deq d => cases (h : d = x :: l); exact ⟨.deq l, by simp, rfl⟩

theorem drain_spec {N : Nat} : ∀ (fuel : Nat) (a : Ring) (d : List Nat), a.Inv N →
    a.count N ≤ fuel → drain N fuel a d = .ok (d ++ a.items N) := by
  intro fuel
  induction fuel with
  | zero =>
    intro a d h hc
    have hi : a.items N = [] := by simp [Ring.items, Nat.le_zero.1 hc]
    have := Ring.isEmpty_iff h
    rw [hi] at this
    simp only [BEq.rfl] at this
    simp [drain, this, hi]
  | succ n ih =>
    intro a d h hc
    unfold drain
    have he := Ring.isEmpty_iff h
    cases hi : a.items N with
    | nil => rw [hi] at he; simp only [BEq.rfl] at he; simp [he]
    | cons x rest =>
      rw [hi] at he
      have he' : a.isEmpty = false := by rw [he]; rfl
      obtain ⟨a', h1, h2, h3⟩ := Ring.popFront_spec h hi
      have e1 : a.count N = rest.length + 1 := by
        have := congrArg List.length hi
        simpa [Ring.items] using this
      have e2 : a'.count N = rest.length := by
        have := congrArg List.length h3
        simpa [Ring.items] using this
      simp only [he', h1, Bool.false_eq_true, if_false, Res.bind_ok]
      rw [ih a' (d ++ [x]) h2 (by omega), h3]
      simp

theorem pushBack_holds {N : Nat} {q : LabelDeq} {l : List Nat} (h : q.Holds N l) (x : Nat) :
    ∃ q', q.pushBack N x = .ok q' ∧ q'.Holds N (l ++ [x]) := by
  unfold pushBack
  cases q with
  | arr a =>
    simp only
    by_cases hf : a.full N
    · rw [if_pos hf]
      have hc : a.count N ≤ N := by
        have : 0 < N := by have := h.1.first; omega
        exact Nat.le_of_lt (Nat.mod_lt _ this)
      refine ⟨.deq (l ++ [x]), ?_, rfl⟩
      simp [migrate, drain_spec N a [] h.1 hc, h.2]
    · rw [if_neg hf]
      obtain ⟨a', h1, h2, h3⟩ := Ring.pushBack_spec h.1 (by simpa using hf) x
      refine ⟨.arr a', by simp [h1], h2, ?_⟩
      rw [h3, h.2]
  | deq d => cases (h : d = l); exact ⟨.deq (l ++ [x]), rfl, rfl⟩

end LabelDeq
end Verif
