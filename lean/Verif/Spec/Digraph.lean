import Mathlib.Data.List.Basic
/- Directed graphs: walks, distances, dominators. Nothing here is about PolyTracker. -/
namespace Verif.Spec

/-- A walk from `r`, with its nodes, the last one first. -/
inductive Walk (E : Nat → Nat → Prop) (r : Nat) : Nat → List Nat → Prop
  | nil : Walk E r r [r]
  | snoc {b c l} : Walk E r b l → E b c → Walk E r c (c :: l)

/-- There is a walk. -/
def Linked (E : Nat → Nat → Prop) (a b : Nat) : Prop := ∃ l, Walk E a b l

/-- The shortest walk has `d` edges. -/
def Dist (E : Nat → Nat → Prop) (a b d : Nat) : Prop :=
  (∃ l, Walk E a b l ∧ l.length = d + 1) ∧ ∀ l, Walk E a b l → d + 1 ≤ l.length

/-- All walks from `r` to `n` go through `d`. -/
def Dom (E : Nat → Nat → Prop) (r d n : Nat) : Prop := ∀ l, Walk E r n l → d ∈ l

/-- `d` is another node than `n` and dominates it. -/
def SDom (E : Nat → Nat → Prop) (r d n : Nat) : Prop := Linked E r n ∧ d ≠ n ∧ Dom E r d n

/-- `d` is the last of the nodes that strictly dominate `n`. -/
def IDom (E : Nat → Nat → Prop) (r d n : Nat) : Prop := SDom E r d n ∧ ∀ e, SDom E r e n → Dom E r e d

section
variable {E : Nat → Nat → Prop} {r a b c d e n : Nat} {l : List Nat}

theorem Walk.head (h : Walk E r n l) : ∃ t, l = n :: t := by
  cases h <;> exact ⟨_, rfl⟩

theorem Walk.pos (h : Walk E r n l) : 0 < l.length := by
  obtain ⟨t, rfl⟩ := h.head; simp

theorem Walk.mem_end (h : Walk E r n l) : n ∈ l := by
  obtain ⟨t, rfl⟩ := h.head; simp

theorem Walk.cut (h : Walk E r n l) (hd : d ∈ l) : ∃ l', Walk E r d l' ∧ l' <:+ l := by
  induction h with
  | nil => simp only [List.mem_singleton] at hd; subst hd; exact ⟨_, .nil, List.suffix_refl _⟩
  | @snoc b c l hw he ih =>
    rcases List.mem_cons.1 hd with rfl | hd
    · exact ⟨_, .snoc hw he, List.suffix_refl _⟩
    · obtain ⟨l', h1, h2⟩ := ih hd
      exact ⟨l', h1, h2.trans (List.suffix_cons _ _)⟩

theorem Walk.cut_lt (h : Walk E r n l) (hd : d ∈ l) (hn : d ≠ n) : ∃ l', Walk E r d l' ∧ l' <:+ l ∧ l'.length < l.length := by
  obtain ⟨l', h1, h2⟩ := h.cut hd
  refine ⟨l', h1, h2, ?_⟩
  rcases Nat.lt_or_ge l'.length l.length with h3 | h3
  · exact h3
  · have := h2.eq_of_length_le h3
    subst this
    obtain ⟨t, rfl⟩ := h.head
    obtain ⟨t', h4⟩ := h1.head
    simp only [List.cons.injEq] at h4
    exact absurd h4.1.symm hn

theorem Walk.append {m : List Nat} (h : Walk E a b l) (h' : Walk E b c m) : ∃ k, Walk E a c k ∧ (∀ x ∈ k, x ∈ l ∨ x ∈ m) ∧
    k.length + 1 = l.length + m.length := by
  induction h' with
  | nil => exact ⟨l, h, fun x hx => .inl hx, by simp⟩
  | @snoc b' c' m hw he ih =>
    obtain ⟨k, h1, h2, h3⟩ := ih
    refine ⟨_, .snoc h1 he, fun x hx => ?_, by simp; omega⟩
    rcases List.mem_cons.1 hx with rfl | hx
    · simp
    · rcases h2 x hx with h | h
      · exact .inl h
      · simp [h]

theorem Linked.refl : Linked E a a := ⟨_, .nil⟩

theorem Linked.step (h : Linked E a b) (he : E b c) : Linked E a c := by
  obtain ⟨l, hl⟩ := h; exact ⟨_, .snoc hl he⟩

theorem Linked.trans (h : Linked E a b) (h' : Linked E b c) : Linked E a c := by
  obtain ⟨l, hl⟩ := h; obtain ⟨m, hm⟩ := h'
  obtain ⟨k, hk, _⟩ := hl.append hm
  exact ⟨k, hk⟩

theorem Linked.dist (h : Linked E a b) : ∃ d, Dist E a b d := by
  obtain ⟨l, hl⟩ := h
  have key : ∀ k l, Walk E a b l → l.length = k → ∃ d, Dist E a b d := by
    intro k
    induction k using Nat.strongRecOn with
    | ind k ih =>
      intro l hl hk
      by_cases h : ∃ l', Walk E a b l' ∧ l'.length < k
      · obtain ⟨l', h1, h2⟩ := h
        exact ih _ h2 l' h1 rfl
      · have := hl.pos
        refine ⟨k - 1, ⟨l, hl, by omega⟩, fun l' hl' => ?_⟩
        rcases Nat.lt_or_ge l'.length k with h3 | h3
        · exact absurd ⟨l', hl', h3⟩ h
        · omega
  exact key _ l hl rfl

theorem Dist.linked (h : Dist E a b d) : Linked E a b := by
  obtain ⟨⟨l, hl, _⟩, _⟩ := h; exact ⟨l, hl⟩

theorem Dist.unique (h : Dist E a b d) (h' : Dist E a b e) : d = e := by
  obtain ⟨⟨l, hl, h1⟩, h2⟩ := h
  obtain ⟨⟨m, hm, h3⟩, h4⟩ := h'
  have := h2 m hm
  have := h4 l hl
  omega

theorem Dist.self : Dist E a a 0 := ⟨⟨_, .nil, rfl⟩, fun l hl => hl.pos⟩

/-- The nodes that dominate are nearer. -/
theorem SDom.nearer (h : SDom E r d n) {i k : Nat} (hd : Dist E r d i) (hn : Dist E r n k) : i < k := by
  obtain ⟨⟨l, hl, hk⟩, _⟩ := hn
  obtain ⟨l', h1, _, h2⟩ := hl.cut_lt (h.2.2 l hl) h.2.1
  have := hd.2 l' h1
  omega

theorem SDom.linked_left (h : SDom E r d n) : Linked E r d := by
  obtain ⟨⟨l, hl⟩, _, h⟩ := h
  obtain ⟨l', h1, _⟩ := hl.cut (h l hl)
  exact ⟨l', h1⟩

theorem SDom.linked_mid (h : SDom E r d n) : Linked E d n := by
  obtain ⟨⟨l, hl⟩, hne, h⟩ := h
  have hd := h l hl
  clear h hne
  induction hl with
  | nil => simp only [List.mem_singleton] at hd; subst hd; exact .refl
  | @snoc b c l hw he ih =>
    rcases List.mem_cons.1 hd with rfl | hd
    · exact .refl
    · exact (ih hd).step he

theorem Dom.refl : Dom E r n n := fun _ h => h.mem_end

theorem Dom.trans (h : Dom E r a b) (h' : Dom E r b c) : Dom E r a c := by
  intro l hl
  obtain ⟨l', h1, h2⟩ := hl.cut (h' l hl)
  exact h2.subset (h l' h1)

theorem root_dom : Dom E r r n := by
  intro l hl
  induction hl with
  | nil => simp
  | snoc _ _ ih => simp [ih]

theorem SDom.trans (h : SDom E r a b) (h' : SDom E r b c) : SDom E r a c := by
  refine ⟨h'.1, ?_, h.2.2.trans h'.2.2⟩
  rintro rfl
  obtain ⟨i, hi⟩ := h'.linked_left.dist
  obtain ⟨k, hk⟩ := h'.1.dist
  have h1 := h'.nearer hi hk
  have h2 := h.nearer hk hi
  omega

theorem not_sdom_root : ¬ SDom E r d r := by
  rintro ⟨_, hn, h⟩
  have := h _ .nil
  simp at this
  exact hn this

/-- In a shortest walk: from a node in it to the end, without the nodes before. -/
theorem Walk.tail {k : Nat} (h : Walk E r n l) (hk : l.length ≤ k + 1) (hmin : ∀ l', Walk E r n l' → k + 1 ≤ l'.length)
    (hd : d ∈ l) : ∃ m i, Walk E d n m ∧ Dist E r d i ∧ ∀ x ∈ m, x ≠ d → ∀ j, Dist E r x j → i < j := by
  induction h generalizing k with
  | nil =>
    simp only [List.mem_singleton] at hd; subst hd
    exact ⟨[d], 0, .nil, .self, fun x hx hne => absurd (by simpa using hx) hne⟩
  | @snoc b c l hw he ih =>
    by_cases hdc : d = c
    · subst hdc
      refine ⟨[d], k, .nil, ⟨⟨d :: l, .snoc hw he, ?_⟩, hmin⟩, fun x hx hne => absurd (by simpa using hx) hne⟩
      have := hmin _ (.snoc hw he)
      omega
    · have hdl : d ∈ l := by rcases List.mem_cons.1 hd with h | h; exact absurd h hdc; exact h
      simp only [List.length_cons] at hk
      have hpos := hw.pos
      have hlk : l.length = k := by
        have := hmin _ (.snoc hw he); simp only [List.length_cons] at this; omega
      have hmin' : ∀ l', Walk E r b l' → (k - 1) + 1 ≤ l'.length := by
        intro l' hl'
        have := hmin _ (.snoc hl' he)
        simp only [List.length_cons] at this
        omega
      obtain ⟨m, i, h1, h2, h3⟩ := ih (by omega) hmin' hdl
      refine ⟨c :: m, i, .snoc h1 he, h2, fun x hx hne j hj => ?_⟩
      rcases List.mem_cons.1 hx with rfl | hx
      · obtain ⟨l', hl', hsuf, _⟩ := (Walk.snoc hw he).cut_lt (d := d) (by simp [hdl]) hdc
        have h4 := h2.2 l' hl'
        have h5 : l'.length ≤ l.length := by
          rcases List.suffix_cons_iff.1 hsuf with h | h
          · subst h
            obtain ⟨t, ht⟩ := hl'.head
            simp only [List.cons.injEq] at ht
            exact absurd ht.1.symm hdc
          · exact h.length_le
        have h6 : j = k := hj.unique ⟨⟨x :: l, .snoc hw he, by simp; omega⟩, hmin⟩
        omega
      · exact h3 x hx hne j hj

/-- Two nodes that dominate a third: one dominates the other. -/
theorem SDom.chain (hd : SDom E r d n) (he : SDom E r e n) {i j : Nat} (hi : Dist E r d i) (hj : Dist E r e j) (hij : j ≤ i) :
    Dom E r e d := by
  intro l hl
  apply Classical.byContradiction
  intro hne
  obtain ⟨k, hk⟩ := hd.1.dist
  obtain ⟨⟨w, hw, hwk⟩, hmin⟩ := hk
  obtain ⟨m, i', h1, h2, h3⟩ := hw.tail (by omega) hmin (hd.2.2 w hw)
  obtain ⟨q, hq, hmem, _⟩ := hl.append h1
  have hii : i' = i := h2.unique hi
  rcases hmem e (he.2.2 q hq) with h | h
  · exact hne h
  · by_cases hed : e = d
    · subst hed; exact hne hl.mem_end
    · have := h3 e h hed j hj
      omega

/-- Every node but the root has an immediate dominator. -/
theorem idom_exists (h : Linked E r n) (hn : n ≠ r) : ∃ d, IDom E r d n := by
  obtain ⟨k, hk⟩ := h.dist
  have hr : SDom E r r n := ⟨h, fun e => hn e.symm, root_dom⟩
  have key : ∀ m, ∀ d i, SDom E r d n → Dist E r d i → k - i ≤ m → ∃ d, IDom E r d n := by
    intro m
    induction m with
    | zero =>
      intro d i hd hi hm
      have := hd.nearer hi hk
      omega
    | succ m ih =>
      intro d i hd hi hm
      by_cases hx : ∃ e j, SDom E r e n ∧ Dist E r e j ∧ i < j
      · obtain ⟨e, j, h1, h2, h3⟩ := hx
        have := h1.nearer h2 hk
        exact ih e j h1 h2 (by omega)
      · refine ⟨d, hd, fun e he => ?_⟩
        obtain ⟨j, hj⟩ := he.linked_left.dist
        refine hd.chain he hi hj ?_
        rcases Nat.lt_or_ge i j with h | h
        · exact absurd ⟨e, j, he, hj, h⟩ hx
        · exact h
  exact key _ r 0 hr .self (Nat.le_refl _)

theorem IDom.unique (h : IDom E r d n) (h' : IDom E r e n) : d = e := by
  apply Classical.byContradiction
  intro hne
  have h1 : SDom E r e d := ⟨h.1.linked_left, fun q => hne q.symm, h.2 e h'.1⟩
  have h2 : SDom E r d e := ⟨h'.1.linked_left, hne, h'.2 d h.1⟩
  obtain ⟨i, hi⟩ := h1.linked_left.dist
  obtain ⟨k, hk⟩ := h2.linked_left.dist
  have := h1.nearer hi hk
  have := h2.nearer hk hi
  omega

/-- Steps between immediate dominators make up the dominators. -/
theorem sdom_iff_chain {F : Nat → Nat → Prop} (hF : ∀ a b, F a b ↔ IDom E r a b) :
    Linked F d n ∧ d ≠ n ↔ SDom E r d n := by
  constructor
  · rintro ⟨⟨l, hl⟩, hn⟩
    induction hl with
    | nil => exact absurd rfl hn
    | @snoc b c l hw he ih =>
      have h1 := ((hF b c).1 he).1
      by_cases hdb : d = b
      · subst hdb; exact h1
      · exact (ih hdb).trans h1
  · intro h
    refine ⟨?_, h.2.1⟩
    obtain ⟨k, hk⟩ := h.1.dist
    induction k using Nat.strongRecOn generalizing n with
    | ind k ih =>
      have hnr : n ≠ r := by rintro rfl; exact not_sdom_root h
      obtain ⟨i, hi⟩ := idom_exists h.1 hnr
      have hs : Linked F i n := Linked.refl.step ((hF i n).2 hi)
      by_cases hdi : d = i
      · subst hdi; exact hs
      · have h2 : SDom E r d i := ⟨hi.1.linked_left, hdi, hi.2 d h⟩
        obtain ⟨j, hj⟩ := hi.1.linked_left.dist
        exact (ih j (hi.1.nearer hj hk) h2 hj).trans hs

end
end Verif.Spec
