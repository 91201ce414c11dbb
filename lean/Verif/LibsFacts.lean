import Verif.Libs
/- Lemmas about groups of archives. -/
namespace Verif.Libs
open PassModule

theorem defined_append (l m : List Obj) (s : Name) : defined (l ++ m) s = (defined l s || defined m s) := by
  simp [defined, List.any_append]

/-- What a search adds: members of the archive. -/
theorem scan_adds : ∀ (n : Nat) (a : Archive) (l : List Obj), ∃ ms, scan n a l = l ++ ms ∧ ∀ m ∈ ms, m ∈ a := by
  intro n
  induction n with
  | zero => intro a l; exact ⟨[], by simp [scan], by simp⟩
  | succ n ih =>
    intro a l
    unfold scan
    split
    · exact ⟨[], by simp, by simp⟩
    · rename_i m hm
      obtain ⟨ms, h1, h2⟩ := ih a (l ++ [m])
      refine ⟨m :: ms, by rw [h1]; simp, ?_⟩
      intro x hx
      rcases List.mem_cons.1 hx with rfl | hx
      · exact List.mem_of_find?_eq_some hm
      · exact h2 x hx

/-- Members with a definition that is not there yet. -/
def open' (l : List Obj) (m : Obj) : Bool := m.defs.any fun s => !defined l s

theorem wanted_open {l : List Obj} {m : Obj} (h : wanted l m = true) : open' l m = true := by
  simp only [wanted, absent, open', List.any_eq_true, Bool.and_eq_true] at *
  obtain ⟨s, h1, -, h2⟩ := h
  exact ⟨s, h1, h2⟩

theorem open_mono {l : List Obj} {m x : Obj} (h : open' (l ++ [m]) x = true) : open' l x = true := by
  simp only [open', List.any_eq_true, Bool.not_eq_true', defined_append, Bool.or_eq_false_iff] at *
  obtain ⟨s, h1, h2, -⟩ := h
  exact ⟨s, h1, h2⟩

theorem open_self (l : List Obj) (m : Obj) : open' (l ++ [m]) m = false := by
  cases h : open' (l ++ [m]) m with
  | false => rfl
  | true =>
    simp only [open', List.any_eq_true, Bool.not_eq_true', defined_append, Bool.or_eq_false_iff] at h
    obtain ⟨s, h1, -, h2⟩ := h
    have : defined [m] s = true := by simpa [defined] using h1
    rw [h2] at this; cases this

theorem count_lt {l : List Obj} {m : Obj} : ∀ {a : List Obj}, m ∈ a → open' l m = true →
    a.countP (open' (l ++ [m])) < a.countP (open' l) := by
  intro a
  have mono : ∀ b : List Obj, b.countP (open' (l ++ [m])) ≤ b.countP (open' l) := by
    intro b
    exact List.countP_mono_left (fun x _ h => open_mono h)
  induction a with
  | nil => intro h; cases h
  | cons x a ih =>
    intro hm ho
    rw [List.countP_cons, List.countP_cons]
    rcases List.mem_cons.1 hm with rfl | hm
    · simp only [open_self, ho, if_true]
      have := mono a
      simp only [Bool.false_eq_true, if_false]
      omega
    · have := ih hm ho
      by_cases hx : open' (l ++ [m]) x = true
      · simp only [hx, open_mono hx, if_true]; omega
      · simp only [hx]
        simp only [Bool.false_eq_true, if_false]
        omega

/-- After a search no member is wanted. -/
theorem scan_done : ∀ (n : Nat) (a : Archive) (l : List Obj), a.countP (open' l) ≤ n →
    ∀ m ∈ a, wanted (scan n a l) m = false := by
  intro n
  induction n with
  | zero =>
    intro a l h m hm
    cases hw : wanted l m with
    | false => exact hw
    | true =>
      have := List.countP_pos_iff.2 ⟨m, hm, wanted_open hw⟩
      omega
  | succ n ih =>
    intro a l h m hm
    unfold scan
    split
    · rename_i hn
      have := List.find?_eq_none.1 hn m hm
      simpa using this
    · rename_i x hx
      refine ih a _ ?_ m hm
      have := count_lt (List.mem_of_find?_eq_some hx) (wanted_open (List.find?_some hx))
      omega

theorem scan_full (a : Archive) (l : List Obj) : ∀ m ∈ a, wanted (scan a.length a l) m = false :=
  scan_done _ a l List.countP_le_length

theorem pass_adds : ∀ (as : List Archive) (l : List Obj), ∃ ms, pass as l = l ++ ms ∧ ∀ m ∈ ms, ∃ a ∈ as, m ∈ a := by
  intro as
  induction as with
  | nil => intro l; exact ⟨[], by simp [pass], by simp⟩
  | cons a as ih =>
    intro l
    obtain ⟨ms, h1, h2⟩ := scan_adds a.length a l
    obtain ⟨ns, h3, h4⟩ := ih (scan a.length a l)
    refine ⟨ms ++ ns, ?_, ?_⟩
    · show pass as (scan a.length a l) = _
      rw [h3, h1, List.append_assoc]
    · intro m hm
      rcases List.mem_append.1 hm with hm | hm
      · exact ⟨a, .head _, h2 m hm⟩
      · obtain ⟨b, hb, hm⟩ := h4 m hm
        exact ⟨b, .tail _ hb, hm⟩

theorem group_adds : ∀ (n : Nat) (as : List Archive) (l : List Obj), ∃ ms, group n as l = l ++ ms ∧ ∀ m ∈ ms, ∃ a ∈ as, m ∈ a := by
  intro n
  induction n with
  | zero => intro as l; exact ⟨[], by simp [group], by simp⟩
  | succ n ih =>
    intro as l
    unfold group
    split
    · exact ⟨[], by simp, by simp⟩
    · obtain ⟨ms, h1, h2⟩ := pass_adds as l
      obtain ⟨ns, h3, h4⟩ := ih as (pass as l)
      refine ⟨ms ++ ns, by rw [h3, h1, List.append_assoc], ?_⟩
      intro m hm
      rcases List.mem_append.1 hm with hm | hm
      · exact h2 m hm
      · exact h4 m hm

theorem group_pass (n : Nat) (as : List Archive) (l : List Obj) : ∃ ms, group (n + 1) as l = pass as l ++ ms := by
  unfold group
  split
  · rename_i h
    obtain ⟨ms, h1, -⟩ := pass_adds as l
    rw [h1] at h
    have : ms = [] := by
      cases ms with
      | nil => rfl
      | cons _ _ => simp at h
    exact ⟨[], by rw [h1, this]; simp⟩
  · obtain ⟨ms, h, -⟩ := group_adds n as (pass as l)
    exact ⟨ms, h⟩

theorem pass_append (as bs : List Archive) (l : List Obj) : pass (as ++ bs) l = pass bs (pass as l) := by
  simp [pass, List.foldl_append]

/-- A symbol that is referred to before the group is taken from the first archive that defines it. -/
theorem first_archive {pre post : List Archive} {a : Archive} {l : List Obj} {s : Name}
    (href : ∃ o ∈ l, s ∈ o.refs) (hl : ∀ o ∈ l, s ∉ o.defs) (hpre : ∀ b ∈ pre, ∀ m ∈ b, s ∉ m.defs)
    (ha : ∃ m ∈ a, s ∈ m.defs) : ∃ m ∈ a, s ∈ m.defs ∧ resolve (linkGroup (pre ++ a :: post) l) s = some m := by
  obtain ⟨ps, hp1, hp2⟩ := pass_adds pre l
  obtain ⟨ms, hm1, hm2⟩ := scan_adds a.length a (pass pre l)
  obtain ⟨qs, hq1, -⟩ := pass_adds post (scan a.length a (pass pre l))
  obtain ⟨rs, hr⟩ := group_pass ((((pre ++ a :: post)).map (·.length)).sum) (pre ++ a :: post) l
  have hpass : pass (pre ++ a :: post) l = pass post (scan a.length a (pass pre l)) := by
    rw [pass_append]; rfl
  have hL : linkGroup (pre ++ a :: post) l = (l ++ ps) ++ (ms ++ (qs ++ rs)) := by
    unfold linkGroup
    rw [hr, hpass, hq1, hm1, hp1]
    simp [List.append_assoc]
  have hno : ∀ o ∈ l ++ ps, s ∉ o.defs := by
    intro o ho
    rcases List.mem_append.1 ho with ho | ho
    · exact hl o ho
    · obtain ⟨b, hb, hm⟩ := hp2 o ho
      exact hpre b hb o hm
  have hdef : defined (l ++ ps ++ ms) s = true := by
    obtain ⟨m, hm, hms⟩ := ha
    have hw := scan_full a (pass pre l) m hm
    rw [hm1, hp1] at hw
    cases hd : defined (l ++ ps ++ ms) s with
    | true => rfl
    | false =>
      have : wanted (l ++ ps ++ ms) m = true := by
        obtain ⟨o, ho, hos⟩ := href
        refine List.any_eq_true.2 ⟨s, hms, ?_⟩
        unfold absent
        rw [hd]
        refine Bool.and_eq_true_iff.2 ⟨List.any_eq_true.2 ⟨o, by simp [ho], ?_⟩, rfl⟩
        simpa using hos
      rw [hw] at this; cases this
  have hms : ∃ m ∈ ms, s ∈ m.defs := by
    simp only [defined, List.any_eq_true, List.contains_iff_mem] at hdef
    obtain ⟨m, hm, hs⟩ := hdef
    rcases List.mem_append.1 hm with hm | hm
    · exact absurd hs (hno m hm)
    · exact ⟨m, hm, hs⟩
  have hf0 : (l ++ ps).find? (fun o => o.defs.contains s) = none := by
    rw [List.find?_eq_none]
    intro o ho
    simpa using hno o ho
  cases hf : ms.find? (fun o => o.defs.contains s) with
  | none =>
    obtain ⟨m, hm, hs⟩ := hms
    have := List.find?_eq_none.1 hf m hm
    simp [hs] at this
  | some m =>
    have h1 := List.mem_of_find?_eq_some hf
    have h2 := List.find?_some hf
    refine ⟨m, hm2 m h1, by simpa using h2, ?_⟩
    unfold resolve
    rw [hL, List.find?_append, hf0, List.find?_append, hf]
    rfl

/-- A symbol that nothing defines stays missing. -/
theorem no_archive {as : List Archive} {l : List Obj} {s : Name} (hl : ∀ o ∈ l, s ∉ o.defs)
    (has : ∀ b ∈ as, ∀ m ∈ b, s ∉ m.defs) : resolve (linkGroup as l) s = none := by
  obtain ⟨ms, h1, h2⟩ := group_adds ((as.map (·.length)).sum + 1) as l
  unfold resolve linkGroup
  rw [h1, List.find?_eq_none]
  intro o ho
  rcases List.mem_append.1 ho with ho | ho
  · simpa using hl o ho
  · obtain ⟨b, hb, hm⟩ := h2 o ho
    simpa using has b hb o hm

end Verif.Libs
