import Verif.PyListDiff
/-
C97: list_diff.py (/repo/polytracker/scripts) prints the entries of the second ABI list for functions that the first does not have.
-/
namespace Verif.C97
open PyListDiff

/-- A line `fun:n=w`. -/
def Entry (l n : Line) : Prop := ∃ w, l = 'f' :: 'u' :: 'n' :: ':' :: (n ++ '=' :: w) ∧ '=' ∉ n

theorem findIdx_app (n w : Line) (h : '=' ∉ n) : (n ++ '=' :: w).findIdx? (· = '=') = some n.length := by
  induction n with
  | nil => simp [List.findIdx?_cons]
  | cons c n ih =>
    simp only [List.mem_cons, not_or] at h
    rw [List.cons_append, List.findIdx?_cons, if_neg (by simpa using Ne.symm h.1), ih h.2]
    simp

theorem key_entry {l n : Line} (h : Entry l n) : key l = n := by
  obtain ⟨w, rfl, hn⟩ := h
  have := findIdx_app ('f' :: 'u' :: 'n' :: ':' :: n) w (by simp [hn])
  simp only [List.cons_append] at this
  simp [key, this]

theorem entry_unique {l n m : Line} (h : Entry l n) (h' : Entry l m) : n = m := by rw [← key_entry h, key_entry h']

/-- The lines chosen: in their order, just those that are chosen by `P`. -/
def Chosen (P : Line → Prop) : List Line → List Line → Prop
  | [], r => r = []
  | l :: ls, r => (P l ∧ ∃ t, r = l :: t ∧ Chosen P ls t) ∨ (¬ P l ∧ Chosen P ls r)

/-- For lists of entries only: the lines of the second list for functions that the first one has no entry for are printed, in
their order, each followed by an empty line, and nothing else. -/
theorem C97_printed_partial (main cxx : List Line) (hm : ∀ l ∈ main, ∃ n, Entry l n) (hc : ∀ l ∈ cxx, ∃ n, Entry l n) :
    ∃ r, Chosen (fun l => ∀ n, Entry l n → ∀ m ∈ main, ¬ Entry m n) cxx r ∧ output main cxx = r.flatMap fun l => l ++ ['\n'] := by
  refine ⟨newItems (main.map key) cxx, ?_, rfl⟩
  induction cxx with
  | nil => rfl
  | cons l ls ih =>
    obtain ⟨n, hn⟩ := hc l (by simp)
    have ih := ih fun l hl => hc l (by simp [hl])
    unfold newItems
    by_cases h : key l ∈ main.map key
    · rw [if_pos h]
      refine .inr ⟨?_, ih⟩
      intro hp
      obtain ⟨m, hmm, hk⟩ := List.mem_map.1 h
      obtain ⟨k, hk'⟩ := hm m hmm
      rw [key_entry hk', key_entry hn] at hk
      subst hk
      exact hp k hn m hmm hk'
    · rw [if_neg h]
      refine .inl ⟨?_, _, rfl, ih⟩
      intro k hk m hmm hm'
      exact h (List.mem_map.2 ⟨m, hmm, by rw [key_entry hm', key_entry hk]⟩)

/-- A list compared with itself: nothing is printed, whatever its lines are. -/
theorem C97_same (f : List Line) : output f f = [] := by
  have : ∀ ls : List Line, (∀ l ∈ ls, l ∈ f) → newItems (f.map key) ls = [] := by
    intro ls
    induction ls with
    | nil => intro _; rfl
    | cons l ls ih =>
      intro h
      rw [newItems, if_pos (List.mem_map.2 ⟨l, h l (by simp), rfl⟩)]
      exact ih fun m hm => h m (by simp [hm])
  simp [output, this f fun _ h => h]

/-- An entry for a source file in the first list hides a function of the same name. -/
theorem C97_source_refuted : Entry "fun:a=discard\n".toList "a".toList ∧ (∀ n, ¬ Entry "src:a=discard\n".toList n) ∧
    output ["src:a=discard\n".toList] ["fun:a=discard\n".toList] = [] := by
  refine ⟨⟨"discard\n".toList, by decide, by decide⟩, ?_, by decide⟩
  rintro n ⟨w, h, -⟩
  exact absurd (List.cons.inj h).1 (by decide)

/-- Comments are printed too. -/
theorem C97_comment_refuted : output [] ["# comment\n".toList] = "# comment\n\n".toList := by decide

/-- Two lists of entries. -/
example : output ["fun:a=discard\n".toList] ["fun:b=discard\n".toList, "fun:a=custom\n".toList] = "fun:b=discard\n\n".toList := by decide

end Verif.C97
