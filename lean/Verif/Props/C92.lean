import Verif.PassAttr
/-
C92: after RemoveFnAttrsPass (/repo/polytracker/src/passes/remove_fn_attr.cpp) nothing says of a wrapper of DFSan, which
writes labels, that it leaves memory alone.
-/
namespace Verif.C92
open PassAttr

/-- What LLVM knows of the function called by an instruction with these attributes (CallBase::hasFnAttr): what is at the
instruction and what is at the function. -/
def Known (m : List Fn) (callee : List Char) (attrs : List Attr) (a : Attr) : Prop :=
  a ∈ attrs ∨ ∃ f ∈ m, f.name = callee ∧ a ∈ f.attrs

/-- A name of a wrapper. -/
def Wrapper (n : List Char) : Prop := (∃ r, n = "__dfsw".toList ++ r) ∨ ∃ r, n = "dfs$".toList ++ r

/-- The attributes the pass is about. -/
def Bad (a : Attr) : Prop := a = .readOnly ∨ a = .inaccessibleMemOnly ∨ a = .inaccessibleMemOrArgMemOnly

theorem isWrapper_iff (n : List Char) : isWrapper n = true ↔ Wrapper n := by
  unfold isWrapper Wrapper
  rw [Bool.or_eq_true, List.isPrefixOf_iff_prefix, List.isPrefixOf_iff_prefix]
  constructor
  · rintro (⟨r, h⟩ | ⟨r, h⟩)
    · exact .inl ⟨r, h.symm⟩
    · exact .inr ⟨r, h.symm⟩
  · rintro (⟨r, h⟩ | ⟨r, h⟩)
    · exact .inl ⟨r, h.symm⟩
    · exact .inr ⟨r, h.symm⟩

theorem mem_strip (a : Attr) (l : List Attr) : a ∈ strip l ↔ a ∈ l ∧ ¬ Bad a := by
  simp only [strip, remove, List.mem_filter, decide_eq_true_eq, Bad, not_or]
  constructor
  · rintro ⟨⟨⟨h, h1⟩, h2⟩, h3⟩; exact ⟨h, h3, h1, h2⟩
  · rintro ⟨h, h3, h1, h2⟩; exact ⟨⟨⟨h, h1⟩, h2⟩, h3⟩

theorem strip_id (l : List Attr) (h : ∀ a ∈ l, ¬ Bad a) : strip l = l := by
  have : ∀ (b : Attr) (l : List Attr), Bad b → (∀ a ∈ l, ¬ Bad a) → remove b l = l := by
    intro b l hb h
    refine List.filter_eq_self.2 fun a ha => ?_
    simp only [decide_eq_true_eq]
    intro e; subst e; exact h _ ha hb
  unfold strip
  rw [this _ l (.inr (.inl rfl)) h, this _ l (.inr (.inr rfl)) h, this _ l (.inl rfl) h]

theorem known_run {m : List Fn} {f : List Char} (hf : Wrapper f) {a : Attr} (ha : Bad a) {as : List Attr} (has : a ∉ as) :
    ¬ Known (run m) f as a := by
  rintro (h | ⟨g, hg, hn, h⟩)
  · exact has h
  · obtain ⟨g0, -, rfl⟩ := List.mem_map.1 hg
    simp only [visitFn] at hn h
    subst hn
    rw [if_pos ((isWrapper_iff _).2 hf)] at h
    exact ((mem_strip _ _).1 h).2 ha

/-- No call instruction of a wrapper has one of the three attributes, at the call or at the function. -/
theorem C92_calls (m : List Fn) (g : Fn) (hg : g ∈ run m) (f : List Char) (as : List Attr) (hi : .call (some f) as ∈ g.body)
    (hf : Wrapper f) (a : Attr) (ha : Bad a) : ¬ Known (run m) f as a := by
  refine known_run hf ha fun h => ?_
  obtain ⟨g0, -, rfl⟩ := List.mem_map.1 hg
  obtain ⟨i, -, hi⟩ := List.mem_map.1 hi
  unfold visit at hi
  split at hi
  · cases hi
  · split at hi
    · cases hi
      exact ((mem_strip _ _).1 h).2 ha
    · rename_i hw
      cases hi
      exact hw ((isWrapper_iff _).2 hf)
  · rename_i h1 h2
    subst hi
    exact h2 _ _ rfl

/-- Nothing else changes: the functions, their names and their instructions in order; attributes of other functions and other
instructions; and the other attributes of wrappers and their calls. -/
theorem C92_frame (m : List Fn) (k : Nat) (f : Fn) (hf : m[k]? = some f) :
    ∃ f', (run m)[k]? = some f' ∧ (run m).length = m.length ∧ f'.name = f.name ∧ (¬ Wrapper f.name → f'.attrs = f.attrs) ∧
      (∀ a, ¬ Bad a → (a ∈ f'.attrs ↔ a ∈ f.attrs)) ∧ f'.body.length = f.body.length ∧
      ∀ (n : Nat) (i : Instr), f.body[n]? = some i → f'.body[n]? = some i ∨
        ∃ (g : List Char) (as as' : List Attr), Wrapper g ∧ i = .call (some g) as ∧ f'.body[n]? = some (.call (some g) as') ∧
          ∀ a, a ∈ as' ↔ a ∈ as ∧ ¬ Bad a := by
  refine ⟨visitFn f, by simp [run, hf], by simp [run], rfl, ?_, ?_, by simp [visitFn], ?_⟩
  · intro h
    simp only [visitFn]
    rw [if_neg fun h' => h ((isWrapper_iff _).1 h')]
  · intro a ha
    simp only [visitFn]
    split
    · rw [mem_strip]; exact ⟨fun h => h.1, fun h => ⟨h, ha⟩⟩
    · rfl
  · intro n i hi
    have hv : (visitFn f).body[n]? = some (visit i) := by simp [visitFn, hi]
    rw [hv]
    unfold visit
    split
    · exact .inl rfl
    · split
      · rename_i g as hw
        exact .inr ⟨g, as, strip as, (isWrapper_iff _).1 hw, rfl, rfl, fun a => mem_strip a as⟩
      · exact .inl rfl
    · exact .inl rfl

/-- Running the pass again changes nothing. -/
theorem C92_idempotent (m : List Fn) : run (run m) = run m := by
  have hs : ∀ l, strip (strip l) = strip l := fun l => strip_id _ fun a ha => ((mem_strip a l).1 ha).2
  have hv : ∀ i, visit (visit i) = visit i := by
    intro i
    cases i with
    | call c as =>
      cases c with
      | none => rfl
      | some f => by_cases h : isWrapper f <;> simp [visit, h, hs]
    | invoke c as => rfl
    | other n => rfl
  have hf : ∀ f, visitFn (visitFn f) = visitFn f := by
    intro f
    unfold visitFn
    simp only [List.map_map]
    congr 1
    · split <;> simp [hs]
    · exact List.map_congr_left fun i _ => hv i
  unfold run
  rw [List.map_map]
  exact List.map_congr_left fun f _ => hf f

/-- For invokes it holds if the instruction itself says nothing. -/
theorem C92_invokes_partial (m : List Fn) (f : List Char) (as : List Attr) (hf : Wrapper f) (a : Attr) (ha : Bad a)
    (has : a ∉ as) : ¬ Known (run m) f as a := known_run hf ha has

/-- An invoke keeps what it says of the wrapper. -/
theorem C92_invoke_refuted : ∃ (m : List Fn) (g : Fn) (f : List Char) (as : List Attr) (a : Attr), g ∈ run m ∧ Wrapper f ∧
    .invoke (some f) as ∈ g.body ∧ Bad a ∧ Known (run m) f as a :=
  ⟨[⟨['m'], [], [.invoke (some "__dfsw_f".toList) [.readOnly]]⟩], _, "__dfsw_f".toList, [.readOnly], .readOnly,
    List.mem_singleton.2 rfl, .inl ⟨['_', 'f'], by decide⟩, by decide, .inl rfl, .inl (by simp)⟩

/-- A wrapper that is said not to touch memory at all is still said to: it may be taken to only read. -/
theorem C92_readnone_refuted (m : List Fn) (f : Fn) (hf : f ∈ m) (h : .readNone ∈ f.attrs) :
    ∃ f' ∈ run m, f'.name = f.name ∧ .readNone ∈ f'.attrs := by
  refine ⟨visitFn f, List.mem_map.2 ⟨f, hf, rfl⟩, rfl, ?_⟩
  simp only [visitFn]
  split
  · exact (mem_strip _ _).2 ⟨h, by simp [Bad]⟩
  · exact h

/-- A module with a wrapper, a call of it and another function. -/
example : run [⟨"dfs$g".toList, [.readOnly, .other 1], []⟩, ⟨['m'], [.readOnly], [.call (some "dfs$g".toList) [.inaccessibleMemOnly, .other 2],
      .call (some ['h']) [.readOnly], .other 0]⟩] =
    [⟨"dfs$g".toList, [.other 1], []⟩, ⟨['m'], [.readOnly], [.call (some "dfs$g".toList) [.other 2], .call (some ['h']) [.readOnly], .other 0]⟩] := by
  decide

end Verif.C92
