import Verif.Spec.Build
/- Lemmas about names of files. -/
namespace Verif.Build

theorem lastDot_none : ∀ {n : Word}, lastDot n = none ↔ '.' ∉ n := by
  intro n
  induction n with
  | nil => simp [lastDot]
  | cons c r ih =>
    unfold lastDot
    cases h : lastDot r with
    | some i =>
      have : '.' ∈ r := by
        refine Classical.byContradiction fun hn => ?_
        rw [ih.2 hn] at h; cases h
      simp [this]
    | none =>
      have := ih.1 h
      by_cases hc : c = '.'
      · simp [hc]
      · simp [hc, this]
        exact fun e => hc e.symm

theorem lastDot_append {b s : Word} (hs : '.' ∉ s) : lastDot (b ++ '.' :: s) = some b.length := by
  induction b with
  | nil =>
    show lastDot ('.' :: s) = _
    unfold lastDot
    rw [lastDot_none.2 hs]
    rfl
  | cons c b ih =>
    show lastDot (c :: (b ++ '.' :: s)) = _
    unfold lastDot
    rw [ih]
    rfl

theorem stem_append {b s : Word} (hb : b ≠ []) (hn : s ≠ []) (hs : '.' ∉ s) : stem (b ++ '.' :: s) = b := by
  unfold stem
  rw [lastDot_append hs]
  have h1 : 0 < b.length := List.length_pos_iff.2 hb
  have h2 : 0 < s.length := List.length_pos_iff.2 hn
  simp [h1, h2]

theorem stem_whole {n : Word} (h : ∀ b s, n = b ++ '.' :: s → '.' ∉ s → b = [] ∨ s = []) : stem n = n := by
  unfold stem
  cases hl : lastDot n with
  | none => rfl
  | some i =>
    have hd : '.' ∈ n := by
      refine Classical.byContradiction fun hn => ?_
      rw [lastDot_none.2 hn] at hl; cases hl
    obtain ⟨b, s, e, hs⟩ : ∃ b s, n = b ++ '.' :: s ∧ '.' ∉ s := by
      clear hl h
      induction n with
      | nil => cases hd
      | cons c r ih =>
        by_cases hr : '.' ∈ r
        · obtain ⟨b, s, e, hs⟩ := ih hr
          exact ⟨c :: b, s, by rw [e]; rfl, hs⟩
        · rcases List.mem_cons.1 hd with rfl | hd
          · exact ⟨[], r, rfl, hr⟩
          · exact absurd hd hr
    rw [e, lastDot_append hs] at hl
    cases hl
    rcases h b s e hs with rfl | rfl
    · simp
    · simp [e]

theorem base_stem {n b : Word} (h : Base n b) : stem n = b := by
  cases h with
  | cut hb hs hd => exact stem_append hb hs hd
  | whole h => exact stem_whole h

theorem stem_base (n : Word) : Base n (stem n) := by
  by_cases h : ∀ b s, n = b ++ '.' :: s → '.' ∉ s → b = [] ∨ s = []
  · rw [stem_whole h]
    exact .whole h
  · simp only [Classical.not_forall, not_or] at h
    obtain ⟨b, s, rfl, hs, hb, hn⟩ := h
    rw [stem_append hb hn hs]
    exact .cut hb hn hs

theorem base_unique {n b b' : Word} (h : Base n b) (h' : Base n b') : b = b' := by
  rw [← base_stem h, base_stem h']

theorem base_ne {n b : Word} (h : Base n b) (hn : n ≠ []) : b ≠ [] := by
  cases h with
  | cut hb _ _ => exact hb
  | whole _ => exact hn

variable {C : Type}

theorem bc_name {p : Path} {b : Word} (h : Base p.name b) : bcPath p = ⟨p.dir, b ++ ".bc".toList⟩ := by
  unfold bcPath withSuffix
  rw [base_stem h]; rfl

theorem stem_bc {p : Path} {b : Word} (h : Base p.name b) (hb : b ≠ []) : stem (bcPath p).name = b := by
  rw [bc_name h]
  exact stem_append (s := ['b', 'c']) hb (by decide) (by decide)

theorem opt_name {p : Path} {b : Word} (h : Base p.name b) (hb : b ≠ []) : optPath p = ⟨p.dir, b ++ ".opt.bc".toList⟩ := by
  unfold optPath withSuffix
  rw [stem_bc h hb]; rfl

theorem inst_name (E : Env C) {p : Path} {b : Word} (h : Base p.name b) (hb : b ≠ []) :
    instPath E p = ⟨E.cwd, b ++ ".instrumented.bc".toList⟩ := by
  unfold instPath
  rw [stem_bc h hb, List.append_assoc]; rfl

theorem exe_name (E : Env C) {p : Path} {b : Word} (h : Base p.name b) (hb : b ≠ []) :
    exePath E p = ⟨E.cwd, b ++ ".instrumented".toList⟩ := by
  unfold exePath
  rw [inst_name E h hb]
  have e : b ++ ".instrumented.bc".toList = (b ++ ".instrumented".toList) ++ '.' :: ['b', 'c'] := by
    rw [List.append_assoc]; rfl
  show Path.mk E.cwd (stem (b ++ ".instrumented.bc".toList)) = _
  rw [e, stem_append (by simp [hb]) (by decide) (by decide)]

/-- Names with different last characters. -/
theorem last_ne {a b s t : Word} {c d : Char} (hs : s.getLast? = some c) (ht : t.getLast? = some d) (hcd : c ≠ d) : a ++ s ≠ b ++ t := by
  intro h
  have := congrArg List.getLast? h
  rw [List.getLast?_append, List.getLast?_append, hs, ht] at this
  simp at this
  exact hcd this

/-! ### The journal -/

theorem find_first {J : List Cmd} {t : Word} {c : Cmd} {p : Path} (h : findTarget J t = some (c, p)) : First J t c p := by
  unfold findTarget at h
  rw [List.findSome?_eq_some_iff] at h
  obtain ⟨J1, d, J2, e, h1, h2⟩ := h
  cases hf : d.outputs.find? fun o => decide (o.path.name = t) with
  | none => rw [hf] at h1; cases h1
  | some o =>
    rw [hf] at h1
    cases h1
    obtain ⟨hp, o1, o2, eo, h3⟩ := List.find?_eq_some_iff_append.1 hf
    refine ⟨J1, J2, o1, o2, o, e, eo, rfl, of_decide_eq_true hp, ?_, ?_⟩
    · intro d hd x hx hn
      have := h2 d hd
      rw [Option.map_eq_none_iff, List.find?_eq_none] at this
      exact this x hx (by simpa using hn)
    · intro x hx hn
      have := h3 x hx
      simp [hn] at this

theorem first_find {J : List Cmd} {t : Word} {c : Cmd} {p : Path} (h : First J t c p) : findTarget J t = some (c, p) := by
  obtain ⟨J1, J2, o1, o2, o, rfl, ho, rfl, hn, h1, h2⟩ := h
  unfold findTarget
  rw [List.findSome?_eq_some_iff]
  refine ⟨J1, c, J2, rfl, ?_, ?_⟩
  · have : c.outputs.find? (fun x => decide (x.path.name = t)) = some o := by
      rw [List.find?_eq_some_iff_append]
      exact ⟨by simpa using hn, o1, o2, ho, fun x hx => by simpa using h2 x hx⟩
    rw [this]; rfl
  · intro d hd
    rw [Option.map_eq_none_iff, List.find?_eq_none]
    intro x hx
    simpa using h1 d hd x hx

theorem first_unique {J : List Cmd} {t : Word} {c d : Cmd} {p q : Path} (h : First J t c p) (h' : First J t d q) : c = d ∧ p = q := by
  have := first_find h
  rw [first_find h'] at this
  cases this
  exact ⟨rfl, rfl⟩

end Verif.Build
