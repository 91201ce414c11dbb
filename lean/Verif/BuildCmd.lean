import Verif.BuildFacts
/- Lemmas about command lines. -/
namespace Verif.Build

variable {takes : Word → Bool}

theorem parse_append : ∀ (a b : List Word) (x : List Part), parse takes a = some x → parse takes (a ++ b) = (parse takes b).map (x ++ ·) := by
  intro a b
  fun_induction parse takes a with
  | case1 =>
    intro x h
    cases h
    show parse takes b = _
    cases parse takes b <;> rfl
  | case2 w h => intro x hx; cases hx
  | case3 w h =>
    intro x hx
    cases hx
    simp only [Bool.or_eq_true, decide_eq_true_eq, not_or, Bool.not_eq_true] at h
    cases b with
    | nil =>
      simp [parse, h.1, h.2]
    | cons v r =>
      show parse takes (w :: v :: r) = _
      rw [parse, if_neg h.1, if_neg (by simp [h.2])]
      rfl
  | case4 v r ih =>
    intro x hx
    obtain ⟨y, hy, rfl⟩ := Option.map_eq_some_iff.1 hx
    show parse takes (['-', 'o'] :: v :: (r ++ b)) = _
    rw [parse, if_pos rfl, ih y hy]
    cases parse takes b <;> simp
  | case5 w v r h1 h2 ih =>
    intro x hx
    obtain ⟨y, hy, rfl⟩ := Option.map_eq_some_iff.1 hx
    show parse takes (w :: v :: (r ++ b)) = _
    rw [parse, if_neg h1, if_pos h2, ih y hy]
    cases parse takes b <;> simp
  | case6 w v r h1 h2 ih =>
    intro x hx
    obtain ⟨y, hy, rfl⟩ := Option.map_eq_some_iff.1 hx
    show parse takes (w :: v :: (r ++ b)) = _
    rw [parse, if_neg h1, if_neg h2]
    have := ih y hy
    rw [List.cons_append] at this
    rw [this]
    cases parse takes b <;> simp

theorem parse_one {w : Word} (h1 : w ≠ ['-', 'o']) (h2 : takes w = false) (r : List Word) :
    parse takes (w :: r) = (parse takes r).map (single w :: ·) := by
  cases r with
  | nil => simp [parse, h1, h2]
  | cons v r => rw [parse, if_neg h1, if_neg (by simp [h2])]

theorem removed_iff (c : Cmd) (w : Word) :
    (c.inputs.map (·.pre) ++ [['-', 'o']] ++ c.outputs.map (·.pre)).contains w = true ↔ Removed c w := by
  simp [Removed]

def rem (c : Cmd) (x : Word) : Bool := !(c.inputs.map (·.pre) ++ [['-', 'o']] ++ c.outputs.map (·.pre)).contains x

theorem rem_true {c : Cmd} {w : Word} (h : ¬ Removed c w) : rem c w = true := by
  unfold rem
  rw [Bool.not_eq_true', Bool.eq_false_iff]
  exact fun e => h ((removed_iff c w).1 e)

theorem rem_false {c : Cmd} {w : Word} (h : Removed c w) : rem c w = false := by
  unfold rem
  rw [(removed_iff c w).2 h]; rfl

theorem stays_single {c : Cmd} {w : Word} (ho : w ≠ ['-', 'o']) (ht : takes w = false) {ps : List Part} {r : List Word} (cl : Clear c (single w :: ps))
    (ih : ∃ qs, parse takes (r.filter (rem c)) = some qs ∧ Stays c ps qs) :
    ∃ qs, parse takes ((w :: r).filter (rem c)) = some qs ∧ Stays c (single w :: ps) qs := by
  obtain ⟨qs, h1, h2⟩ := ih
  have hx := cl _ (.head _)
  have keep : ¬ Removed c w → parse takes ((w :: r).filter (rem c)) = some (single w :: qs) := by
    intro h
    rw [List.filter_cons_of_pos (rem_true h), parse_one ho ht, h1]; rfl
  revert hx keep
  cases hs : single w with
  | file u =>
    intro _ keep
    have hu : u = w := by
      unfold single at hs
      split at hs <;> first | (cases hs; rfl) | cases hs
    subst hu
    by_cases hr : Removed c u
    · exact ⟨qs, by rw [List.filter_cons_of_neg (by simp [rem_false hr]), h1], .input hr h2⟩
    · exact ⟨_, keep hr, .file hr h2⟩
  | flag u =>
    intro hx keep
    have hu : u = w := by
      unfold single at hs
      split at hs <;> first | (cases hs; rfl) | cases hs
    subst hu
    exact ⟨_, keep hx, .flag h2⟩
  | joined u => intro hx; cases hx
  | out u => unfold single at hs; split at hs <;> cases hs
  | pair u v => unfold single at hs; split at hs <;> cases hs

theorem kept_stays {c : Cmd} : ∀ (args : List Word) (ps : List Part), parse takes args = some ps → Clear c ps →
    ∃ qs, parse takes (args.filter (rem c)) = some qs ∧ Stays c ps qs := by
  intro args
  fun_induction parse takes args with
  | case1 =>
    intro ps h _
    cases h
    exact ⟨[], rfl, .nil⟩
  | case2 w h => intro ps h; cases h
  | case3 w h =>
    intro ps hp cl
    cases hp
    simp only [Bool.or_eq_true, decide_eq_true_eq, not_or, Bool.not_eq_true] at h
    exact stays_single h.1 h.2 cl ⟨[], rfl, .nil⟩
  | case4 v r ih =>
    intro ps hp cl
    obtain ⟨y, hy, rfl⟩ := Option.map_eq_some_iff.1 hp
    obtain ⟨qs, h1, h2⟩ := ih y hy fun x hx => cl x (.tail _ hx)
    have hv : Removed c v := cl _ (.head _)
    refine ⟨qs, ?_, .out h2⟩
    rw [List.filter_cons_of_neg (by simp [rem_false (show Removed c ['-', 'o'] from .inr (.inl rfl))]),
      List.filter_cons_of_neg (by simp [rem_false hv]), h1]
  | case5 w v r h1 h2 ih =>
    intro ps hp cl
    obtain ⟨y, hy, rfl⟩ := Option.map_eq_some_iff.1 hp
    obtain ⟨qs, h3, h4⟩ := ih y hy fun x hx => cl x (.tail _ hx)
    obtain ⟨hw, hv⟩ : ¬ Removed c w ∧ ¬ Removed c v := cl _ (.head _)
    refine ⟨_, ?_, .pair h4⟩
    rw [List.filter_cons_of_pos (rem_true hw), List.filter_cons_of_pos (rem_true hv), parse, if_neg h1, if_pos h2, h3]
    rfl
  | case6 w v r h1 h2 ih =>
    intro ps hp cl
    obtain ⟨y, hy, rfl⟩ := Option.map_eq_some_iff.1 hp
    exact stays_single h1 (by simpa using h2) cl (ih y hy fun x hx => cl x (.tail _ hx))

theorem stays_outs {c : Cmd} {ps qs : List Part} (h : Stays c ps qs) : ∀ w, .out w ∉ qs ∧ .joined w ∉ qs := by
  induction h with
  | nil => simp
  | out _ ih => exact ih
  | input _ _ ih => exact ih
  | file _ _ ih => intro w; simpa using ih w
  | flag _ ih => intro w; simpa using ih w
  | pair _ ih => intro w; simpa using ih w

theorem outs_nil {qs : List Part} (h : ∀ w, .out w ∉ qs ∧ .joined w ∉ qs) :
    qs.filterMap Part.output = [] := by
  rw [List.filterMap_eq_nil_iff]
  intro x hx
  cases x with
  | out w => exact absurd hx (h w).1
  | joined w => exact absurd hx (h w).2
  | _ => rfl

end Verif.Build
