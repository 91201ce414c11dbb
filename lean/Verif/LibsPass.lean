import Verif.LibsFacts
import Verif.Spec.Libs
import Verif.PassModuleLink
/- Symbols of the object files that the pass makes. -/
namespace Verif.Libs
open PassModule

variable {A : AbiList}

theorem dfs_ne_sym (m g : Name) : dfs m ≠ dfswSym g := by
  intro h
  simp only [dfs, dfswSym, List.cons_append, List.cons.injEq] at h
  exact absurd h.1 (by decide)

theorem dfsw_ne_sym (m g : Name) : dfsw m ≠ dfswSym g := by
  intro h
  simp only [dfsw, dfswSym, List.cons_append, List.cons.injEq] at h
  exact absurd h.1 (by decide)

theorem dfswSym_inj {m n : Name} (h : dfswSym m = dfswSym n) : m = n := List.append_cancel_left h

theorem useSym_ne {M : Module} {F : Func} {g : Name} (h : F.name ≠ dfswSym g) : useSym A M.src F ≠ dfswSym g := by
  unfold useSym
  split
  · exact dfs_ne_sym _ _
  · split
    · exact dfsw_ne_sym _ _
    · exact h

theorem sym_ne {M : Module} {n g : Name} (h : n ≠ dfswSym g) : sym A M n ≠ dfswSym g := by
  unfold sym
  split
  · rename_i F hF
    exact useSym_ne (by rw [(look_some hF).2]; exact h)
  · split
    · exact dfs_ne_sym _ _
    · exact h

/-- Objects of the program define no wrapper `__dfsw_`. -/
theorem obj_defs {P : List Module} (hu : Unprefixed P) {M : Module} (hM : M ∈ P) (g : Name) :
    dfswSym g ∉ (objOf (run A M)).defs := by
  intro h
  rcases List.mem_append.1 h with h | h
  · obtain ⟨O, hO, e⟩ := List.mem_map.1 h
    obtain ⟨F, hF, hO⟩ := List.mem_flatMap.1 (List.mem_filter.1 hO).1
    have hn := hu M hM F.name (all_names hF) g
    rw [outFuncs_eq] at hO
    rcases List.mem_append.1 hO with hO | hO
    · split at hO
      · rw [List.mem_singleton] at hO
        subst hO
        exact dfsw_ne_sym _ _ e
      · cases hO
    · rw [List.mem_singleton] at hO
      subst hO
      change (if inst A M.src F.name then dfs F.name else F.name) = _ at e
      split at e
      · exact dfs_ne_sym _ _ e
      · exact hn e
  · obtain ⟨b, hb, e⟩ := List.mem_map.1 h
    obtain ⟨a, ha, hb⟩ := List.mem_flatMap.1 (List.mem_filter.1 hb).1
    unfold outAlias at hb
    split at hb
    · cases hb
    · rw [List.mem_singleton] at hb
      subst hb
      exact sym_ne (hu M hM a.name (List.mem_append_right _ (List.mem_map_of_mem ha)) g) e

/-- References of the object to the symbols of a use. -/
theorem ref_mem {M : Module} {F : Func} {b : List Ref} {r : Ref} {s : Name} (hF : F ∈ M.funcs) (hb : F.body = some b) (hr : r ∈ b)
    (hs : s ∈ refSyms (useRef A M r)) : s ∈ (objOf (run A M)).refs := by
  refine List.mem_flatMap.2 ⟨ownOut A M F, ?_, ?_⟩
  · refine List.mem_flatMap.2 ⟨F, List.mem_append_left _ hF, ?_⟩
    rw [outFuncs_eq]; simp
  · refine List.mem_flatMap.2 ⟨_, ?_, hs⟩
    simp only [ownOut, hb, Option.map_some, Option.getD_some]
    exact List.mem_map_of_mem hr

/-- A call of a function that is listed as custom. -/
theorem call_custom (hs : ∀ n, A.uninsSrc n = false) {P : List Module} {i : Nat} {M : Module} (hi : P[i]? = some M) (ok : M.Ok)
    (cv : ∀ a ∈ M.aliases, ¬ (A.unins a.name = true ∧ A.unins a.base = true)) {g : Name}
    (hg : g ∈ M.funcs.map (·.name) ++ M.aliases.map (·.name)) (hu : A.unins g = true) (hc : ListedCustom A g) :
    useRef A M (.call g) = .custom g := by
  have hk : kind A g = .custom := by simp [kind, WrapCall.wrapperKind, hc.1, hc.2.1, hc.2.2]
  have key : ∀ F, look A M g = some F → useRef A M (.call g) = .custom g := by
    intro F hF
    have hn := (look_some hF).2
    have hw : wrapped A M.src F = true := by simp [wrapped, inst_eq hs, hn, hu, hk]
    simp [useRef, hF, hw, hk]
  rcases List.mem_append.1 hg with hg | hg
  · obtain ⟨F, hF, rfl⟩ := List.mem_map.1 hg
    exact key F (look_mem ok (List.mem_append_left _ hF))
  · obtain ⟨a, ha, rfl⟩ := List.mem_map.1 hg
    obtain ⟨F, hF, he, -⟩ := ok.base a ha
    have hb : A.unins a.base = false := by
      cases h : A.unins a.base with
      | false => rfl
      | true => exact absurd ⟨hu, h⟩ (cv a ha)
    have hm : mixed A M a = some { name := a.name, sig := F.sig, loc := a.loc, body := some (wrapperBody F.sig F.name) } := by
      have := func_mem ok hF
      rw [he] at this
      simp [mixed, this, inst_eq hs, hu, he, hb]
    exact key _ (look_mem ok (F := ⟨a.name, F.sig, a.loc, _⟩)
      (List.mem_append_right _ (List.mem_filterMap.2 ⟨a, ha, hm⟩)))

theorem refs_wrapper {P : List Module} (hu : Unprefixed P) {M : Module} (hM : M ∈ P) {g : Name} (hg : A.custom g = false)
    (hstop : dfswSym g ≠ "__dfsan_vararg_wrapper".toList)
    (hd : ∀ F ∈ M.funcs, ∀ b, F.body = some b → ∀ r ∈ b, ∀ n, r = .call n ∨ r = .addr n →
      n ∈ M.funcs.map (·.name) ++ M.aliases.map (·.name)) : dfswSym g ∉ (objOf (run A M)).refs := by
  have hmem : ∀ r : Ref, (∀ n, r = .call n ∨ r = .addr n → n ≠ dfswSym g) → dfswSym g ∉ refSyms (useRef A M r) := by
    intro r hr h
    cases r with
    | call n =>
      have hn := hr n (.inl rfl)
      have key : dfswSym g ∈ refSyms (.instr (sym A M n)) → False := by
        intro h
        rw [refSyms, List.mem_singleton] at h
        exact sym_ne hn h.symm
      rw [useRef] at h
      split at h
      · split at h
        · split at h
          · rename_i hk
            rw [refSyms, List.mem_singleton] at h
            have := dfswSym_inj h
            subst this
            simp only [kind, WrapCall.wrapperKind, hg] at hk
            revert hk
            cases A.functional g <;> cases A.discard g <;> simp
          · rw [refSyms, List.mem_singleton] at h
            exact hn h.symm
        · exact key h
      · exact key h
    | addr n =>
      rw [useRef, refSyms, List.mem_singleton] at h
      exact sym_ne (hr n (.inr rfl)) h.symm
    | stop =>
      rw [useRef, refSyms, List.mem_singleton] at h
      exact hstop h
  have hbody : ∀ F ∈ allFuncs A M, ∀ b, F.body = some b → ∀ r ∈ b, ∀ n, r = .call n ∨ r = .addr n → n ≠ dfswSym g := by
    intro F hF b hb r hr n hn
    rcases List.mem_append.1 hF with hF | hF
    · exact hu M hM n (hd F hF b hb r hr n hn) g
    · obtain ⟨a, ha, hm⟩ := List.mem_filterMap.1 hF
      obtain ⟨-, -, G, hG, -, hGb, -⟩ := mixed_name hm
      rw [hGb] at hb
      cases hb
      unfold wrapperBody at hr
      split at hr
      · rw [List.mem_singleton] at hr
        subst hr
        rcases hn with h | h <;> cases h
      · rw [List.mem_singleton] at hr
        subst hr
        rcases hn with h | h
        · cases h
          exact hu M hM _ (List.mem_append_left _ (List.mem_map_of_mem (func_some hG).1)) g
        · cases h
  intro h
  obtain ⟨O, hO, h⟩ := List.mem_flatMap.1 h
  obtain ⟨F, hF, hO⟩ := List.mem_flatMap.1 hO
  obtain ⟨r', hr', h⟩ := List.mem_flatMap.1 h
  rw [outFuncs_eq] at hO
  rcases List.mem_append.1 hO with hO | hO
  · split at hO
    · rw [List.mem_singleton] at hO
      subst hO
      obtain ⟨r, hr, rfl⟩ := List.mem_map.1 hr'
      refine hmem r ?_ h
      intro n hn
      unfold wrapperBody at hr
      split at hr
      · rw [List.mem_singleton] at hr
        subst hr
        rcases hn with h | h <;> cases h
      · rw [List.mem_singleton] at hr
        subst hr
        rcases hn with h | h
        · cases h
          exact hu M hM _ (all_names hF) g
        · cases h
    · cases hO
  · rw [List.mem_singleton] at hO
    subst hO
    cases hb : F.body with
    | none => simp [ownOut, hb] at hr'
    | some b =>
      simp only [ownOut, hb, Option.map_some, Option.getD_some] at hr'
      obtain ⟨r, hr, rfl⟩ := List.mem_map.1 hr'
      exact hmem r (hbody F hF b hb r hr) h

end Verif.Libs
