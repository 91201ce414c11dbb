import Verif.Spec.Link
/- Lemmas about the work of the data-flow pass on modules. -/
namespace Verif.PassModule

variable {A : AbiList}

theorem find_nodup {α : Type} (f : α → Name) : ∀ (l : List α) (x : α), (l.map f).Nodup → x ∈ l →
    l.find? (fun y => decide (f y = f x)) = some x := by
  intro l
  induction l with
  | nil => intro x _ h; simp at h
  | cons y l ih =>
    intro x hn hx
    rw [List.map_cons, List.nodup_cons] at hn
    rw [List.find?_cons]
    rcases List.mem_cons.1 hx with rfl | hx
    · simp
    · have : f y ≠ f x := fun e => hn.1 (by rw [e]; exact List.mem_map_of_mem hx)
      simp only [this, decide_false]
      exact ih x hn.2 hx

theorem find_name {α : Type} (f : α → Name) {l : List α} {n : Name} {x : α}
    (h : l.find? (fun y => decide (f y = n)) = some x) : x ∈ l ∧ f x = n :=
  ⟨List.mem_of_find?_eq_some h, by simpa using List.find?_some h⟩

theorem mixed_name {M : Module} {a : Alias} {F : Func} (h : mixed A M a = some F) :
    F.name = a.name ∧ F.loc = a.loc ∧ ∃ G, M.func a.base = some G ∧ F.sig = G.sig ∧
      F.body = some (wrapperBody G.sig G.name) ∧ inst A M.src a.name ≠ inst A M.src G.name := by
  unfold mixed at h
  split at h
  · cases h
  · rename_i G hG
    split at h
    · rename_i hi
      cases h
      exact ⟨rfl, rfl, G, hG, rfl, rfl, hi⟩
    · cases h

theorem names_sub {M : Module} (l : List Alias) :
    ((l.filterMap (mixed A M)).map (·.name)).Sublist (l.map (·.name)) := by
  induction l with
  | nil => exact List.Sublist.refl _
  | cons a l ih =>
    rw [List.filterMap_cons]
    cases h : mixed A M a with
    | none => simpa using ih.cons _
    | some F =>
      simp only [List.map_cons]
      rw [(mixed_name h).1]
      exact ih.cons₂ _

theorem all_nodup {M : Module} (ok : M.Ok) : ((allFuncs A M).map (·.name)).Nodup := by
  unfold allFuncs
  rw [List.map_append]
  exact ok.names.sublist ((List.Sublist.refl _).append (names_sub _))

theorem all_names {M : Module} {F : Func} (h : F ∈ allFuncs A M) :
    F.name ∈ M.funcs.map (·.name) ++ M.aliases.map (·.name) := by
  unfold allFuncs at h
  rcases List.mem_append.1 h with h | h
  · exact List.mem_append_left _ (List.mem_map_of_mem h)
  · exact List.mem_append_right _ ((names_sub _).subset (List.mem_map_of_mem h))

theorem look_mem {M : Module} (ok : M.Ok) {F : Func} (h : F ∈ allFuncs A M) : look A M F.name = some F :=
  find_nodup Func.name _ _ (all_nodup ok) h

theorem look_some {M : Module} {n : Name} {F : Func} (h : look A M n = some F) : F ∈ allFuncs A M ∧ F.name = n :=
  find_name Func.name h

theorem func_mem {M : Module} (ok : M.Ok) {F : Func} (h : F ∈ M.funcs) : M.func F.name = some F :=
  find_nodup Func.name _ _ (List.nodup_append.1 ok.names).1 h

theorem func_some {M : Module} {n : Name} {F : Func} (h : M.func n = some F) : F ∈ M.funcs ∧ F.name = n :=
  find_name Func.name h

/-- Functions and aliases have different names. -/
theorem func_alias {M : Module} (ok : M.Ok) {F : Func} {a : Alias} (hF : F ∈ M.funcs) (ha : a ∈ M.aliases) :
    F.name ≠ a.name :=
  (List.nodup_append.1 ok.names).2.2 _ (List.mem_map_of_mem hF) _ (List.mem_map_of_mem ha)

theorem func_none {M : Module} (ok : M.Ok) {a : Alias} (ha : a ∈ M.aliases) : M.func a.name = none := by
  cases h : M.func a.name with
  | none => rfl
  | some F => exact absurd (func_some h).2 (func_alias ok (func_some h).1 ha)

theorem alias_eq {M : Module} (ok : M.Ok) {a b : Alias} (ha : a ∈ M.aliases) (hb : b ∈ M.aliases)
    (h : a.name = b.name) : a = b := by
  have h1 := find_nodup Alias.name _ _ (List.nodup_append.1 ok.names).2.1 ha
  have h2 := find_nodup Alias.name _ _ (List.nodup_append.1 ok.names).2.1 hb
  rw [h, h2] at h1
  simpa using h1.symm

theorem func_eq {M : Module} (ok : M.Ok) {F G : Func} (hF : F ∈ M.funcs) (hG : G ∈ M.funcs)
    (h : F.name = G.name) : F = G := by
  have h1 := func_mem ok hF
  rw [h, func_mem ok hG] at h1
  simpa using h1.symm

theorem look_alias {M : Module} (ok : M.Ok) {a : Alias} (ha : a ∈ M.aliases) (hm : mixed A M a = none) :
    look A M a.name = none := by
  cases h : look A M a.name with
  | none => rfl
  | some F =>
    obtain ⟨h1, h2⟩ := look_some h
    unfold allFuncs at h1
    rcases List.mem_append.1 h1 with h1 | h1
    · exact absurd h2 (func_alias ok h1 ha)
    · obtain ⟨b, hb, hF⟩ := List.mem_filterMap.1 h1
      have := alias_eq ok hb ha ((mixed_name hF).1.symm.trans h2)
      subst this
      rw [hm] at hF; cases hF

/-! ### Names -/

theorem dfs_inj {m n : Name} (h : dfs m = dfs n) : m = n := List.append_cancel_left h

theorem dfsw_inj {m n : Name} (h : dfsw m = dfsw n) : m = n := List.append_cancel_left h

theorem dfs_ne_dfsw (m n : Name) : dfs m ≠ dfsw n := by
  intro h
  simp only [dfs, dfsw, List.cons_append, List.cons.injEq] at h
  exact absurd h.2.2.2.1 (by decide)

/-- The name a definition gets. -/
def pre (A : AbiList) (g : Name) : Name := if A.unins g then g else dfs g

theorem pre_inj {g h : Name} (hg : Plain g) (hh : Plain h) (e : pre A g = pre A h) : g = h := by
  unfold pre at e
  split at e <;> split at e
  · exact e
  · exact absurd e (hg h).1
  · exact absurd e.symm (hh g).1
  · exact dfs_inj e

theorem pre_dfsw {g n : Name} (hg : Plain g) : pre A g ≠ dfsw n := by
  unfold pre
  split
  · exact (hg n).2
  · exact dfs_ne_dfsw g n

theorem inst_eq (hs : ∀ n, A.uninsSrc n = false) (src n : Name) : inst A src n = !A.unins n := by
  simp [inst, hs]

/-! ### Definitions of the result -/

/-- The function itself. -/
def ownOut (A : AbiList) (M : Module) (F : Func) : OFunc :=
  { name := if inst A M.src F.name then dfs F.name else F.name, loc := F.loc, sig := F.sig,
    native := wrapped A M.src F, origin := own M F, body := F.body.map fun b => b.map (useRef A M) }

/-- Its wrapper. -/
def wrapOut (A : AbiList) (M : Module) (F : Func) : OFunc :=
  { name := dfsw F.name, loc := F.loc, sig := F.sig, native := false, origin := .wrapper,
    body := some ((wrapperBody F.sig F.name).map (useRef A M)) }

theorem outFuncs_eq (M : Module) (F : Func) :
    outFuncs A M F = (if wrapped A M.src F then [wrapOut A M F] else []) ++ [ownOut A M F] := by
  unfold outFuncs ownOut wrapOut
  by_cases hi : inst A M.src F.name = true
  · have hw : wrapped A M.src F = false := by simp [wrapped, hi]
    simp [hi, hw]
  · by_cases hw : wrapped A M.src F = true <;> simp [hi, hw]

theorem own_mem {M : Module} {F : Func} (hF : F ∈ allFuncs A M) (hb : F.body.isSome = true) :
    ODef.fn (ownOut A M F) ∈ (run A M).defs := by
  refine List.mem_append_left _ (List.mem_map_of_mem (List.mem_filter.2 ⟨?_, by simpa [ownOut] using hb⟩))
  refine List.mem_flatMap.2 ⟨F, hF, ?_⟩
  rw [outFuncs_eq]
  simp

theorem wrap_mem {M : Module} {F : Func} (hF : F ∈ allFuncs A M) (hw : wrapped A M.src F = true) :
    ODef.fn (wrapOut A M F) ∈ (run A M).defs := by
  refine List.mem_append_left _ (List.mem_map_of_mem (List.mem_filter.2 ⟨?_, by simp [wrapOut]⟩))
  refine List.mem_flatMap.2 ⟨F, hF, ?_⟩
  rw [outFuncs_eq]
  simp [hw]

theorem alias_mem {M : Module} {a : Alias} (ha : a ∈ M.aliases) (hm : mixed A M a = none) :
    ODef.alias { name := sym A M a.name, loc := a.loc, base := sym A M a.base } ∈ (run A M).defs := by
  refine List.mem_append_right _ (List.mem_map_of_mem (List.mem_flatMap.2 ⟨a, ha, ?_⟩))
  simp [outAlias, hm]

/-- The definition of the result for the name `g`, which is function `n`. -/
inductive Canon (A : AbiList) (M : Module) (g : Name) : Name → ODef → Prop where
  | own {F} : F ∈ M.funcs → F.body.isSome = true → F.name = g → Canon A M g g (.fn (ownOut A M F))
  | mixed {a F} : a ∈ M.aliases → a.name = g → PassModule.mixed A M a = some F → Canon A M g a.base (.fn (ownOut A M F))
  | kept {a} : a ∈ M.aliases → a.name = g → PassModule.mixed A M a = none →
      Canon A M g a.base (.alias { name := sym A M a.name, loc := a.loc, base := sym A M a.base })

theorem mem_defs {M : Module} {g : Name} {l : Bool} {n : Name} (h : (g, l, n) ∈ M.defs) :
    (∃ F ∈ M.funcs, F.body.isSome = true ∧ F.name = g ∧ F.loc = l ∧ n = g) ∨
    ∃ a ∈ M.aliases, a.name = g ∧ a.loc = l ∧ a.base = n := by
  rcases List.mem_append.1 h with h | h
  · obtain ⟨F, hF, e⟩ := List.mem_map.1 h
    obtain ⟨h1, h2⟩ := List.mem_filter.1 hF
    cases e
    exact .inl ⟨F, h1, h2, rfl, rfl, rfl⟩
  · obtain ⟨a, ha, e⟩ := List.mem_map.1 h
    cases e
    exact .inr ⟨a, ha, rfl, rfl, rfl⟩

theorem defs_func {M : Module} {F : Func} (hF : F ∈ M.funcs) (hb : F.body.isSome = true) :
    (F.name, F.loc, F.name) ∈ M.defs :=
  List.mem_append_left _ (List.mem_map.2 ⟨F, List.mem_filter.2 ⟨hF, hb⟩, rfl⟩)

theorem defs_alias {M : Module} {a : Alias} (ha : a ∈ M.aliases) : (a.name, a.loc, a.base) ∈ M.defs :=
  List.mem_append_right _ (List.mem_map.2 ⟨a, ha, rfl⟩)

theorem sym_kept (hs : ∀ n, A.uninsSrc n = false) {M : Module} (ok : M.Ok) {a : Alias} (ha : a ∈ M.aliases)
    (hm : mixed A M a = none) : sym A M a.name = pre A a.name := by
  simp only [sym, look_alias ok ha hm, inst_eq hs, pre]
  cases A.unins a.name <;> rfl

theorem ownOut_name (hs : ∀ n, A.uninsSrc n = false) (M : Module) (F : Func) : (ownOut A M F).name = pre A F.name := by
  simp only [ownOut, inst_eq hs, pre]
  cases A.unins F.name <;> rfl

theorem mixed_mem {M : Module} {a : Alias} {F : Func} (ha : a ∈ M.aliases) (hm : mixed A M a = some F) :
    F ∈ allFuncs A M := List.mem_append_right _ (List.mem_filterMap.2 ⟨a, ha, hm⟩)

theorem mixed_body {M : Module} {a : Alias} {F : Func} (hm : mixed A M a = some F) : F.body.isSome = true := by
  obtain ⟨-, -, G, -, -, h, -⟩ := mixed_name hm
  rw [h]; rfl

/-- Every definition of a program has one in the result. -/
theorem canon_exists (hs : ∀ n, A.uninsSrc n = false) {M : Module} (ok : M.Ok) {g : Name} {l : Bool} {n : Name}
    (h : (g, l, n) ∈ M.defs) : ∃ d ∈ (run A M).defs, Canon A M g n d ∧ d.loc = l ∧ d.name = pre A g := by
  rcases mem_defs h with ⟨F, hF, hb, rfl, rfl, rfl⟩ | ⟨a, ha, rfl, rfl, rfl⟩
  · exact ⟨_, own_mem (List.mem_append_left _ hF) hb, .own hF hb rfl, rfl, ownOut_name hs M F⟩
  · cases hm : mixed A M a with
    | none => exact ⟨_, alias_mem ha hm, .kept ha rfl hm, rfl, sym_kept hs ok ha hm⟩
    | some F =>
      refine ⟨_, own_mem (mixed_mem ha hm) (mixed_body hm), .mixed ha rfl hm, (mixed_name hm).2.1, ?_⟩
      show (ownOut A M F).name = _
      rw [ownOut_name hs, (mixed_name hm).1]

/-- Every definition of the result is a wrapper or comes from a definition of the program. -/
theorem canon_of (hs : ∀ n, A.uninsSrc n = false) {M : Module} (ok : M.Ok) {d : ODef} (h : d ∈ (run A M).defs) :
    (∃ F ∈ allFuncs A M, wrapped A M.src F = true ∧ d = .fn (wrapOut A M F)) ∨
    ∃ g n, Canon A M g n d ∧ (g, d.loc, n) ∈ M.defs ∧ d.name = pre A g := by
  rcases List.mem_append.1 h with h | h
  · obtain ⟨O, hO, rfl⟩ := List.mem_map.1 h
    obtain ⟨h1, h2⟩ := List.mem_filter.1 hO
    obtain ⟨F, hF, hO⟩ := List.mem_flatMap.1 h1
    rw [outFuncs_eq] at hO
    rcases List.mem_append.1 hO with hO | hO
    · by_cases hw : wrapped A M.src F = true
      · rw [if_pos hw, List.mem_singleton] at hO
        exact .inl ⟨F, hF, hw, by rw [hO]⟩
      · rw [if_neg hw] at hO
        cases hO
    · rw [List.mem_singleton] at hO
      subst hO
      have hb : F.body.isSome = true := by simpa [ownOut] using h2
      right
      rcases List.mem_append.1 hF with hF | hF
      · exact ⟨_, _, .own hF hb rfl, defs_func hF hb, ownOut_name hs M F⟩
      · obtain ⟨a, ha, hm⟩ := List.mem_filterMap.1 hF
        refine ⟨_, _, .mixed ha rfl hm, ?_, ?_⟩
        · show (a.name, F.loc, a.base) ∈ _
          rw [(mixed_name hm).2.1]
          exact defs_alias ha
        · show (ownOut A M F).name = _
          rw [ownOut_name hs, (mixed_name hm).1]
  · obtain ⟨b, hb, rfl⟩ := List.mem_map.1 h
    obtain ⟨a, ha, hO⟩ := List.mem_flatMap.1 hb
    unfold outAlias at hO
    split at hO
    · cases hO
    · rename_i hm
      rw [List.mem_singleton] at hO
      subst hO
      have hm : mixed A M a = none := by simpa using hm
      exact .inr ⟨_, _, .kept ha rfl hm, defs_alias ha, sym_kept hs ok ha hm⟩

/-- A name has one definition in a module. -/
theorem defs_once {M : Module} (ok : M.Ok) {g : Name} {l l' : Bool} {n n' : Name} (h : (g, l, n) ∈ M.defs)
    (h' : (g, l', n') ∈ M.defs) : l = l' ∧ n = n' := by
  rcases mem_defs h with ⟨F, hF, -, rfl, rfl, rfl⟩ | ⟨a, ha, rfl, rfl, rfl⟩ <;>
  rcases mem_defs h' with ⟨G, hG, -, e, rfl, rfl⟩ | ⟨b, hb, e, rfl, rfl⟩
  · rw [func_eq ok hG hF e]
    exact ⟨rfl, rfl⟩
  · exact absurd e.symm (func_alias ok hF hb)
  · exact absurd e (func_alias ok hG ha)
  · rw [alias_eq ok hb ha e]
    exact ⟨rfl, rfl⟩

end Verif.PassModule
