import Verif.Examples.Link
/- C75: after the data-flow pass and linking, each use of a function comes to the function it stood for. -/
namespace Verif
open PassModule

/-- A use of a name stands for at most one function of a program. -/
theorem C75_meaning {A : AbiList} {P : List Module} (lk : Linkable P) {i : Nat} {g : Name} {t u : Target}
    (h : Expect A P i g t) (h' : Expect A P i g u) : t = u := expect_unique lk h h'

/-- Every use of a function in the linked result leads to the function that it stood for, and to nothing else; calls of
custom functions lead to their wrapper. On the way caller and callee agree on how labels are passed. There is one function
of the result for each function of the program. -/
theorem C75_uses_partial {A : AbiList} {P : List Module} {L : Nat → Name → Option (Nat × ODef)} (lk : Linkable P)
    (cv : Covers A P) (ln : Links (P.map (run A)) L) {i : Nat} {M : Module} {F : Func} {b : List Ref} (hi : P[i]? = some M)
    (hF : F ∈ M.funcs) (hb : F.body = some b) :
    ∃ F' ∈ (run A M).funcs, F'.origin = .own F.name ∧ F'.loc = F.loc ∧ F'.sig = F.sig ∧
      (∀ G ∈ (run A M).funcs, G.origin = .own F.name → G = F') ∧
      ∃ b', F'.body = some b' ∧ b'.length = b.length ∧
        ∀ (k : Nat) (g : Name), b[k]? = some (.call g) ∨ b[k]? = some (.addr g) →
          ∃ r' t, b'[k]? = some r' ∧ Expect A P i g t ∧ ∀ u, Leads (P.map (run A)) L i r' u ↔ u = t := by
  have S : Setup A P L := ⟨lk, cv, ln⟩
  have ok := lk.ok i M hi
  obtain ⟨h1, h2⟩ := own_once (A := A) ok hF
  refine ⟨_, h1, own_func ok hF, rfl, rfl, h2, b.map (useRef A M), by simp [ownOut, hb], by simp, ?_⟩
  intro k g hk
  have key : ∀ r, b[k]? = some r → (∃ t, Expect A P i g t ∧ Leads (P.map (run A)) L i (useRef A M r) t) →
      ∃ r' t, (b.map (useRef A M))[k]? = some r' ∧ Expect A P i g t ∧ ∀ u, Leads (P.map (run A)) L i r' u ↔ u = t := by
    rintro r hr ⟨t, ht, hl⟩
    exact ⟨useRef A M r, t, by simp [hr], ht, fun u => ⟨fun h => leads_unique h hl, fun h => h ▸ hl⟩⟩
  rcases hk with hk | hk
  · exact key _ hk (call_leads S hi (ok.declared F hF b hb _ (List.mem_of_getElem? hk) g (.inl rfl)))
  · have hg := ok.declared F hF b hb _ (List.mem_of_getElem? hk) g (.inr rfl)
    obtain ⟨s, hs⟩ := sig_exists ok hg
    exact key _ hk (addr_leads S hi hg hs (cv.addr i M F b g s hi hF hb (List.mem_of_getElem? hk) hs))

/-- Functions on the list that the program defines itself keep their names, so that code that is not instrumented finds
them: a call by name from anywhere leads to the function. -/
theorem C75_native {A : AbiList} {P : List Module} {L : Nat → Name → Option (Nat × ODef)} (lk : Linkable P)
    (cv : Covers A P) (ln : Links (P.map (run A)) L) {i k : Nat} {M N : Module} {F : Func} (hi : P[i]? = some M)
    (hF : F ∈ M.funcs) (hb : F.body.isSome = true) (hl : F.loc = false) (hu : A.unins F.name = true)
    (hk : P[k]? = some N) (hN : N.isLoc F.name = false) : Leads (P.map (run A)) L k (.native F.name) (.fn i F.name) := by
  have S : Setup A P L := ⟨lk, cv, ln⟩
  have ok := lk.ok i M hi
  have okN := lk.ok k N hk
  have hd := defs_func hF hb
  have hp := ok.plain _ (defs_name hd)
  have hnl : ∀ n, (F.name, true, n) ∉ N.defs := by
    intro n hn
    rcases mem_defs hn with ⟨G, hG, -, he, hGl, -⟩ | ⟨a, ha, he, hal, -⟩
    · have : N.isLoc F.name = true := by
        simp only [Module.isLoc, Bool.or_eq_true, List.any_eq_true]
        exact .inl ⟨G, hG, by simp [he, hGl]⟩
      rw [hN] at this; cases this
    · have : N.isLoc F.name = true := by
        simp only [Module.isLoc, Bool.or_eq_true, List.any_eq_true]
        exact .inr ⟨a, ha, by simp [he, hal]⟩
      rw [hN] at this; cases this
  rw [hl] at hd
  rcases resolve S hk hp with ⟨j, N', n, d, hL, hj, hc, hm, hst, hw⟩ | ⟨-, hst⟩
  · have hdl : d.loc = false := by
      rcases hw with ⟨h1, rfl⟩ | ⟨h1, -⟩
      · rw [h1] at hm
        rw [hk] at hj; cases hj
        exact absurd hm (hnl _)
      · exact h1
    rw [hdl] at hm
    have e := lk.unique _ _ _ _ _ _ _ hj hi hm hd
    subst e
    rw [hi] at hj; cases hj
    cases hc with
    | own hG hGb he =>
      rw [func_eq ok hG hF he] at hL
      rw [pre, if_pos hu] at hL
      refine .own rfl hL (own_func ok hF) (by simpa [ownOut] using hb) ?_
      by_cases hz : zeroArgs F.sig = true
      · exact .inl (silent_iff.2 hz)
      · refine .inr ⟨fun _ => ⟨_, rfl⟩, fun _ => ?_⟩
        show wrapped A M.src F = true
        simp [wrapped, inst_eq cv.src, hu, hz]
    | mixed ha he _ => exact absurd he.symm (func_alias ok hF ha)
    | kept ha he _ => exact absurd he.symm (func_alias ok hF ha)
  · cases hst with
    | lib _ _ hn => exact absurd hd (hn _ _ hi _)

/-- Such linkers exist for all programs. -/
theorem C75_linker {A : AbiList} {P : List Module} (lk : Linkable P) (hs : ∀ n, A.uninsSrc n = false) :
    ∃ L, Links (P.map (run A)) L := ⟨_, links_exist hs lk.ok⟩

/-! ### The conditions are needed -/

/-- With a source on the list, a module that uses its functions does not find them. -/
theorem C75_source_refuted : ∃ (A : AbiList) (P : List Module) (L : Nat → Name → Option (Nat × ODef)) (g : Name) (r : ORef),
    Linkable P ∧ Links (P.map (run A)) L ∧ (∀ n, A.unins n = false) ∧
    (run A <$> P[0]?).map (fun O => O.funcs.filterMap (·.body)) = some [[r]] ∧
    Expect A P 0 g (.fn 1 g) ∧ Leads (P.map (run A)) L 0 r (.lib g) := by
  let A : AbiList := { listed [] [] [] [] with uninsSrc := fun n => decide (n = nm "a.c") }
  let M0 : Module := ⟨nm "a.c", [⟨nm "main", unit, false, some [.call (nm "g")]⟩, ⟨nm "g", unit, false, none⟩], []⟩
  let M1 : Module := ⟨nm "b.c", [⟨nm "g", unit, false, some []⟩], []⟩
  refine ⟨A, [M0, M1], firstLink ([M0, M1].map (run A)), nm "g", .instr (nm "g"), linkable_of (by decide +kernel), ?_,
    fun _ => rfl, by decide +kernel, ?_, .lib rfl (by rfl) (.inr ⟨_, _, rfl, .tail _ (.head _), rfl, by decide⟩)⟩
  · refine firstLink_links ?_
    intro i O hO d hd e he hl
    have : ∀ O ∈ [M0, M1].map (run A), ∀ d ∈ O.defs, d.loc = false := by decide +kernel
    rw [this O (List.mem_of_getElem? hO) d hd] at hl
    cases hl
  · refine .fn (by decide) ?_ (by decide)
    exact .ext (M := M0) (N := M1) rfl (by intro n; simp [Module.defs, M0, nm]) rfl (by decide +kernel)

/-- A library function that is not on the list: the symbol that is asked for is not that of the library. -/
theorem C75_unlisted_refuted : ∃ (A : AbiList) (P : List Module) (L : Nat → Name → Option (Nat × ODef)) (g : Name) (r : ORef),
    Linkable P ∧ Links (P.map (run A)) L ∧ (∀ n, A.uninsSrc n = false) ∧
    (run A <$> P[0]?).map (fun O => O.funcs.filterMap (·.body)) = some [[r]] ∧
    Expect A P 0 g (.lib g) ∧ Leads (P.map (run A)) L 0 r (.lib (dfs g)) := by
  let A : AbiList := listed [] [] [] []
  let M0 : Module := ⟨nm "a.c", [⟨nm "main", unit, false, some [.call (nm "g")]⟩, ⟨nm "g", unit, false, none⟩], []⟩
  have lk : Linkable [M0] := linkable_of (by decide +kernel)
  refine ⟨A, [M0], firstLink ([M0].map (run A)), nm "g", .instr (dfs (nm "g")), lk, links_exist (fun _ => rfl) lk.ok,
    fun _ => rfl, by decide +kernel, ?_, .lib rfl (by rfl) (.inr ⟨_, _, rfl, .tail _ (.head _), rfl, by decide⟩)⟩
  refine .lib (by decide) (.lib (M := M0) rfl (by intro n; simp [Module.defs, M0, nm]) ?_)
  intro j N hj n
  match j with
  | 0 => cases hj; simp [Module.defs, M0, nm]
  | j + 1 => simp at hj

/-- The address of a function with variable arguments that is on the list is that of a wrapper which stops the
program. -/
theorem C75_vararg_refuted : ∃ (A : AbiList) (P : List Module) (L : Nat → Name → Option (Nat × ODef)) (g : Name) (r : ORef),
    Linkable P ∧ Links (P.map (run A)) L ∧ (∀ n, A.uninsSrc n = false) ∧
    (run A <$> P[0]?).map (fun O => O.funcs.filterMap (·.body)) = some [[r], [.stop]] ∧
    Expect A P 0 g (.lib g) ∧ ∀ t, ¬ Leads (P.map (run A)) L 0 r t := by
  let A : AbiList := listed [nm "printf"] [] [nm "printf"] []
  let M0 : Module := ⟨nm "a.c", [⟨nm "main", unit, false, some [.addr (nm "printf")]⟩, ⟨nm "printf", many, false, none⟩], []⟩
  have lk : Linkable [M0] := linkable_of (by decide +kernel)
  have hL : firstLink ([M0].map (run A)) 0 (dfsw (nm "printf")) =
      some (0, .fn ⟨dfsw (nm "printf"), false, many, false, .wrapper, some [.stop]⟩) := by rfl
  refine ⟨A, [M0], firstLink ([M0].map (run A)), nm "printf", .addr (dfsw (nm "printf")), lk, links_exist (fun _ => rfl) lk.ok,
    fun _ => rfl, by decide +kernel, ?_, ?_⟩
  · refine .lib (by decide) (.lib (M := M0) rfl (by intro n; simp [Module.defs, M0, nm]) ?_)
    intro j N hj n
    match j with
    | 0 => cases hj; simp [Module.defs, M0, nm]
    | j + 1 => simp at hj
  · intro t h
    cases h with
    | lib hs h => cases hs; rw [hL] at h; cases h
    | own hs h ho => cases hs; rw [hL] at h; cases h; cases ho
    | wrapper hs h _ hb _ hn =>
      cases hs; rw [hL] at h; cases h; cases hb
      cases hn with
      | lib hs => cases hs
      | own hs => cases hs
      | wrapper hs => cases hs
      | alias hs => cases hs
    | alias hs h => cases hs; rw [hL] at h; cases h

/-- A function declared with other arguments elsewhere (`int f();`): the linker may keep the wrapper made for that
declaration, which stops the program. -/
theorem C75_declared_refuted : ∃ (A : AbiList) (P : List Module) (L : Nat → Name → Option (Nat × ODef)) (g : Name) (r : ORef),
    (∀ M ∈ P, M.Ok) ∧ Covers A P ∧ Links (P.map (run A)) L ∧
    (run A <$> P[1]?).map (fun O => (O.funcs.filter fun F => F.origin ≠ .wrapper).filterMap (·.body)) = some [[r]] ∧
    Expect A P 1 g (.lib g) ∧ ∀ t, ¬ Leads (P.map (run A)) L 1 r t := by
  let A : AbiList := listed [nm "f"] [] [nm "f"] []
  let M0 : Module := ⟨nm "a.c", [⟨nm "f", ⟨0, true, false⟩, false, none⟩], []⟩
  let M1 : Module := ⟨nm "b.c", [⟨nm "main", unit, false, some [.addr (nm "f")]⟩, ⟨nm "f", one, false, none⟩], []⟩
  have ok : ∀ M ∈ [M0, M1], M.Ok := by
    intro M hM
    simp only [List.mem_cons, List.not_mem_nil, or_false] at hM
    rcases hM with rfl | rfl <;> exact okB_sound (by decide +kernel)
  have hL : firstLink ([M0, M1].map (run A)) 1 (dfsw (nm "f")) =
      some (0, .fn ⟨dfsw (nm "f"), false, ⟨0, true, false⟩, false, .wrapper, some [.stop]⟩) := by rfl
  refine ⟨A, [M0, M1], firstLink ([M0, M1].map (run A)), nm "f", .addr (dfsw (nm "f")), ok,
    covers_of (fun _ => rfl) (by decide +kernel), links_exist (fun _ => rfl) (fun i M hi => ok M (List.mem_of_getElem? hi)),
    by decide +kernel, ?_, ?_⟩
  · refine .lib (by decide) (.lib (M := M1) rfl (by intro n; simp [Module.defs, M1, nm]) ?_)
    intro j N hj n
    match j with
    | 0 => cases hj; simp [Module.defs, M0, nm]
    | 1 => cases hj; simp [Module.defs, M1, nm]
    | j + 2 => simp at hj
  · intro t h
    cases h with
    | lib hs h => cases hs; rw [hL] at h; cases h
    | own hs h ho => cases hs; rw [hL] at h; cases h; cases ho
    | wrapper hs h _ hb _ hn =>
      cases hs; rw [hL] at h; cases h; cases hb
      cases hn with
      | lib hs => cases hs
      | own hs => cases hs
      | wrapper hs => cases hs
      | alias hs => cases hs
    | alias hs h => cases hs; rw [hL] at h; cases h

/-- An alias that is on the list together with its function: the alias becomes one of the wrapper, so calls that pass no
labels run code that reads labels of arguments, which some other call left. -/
theorem C75_alias_refuted : ∃ (A : AbiList) (P : List Module) (L : Nat → Name → Option (Nat × ODef)) (g f : Name) (W : OFunc),
    Linkable P ∧ Links (P.map (run A)) L ∧ (∀ n, A.uninsSrc n = false) ∧
    (run A <$> P[0]?).map (fun O => (O.funcs.filter fun F => F.origin ≠ .wrapper).filterMap (·.body)) = some [[.native g]] ∧
    Expect A P 0 g (.fn 1 f) ∧ L 0 g = some (1, .alias ⟨g, false, dfsw f⟩) ∧ L 1 (dfsw f) = some (1, .fn W) ∧
    W.native = false ∧ W.sig.params = 1 ∧ ∀ t, ¬ Leads (P.map (run A)) L 0 (.native g) t := by
  let A : AbiList := listed [nm "f", nm "g"] [] [nm "f", nm "g"] []
  let M0 : Module := ⟨nm "a.c", [⟨nm "main", unit, false, some [.call (nm "g")]⟩, ⟨nm "g", one, false, none⟩], []⟩
  let M1 : Module := ⟨nm "b.c", [⟨nm "f", one, false, some []⟩], [⟨nm "g", false, nm "f"⟩]⟩
  have lk : Linkable [M0, M1] := linkable_of (by decide +kernel)
  have hL : firstLink ([M0, M1].map (run A)) 0 (nm "g") = some (1, .alias ⟨nm "g", false, dfsw (nm "f")⟩) := by rfl
  have hL' : firstLink ([M0, M1].map (run A)) 1 (dfsw (nm "f")) =
      some (1, .fn ⟨dfsw (nm "f"), false, one, false, .wrapper, some [.native (nm "f")]⟩) := by rfl
  refine ⟨A, [M0, M1], firstLink ([M0, M1].map (run A)), nm "g", nm "f", _, lk, links_exist (fun _ => rfl) lk.ok, fun _ => rfl,
    by decide +kernel, ?_, hL, hL', rfl, rfl, ?_⟩
  · refine .fn (by decide) ?_ (by decide)
    exact .ext (M := M0) (N := M1) rfl (by intro n; simp [Module.defs, M0, nm]) rfl (by decide +kernel)
  · intro t h
    cases h with
    | lib hs h => cases hs; rw [hL] at h; cases h
    | own hs h => cases hs; rw [hL] at h; cases h
    | wrapper hs h => cases hs; rw [hL] at h; cases h
    | alias hs h hn =>
      cases hs; rw [hL] at h; cases h
      cases hn with
      | lib hs h => cases hs; rw [hL'] at h; cases h
      | own hs h ho => cases hs; rw [hL'] at h; cases h; cases ho
      | wrapper hs h _ _ ha =>
        cases hs; rw [hL'] at h; cases h
        rcases ha with h | h
        · revert h; decide
        · have := h.2 ⟨_, rfl⟩
          cases this
      | alias hs h => cases hs; rw [hL'] at h; cases h

/-! ### Examples -/

/-- A program of two modules with local functions of the same name, an alias, a listed alias, custom functions and
functions of libraries meets the conditions. -/
example : ∃ F ∈ prog0.funcs, F.name = nm "main" ∧ ∃ b, F.body = some b ∧ b.length = 9 ∧
    Linkable [prog0, prog1] ∧ Covers progA [prog0, prog1] ∧
    Links ([prog0, prog1].map (run progA)) (firstLink ([prog0, prog1].map (run progA))) :=
  ⟨_, .head _, rfl, _, rfl, rfl, prog_linkable, prog_covers, prog_links⟩

/-- Uses in the result of `main`. -/
example : ((run progA prog0).funcs.filter fun F => F.origin = .own (nm "main")).map (·.body) =
    [some [.instr (nm "dfs$helper"), .instr (nm "dfs$work"), .custom (nm "read"), .native (nm "free"), .native (nm "printf"),
      .addr (nm "dfsw$free"), .addr (nm "dfs$helper"), .native (nm "entry"), .instr (nm "abort")]] := by decide +kernel

/-- The listed alias `entry` became a function; its call leads to `doWork` of the other module. -/
example : Expect progA [prog0, prog1] 0 (nm "entry") (.fn 1 (nm "doWork")) :=
  .fn (by decide) (.ext (M := prog0) (N := prog1) rfl (by intro n; simp [Module.defs, prog0, nm]) rfl (by decide +kernel)) (by decide)

/-- Native calls: the listed function `f` of one module, called from another. -/
example : ∃ (A : AbiList) (M N : Module) (F : Func), Linkable [M, N] ∧ Covers A [M, N] ∧ F ∈ M.funcs ∧
    F.body.isSome = true ∧ F.loc = false ∧ A.unins F.name = true ∧ N.isLoc F.name = false :=
  ⟨listed [nm "f"] [] [nm "f"] [], ⟨nm "a.c", [⟨nm "f", one, false, some []⟩], []⟩,
    ⟨nm "b.c", [⟨nm "main", unit, false, some [.call (nm "f")]⟩, ⟨nm "f", one, false, none⟩], []⟩,
    ⟨nm "f", one, false, some []⟩, linkable_of (by decide +kernel), covers_of (fun _ => rfl) (by decide +kernel), by decide,
    rfl, rfl, by decide, by decide⟩

end Verif
