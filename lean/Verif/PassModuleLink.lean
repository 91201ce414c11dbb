import Verif.PassModuleFacts
/- Symbols of the result of the data-flow pass, linked. -/
namespace Verif.PassModule

variable {A : AbiList} {P : List Module} {L : Nat → Name → Option (Nat × ODef)}

theorem defs_name {M : Module} {g : Name} {l : Bool} {n : Name} (h : (g, l, n) ∈ M.defs) :
    g ∈ M.funcs.map (·.name) ++ M.aliases.map (·.name) := by
  rcases mem_defs h with ⟨F, hF, -, rfl, -, -⟩ | ⟨a, ha, rfl, -, -⟩
  · exact List.mem_append_left _ (List.mem_map_of_mem hF)
  · exact List.mem_append_right _ (List.mem_map_of_mem ha)

theorem isLoc_false {M : Module} (ok : M.Ok) {g : Name} (h : ∀ n, (g, true, n) ∉ M.defs) : M.isLoc g = false := by
  cases hl : M.isLoc g with
  | false => rfl
  | true =>
    exfalso
    simp only [Module.isLoc, Bool.or_eq_true, List.any_eq_true, Bool.and_eq_true, decide_eq_true_eq] at hl
    rcases hl with ⟨F, hF, rfl, hl⟩ | ⟨a, ha, rfl, hl⟩
    · exact h F.name (hl ▸ defs_func hF (ok.locDef F hF hl))
    · exact h a.base (hl ▸ defs_alias ha)

theorem not_loc {M : Module} (ok : M.Ok) {g n : Name} (h : (g, false, n) ∈ M.defs) : ∀ m, (g, true, m) ∉ M.defs := by
  intro m hm
  have := (defs_once ok h hm).1
  cases this

theorem find_alias {M : Module} (ok : M.Ok) {a : Alias} (ha : a ∈ M.aliases) :
    (M.aliases.find? fun b => b.name = a.name) = some a :=
  find_nodup Alias.name _ _ (List.nodup_append.1 ok.names).2.1 ha

theorem sig_all {M : Module} (ok : M.Ok) {F : Func} (h : F ∈ allFuncs A M) : M.sig F.name = some F.sig := by
  rcases List.mem_append.1 h with h | h
  · simp [Module.sig, func_mem ok h]
  · obtain ⟨a, ha, hm⟩ := List.mem_filterMap.1 h
    obtain ⟨h1, -, G, h2, h3, -, -⟩ := mixed_name hm
    rw [Module.sig, h1, func_none ok ha]
    simp [find_alias ok ha, h2, h3]

theorem sig_exists {M : Module} (ok : M.Ok) {g : Name} (h : g ∈ M.funcs.map (·.name) ++ M.aliases.map (·.name)) :
    ∃ s, M.sig g = some s := by
  rcases List.mem_append.1 h with h | h
  · obtain ⟨F, hF, rfl⟩ := List.mem_map.1 h
    exact ⟨_, sig_all (A := ⟨fun _ => true, fun _ => true, fun _ => true, fun _ => true, fun _ => true⟩) ok
      (List.mem_append_left _ hF)⟩
  · obtain ⟨a, ha, rfl⟩ := List.mem_map.1 h
    obtain ⟨F, hF, hn, -⟩ := ok.base a ha
    refine ⟨F.sig, ?_⟩
    simp [Module.sig, func_none ok ha, find_alias ok ha, ← hn, func_mem ok hF]

theorem get_run {i : Nat} {M : Module} (h : P[i]? = some M) : (P.map (run A))[i]? = some (run A M) := by
  simp [h]

theorem get_run_inv {i : Nat} {O : OModule} (h : (P.map (run A))[i]? = some O) :
    ∃ M, P[i]? = some M ∧ O = run A M := by
  rw [List.getElem?_map] at h
  cases hM : P[i]? with
  | none => rw [hM] at h; cases h
  | some M => rw [hM] at h; cases h; exact ⟨M, rfl, rfl⟩

/-- The pass and the linker. -/
structure Setup (A : AbiList) (P : List Module) (L : Nat → Name → Option (Nat × ODef)) : Prop where
  lk : Linkable P
  cv : Covers A P
  ln : Links (P.map (run A)) L

/-- What the symbol of a definition is linked to. -/
theorem resolve (S : Setup A P L) {i : Nat} {M : Module} {g : Name} (hi : P[i]? = some M) (hg : Plain g) :
    (∃ j N n d, L i (pre A g) = some (j, d) ∧ P[j]? = some N ∧ Canon A N g n d ∧ (g, d.loc, n) ∈ N.defs ∧
      Stands P i g (.fn j n) ∧ ((d.loc = true ∧ j = i) ∨ (d.loc = false ∧ ∀ n, (g, true, n) ∉ M.defs))) ∨
    (L i (pre A g) = none ∧ Stands P i g (.lib g)) := by
  have hs := S.cv.src
  have ok := S.lk.ok i M hi
  by_cases hl : ∃ n, (g, true, n) ∈ M.defs
  · obtain ⟨n, hn⟩ := hl
    obtain ⟨d, hd, hc, hdl, hdn⟩ := canon_exists hs ok hn
    refine .inl ⟨i, M, n, d, ?_, hi, hc, hdl ▸ hn, .loc hi hn, .inl ⟨hdl, rfl⟩⟩
    rw [← hdn]
    exact S.ln.here i _ d (get_run hi) hd hdl
  · have hl : ∀ n, (g, true, n) ∉ M.defs := fun n hn => hl ⟨n, hn⟩
    have hnl : ∀ d ∈ (run A M).defs, d.name = pre A g → d.loc = false := by
      intro d hd hdn
      rcases canon_of hs ok hd with ⟨F, -, -, rfl⟩ | ⟨g', n, -, hm, hn⟩
      · exact absurd hdn.symm (pre_dfsw hg)
      · have := pre_inj (ok.plain _ (defs_name hm)) hg (hn.symm.trans hdn)
        subst this
        cases hb : d.loc with
        | false => rfl
        | true => rw [hb] at hm; exact absurd hm (hl n)
    cases hL : L i (pre A g) with
    | none =>
      refine .inr ⟨rfl, .lib hi hl ?_⟩
      intro j N hj n hn
      obtain ⟨d, hd, -, hdl, hdn⟩ := canon_exists hs (S.lk.ok j N hj) hn
      have := S.ln.missing i _ _ (get_run hi) hL j _ d (get_run hj) hd hdn
      rw [hdl] at this; cases this
    | some x =>
      obtain ⟨j, d⟩ := x
      obtain ⟨hdn, hdl, O', hO', hd⟩ := S.ln.found i _ _ j d (get_run hi) hnl hL
      obtain ⟨N, hj, rfl⟩ := get_run_inv hO'
      have okN := S.lk.ok j N hj
      rcases canon_of hs okN hd with ⟨F, -, -, rfl⟩ | ⟨g', n, hc, hm, hn⟩
      · exact absurd hdn.symm (pre_dfsw hg)
      · have := pre_inj (okN.plain _ (defs_name hm)) hg (hn.symm.trans hdn)
        subst this
        refine .inl ⟨j, N, n, d, rfl, hj, hc, hm, .ext hi hl hj (hdl ▸ hm), .inr ⟨hdl, hl⟩⟩

/-- The symbol of a function that is defined in the module is linked to it. -/
theorem own_link (S : Setup A P L) {j : Nat} {N : Module} {F : Func} (hj : P[j]? = some N) (hF : F ∈ N.funcs)
    (hb : F.body.isSome = true) : L j (pre A F.name) = some (j, .fn (ownOut A N F)) := by
  have ok := S.lk.ok j N hj
  have hd := defs_func hF hb
  rcases resolve S hj (ok.plain _ (defs_name hd)) with ⟨j', N', n, d, hL, hj', hc, hm, -, hw⟩ | ⟨-, hlib⟩
  · have e : j' = j := by
      rcases hw with ⟨-, e⟩ | ⟨hl, hn⟩
      · exact e
      · cases hFl : F.loc with
        | true => rw [hFl] at hd; exact absurd hd (hn _)
        | false =>
          rw [hFl] at hd
          rw [hl] at hm
          exact S.lk.unique _ _ _ _ _ _ _ hj' hj hm hd
    subst e
    rw [hj] at hj'
    cases hj'
    rw [hL]
    cases hc with
    | own hG _ he => rw [func_eq ok hG hF he]
    | mixed ha he _ => exact absurd he.symm (func_alias ok hF ha)
    | kept ha he _ => exact absurd he.symm (func_alias ok hF ha)
  · exfalso
    cases hlib with
    | lib hj' hl hn =>
      rw [hj] at hj'; cases hj'
      cases hFl : F.loc with
      | true => rw [hFl] at hd; exact hl _ hd
      | false => rw [hFl] at hd; exact hn j N hj _ hd

theorem own_func {M : Module} (ok : M.Ok) {F : Func} (hF : F ∈ M.funcs) : own M F = .own F.name := by
  simp [own, func_mem ok hF]

theorem own_mixed {M : Module} (ok : M.Ok) {a : Alias} (ha : a ∈ M.aliases) {F : Func} (hm : mixed A M a = some F) :
    own M F = .wrapper := by
  simp [own, (mixed_name hm).1, func_none ok ha]

theorem wrapped_inst (hs : ∀ n, A.uninsSrc n = false) {src : Name} {F : Func} (h : A.unins F.name = false) :
    wrapped A src F = false := by
  simp [wrapped, inst_eq hs, h]

theorem useSym_pre (hs : ∀ n, A.uninsSrc n = false) {src : Name} {F : Func} (h : wrapped A src F = false) :
    useSym A src F = pre A F.name := by
  simp only [useSym, h, inst_eq hs, pre]
  cases A.unins F.name <;> simp

/-- A call of a function defined in the module. -/
theorem base_call (S : Setup A P L) {j : Nat} {N : Module} {F : Func} (hj : P[j]? = some N) (hF : F ∈ N.funcs)
    (hb : F.body.isSome = true) :
    Leads (P.map (run A)) L j (useRef A N (.call F.name))
      (if A.unins F.name = true ∧ kind A F.name = .custom then .custom F.name else .fn j F.name) := by
  have hs := S.cv.src
  have ok := S.lk.ok j N hj
  have hk : look A N F.name = some F := look_mem ok (List.mem_append_left _ hF)
  have hL := own_link S hj hF hb
  simp only [useRef, hk]
  by_cases hw : wrapped A N.src F = true
  · have hu : A.unins F.name = true := by
      cases h : A.unins F.name with
      | true => rfl
      | false => rw [wrapped_inst hs h] at hw; cases hw
    rw [if_pos hw]
    by_cases hc : kind A F.name = .custom
    · rw [if_pos hc, if_pos ⟨hu, hc⟩]
      exact .custom
    · rw [if_neg hc, if_neg (fun h => hc h.2)]
      refine .own (s := F.name) rfl (by simpa [pre, hu] using hL) (own_func ok hF) (by simpa [ownOut] using hb) (.inr ?_)
      exact ⟨fun _ => ⟨_, rfl⟩, fun _ => hw⟩
  · have hw : wrapped A N.src F = false := by simpa using hw
    rw [if_neg (by simp [hw]), if_neg]
    · refine .own (s := pre A F.name) ?_ hL (own_func ok hF) (by simpa [ownOut] using hb) (.inr ?_)
      · simp [ORef.sym, sym, hk, useSym_pre hs hw]
      · constructor
        · intro h
          have h : wrapped A N.src F = true := h
          rw [hw] at h; cases h
        · rintro ⟨s, hs⟩; cases hs
    · rintro ⟨h1, h2⟩
      simp [wrapped, inst_eq hs, h1, h2] at hw

theorem listed_custom {g : Name} : ListedCustom A g ↔ kind A g = .custom := by
  unfold ListedCustom kind WrapCall.wrapperKind
  cases A.functional g <;> cases A.discard g <;> cases A.custom g <;> simp

theorem silent_iff {s : Sig} : s.Silent ↔ zeroArgs s = true := by
  simp [Sig.Silent, zeroArgs, and_assoc]

theorem mkCustom {i : Nat} {g : Name} (h : A.unins g = true) (h' : kind A g = .custom) : Expect A P i g (.custom g) :=
  .custom h (listed_custom.2 h')

theorem mkAlias {i j : Nat} {g n : Name} (h : ¬ (A.unins g = true ∧ kind A g = .custom)) (hs : Stands P i g (.fn j n))
    (h1 : A.unins n = true) (h2 : kind A n = .custom) : Expect A P i g (.custom n) :=
  .alias (by rwa [listed_custom]) hs h1 (listed_custom.2 h2)

theorem mkFn {i j : Nat} {g n : Name} (h : ¬ (A.unins g = true ∧ kind A g = .custom)) (hs : Stands P i g (.fn j n))
    (h1 : ¬ (A.unins n = true ∧ kind A n = .custom)) : Expect A P i g (.fn j n) :=
  .fn (by rwa [listed_custom]) hs (by rwa [listed_custom])

theorem mkLib {i : Nat} {g : Name} (h : ¬ (A.unins g = true ∧ kind A g = .custom)) (hs : Stands P i g (.lib g)) :
    Expect A P i g (.lib g) := .lib (by rwa [listed_custom]) hs

theorem look_unins (S : Setup A P L) {i : Nat} {M : Module} {g : Name} (hi : P[i]? = some M)
    (hg : g ∈ M.funcs.map (·.name) ++ M.aliases.map (·.name)) (hu : A.unins g = true) : ∃ F, look A M g = some F := by
  have hs := S.cv.src
  have ok := S.lk.ok i M hi
  rcases List.mem_append.1 hg with hg | hg
  · obtain ⟨F, hF, rfl⟩ := List.mem_map.1 hg
    exact ⟨F, look_mem ok (List.mem_append_left _ hF)⟩
  · obtain ⟨a, ha, rfl⟩ := List.mem_map.1 hg
    cases hx : mixed A M a with
    | some F => exact ⟨F, (mixed_name hx).1 ▸ look_mem ok (mixed_mem ha hx)⟩
    | none =>
      exfalso
      obtain ⟨G, hG, hGn, -⟩ := ok.base a ha
      unfold mixed at hx
      rw [← hGn, func_mem ok hG] at hx
      simp only [inst_eq hs] at hx
      split at hx
      · cases hx
      · rename_i h
        rw [hGn, hu] at h
        refine S.cv.alias i M a hi ha ⟨hu, ?_⟩
        simpa using h

/-- The instrumented definition at the end of a use. -/
theorem step (S : Setup A P L) {i : Nat} {M : Module} {g : Name} {s : Sig} {r : ORef} (hi : P[i]? = some M)
    (hg : g ∈ M.funcs.map (·.name) ++ M.aliases.map (·.name)) (hsig : M.sig g = some s) (hr : r.sym = some (pre A g))
    (fit : (A.unins g = false ∧ ¬ ∃ x, r = .native x) ∨ (A.unins g = true ∧ (zeroArgs s = true ∨ ∃ x, r = .native x)))
    (hE : ¬ (A.unins g = true ∧ kind A g = .custom)) : ∃ t, Expect A P i g t ∧ Leads (P.map (run A)) L i r t := by
  have hs := S.cv.src
  have okM := S.lk.ok i M hi
  rcases resolve S hi (okM.plain g hg) with ⟨j, N, n, d, hL, hj, hc, hm, hst, hw⟩ | ⟨hL, hst⟩
  · have ok := S.lk.ok j N hj
    have hsN : N.sig g = some s := by
      rcases hw with ⟨-, rfl⟩ | ⟨hl, hn⟩
      · rw [hi] at hj; cases hj; exact hsig
      · rw [hl] at hm
        obtain ⟨s', hs'⟩ := sig_exists ok (defs_name hm)
        rw [hs', S.lk.sigs i j M N g s s' hi hj (isLoc_false okM hn) (isLoc_false ok (not_loc ok hm)) hsig hs']
    have agree : ∀ F ∈ allFuncs A N, F.name = g → Agree r (ownOut A N F) := by
      rintro F hF rfl
      have h1 := sig_all ok hF
      rw [hsN] at h1
      have h1 : s = F.sig := by simpa using h1
      subst h1
      rcases fit with ⟨hu, hx⟩ | ⟨hu, hx⟩
      · refine .inr ⟨fun h => ?_, fun h => absurd h hx⟩
        have h : wrapped A N.src F = true := h
        rw [wrapped_inst hs hu] at h; cases h
      · by_cases hz : zeroArgs F.sig = true
        · exact .inl (silent_iff.2 hz)
        · refine .inr ⟨fun _ => hx.resolve_left hz, fun _ => ?_⟩
          show wrapped A N.src F = true
          simp [wrapped, inst_eq hs, hu, hz]
    have exp : ∀ m, Stands P i g (.fn j m) →
        Expect A P i g (if A.unins m = true ∧ kind A m = .custom then .custom m else .fn j m) := by
      intro m hm
      by_cases h : A.unins m = true ∧ kind A m = .custom
      · rw [if_pos h]; exact mkAlias hE hm h.1 h.2
      · rw [if_neg h]; exact mkFn hE hm h
    refine ⟨_, exp n hst, ?_⟩
    cases hc with
    | own hF hb he =>
      rw [if_neg hE]
      refine he ▸ .own hr hL (own_func ok hF) (by simpa [ownOut] using hb) (agree _ (List.mem_append_left _ hF) he)
    | @mixed a F ha he hx =>
      obtain ⟨h1, -, G, h2, h3, h4, h5⟩ := mixed_name hx
      obtain ⟨hG, hGn⟩ := func_some h2
      obtain ⟨G', hG', hGn', hGb⟩ := ok.base a ha
      have := func_eq ok hG' hG (hGn'.trans hGn.symm)
      subst this
      have hv : G'.sig.vararg = false := by
        cases hv : G'.sig.vararg with
        | false => rfl
        | true =>
          have := S.cv.vararg j N a G' hj ha hG' hGn' hv
          rw [inst_eq hs, inst_eq hs, this, hGn] at h5
          exact absurd rfl h5
      have hcall := base_call S hj hG' hGb
      rw [hGn] at hcall
      refine .wrapper (r' := useRef A N (.call a.base)) hr hL (own_mixed ok ha hx) ?_ (agree _ (mixed_mem ha hx) (h1.trans he)) hcall
      simp [ownOut, h4, wrapperBody, hv, hGn]
    | @kept a ha he hx =>
      obtain ⟨G, hG, hGn, hGb⟩ := ok.base a ha
      have hfG := func_mem ok hG
      have hsame : A.unins a.name = A.unins a.base := by
        unfold mixed at hx
        rw [← hGn, hfG] at hx
        simp only [inst_eq hs] at hx
        split at hx
        · cases hx
        · rename_i h
          rw [hGn] at h
          simpa using h
      have hub : A.unins a.base = false := by
        cases h : A.unins a.base with
        | false => rfl
        | true => exact absurd ⟨hsame.trans h, h⟩ (S.cv.alias j N a hj ha)
      rw [if_neg (by simp [hub])]
      have hw : wrapped A N.src G = false := wrapped_inst hs (by rw [hGn]; exact hub)
      have hk : look A N G.name = some G := look_mem ok (List.mem_append_left _ hG)
      have hsym : sym A N a.base = pre A G.name := by
        rw [← hGn]
        simp only [sym, hk]
        exact useSym_pre hs hw
      have hnn : ¬ ∃ x, r = .native x := by
        rcases fit with ⟨-, h⟩ | ⟨h, -⟩
        · exact h
        · rw [← he, hsame, hub] at h; cases h
      refine .alias hr hL ?_
      show Leads (P.map (run A)) L j (r.at (sym A N a.base)) _
      rw [hsym, ← hGn]
      refine .own (s := pre A G.name) ?_ (own_link S hj hG hGb) (own_func ok hG) (by simpa [ownOut] using hGb) (.inr ?_)
      · cases r with
        | custom => simp [ORef.sym] at hr
        | stop => simp [ORef.sym] at hr
        | _ => rfl
      · constructor
        · intro h
          have h : wrapped A N.src G = true := h
          rw [hw] at h; cases h
        · rintro ⟨x, h⟩
          cases r with
          | native y => exact absurd ⟨y, rfl⟩ hnn
          | _ => simp [ORef.at] at h
  · have hu : A.unins g = true := by
      cases h : A.unins g with
      | true => rfl
      | false =>
        exfalso
        cases hst with
        | lib hi' hl hn =>
          rw [hi] at hi'; cases hi'
          have key : ∀ l n, (g, l, n) ∉ M.defs := by
            intro l n hln
            cases l with
            | true => exact hl n hln
            | false => exact hn i M hi n hln
          rcases List.mem_append.1 hg with hg | hg
          · obtain ⟨F, hF, rfl⟩ := List.mem_map.1 hg
            cases hb : F.body with
            | none =>
              obtain ⟨j, N, n, hj, hm⟩ := S.cv.closed i M F hi hF hb h
              exact hn j N hj n hm
            | some b => exact key _ _ (defs_func hF (by simp [hb]))
          · obtain ⟨a, ha, rfl⟩ := List.mem_map.1 hg
            exact key _ _ (defs_alias ha)
    refine ⟨.lib g, mkLib hE hst, .lib (s := g) ?_ ?_ ?_⟩
    · rw [hr, pre, if_pos hu]
    · rw [pre, if_pos hu] at hL; exact hL
    · rcases fit with ⟨h, -⟩ | ⟨-, hz | hx⟩
      · rw [hu] at h; cases h
      · obtain ⟨F, hk⟩ := look_unins S hi hg hu
        obtain ⟨hF, rfl⟩ := look_some hk
        have h1 := sig_all okM hF
        rw [hsig] at h1
        have h1 : s = F.sig := by simpa using h1
        subst h1
        refine .inr ⟨_, ownOut A M F, get_run hi, List.mem_flatMap.2 ⟨F, hF, by rw [outFuncs_eq]; simp⟩, ?_, silent_iff.2 hz⟩
        rw [ownOut_name hs, pre, if_pos hu]
      · exact .inl hx

/-- A call. -/
theorem call_leads (S : Setup A P L) {i : Nat} {M : Module} {g : Name} (hi : P[i]? = some M)
    (hg : g ∈ M.funcs.map (·.name) ++ M.aliases.map (·.name)) :
    ∃ t, Expect A P i g t ∧ Leads (P.map (run A)) L i (useRef A M (.call g)) t := by
  have hs := S.cv.src
  have ok := S.lk.ok i M hi
  obtain ⟨s, hsig⟩ := sig_exists ok hg
  cases hu : A.unins g with
  | false =>
    have hE : ¬ (A.unins g = true ∧ kind A g = .custom) := by simp [hu]
    have key : useRef A M (.call g) = .instr (pre A g) := by
      cases hk : look A M g with
      | none => simp [useRef, hk, sym, inst_eq hs, hu, pre]
      | some F =>
        obtain ⟨-, rfl⟩ := look_some hk
        simp [useRef, hk, sym, wrapped_inst hs hu, useSym_pre hs (wrapped_inst hs hu)]
    rw [key]
    exact step S hi hg hsig rfl (.inl ⟨hu, by simp⟩) hE
  | true =>
    obtain ⟨F, hk⟩ := look_unins S hi hg hu
    obtain ⟨hF, rfl⟩ := look_some hk
    have h1 := sig_all ok hF
    rw [hsig] at h1
    have h1 : s = F.sig := by simpa using h1
    subst h1
    simp only [useRef, hk]
    by_cases hc : kind A F.name = .custom
    · have hw : wrapped A M.src F = true := by simp [wrapped, inst_eq hs, hu, hc]
      rw [if_pos hw, if_pos hc]
      exact ⟨_, mkCustom hu hc, .custom⟩
    · have hE : ¬ (A.unins F.name = true ∧ kind A F.name = .custom) := fun h => hc h.2
      by_cases hw : wrapped A M.src F = true
      · rw [if_pos hw, if_neg hc]
        exact step S hi hg hsig (by simp [ORef.sym, pre, hu]) (.inr ⟨hu, .inr ⟨_, rfl⟩⟩) hE
      · have hw : wrapped A M.src F = false := by simpa using hw
        rw [if_neg (by simp [hw])]
        have hz : zeroArgs F.sig = true := by
          simp only [wrapped, inst_eq hs, hu, Bool.not_true, Bool.not_false, Bool.true_and, Bool.or_eq_false_iff] at hw
          simpa using hw.1
        exact step S hi hg hsig (by simp [ORef.sym, sym, hk, useSym_pre hs hw]) (.inr ⟨hu, .inl hz⟩) hE

/-- Names that are local in neither module stand for the same. -/
theorem stands_transfer {i j : Nat} {M N : Module} {g : Name} {t : Target} (hi : P[i]? = some M) (hj : P[j]? = some N)
    (hM : ∀ n, (g, true, n) ∉ M.defs) (hN : ∀ n, (g, true, n) ∉ N.defs) (h : Stands P j g t) : Stands P i g t := by
  cases h with
  | loc hj' hn => rw [hj] at hj'; cases hj'; exact absurd hn (hN _)
  | ext _ _ hk hn => exact .ext hi hM hk hn
  | lib _ _ hn => exact .lib hi hM hn

theorem expect_transfer {i j : Nat} {M N : Module} {g : Name} {t : Target} (hi : P[i]? = some M) (hj : P[j]? = some N)
    (hM : ∀ n, (g, true, n) ∉ M.defs) (hN : ∀ n, (g, true, n) ∉ N.defs) (h : Expect A P j g t) : Expect A P i g t := by
  cases h with
  | custom h1 h2 => exact .custom h1 h2
  | alias h1 h2 h3 h4 => exact .alias h1 (stands_transfer hi hj hM hN h2) h3 h4
  | fn h1 h2 h3 => exact .fn h1 (stands_transfer hi hj hM hN h2) h3
  | lib h1 h2 => exact .lib h1 (stands_transfer hi hj hM hN h2)

theorem loc_of_all {M : Module} (ok : M.Ok) {F : Func} (hF : F ∈ allFuncs A M) (n : Name) (h : (F.name, true, n) ∈ M.defs) :
    F.loc = true := by
  rcases List.mem_append.1 hF with hF | hF
  · rcases mem_defs h with ⟨G, hG, -, he, hl, -⟩ | ⟨a, ha, he, -, -⟩
    · rw [← func_eq ok hG hF he]; exact hl
    · exact absurd he.symm (func_alias ok hF ha)
  · obtain ⟨a, ha, hx⟩ := List.mem_filterMap.1 hF
    rw [(mixed_name hx).1] at h
    rw [(mixed_name hx).2.1]
    exact (defs_once ok (defs_alias ha) h).1

theorem def_of_loc {M : Module} (ok : M.Ok) {F : Func} (hF : F ∈ allFuncs A M) (h : F.loc = true) :
    ∃ n, (F.name, true, n) ∈ M.defs := by
  rcases List.mem_append.1 hF with hF | hF
  · exact ⟨_, h ▸ defs_func hF (ok.locDef F hF h)⟩
  · obtain ⟨a, ha, hx⟩ := List.mem_filterMap.1 hF
    obtain ⟨h1, h2, -⟩ := mixed_name hx
    rw [h1]
    exact ⟨_, h ▸ h2 ▸ defs_alias ha⟩

/-- Another use. -/
theorem addr_leads (S : Setup A P L) {i : Nat} {M : Module} {g : Name} {s : Sig} (hi : P[i]? = some M)
    (hg : g ∈ M.funcs.map (·.name) ++ M.aliases.map (·.name)) (hsig : M.sig g = some s)
    (hv : s.vararg = true → A.unins g = false) :
    ∃ t, Expect A P i g t ∧ Leads (P.map (run A)) L i (useRef A M (.addr g)) t := by
  have hs := S.cv.src
  have ok := S.lk.ok i M hi
  cases hu : A.unins g with
  | false =>
    have hE : ¬ (A.unins g = true ∧ kind A g = .custom) := by simp [hu]
    have key : useRef A M (.addr g) = .addr (pre A g) := by
      cases hk : look A M g with
      | none => simp [useRef, hk, sym, inst_eq hs, hu, pre]
      | some F =>
        obtain ⟨-, rfl⟩ := look_some hk
        simp [useRef, hk, sym, useSym_pre hs (wrapped_inst hs hu)]
    rw [key]
    exact step S hi hg hsig rfl (.inl ⟨hu, by simp⟩) hE
  | true =>
    obtain ⟨F, hk⟩ := look_unins S hi hg hu
    obtain ⟨hF, rfl⟩ := look_some hk
    have h1 := sig_all ok hF
    rw [hsig] at h1
    have h1 : s = F.sig := by simpa using h1
    subst h1
    have hnv : F.sig.vararg = false := by
      cases h : F.sig.vararg with
      | false => rfl
      | true => rw [hv h] at hu; cases hu
    by_cases hw : wrapped A M.src F = true
    · have hus : useRef A M (.addr F.name) = .addr (dfsw F.name) := by
        simp [useRef, sym, hk, useSym, inst_eq hs, hu, hw]
      rw [hus]
      have hmem := wrap_mem hF hw
      by_cases hl : F.loc = true
      · have hL := S.ln.here i _ _ (get_run hi) hmem hl
        obtain ⟨t, h1, h2⟩ := call_leads S hi hg
        refine ⟨t, h1, .wrapper (s := dfsw F.name) (r' := useRef A M (.call F.name)) rfl hL rfl ?_ (.inr ?_) h2⟩
        · simp [wrapOut, wrapperBody, hnv]
        · simp [wrapOut]
      · have hl : F.loc = false := by simpa using hl
        have hMl : ∀ n, (F.name, true, n) ∉ M.defs := fun n h => by rw [loc_of_all ok hF n h] at hl; cases hl
        have hnl : ∀ d ∈ (run A M).defs, d.name = dfsw F.name → d.loc = false := by
          intro d hd hdn
          rcases canon_of hs ok hd with ⟨G, hG, -, rfl⟩ | ⟨g', n, -, hm, hn⟩
          · have he : G.name = F.name := dfsw_inj hdn
            have h2 := look_mem ok hG
            rw [he, hk] at h2
            cases h2
            exact hl
          · exact absurd (hn.symm.trans hdn) (pre_dfsw (ok.plain _ (defs_name hm)))
        cases hL : L i (dfsw F.name) with
        | none =>
          have := S.ln.missing i _ _ (get_run hi) hL i _ _ (get_run hi) hmem rfl
          have h3 : F.loc = true := this
          rw [hl] at h3; cases h3
        | some x =>
          obtain ⟨j, d⟩ := x
          obtain ⟨hdn, hdl, O', hO', hd⟩ := S.ln.found i _ _ j d (get_run hi) hnl hL
          obtain ⟨N, hj, rfl⟩ := get_run_inv hO'
          have okN := S.lk.ok j N hj
          rcases canon_of hs okN hd with ⟨G, hG, hGw, rfl⟩ | ⟨g', n, -, hm, hn⟩
          · have he : G.name = F.name := dfsw_inj hdn
            have hGl : G.loc = false := hdl
            have hNl : ∀ n, (G.name, true, n) ∉ N.defs := fun n h => by rw [loc_of_all okN hG n h] at hGl; cases hGl
            have hgs := sig_all okN hG
            rw [he] at hgs hNl
            have hse := S.lk.sigs i j M N _ _ _ hi hj (isLoc_false ok hMl) (isLoc_false okN hNl) hsig hgs
            obtain ⟨t, h1, h2⟩ := call_leads S hj (g := F.name) (he ▸ all_names hG)
            refine ⟨t, expect_transfer hi hj hMl hNl h1,
              .wrapper (s := dfsw F.name) (r' := useRef A N (.call F.name)) rfl hL rfl ?_ (.inr ?_) h2⟩
            · simp [wrapOut, wrapperBody, ← hse, hnv, he]
            · simp [wrapOut]
          · exact absurd (hn.symm.trans hdn) (pre_dfsw (okN.plain _ (defs_name hm)))
    · have hw : wrapped A M.src F = false := by simpa using hw
      have hz : zeroArgs F.sig = true ∧ kind A F.name ≠ .custom := by
        simp only [wrapped, inst_eq hs, hu, Bool.not_true, Bool.not_false, Bool.true_and, Bool.or_eq_false_iff] at hw
        exact ⟨by simpa using hw.1, by simpa using hw.2⟩
      exact step S hi hg hsig (by simp [ORef.sym, useRef, sym, hk, useSym_pre hs hw]) (.inr ⟨hu, .inl hz.1⟩) (fun h => hz.2 h.2)

theorem stands_unique (lk : Linkable P) {i : Nat} {g : Name} {t u : Target} (h : Stands P i g t) (h' : Stands P i g u) :
    t = u := by
  cases h with
  | loc hi hn =>
    cases h' with
    | loc hi' hn' => rw [hi] at hi'; cases hi'; rw [(defs_once (lk.ok _ _ hi) hn hn').2]
    | ext hi' hl _ _ => rw [hi] at hi'; cases hi'; exact absurd hn (hl _)
    | lib hi' hl _ => rw [hi] at hi'; cases hi'; exact absurd hn (hl _)
  | ext hi hl hj hn =>
    cases h' with
    | loc hi' hn' => rw [hi] at hi'; cases hi'; exact absurd hn' (hl _)
    | ext hi' _ hj' hn' =>
      have := lk.unique _ _ _ _ _ _ _ hj hj' hn hn'
      subst this
      rw [hj] at hj'; cases hj'
      rw [(defs_once (lk.ok _ _ hj) hn hn').2]
    | lib _ _ hx => exact absurd hn (hx _ _ hj _)
  | lib hi hl hx =>
    cases h' with
    | loc hi' hn' => rw [hi] at hi'; cases hi'; exact absurd hn' (hl _)
    | ext _ _ hj hn => exact absurd hn (hx _ _ hj _)
    | lib => rfl

theorem expect_unique (lk : Linkable P) {i : Nat} {g : Name} {t u : Target} (h : Expect A P i g t)
    (h' : Expect A P i g u) : t = u := by
  cases h with
  | custom a b =>
    cases h' with
    | custom => rfl
    | alias c => exact absurd ⟨a, b⟩ c
    | fn c => exact absurd ⟨a, b⟩ c
    | lib c => exact absurd ⟨a, b⟩ c
  | alias c s a b =>
    cases h' with
    | custom a b => exact absurd ⟨a, b⟩ c
    | alias _ s' => cases stands_unique lk s s'; rfl
    | fn _ s' n => cases stands_unique lk s s'; exact absurd ⟨a, b⟩ n
    | lib _ s' => cases stands_unique lk s s'
  | fn c s n =>
    cases h' with
    | custom a b => exact absurd ⟨a, b⟩ c
    | alias _ s' a b => cases stands_unique lk s s'; exact absurd ⟨a, b⟩ n
    | fn _ s' => exact stands_unique lk s s'
    | lib _ s' => cases stands_unique lk s s'
  | lib c s =>
    cases h' with
    | custom a b => exact absurd ⟨a, b⟩ c
    | alias _ s' => cases stands_unique lk s s'
    | fn _ s' => cases stands_unique lk s s'
    | lib => rfl

theorem leads_unique {Q : List OModule} {i : Nat} {r : ORef} {t u : Target} (h : Leads Q L i r t) (h' : Leads Q L i r u) : t = u := by
  induction h with
  | custom =>
    cases h' with
    | custom => rfl
    | lib h => cases h
    | own h => cases h
    | wrapper h => cases h
    | alias h => cases h
  | lib hs hL =>
    cases h' with
    | custom => cases hs
    | lib hs' => rw [hs] at hs'; cases hs'; rfl
    | own hs' hL' => rw [hs] at hs'; cases hs'; rw [hL] at hL'; cases hL'
    | wrapper hs' hL' => rw [hs] at hs'; cases hs'; rw [hL] at hL'; cases hL'
    | alias hs' hL' => rw [hs] at hs'; cases hs'; rw [hL] at hL'; cases hL'
  | own hs hL ho _ _ =>
    cases h' with
    | custom => cases hs
    | lib hs' hL' => rw [hs] at hs'; cases hs'; rw [hL] at hL'; cases hL'
    | own hs' hL' ho' => rw [hs] at hs'; cases hs'; rw [hL] at hL'; cases hL'; rw [ho] at ho'; cases ho'; rfl
    | wrapper hs' hL' ho' => rw [hs] at hs'; cases hs'; rw [hL] at hL'; cases hL'; rw [ho] at ho'; cases ho'
    | alias hs' hL' => rw [hs] at hs'; cases hs'; rw [hL] at hL'; cases hL'
  | wrapper hs hL ho hb _ _ ih =>
    cases h' with
    | custom => cases hs
    | lib hs' hL' => rw [hs] at hs'; cases hs'; rw [hL] at hL'; cases hL'
    | own hs' hL' ho' => rw [hs] at hs'; cases hs'; rw [hL] at hL'; cases hL'; rw [ho] at ho'; cases ho'
    | wrapper hs' hL' _ hb' _ h =>
      rw [hs] at hs'; cases hs'; rw [hL] at hL'; cases hL'; rw [hb] at hb'; cases hb'
      exact ih h
    | alias hs' hL' => rw [hs] at hs'; cases hs'; rw [hL] at hL'; cases hL'
  | alias hs hL _ ih =>
    cases h' with
    | custom => cases hs
    | lib hs' hL' => rw [hs] at hs'; cases hs'; rw [hL] at hL'; cases hL'
    | own hs' hL' ho' => rw [hs] at hs'; cases hs'; rw [hL] at hL'; cases hL'
    | wrapper hs' hL' => rw [hs] at hs'; cases hs'; rw [hL] at hL'; cases hL'
    | alias hs' hL' h =>
      rw [hs] at hs'; cases hs'; rw [hL] at hL'; cases hL'
      exact ih h

/-! ### Linkers exist -/

/-- The linker that takes the first definition. -/
def firstLink (Q : List OModule) (i : Nat) (s : Name) : Option (Nat × ODef) :=
  match (Q[i]?.map OModule.defs).bind (·.find? fun d => decide (d.name = s) && d.loc) with
  | some d => some (i, d)
  | none => (Q.zipIdx.flatMap fun x => x.1.defs.map fun d => (x.2, d)).find? fun y => decide (y.2.name = s) && !y.2.loc

theorem firstLink_links {Q : List OModule} (h : ∀ (i : Nat) (O : OModule), Q[i]? = some O → ∀ d ∈ O.defs, ∀ e ∈ O.defs,
    d.loc = true → e.loc = true → d.name = e.name → d = e) : Links Q (firstLink Q) where
  here := by
    intro i O d hO hd hl
    have : O.defs.find? (fun e => decide (e.name = d.name) && e.loc) = some d := by
      cases hf : O.defs.find? (fun e => decide (e.name = d.name) && e.loc) with
      | none =>
        have := List.find?_eq_none.1 hf d hd
        simp [hl] at this
      | some e =>
        have h1 := List.find?_some hf
        simp only [Bool.and_eq_true, decide_eq_true_eq] at h1
        rw [h i O hO e (List.mem_of_find?_eq_some hf) d hd h1.2 hl h1.1]
    simp [firstLink, hO, this]
  found := by
    intro i O s j d hO hn hL
    have hf : O.defs.find? (fun e => decide (e.name = s) && e.loc) = none := by
      rw [List.find?_eq_none]
      intro e he
      by_cases hs : e.name = s
      · simp [hn e he hs]
      · simp [hs]
    simp only [firstLink, hO, Option.map_some, Option.bind_some, hf] at hL
    have h1 := List.find?_some hL
    simp only [Bool.and_eq_true, decide_eq_true_eq, Bool.not_eq_true'] at h1
    obtain ⟨x, hx, hm⟩ := List.mem_flatMap.1 (List.mem_of_find?_eq_some hL)
    obtain ⟨e, he, heq⟩ := List.mem_map.1 hm
    cases heq
    obtain ⟨O', k⟩ := x
    refine ⟨h1.1, h1.2, O', ?_, he⟩
    exact (List.mem_zipIdx_iff_getElem?.1 hx)
  missing := by
    intro i O s hO hL j O' d hO' hd hs
    cases hl : d.loc with
    | true => rfl
    | false =>
      exfalso
      unfold firstLink at hL
      split at hL
      · cases hL
      · have := List.find?_eq_none.1 hL (j, d) (List.mem_flatMap.2 ⟨(O', j), List.mem_zipIdx_iff_getElem?.2 hO',
          List.mem_map.2 ⟨d, hd, rfl⟩⟩)
        simp [hs, hl] at this

theorem canon_unique {M : Module} (ok : M.Ok) {g n n' : Name} {d e : ODef} (h : Canon A M g n d) (h' : Canon A M g n' e) :
    d = e := by
  cases h with
  | own hF hb he =>
    cases h' with
    | own hG _ he' => rw [func_eq ok hF hG (he.trans he'.symm)]
    | mixed ha he' _ => exact absurd (he.trans he'.symm) (func_alias ok hF ha)
    | kept ha he' _ => exact absurd (he.trans he'.symm) (func_alias ok hF ha)
  | mixed ha he hm =>
    cases h' with
    | own hG _ he' => exact absurd (he'.trans he.symm) (func_alias ok hG ha)
    | mixed hb he' hm' => rw [alias_eq ok ha hb (he.trans he'.symm), hm'] at hm; cases hm; rfl
    | kept hb he' hm' => rw [alias_eq ok ha hb (he.trans he'.symm), hm'] at hm; cases hm
  | kept ha he hm =>
    cases h' with
    | own hG _ he' => exact absurd (he'.trans he.symm) (func_alias ok hG ha)
    | mixed hb he' hm' => rw [← alias_eq ok ha hb (he.trans he'.symm), hm] at hm'; cases hm'
    | kept hb he' hm' => rw [alias_eq ok ha hb (he.trans he'.symm)]

theorem links_exist (hs : ∀ n, A.uninsSrc n = false) (hok : ∀ (i : Nat) (M : Module), P[i]? = some M → M.Ok) :
    Links (P.map (run A)) (firstLink (P.map (run A))) := by
  refine firstLink_links ?_
  intro i O hO d hd e he _ _ hn
  obtain ⟨M, hi, rfl⟩ := get_run_inv hO
  have ok := hok i M hi
  rcases canon_of hs ok hd with ⟨F, hF, -, rfl⟩ | ⟨g, n, hc, hm, hdn⟩ <;>
  rcases canon_of hs ok he with ⟨G, hG, -, rfl⟩ | ⟨g', n', hc', hm', hen⟩
  · have h1 := look_mem ok hF
    rw [dfsw_inj hn, look_mem ok hG] at h1
    cases h1; rfl
  · exact absurd (hen.symm.trans hn.symm) (pre_dfsw (ok.plain _ (defs_name hm')))
  · exact absurd (hdn.symm.trans hn) (pre_dfsw (ok.plain _ (defs_name hm)))
  · have := pre_inj (ok.plain _ (defs_name hm)) (ok.plain _ (defs_name hm')) (hdn.symm.trans (hn.trans hen))
    subst this
    exact canon_unique ok hc hc'

/-- The functions of the result that come from a function of the program. -/
theorem own_once {M : Module} (ok : M.Ok) {F : Func} (hF : F ∈ M.funcs) :
    ownOut A M F ∈ (run A M).funcs ∧ ∀ O ∈ (run A M).funcs, O.origin = .own F.name → O = ownOut A M F := by
  refine ⟨List.mem_flatMap.2 ⟨F, List.mem_append_left _ hF, by rw [outFuncs_eq]; simp⟩, ?_⟩
  intro O hO ho
  obtain ⟨G, hG, hO⟩ := List.mem_flatMap.1 hO
  rw [outFuncs_eq] at hO
  rcases List.mem_append.1 hO with hO | hO
  · split at hO
    · rw [List.mem_singleton] at hO
      subst hO; cases ho
    · cases hO
  · rw [List.mem_singleton] at hO
    subst hO
    have ho : own M G = .own F.name := ho
    unfold own at ho
    split at ho
    · have he : G.name = F.name := by simpa using ho
      have h1 := look_mem ok hG
      rw [he, look_mem ok (A := A) (List.mem_append_left _ hF)] at h1
      cases h1; rfl
    · cases ho

end Verif.PassModule
