import Verif.BuildNames
/- Lemmas about runs of the build tool. -/
namespace Verif.Build

variable {C : Type}

/-- The files a target writes. -/
inductive Writes (E : Env C) (store : Word) (b : Word) : Path → Prop where
  | bc : Writes E store b ⟨store, b ++ ".bc".toList⟩
  | opt : Writes E store b ⟨store, b ++ ".opt.bc".toList⟩
  | inst : Writes E store b ⟨E.cwd, b ++ ".instrumented.bc".toList⟩
  | exe : Writes E store b ⟨E.cwd, b ++ ".instrumented".toList⟩
  | ids : E.cflog = true → Writes E store b ⟨E.cwd, "functionid.json".toList⟩

theorem set_same (fs : Files C) (p : Path) (c : C) : fs.set p c p = some c := by simp [Files.set]
theorem set_other (fs : Files C) {p q : Path} (c : C) (h : q ≠ p) : fs.set p c q = fs q := by simp [Files.set, h]

theorem step_some {f : C → Option C} {src dst : Path} {fs fs' : Files C} (h : step f src dst fs = some fs') :
    ∃ x y, fs src = some x ∧ f x = some y ∧ fs' = fs.set dst y := by
  unfold step at h
  cases hx : fs src with
  | none => rw [hx] at h; cases h
  | some x =>
    rw [hx] at h
    change (f x).map _ = _ at h
    cases hy : f x with
    | none => rw [hy] at h; cases h
    | some y => rw [hy] at h; cases h; exact ⟨x, y, rfl, hy, rfl⟩

theorem step_mk {f : C → Option C} {src dst : Path} {fs : Files C} {x y : C} (h : fs src = some x) (h' : f x = some y) :
    step f src dst fs = some (fs.set dst y) := by
  unfold step
  rw [h]
  show (f x).map _ = _
  rw [h']; rfl

theorem libs_eq (c : Cmd) : libs c = libFiles c := by
  unfold libs libFiles
  induction c.inputs with
  | nil => rfl
  | cons i is ih =>
    cases hk : i.kind with
    | lib => rw [List.filter_cons_of_pos (by simp [hk]), List.map_cons, ih, List.filterMap_cons]; simp [hk]
    | other => rw [List.filter_cons_of_neg (by simp [hk]), ih, List.filterMap_cons]; simp [hk]

/-- Conditions on the files of one target. -/
structure Own (E : Env C) (store : Word) (t b : Word) (c : Cmd) : Prop where
  dir : store ≠ E.cwd
  bne : b ≠ []
  base : Base t b
  self1 : t ≠ b ++ ".bc".toList
  lib : ∀ l ∈ libFiles c, ¬ Writes E store b l

theorem bc_ne_opt (b : Word) : b ++ ".opt.bc".toList ≠ b ++ ".bc".toList := by
  intro h
  exact absurd (List.append_cancel_left h) (by decide)

theorem inst_ne_exe (b b' : Word) : b ++ ".instrumented.bc".toList ≠ b' ++ ".instrumented".toList :=
  last_ne (c := 'c') (d := 'd') rfl rfl (by decide)

theorem ids_ne_exe (b : Word) : b ++ ".instrumented".toList ≠ "functionid.json".toList :=
  last_ne (b := []) (c := 'd') (d := 'n') rfl rfl (by decide)

theorem ids_ne_inst (b : Word) : b ++ ".instrumented.bc".toList ≠ "functionid.json".toList :=
  last_ne (b := []) (c := 'c') (d := 'n') rfl rfl (by decide)

theorem map_congr {fs fs' : Files C} {l : List Path} (h : ∀ p ∈ l, fs' p = fs p) : l.map fs' = l.map fs :=
  List.map_congr_left h

/-- The last three steps. -/
theorem tail_steps {E : Env C} {store t b : Word} {c : Cmd} {p : Path} (hp : p.name = t) (hd : p.dir = store)
    (ow : Own E store t b c) {fs fs2 : Files C} {x2 : C} (h2 : fs2 (bcPath p) = some x2) (hl : (libFiles c).map fs2 = (libFiles c).map fs)
    (fs' : Files C) :
    ((step E.T.opt (bcPath p) (optPath p) fs2).bind fun f3 => (step E.T.inst (optPath p) (instPath E p) f3).bind fun f4 =>
        linkStep E c p f4) = some fs' ↔
      ∃ x3 x4 exe, E.T.opt x2 = some x3 ∧ E.T.inst x3 = some x4 ∧
        E.T.link (lowerCmd c E.poly ⟨E.cwd, b ++ ".instrumented.bc".toList⟩ ⟨E.cwd, b ++ ".instrumented".toList⟩) x4
          ((libFiles c).map fs) = some exe ∧
        fs' = ((fs2.set ⟨store, b ++ ".opt.bc".toList⟩ x3).set ⟨E.cwd, b ++ ".instrumented.bc".toList⟩ x4).set
          ⟨E.cwd, b ++ ".instrumented".toList⟩ exe := by
  have hbase : Base p.name b := hp ▸ ow.base
  rw [bc_name hbase, hd] at h2
  rw [bc_name hbase, opt_name hbase ow.bne, hd, inst_name E hbase ow.bne]
  have hL : ∀ x3 x4, (libFiles c).map ((fs2.set ⟨store, b ++ ".opt.bc".toList⟩ x3).set ⟨E.cwd, b ++ ".instrumented.bc".toList⟩ x4) =
      (libFiles c).map fs := by
    intro x3 x4
    rw [← hl]
    refine map_congr fun l hl => ?_
    have := ow.lib l hl
    rw [set_other _ _ (fun e => this (by rw [e]; exact .inst)), set_other _ _ (fun e => this (by rw [e]; exact .opt))]
  constructor
  · intro h
    obtain ⟨f3, h3, h⟩ := Option.bind_eq_some_iff.1 h
    obtain ⟨f4, h4, h⟩ := Option.bind_eq_some_iff.1 h
    obtain ⟨y2, x3, e2, ho, rfl⟩ := step_some h3
    rw [h2] at e2; cases e2
    obtain ⟨y3, x4, e3, hi, rfl⟩ := step_some h4
    rw [set_same] at e3; cases e3
    unfold linkStep at h
    rw [libs_eq, inst_name E hbase ow.bne, exe_name E hbase ow.bne] at h
    obtain ⟨y4, exe, e4, hk, rfl⟩ := step_some h
    rw [set_same] at e4; cases e4
    rw [hL] at hk
    exact ⟨x3, x4, exe, ho, hi, hk, rfl⟩
  · rintro ⟨x3, x4, exe, ho, hi, hk, rfl⟩
    rw [step_mk h2 ho]
    show ((step E.T.inst _ _ _).bind fun f4 => linkStep E c p f4) = _
    rw [step_mk (set_same _ _ _) hi]
    show linkStep E c p _ = _
    unfold linkStep
    rw [libs_eq, inst_name E hbase ow.bne, exe_name E hbase ow.bne]
    rw [step_mk (set_same _ _ _) (by rw [hL]; exact hk)]

theorem target_eq {E : Env C} {J : List Cmd} {t : Word} {c : Cmd} {p : Path} (hf : First J t c p) (fs : Files C) :
    target E J fs t = (step E.T.extract p (bcPath p) fs).bind fun f1 => (if E.cflog then tcfStep E p f1 else some f1).bind fun f2 =>
      (step E.T.opt (bcPath p) (optPath p) f2).bind fun f3 => (step E.T.inst (optPath p) (instPath E p) f3).bind fun f4 =>
        linkStep E c p f4 := by
  unfold target
  rw [first_find hf]
  by_cases hc : E.cflog = true
  · simp only [hc, if_true]; rfl
  · simp only [hc]; rfl

theorem target_iff {E : Env C} {J : List Cmd} {store t b : Word} {c : Cmd} {p : Path} (hf : First J t c p) (hd : p.dir = store)
    (ow : Own E store t b c) (fs fs' : Files C) : target E J fs t = some fs' →
      ∃ exe, Makes E J fs t b exe ∧ fs' ⟨E.cwd, b ++ ".instrumented".toList⟩ = some exe ∧
        (E.cflog = true → ∃ ids, Ids E J fs t ids ∧ fs' ⟨E.cwd, "functionid.json".toList⟩ = some ids) ∧
        ∀ q, ¬ Writes E store b q → fs' q = fs q := by
  obtain ⟨_, _, _, _, _, _, _, _, hp, _⟩ := id hf
  have hbase : Base p.name b := hp ▸ ow.base
  have hbc := bc_name hbase
  rw [hd] at hbc
  rw [target_eq hf]
  intro h
  obtain ⟨f1, h1, h⟩ := Option.bind_eq_some_iff.1 h
  obtain ⟨f2, h2, h⟩ := Option.bind_eq_some_iff.1 h
  obtain ⟨x0, x1, e0, he, rfl⟩ := step_some h1
  have hl1 : (libFiles c).map (fs.set (bcPath p) x1) = (libFiles c).map fs :=
    map_congr fun l hl => set_other _ _ (fun e => ow.lib l hl (by rw [e, hbc]; exact .bc))
  by_cases hc : E.cflog = true
  · rw [if_pos hc] at h2
    unfold tcfStep at h2
    rw [set_same] at h2
    change (E.T.tcf x1).map _ = _ at h2
    obtain ⟨⟨x2, ids⟩, ht, rfl⟩ := Option.map_eq_some_iff.1 h2
    have hl2 : (libFiles c).map (((fs.set (bcPath p) x1).set (idsPath E) ids).set (bcPath p) x2) = (libFiles c).map fs := by
      rw [← hl1]
      refine map_congr fun l hl => ?_
      rw [set_other _ _ (fun e => ow.lib l hl (by rw [e, hbc]; exact .bc)), set_other _ _ (fun e => ow.lib l hl (by rw [e]; exact .ids hc))]
    obtain ⟨x3, x4, exe, ho, hi, hk, rfl⟩ := (tail_steps hp hd ow (set_same _ _ _) hl2 fs').1 h
    refine ⟨exe, ⟨c, p, x0, x1, x2, x3, x4, hf, ow.base, e0, he, by rw [if_pos hc]; exact ⟨ids, ht⟩, ho, hi, hk⟩, set_same _ _ _,
      fun _ => ⟨ids, ⟨c, p, x0, x1, x2, hf, e0, he, ht⟩, ?_⟩, ?_⟩
    · rw [set_other _ _ (by intro e; exact ids_ne_exe b (congrArg Path.name e).symm),
        set_other _ _ (by intro e; exact ids_ne_inst b (congrArg Path.name e).symm),
        set_other _ _ (by intro e; exact ow.dir (congrArg Path.dir e).symm),
        set_other _ _ (by intro e; rw [hbc] at e; exact ow.dir (congrArg Path.dir e).symm)]
      exact set_same _ _ _
    · intro q hq
      rw [set_other _ _ (fun e => hq (by rw [e]; exact .exe)), set_other _ _ (fun e => hq (by rw [e]; exact .inst)), set_other _ _ (fun e => hq (by rw [e]; exact .opt)),
        set_other _ _ (fun e => hq (by rw [e, hbc]; exact .bc)), set_other _ _ (fun e => hq (by rw [e]; exact .ids hc)),
        set_other _ _ (fun e => hq (by rw [e, hbc]; exact .bc))]
  · rw [if_neg hc] at h2
    cases h2
    obtain ⟨x3, x4, exe, ho, hi, hk, rfl⟩ := (tail_steps hp hd ow (set_same _ _ _) hl1 fs').1 h
    refine ⟨exe, ⟨c, p, x0, x1, x1, x3, x4, hf, ow.base, e0, he, by rw [if_neg hc], ho, hi, hk⟩, set_same _ _ _,
      fun h => absurd h hc, ?_⟩
    intro q hq
    rw [set_other _ _ (fun e => hq (by rw [e]; exact .exe)), set_other _ _ (fun e => hq (by rw [e]; exact .inst)), set_other _ _ (fun e => hq (by rw [e]; exact .opt)),
      set_other _ _ (fun e => hq (by rw [e, hbc]; exact .bc))]

theorem target_mk {E : Env C} {J : List Cmd} {store t b : Word} {c : Cmd} {p : Path} (hf : First J t c p) (hd : p.dir = store)
    (ow : Own E store t b c) (fs : Files C) {exe : C} (hm : Makes E J fs t b exe) : ∃ fs', target E J fs t = some fs' := by
  obtain ⟨_, _, _, _, _, _, _, _, hp, _⟩ := id hf
  have hbase : Base p.name b := hp ▸ ow.base
  have hbc := bc_name hbase
  rw [hd] at hbc
  obtain ⟨c', p', x0, x1, x2, x3, x4, hf', -, e0, he, ht, ho, hi, hk⟩ := hm
  obtain ⟨rfl, rfl⟩ := first_unique hf hf'
  rw [target_eq hf, step_mk e0 he]
  show ∃ fs', ((if E.cflog then tcfStep E p (fs.set (bcPath p) x1) else some _).bind _) = some fs'
  have hl1 : (libFiles c).map (fs.set (bcPath p) x1) = (libFiles c).map fs :=
    map_congr fun l hl => set_other _ _ (fun e => ow.lib l hl (by rw [e, hbc]; exact .bc))
  by_cases hc : E.cflog = true
  · rw [if_pos hc] at ht ⊢
    obtain ⟨ids, ht⟩ := ht
    have hl2 : (libFiles c).map (((fs.set (bcPath p) x1).set (idsPath E) ids).set (bcPath p) x2) = (libFiles c).map fs := by
      rw [← hl1]
      refine map_congr fun l hl => ?_
      rw [set_other _ _ (fun e => ow.lib l hl (by rw [e, hbc]; exact .bc)), set_other _ _ (fun e => ow.lib l hl (by rw [e]; exact .ids hc))]
    have h2 : tcfStep E p (fs.set (bcPath p) x1) = some (((fs.set (bcPath p) x1).set (idsPath E) ids).set (bcPath p) x2) := by
      unfold tcfStep
      rw [set_same]
      show (E.T.tcf x1).map _ = _
      rw [ht]; rfl
    rw [h2]
    exact ⟨_, (tail_steps hp hd ow (set_same _ _ _) hl2 _).2 ⟨x3, x4, exe, ho, hi, hk, rfl⟩⟩
  · rw [if_neg hc] at ht ⊢
    subst ht
    exact ⟨_, (tail_steps hp hd ow (set_same _ _ _) hl1 _).2 ⟨x3, x4, exe, ho, hi, hk, rfl⟩⟩

theorem target_first {E : Env C} {J : List Cmd} {fs fs' : Files C} {t : Word} (h : target E J fs t = some fs') :
    ∃ c p, First J t c p := by
  unfold target at h
  cases hf : findTarget J t with
  | none => rw [hf] at h; cases h
  | some x => exact ⟨x.1, x.2, find_first hf⟩

/-! ### Several targets -/

theorem Apart.sub {E : Env C} {J : List Cmd} {store : Word} {ts us : List Word} (h : Apart E J store ts) (hs : ∀ t ∈ us, t ∈ ts) :
    Apart E J store us where
  names := fun hn => h.names (hs _ hn)
  dir := h.dir
  stored := fun t ht => h.stored t (hs t ht)
  bases := fun t ht u hu => h.bases t (hs t ht) u (hs u hu)
  opts := fun t ht u hu => h.opts t (hs t ht) u (hs u hu)
  self := fun t ht u hu => h.self t (hs t ht) u (hs u hu)
  lib := fun t ht c p hf l hl => by
    obtain ⟨h1, h2⟩ := h.lib t (hs t ht) c p hf l hl
    exact ⟨fun e u hu => h1 e u (hs u hu), fun e => ⟨(h2 e).1, fun u hu => (h2 e).2 u (hs u hu)⟩⟩

theorem lib_read {E : Env C} {J : List Cmd} {store : Word} {ts : List Word} (ap : Apart E J store ts) {t u b : Word} (ht : t ∈ ts)
    (hu : u ∈ ts) (hb : Base u b) {c : Cmd} {p : Path} (hf : First J t c p) : ∀ l ∈ libFiles c, ¬ Writes E store b l := by
  intro l hl hw
  obtain ⟨h1, h2⟩ := ap.lib t ht c p hf l hl
  cases hw with
  | bc => exact (h1 rfl u hu b hb).1 rfl
  | opt => exact (h1 rfl u hu b hb).2 rfl
  | inst => exact ((h2 rfl).2 u hu b hb).1 rfl
  | exe => exact ((h2 rfl).2 u hu b hb).2 rfl
  | ids _ => exact (h2 rfl).1 rfl

theorem Apart.own {E : Env C} {J : List Cmd} {store : Word} {ts : List Word} (ap : Apart E J store ts) {t b : Word} (ht : t ∈ ts)
    (hb : Base t b) {c : Cmd} {p : Path} (hf : First J t c p) : Own E store t b c where
  dir := ap.dir
  bne := base_ne hb (fun e => ap.names (e ▸ ht))
  base := hb
  self1 := (ap.self t ht t ht b hb).1
  lib := lib_read ap ht ht hb hf

/-- What a target reads is not written by a target. -/
theorem art_read {E : Env C} {J : List Cmd} {store : Word} {ts : List Word} (ap : Apart E J store ts) {t u b : Word} (ht : t ∈ ts)
    (hu : u ∈ ts) (hb : Base u b) {c : Cmd} {p : Path} (hf : First J t c p) : ¬ Writes E store b p := by
  have hd := ap.stored t ht c p hf
  obtain ⟨_, _, _, _, _, _, _, _, hp, _⟩ := id hf
  have h1 := ap.self t ht u hu b hb
  rw [← hp] at h1
  intro hw
  cases hw with
  | bc => exact h1.1 rfl
  | opt => exact h1.2 rfl
  | inst => exact ap.dir hd.symm
  | exe => exact ap.dir hd.symm
  | ids _ => exact ap.dir hd.symm

theorem makes_congr {E : Env C} {J : List Cmd} {fs fs' : Files C} {t b : Word} {exe : C}
    (h : ∀ c p, First J t c p → fs' p = fs p ∧ ∀ l ∈ libFiles c, fs' l = fs l) (hm : Makes E J fs t b exe) : Makes E J fs' t b exe := by
  obtain ⟨c, p, x0, x1, x2, x3, x4, hf, hb, e0, he, ht, ho, hi, hk⟩ := hm
  obtain ⟨h1, h2⟩ := h c p hf
  exact ⟨c, p, x0, x1, x2, x3, x4, hf, hb, h1.trans e0, he, ht, ho, hi, by rw [map_congr h2]; exact hk⟩

theorem ids_congr {E : Env C} {J : List Cmd} {fs fs' : Files C} {t : Word} {ids : C}
    (h : ∀ c p, First J t c p → fs' p = fs p) (hm : Ids E J fs t ids) : Ids E J fs' t ids := by
  obtain ⟨c, p, x0, x1, x2, hf, e0, he, ht⟩ := hm
  exact ⟨c, p, x0, x1, x2, hf, (h c p hf).trans e0, he, ht⟩

theorem makes_unique {E : Env C} {J : List Cmd} {fs : Files C} {t b b' : Word} {exe exe' : C} (h : Makes E J fs t b exe)
    (h' : Makes E J fs t b' exe') : b = b' ∧ exe = exe' := by
  obtain ⟨c, p, x0, x1, x2, x3, x4, hf, hb, e0, he, ht, ho, hi, hk⟩ := h
  obtain ⟨c', p', y0, y1, y2, y3, y4, hf', hb', e0', he', ht', ho', hi', hk'⟩ := h'
  obtain ⟨rfl, rfl⟩ := first_unique hf hf'
  have := base_unique hb hb'
  subst this
  rw [e0] at e0'; cases e0'
  rw [he] at he'; cases he'
  have : x2 = y2 := by
    by_cases hc : E.cflog = true
    · rw [if_pos hc] at ht ht'
      obtain ⟨_, h1⟩ := ht
      obtain ⟨_, h2⟩ := ht'
      rw [h1] at h2; cases h2; rfl
    · rw [if_neg hc] at ht ht'
      rw [ht, ht']
  subst this
  rw [ho] at ho'; cases ho'
  rw [hi] at hi'; cases hi'
  rw [hk] at hk'; cases hk'
  exact ⟨rfl, rfl⟩

theorem ids_unique {E : Env C} {J : List Cmd} {fs : Files C} {t : Word} {a a' : C} (h : Ids E J fs t a) (h' : Ids E J fs t a') : a = a' := by
  obtain ⟨c, p, x0, x1, x2, hf, e0, he, ht⟩ := h
  obtain ⟨c', p', y0, y1, y2, hf', e0', he', ht'⟩ := h'
  obtain ⟨rfl, rfl⟩ := first_unique hf hf'
  rw [e0] at e0'; cases e0'
  rw [he] at he'; cases he'
  rw [ht] at ht'; cases ht'
  rfl

/-- What a run leaves. -/
structure Left (E : Env C) (J : List Cmd) (store : Word) (fs : Files C) (ts : List Word) (fs' : Files C) : Prop where
  exe : ∀ t ∈ ts, ∃ b exe, Makes E J fs t b exe ∧ fs' ⟨E.cwd, b ++ ".instrumented".toList⟩ = some exe
  ids : E.cflog = true → ∀ t, ts.getLast? = some t → ∃ ids, Ids E J fs t ids ∧ fs' ⟨E.cwd, "functionid.json".toList⟩ = some ids
  frame : ∀ q, (∀ t ∈ ts, ∀ b, Base t b → ¬ Writes E store b q) → fs' q = fs q

/-- The executable of a target is only written by that target. -/
theorem exe_only {E : Env C} {J : List Cmd} {store : Word} {ts : List Word} (ap : Apart E J store ts) {t u b b' : Word} (ht : t ∈ ts)
    (hu : u ∈ ts) (hb : Base t b) (hb' : Base u b') (hw : Writes E store b' ⟨E.cwd, b ++ ".instrumented".toList⟩) : t = u := by
  generalize hq : Path.mk E.cwd (b ++ ".instrumented".toList) = q at hw
  cases hw with
  | bc => exact absurd (congrArg Path.dir hq).symm ap.dir
  | opt => exact absurd (congrArg Path.dir hq).symm ap.dir
  | inst => exact absurd (congrArg Path.name hq).symm (inst_ne_exe _ _)
  | exe =>
    have := List.append_cancel_right (congrArg Path.name hq)
    subst this
    exact ap.bases t ht u hu b hb hb'
  | ids _ => exact absurd (congrArg Path.name hq) (ids_ne_exe b)

theorem run_iff {E : Env C} {J : List Cmd} {store : Word} : ∀ (ts : List Word) (fs : Files C), Apart E J store ts →
    (∀ fs', run E J fs ts = some fs' → Left E J store fs ts fs') ∧
    ((∀ t ∈ ts, ∃ b exe, Makes E J fs t b exe) → ∃ fs', run E J fs ts = some fs') := by
  intro ts
  induction ts with
  | nil =>
    intro fs _
    refine ⟨?_, fun _ => ⟨fs, rfl⟩⟩
    intro fs' h
    cases h
    exact ⟨fun t h => absurd h (List.not_mem_nil), (fun _ t h => by cases h), fun _ _ => rfl⟩
  | cons t ts ih =>
    intro fs ap
    have ap' : Apart E J store ts := ap.sub fun u hu => .tail _ hu
    have hrun : run E J fs (t :: ts) = (target E J fs t).bind fun f => run E J f ts := by
      unfold run
      rw [List.foldlM_cons]; rfl
    -- reads of later targets are not changed
    have reads : ∀ {b : Word} {f1 : Files C}, Base t b → (∀ q, ¬ Writes E store b q → f1 q = fs q) → ∀ u ∈ t :: ts,
        ∀ c p, First J u c p → f1 p = fs p ∧ ∀ l ∈ libFiles c, f1 l = fs l := by
      intro b f1 hb hfr u hu c p hf
      exact ⟨hfr p (art_read ap hu (.head _) hb hf), fun l hl => hfr l (lib_read ap hu (.head _) hb hf l hl)⟩
    constructor
    · intro fs' h
      rw [hrun] at h
      obtain ⟨f1, h1, hrest⟩ := Option.bind_eq_some_iff.1 h
      obtain ⟨c, p, hf⟩ := target_first h1
      have hb := stem_base t
      have ow := ap.own (.head _) hb hf
      obtain ⟨exe, hm, he, hids, hfr⟩ := target_iff hf (ap.stored t (.head _) c p hf) ow fs f1 h1
      have L := (ih f1 ap').1 fs' hrest
      have hrd := reads hb hfr
      have back : ∀ u ∈ t :: ts, ∀ {b x}, Makes E J f1 u b x → Makes E J fs u b x := fun u hu _ _ hm =>
        makes_congr (fun c p hf => ⟨(hrd u hu c p hf).1.symm, fun l hl => ((hrd u hu c p hf).2 l hl).symm⟩) hm
      refine ⟨?_, ?_, ?_⟩
      · intro u hu
        by_cases hut : u ∈ ts
        · obtain ⟨b, x, hm, hx⟩ := L.exe u hut
          exact ⟨b, x, back u hu hm, hx⟩
        · have : u = t := by
            rcases List.mem_cons.1 hu with h | h
            · exact h
            · exact absurd h hut
          subst this
          refine ⟨_, exe, hm, ?_⟩
          rw [L.frame _ ?_]
          · exact he
          · intro v hv b' hb' hw
            have := exe_only ap (.head _) (.tail _ hv) hb hb' hw
            subst this
            exact hut hv
      · intro hc u hu
        cases ts with
        | nil =>
          have hut : u = t := by simpa using hu.symm
          subst hut
          have e : f1 = fs' := by
            have : (some f1 : Option (Files C)) = some fs' := hrest
            cases this; rfl
          exact e ▸ hids hc
        | cons v vs =>
          rw [List.getLast?_cons_cons] at hu
          obtain ⟨ids, hi, hx⟩ := L.ids hc u hu
          have hmem : u ∈ v :: vs := List.mem_of_getLast? hu
          exact ⟨ids, ids_congr (fun c p hf => (hrd u (.tail _ hmem) c p hf).1.symm) hi, hx⟩
      · intro q hq
        rw [L.frame q fun u hu => hq u (.tail _ hu), hfr q (hq t (.head _) _ hb)]
    · intro hall
      obtain ⟨b, exe, hm⟩ := hall t (.head _)
      obtain ⟨c, p, _, _, _, _, _, hf, hb, _⟩ := id hm
      have ow := ap.own (.head _) hb hf
      obtain ⟨f1, h1⟩ := target_mk hf (ap.stored t (.head _) c p hf) ow fs hm
      obtain ⟨-, -, -, -, hfr⟩ := target_iff hf (ap.stored t (.head _) c p hf) ow fs f1 h1
      have hrd := reads hb hfr
      obtain ⟨fs', h⟩ := (ih f1 ap').2 fun u hu => by
        obtain ⟨b, x, hm⟩ := hall u (.tail _ hu)
        exact ⟨b, x, makes_congr (hrd u (.tail _ hu)) hm⟩
      exact ⟨fs', by rw [hrun, h1]; exact h⟩

end Verif.Build
