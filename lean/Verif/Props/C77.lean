import Verif.BuildCmd
/- C77: `instrument-targets` leaves for each target the executable made from its artifact, with the options of its command. -/
namespace Verif
open Build

variable {C : Type}

/-- After a run each target has its executable, made by all stages from its own artifact and libraries as they were before
the run; the table of functions is that of the last target; no other file is changed. -/
theorem C77_targets_partial {E : Env C} {J : List Cmd} {store : Word} {ts : List Word} (ap : Apart E J store ts) {fs fs' : Files C}
    (h : Build.run E J fs ts = some fs') :
    (∀ t ∈ ts, ∃ b exe, Makes E J fs t b exe ∧ fs' ⟨E.cwd, b ++ ".instrumented".toList⟩ = some exe) ∧
    (E.cflog = true → ∀ t, ts.getLast? = some t →
      ∃ ids, Ids E J fs t ids ∧ fs' ⟨E.cwd, "functionid.json".toList⟩ = some ids) ∧
    ∀ q : Path, (∀ t ∈ ts, ∀ b, Base t b → q ≠ ⟨store, b ++ ".bc".toList⟩ ∧ q ≠ ⟨store, b ++ ".opt.bc".toList⟩ ∧
        q ≠ ⟨E.cwd, b ++ ".instrumented.bc".toList⟩ ∧ q ≠ ⟨E.cwd, b ++ ".instrumented".toList⟩) →
      (E.cflog = true → q ≠ ⟨E.cwd, "functionid.json".toList⟩) → fs' q = fs q := by
  have L := (run_iff ts fs ap).1 fs' h
  refine ⟨L.exe, L.ids, fun q hq hi => L.frame q fun t ht b hb hw => ?_⟩
  obtain ⟨h1, h2, h3, h4⟩ := hq t ht b hb
  cases hw with
  | bc => exact h1 rfl
  | opt => exact h2 rfl
  | inst => exact h3 rfl
  | exe => exact h4 rfl
  | ids hc => exact hi hc rfl

/-- A run succeeds exactly if each target has an executable of its own, and these are determined. -/
theorem C77_succeeds {E : Env C} {J : List Cmd} {store : Word} {ts : List Word} (ap : Apart E J store ts) (fs : Files C) :
    ((∃ fs', Build.run E J fs ts = some fs') ↔ ∀ t ∈ ts, ∃ b exe, Makes E J fs t b exe) ∧
    ∀ t b b' (x x' : C), Makes E J fs t b x → Makes E J fs t b' x' → b = b' ∧ x = x' := by
  refine ⟨⟨?_, (run_iff ts fs ap).2⟩, fun t b b' x x' h h' => makes_unique h h'⟩
  rintro ⟨fs', h⟩ t ht
  obtain ⟨b, x, hm, -⟩ := ((run_iff ts fs ap).1 fs' h).exe t ht
  exact ⟨b, x, hm⟩

/-- Neither the order of the targets nor a second run changes an executable. -/
theorem C77_again {E : Env C} {J : List Cmd} {store : Word} {ts us : List Word} (ap : Apart E J store ts) (hs : ∀ t, t ∈ us ↔ t ∈ ts)
    {fs f1 : Files C} (h : Build.run E J fs ts = some f1) :
    (∃ f2, Build.run E J fs us = some f2 ∧ ∀ t ∈ ts, ∀ b, Base t b →
      f2 ⟨E.cwd, b ++ ".instrumented".toList⟩ = f1 ⟨E.cwd, b ++ ".instrumented".toList⟩) ∧
    ∃ f2, Build.run E J f1 us = some f2 ∧ ∀ t ∈ ts, ∀ b, Base t b →
      f2 ⟨E.cwd, b ++ ".instrumented".toList⟩ = f1 ⟨E.cwd, b ++ ".instrumented".toList⟩ := by
  have L := (run_iff ts fs ap).1 f1 h
  have ap' : Apart E J store us := ap.sub fun t ht => (hs t).1 ht
  have key : ∀ g : Files C, (∀ t ∈ ts, ∀ b x, Makes E J fs t b x → Makes E J g t b x) →
      ∃ f2, Build.run E J g us = some f2 ∧ ∀ t ∈ ts, ∀ b, Base t b →
        f2 ⟨E.cwd, b ++ ".instrumented".toList⟩ = f1 ⟨E.cwd, b ++ ".instrumented".toList⟩ := by
    intro g hg
    obtain ⟨f2, h2⟩ := (run_iff us g ap').2 fun t ht => by
      obtain ⟨b, x, hm, -⟩ := L.exe t ((hs t).1 ht)
      exact ⟨b, x, hg t ((hs t).1 ht) b x hm⟩
    refine ⟨f2, h2, fun t ht b hb => ?_⟩
    obtain ⟨b1, x1, m1, e1⟩ := L.exe t ht
    obtain ⟨b2, x2, m2, e2⟩ := ((run_iff us g ap').1 f2 h2).exe t ((hs t).2 ht)
    obtain ⟨rfl, rfl⟩ := makes_unique (hg t ht _ _ m1) m2
    obtain ⟨_, _, _, _, _, _, _, _, hb', _⟩ := m1
    obtain rfl := base_unique hb hb'
    rw [e1, e2]
  refine ⟨key fs fun t _ b x hm => hm, key f1 fun t ht b x hm => ?_⟩
  refine makes_congr (fun c p hf => ⟨?_, fun l hl => ?_⟩) hm
  · exact L.frame p fun u hu b hb => art_read ap ht hu hb hf
  · exact L.frame l fun u hu b hb => lib_read ap ht hu hb hf l hl

/-- The command that is run: bitcode and new output first, then what stays of the original command, in the same order and
read in the same way; the compiler writes the new output. -/
theorem C77_command_partial {takes : Word → Bool} {c : Cmd} {poly : List Word} {bc out : Path} {ps rest : List Part}
    (hp : parse takes c.args = some ps) (cl : Clear c ps) (hb : single bc.str = .file bc.str) (ht : takes bc.str = false)
    (hr : parse takes (["-pie".toList, "-Wl,--allow-multiple-definition".toList, "-Wl,--start-group".toList] ++
      (libFiles c).map Path.str ++ poly) = some rest) (ho : ∀ w, .out w ∉ rest ∧ .joined w ∉ rest) :
    (lowerCmd c poly bc out).head? = some c.tool ∧ ∃ qs, Stays c ps qs ∧ parse takes (lowerCmd c poly bc out).tail = some (.file bc.str :: .out out.str :: (qs ++ rest)) ∧
      written (.file bc.str :: .out out.str :: (qs ++ rest)) = some out.str := by
  obtain ⟨qs, h1, h2⟩ := kept_stays c.args ps hp cl
  refine ⟨rfl, qs, h2, ?_, ?_⟩
  · have e : (lowerCmd c poly bc out).tail = bc.str :: (['-', 'o'] :: out.str :: (c.args.filter (rem c) ++
        (["-pie".toList, "-Wl,--allow-multiple-definition".toList, "-Wl,--start-group".toList] ++ (libFiles c).map Path.str ++ poly))) := by
      have hk : keptArgs c = c.args.filter (rem c) := rfl
      simp [lowerCmd, hk, libs_eq]
    have hne : bc.str ≠ ['-', 'o'] := by
      intro e; rw [e] at hb; cases hb
    rw [e, parse_one hne ht, parse, if_pos rfl, parse_append _ _ _ h1, hr, hb]
    rfl
  · unfold written
    have hn : (qs ++ rest).filterMap Part.output = [] := by
      rw [List.filterMap_append, outs_nil (stays_outs h2), outs_nil ho]; rfl
    show ((out.str :: (qs ++ rest).filterMap Part.output).getLast?) = _
    rw [hn]; rfl

/-! ### Examples, and why the conditions are needed -/

namespace Build

/-- Tools that note what they did. -/
def noteTools : Tools (List Nat) where
  extract := fun x => if x.head? = some 0 then some (1 :: x) else none
  tcf := fun x => some (2 :: x, 20 :: x)
  opt := fun x => some (3 :: x)
  inst := fun x => some (4 :: x)
  link := fun _ x _ => some (5 :: x)

def noteEnv (cf : Bool) : Env (List Nat) := ⟨noteTools, "w".toList, cf, []⟩

def exCmd (t : String) : Cmd :=
  ⟨"cc".toList, ["-O2".toList, "main.o".toList, "-o".toList, t.toList], [⟨"main.o".toList, ⟨"s".toList, "main.o".toList⟩, .other⟩],
    [⟨t.toList, ⟨"s".toList, t.toList⟩, .other⟩]⟩

def exStore (ts : List (String × Nat)) : Files (List Nat) := fun p =>
  if p.dir = "s".toList then (ts.find? fun x => x.1.toList = p.name).map fun x => [0, x.2] else none

end Build

/-- Two versions of a program: the second takes the place of the first. -/
theorem C77_versions_refuted : ∃ (E : Env (List Nat)) (J : List Cmd) (fs fs' : Files (List Nat)) (t u b : Word) (x y : List Nat),
    t ≠ u ∧ Build.run E J fs [t, u] = some fs' ∧ Makes E J fs t b x ∧ Makes E J fs u b y ∧ x ≠ y ∧
    fs' ⟨E.cwd, b ++ ".instrumented".toList⟩ = some y := by
  refine ⟨noteEnv false, [exCmd "app.v1", exCmd "app.v2"], exStore [("app.v1", 1), ("app.v2", 2)], _, "app.v1".toList,
    "app.v2".toList, "app".toList, [5, 4, 3, 1, 0, 1], [5, 4, 3, 1, 0, 2], by decide, rfl, ?_, ?_, by decide, by decide +kernel⟩
  · exact ⟨exCmd "app.v1", ⟨"s".toList, "app.v1".toList⟩, _, _, _, _, _, find_first (by decide +kernel),
      .cut (b := "app".toList) (s := "v1".toList) (by decide) (by decide) (by decide), rfl, rfl, rfl, rfl, rfl, rfl⟩
  · exact ⟨exCmd "app.v2", ⟨"s".toList, "app.v2".toList⟩, _, _, _, _, _, find_first (by decide +kernel),
      .cut (b := "app".toList) (s := "v2".toList) (by decide) (by decide) (by decide), rfl, rfl, rfl, rfl, rfl, rfl⟩

/-- A target with the suffix of bitcode files is overwritten: it can be instrumented only once. -/
theorem C77_bitcode_refuted : ∃ (E : Env (List Nat)) (J : List Cmd) (fs fs' : Files (List Nat)) (t : Word) (p : Path),
    (∃ c, First J t c p) ∧ Build.run E J fs [t] = some fs' ∧ fs' p ≠ fs p ∧ Build.run E J fs' [t] = none := by
  refine ⟨noteEnv false, [exCmd "kernel.bc"], exStore [("kernel.bc", 1)], _, "kernel.bc".toList, ⟨"s".toList, "kernel.bc".toList⟩,
    ⟨exCmd "kernel.bc", find_first (by decide +kernel)⟩, rfl, by decide +kernel, by rfl⟩

/-- With control-flow logging only one table of functions is left: that of the last target. -/
theorem C77_ids_refuted : ∃ (E : Env (List Nat)) (J : List Cmd) (store : Word) (fs fs' : Files (List Nat)) (t u : Word) (i j : List Nat),
    E.cflog = true ∧ Apart E J store [t, u] ∧ Build.run E J fs [t, u] = some fs' ∧ Ids E J fs t i ∧ Ids E J fs u j ∧ i ≠ j ∧
    fs' ⟨E.cwd, "functionid.json".toList⟩ = some j := by
  have f1 : First [exCmd "png", exCmd "jpg"] "png".toList (exCmd "png") ⟨"s".toList, "png".toList⟩ := find_first (by decide +kernel)
  have f2 : First [exCmd "png", exCmd "jpg"] "jpg".toList (exCmd "jpg") ⟨"s".toList, "jpg".toList⟩ := find_first (by decide +kernel)
  have b1 : ∀ b, Base "png".toList b → b = "png".toList := fun b h => by rw [← base_stem h]; decide
  have b2 : ∀ b, Base "jpg".toList b → b = "jpg".toList := fun b h => by rw [← base_stem h]; decide
  have mem : ∀ t ∈ ["png".toList, "jpg".toList], t = "png".toList ∨ t = "jpg".toList := by simp
  have base : ∀ t ∈ ["png".toList, "jpg".toList], ∀ b, Base t b → b = t := by
    intro t ht b hb
    rcases mem t ht with rfl | rfl
    · exact b1 b hb
    · exact b2 b hb
  refine ⟨noteEnv true, [exCmd "png", exCmd "jpg"], "s".toList, exStore [("png", 1), ("jpg", 2)], _, "png".toList, "jpg".toList,
    [20, 1, 0, 1], [20, 1, 0, 2], rfl, ⟨by decide, by decide, ?_, ?_, ?_, ?_, ?_⟩, rfl,
    ⟨_, _, _, _, _, f1, rfl, rfl, rfl⟩, ⟨_, _, _, _, _, f2, rfl, rfl, rfl⟩, by decide, by decide +kernel⟩
  · intro t ht c p hf
    rcases mem t ht with rfl | rfl
    · rw [(first_unique hf f1).2]
    · rw [(first_unique hf f2).2]
  · intro t ht u hu b h1 h2
    rw [← base t ht b h1, ← base u hu b h2]
  · intro t ht u hu b h1 h2
    have e1 := base t ht b h1
    have e2 := base u hu _ h2
    subst e1
    rcases mem _ ht with rfl | rfl <;> rcases mem u hu with rfl | rfl <;> exact absurd e2 (by decide)
  · intro t ht u hu b hb
    have e := base u hu b hb
    subst e
    rcases mem _ ht with rfl | rfl <;> rcases mem _ hu with rfl | rfl <;> decide
  · intro t ht c p hf l hl
    rcases mem t ht with rfl | rfl
    · rw [(first_unique hf f1).1] at hl; cases hl
    · rw [(first_unique hf f2).1] at hl; cases hl

/-- Commands that give the output as one word: the old output is written, not the new one. -/
theorem C77_joined_refuted : ∃ (c : Cmd) (bc out : Path) (ps qs : List Part), parse (fun _ => false) c.args = some ps ∧
    written ps = some "app".toList ∧ parse (fun _ => false) (lowerCmd c [] bc out).tail = some qs ∧
    written qs = some "app".toList ∧ out.str ≠ "app".toList := by
  refine ⟨⟨"cc".toList, ["main.o".toList, "-oapp".toList], [⟨"main.o".toList, ⟨"s".toList, "main.o".toList⟩, .other⟩],
    [⟨"app".toList, ⟨"s".toList, "app".toList⟩, .other⟩]⟩, ⟨"w".toList, "app.instrumented.bc".toList⟩,
    ⟨"w".toList, "app.instrumented".toList⟩, _, _, rfl, by decide +kernel, rfl, by decide +kernel, by decide⟩

/-- An option whose value is the name of the output loses the value and takes the next word. -/
theorem C77_value_refuted : ∃ (takes : Word → Bool) (c : Cmd) (bc out : Path) (ps qs : List Part),
    parse takes c.args = some ps ∧ .pair "-MT".toList "app".toList ∈ ps ∧ parse takes (lowerCmd c [] bc out).tail = some qs ∧
    .pair "-MT".toList "-pie".toList ∈ qs ∧ .flag "-pie".toList ∉ qs := by
  refine ⟨fun w => w = "-MT".toList, ⟨"cc".toList, ["-o".toList, "app".toList, "main.c".toList, "-MT".toList, "app".toList],
    [⟨"main.c".toList, ⟨"s".toList, "main.c".toList⟩, .other⟩],
    [⟨"app".toList, ⟨"s".toList, "app".toList⟩, .other⟩]⟩, ⟨"w".toList, "app.instrumented.bc".toList⟩,
    ⟨"w".toList, "app.instrumented".toList⟩, _, _, rfl, by decide +kernel, rfl, by decide +kernel, by decide +kernel⟩

example : ∃ ps rest, parse (fun _ => false) (exCmd "app").args = some ps ∧ Clear (exCmd "app") ps ∧
    parse (fun _ => false) (["-pie".toList, "-Wl,--allow-multiple-definition".toList, "-Wl,--start-group".toList] ++
      (libFiles (exCmd "app")).map Path.str ++ ["libPolytracker.a".toList]) = some rest ∧
    Stays (exCmd "app") ps [.flag "-O2".toList] := by
  have r1 : Removed (exCmd "app") "app".toList := .inr (.inr ⟨_, .head _, rfl⟩)
  have r2 : Removed (exCmd "app") "main.o".toList := .inl ⟨_, .head _, rfl⟩
  refine ⟨[.flag "-O2".toList, .file "main.o".toList, .out "app".toList], _, rfl, ?_, rfl, .flag (.input r2 (.out .nil))⟩
  intro x hx
  simp only [List.mem_cons, List.not_mem_nil, or_false] at hx
  rcases hx with rfl | rfl | rfl
  · simp [Removed, exCmd]
  · trivial
  · exact r1

end Verif
