import Verif.PyDocker
import Verif.Spec.Docker
/-
C93: DockerContainer.run (/repo/polytracker/containerization.py 87-233) runs the given command in an image that is not older
than the sources, with the given directories and variables.
-/
namespace Verif.C93
open PyDocker
open Spec.Docker hiding Str

/-- What docker is asked for. -/
def asked (interactive remove : Bool) (mounts env : List (Str × Str)) (image : Str) (args : List Str) : Inv :=
  ⟨some "/workdir".toList, interactive, remove, mounts.map (fun m => m.1 ++ ':' :: (m.2 ++ ":cached".toList)),
    env.map (fun e => e.1 ++ '=' :: escape e.2), image, args⟩

theorem env_reads (env : List (Str × Str)) {s : List Str} {i : Inv} (h : Reads s i) :
    Reads (env.flatMap (fun e => ["-e".toList, e.1 ++ '=' :: escape e.2]) ++ s)
      { i with env := env.map (fun e => e.1 ++ '=' :: escape e.2) ++ i.env } := by
  induction env with
  | nil => exact h
  | cons e env ih => exact .env ih

theorem mount_reads (ms : List (Str × Str)) {s : List Str} {i : Inv} (h : Reads s i) :
    Reads (ms.flatMap (fun m => ["-v".toList, m.1 ++ ':' :: (m.2 ++ ":cached".toList)]) ++ s)
      { i with mounts := ms.map (fun m => m.1 ++ ':' :: (m.2 ++ ":cached".toList)) ++ i.mounts } := by
  induction ms with
  | nil => exact h
  | cons e ms ih => exact .mount ih

/-- Whatever the arguments are, docker takes them as the command in the container, and takes nothing else for an option. -/
theorem C93_command (interactive remove : Bool) (mounts env : List (Str × Str)) (image : Str) (args : List Str)
    (hi : image.head? ≠ some '-') :
    ∃ s, cmdArgs interactive remove mounts env image args = "docker".toList :: "run".toList :: s ∧
      Reads s (asked interactive remove mounts env image args) := by
  have h0 : Reads (image :: args) ⟨none, false, false, [], [], image, args⟩ := .image hi
  have h1 := mount_reads mounts (env_reads env h0)
  simp only [List.append_nil] at h1
  have h2 : Reads ((if remove then ["--rm".toList] else []) ++ (mounts.flatMap (fun m => ["-v".toList, m.1 ++ ':' :: (m.2 ++ ":cached".toList)]) ++
      (env.flatMap (fun e => ["-e".toList, e.1 ++ '=' :: escape e.2]) ++ image :: args)))
      { asked false remove mounts env image args with workdir := none } := by
    cases remove with
    | false => exact h1
    | true => exact .rm h1
  have h3 : Reads ((if interactive then ["-it".toList] else []) ++ ((if remove then ["--rm".toList] else []) ++
      (mounts.flatMap (fun m => ["-v".toList, m.1 ++ ':' :: (m.2 ++ ":cached".toList)]) ++
      (env.flatMap (fun e => ["-e".toList, e.1 ++ '=' :: escape e.2]) ++ image :: args))))
      { asked interactive remove mounts env image args with workdir := none } := by
    cases interactive with
    | false => exact h2
    | true => exact .tty h2
  refine ⟨_, ?_, .workdir (d := "/workdir".toList) h3 rfl⟩
  simp only [cmdArgs, List.cons_append, List.nil_append, List.append_assoc]
  rfl

theorem cut_append (c : Char) (a b : Str) (h : c ∉ a) : cut c (a ++ c :: b) = some (a, b) := by
  induction a with
  | nil => simp [cut]
  | cons d a ih =>
    simp only [List.mem_cons, not_or] at h
    simp [cut, ih h.2, Ne.symm h.1]

theorem escape_id (v : Str) (h : '"' ∉ v) : escape v = v := by
  induction v with
  | nil => rfl
  | cons c v ih =>
    simp only [List.mem_cons, not_or] at h
    simp only [escape, List.flatMap_cons] at ih ⊢
    rw [if_neg (Ne.symm h.1), ih h.2]; rfl

/-- A variable has its value in the container if there is no quotation mark in it. -/
theorem C93_env_partial (interactive remove : Bool) (mounts env : List (Str × Str)) (image : Str) (args : List Str)
    (hk : ∀ e ∈ env, '=' ∉ e.1) (hv : ∀ e ∈ env, '"' ∉ e.2) :
    (asked interactive remove mounts env image args).env.map setting = env.map some := by
  simp only [asked, List.map_map]
  refine List.map_congr_left fun e he => ?_
  simp only [Function.comp, setting, cut_append _ _ _ (hk e he), escape_id _ (hv e he)]

/-- The directories are mounted where they should be if there is no colon in their names. -/
theorem C93_mounts_partial (interactive remove : Bool) (mounts env : List (Str × Str)) (image : Str) (args : List Str)
    (h1 : ∀ m ∈ mounts, ':' ∉ m.1) (h2 : ∀ m ∈ mounts, ':' ∉ m.2) :
    (asked interactive remove mounts env image args).mounts.map mounted = mounts.map fun m => some (m.1, m.2, "cached".toList) := by
  simp only [asked, List.map_map]
  refine List.map_congr_left fun m hm => ?_
  have : ":cached".toList = ':' :: "cached".toList := by decide
  simp only [Function.comp, mounted, this, cut_append _ _ _ (h1 m hm), cut_append _ _ _ (h2 m hm)]

/-- Quotation marks get a backslash that nobody removes: a program in the container never sees the value. -/
theorem C93_env_refuted (k v : Str) (hk : '=' ∉ k) (hv : '"' ∈ v) :
    ∃ v', setting (k ++ '=' :: escape v) = some (k, v') ∧ v' ≠ v ∧ v.length < v'.length := by
  have len : ∀ v : Str, v.length ≤ (escape v).length := by
    intro v
    induction v with
    | nil => simp
    | cons c v ih =>
      simp only [escape, List.flatMap_cons, List.length_append, List.length_cons] at ih ⊢
      split <;> simp only [List.length_cons, List.length_nil] <;> omega
  have lt : v.length < (escape v).length := by
    induction v with
    | nil => cases hv
    | cons c v ih =>
      rcases List.mem_cons.1 hv with rfl | hv
      · have := len v
        simp only [escape, List.flatMap_cons, if_true, List.length_append, List.length_cons, List.length_nil] at this ⊢
        omega
      · have := ih hv
        simp only [escape, List.flatMap_cons, List.length_append, List.length_cons] at this ⊢
        split <;> simp only [List.length_cons, List.length_nil] <;> omega
  exact ⟨escape v, cut_append _ _ _ hk, fun h => by rw [h] at lt; omega, lt⟩

/-- A directory with a colon in its name is taken apart. -/
theorem C93_mounts_refuted : ∃ s t : Str, mounted (s ++ ':' :: (t ++ ":cached".toList)) ≠ some (s, t, "cached".toList) :=
  ⟨"/a:b".toList, "/w".toList, by decide⟩

/-- The file is part of what is built into the image. -/
def Source (w : World) (p : Src) : Prop := (∃ d s, w.top = some (d, s) ∧ (p = d ∨ p = s)) ∨ (p ∈ w.files ∧ p.cached = false)

theorem maxLoop_spec (cs : List Nat) : ∀ t, ∃ b, maxLoop (some t) cs = some b ∧ t ≤ b ∧ (∀ c ∈ cs, c ≤ b) ∧ (b = t ∨ b ∈ cs) := by
  induction cs with
  | nil => intro t; exact ⟨t, rfl, Nat.le_refl _, by simp, .inl rfl⟩
  | cons c cs ih =>
    intro t
    obtain ⟨b, h1, h2, h3, h4⟩ := ih (if c > t then c else t)
    refine ⟨b, h1, ?_, ?_, ?_⟩
    · split at h2 <;> omega
    · intro x hx
      rcases List.mem_cons.1 hx with rfl | hx
      · split at h2 <;> omega
      · exact h3 x hx
    · split at h4
      · rcases h4 with rfl | h4
        · exact .inr (by simp)
        · exact .inr (List.mem_cons_of_mem _ h4)
      · rcases h4 with rfl | h4
        · exact .inl rfl
        · exact .inr (List.mem_cons_of_mem _ h4)

/-- `last_build_time` is the latest time in the history of the image. -/
theorem C93_build_time (w : World) (b : Nat) :
    lastBuild w = some b ↔ ∃ h, w.image = some h ∧ b ∈ h ∧ ∀ c ∈ h, c ≤ b := by
  unfold lastBuild
  cases hw : w.image with
  | none => simp
  | some h =>
    simp only [Option.some.injEq, exists_eq_left']
    cases h with
    | nil => simp [maxLoop]
    | cons c cs =>
      obtain ⟨b', h1, h2, h3, h4⟩ := maxLoop_spec cs c
      have hm : b' ∈ c :: cs := by
        rcases h4 with rfl | h4
        · simp
        · exact List.mem_cons_of_mem _ h4
      have hle : ∀ x ∈ c :: cs, x ≤ b' := by
        intro x hx
        rcases List.mem_cons.1 hx with rfl | hx
        · exact h2
        · exact h3 x hx
      rw [maxLoop, h1]
      constructor
      · intro e; cases e; exact ⟨hm, hle⟩
      · rintro ⟨e1, e2⟩
        rw [Nat.le_antisymm (hle b e1) (e2 b' hm)]

theorem mem_ood {w : World} {p : Src} : p ∈ computeOod w ↔ (Source w p ∧ ∃ d s b, w.top = some (d, s) ∧
    (p = d ∨ p = s ∨ p.py = false) ∧ lastBuild w = some b ∧ b < p.mtime) := by
  unfold computeOod
  cases hb : lastBuild w with
  | none => simp
  | some b =>
    cases ht : w.top with
    | none => simp
    | some ds =>
      obtain ⟨d, s⟩ := ds
      simp only [List.mem_filter, List.mem_cons, Bool.and_eq_true, Bool.not_eq_true', decide_eq_true_eq, Source, ht,
        Option.some.injEq, Prod.mk.injEq]
      constructor
      · rintro ⟨h | h | ⟨h1, h2, h3⟩, hm⟩
        · exact ⟨.inl ⟨d, s, ⟨rfl, rfl⟩, .inl h⟩, d, s, b, ⟨rfl, rfl⟩, .inl h, rfl, hm⟩
        · exact ⟨.inl ⟨d, s, ⟨rfl, rfl⟩, .inr h⟩, d, s, b, ⟨rfl, rfl⟩, .inr (.inl h), rfl, hm⟩
        · exact ⟨.inr ⟨h1, h2⟩, d, s, b, ⟨rfl, rfl⟩, .inr (.inr h3), rfl, hm⟩
      · rintro ⟨hs, d', s', b', ⟨rfl, rfl⟩, hc, rfl, hm⟩
        refine ⟨?_, hm⟩
        rcases hc with h | h | h
        · exact .inl h
        · exact .inr (.inl h)
        · rcases hs with ⟨d', s', ⟨rfl, rfl⟩, h' | h'⟩ | ⟨h1, h2⟩
          · exact .inl h'
          · exact .inr (.inl h')
          · exact .inr (.inr ⟨h1, h2, h⟩)

/-- Asked for the first time, `run` calls docker on an image that was there only if no source but Python files is newer than
the image, and always if none is; otherwise it names exactly these. -/
theorem C93_fresh_partial (w after : World) (interactive remove given build : Bool) (mounts env : List (Str × Str)) (image : Str)
    (args : List Str) (h : List Nat) (hw : w.image = some h) (hg : (interactive && given) = false) :
    let r := (run w after none build true interactive remove given mounts env image args).1
    let Newer := fun p => Source w p ∧ ∃ d s b, w.top = some (d, s) ∧ (p = d ∨ p = s ∨ p.py = false) ∧
      lastBuild w = some b ∧ b < p.mtime
    (r = .docker (cmdArgs interactive remove mounts env image args) ∧ ∀ p, ¬ Newer p) ∨
      ∃ l, r = .outOfDate l ∧ l ≠ [] ∧ ∀ p, p ∈ l ↔ Newer p := by
  intro r Newer
  have hr : r = (run w after none build true interactive remove given mounts env image args).1 := rfl
  unfold run at hr
  simp only [hw, hg, if_true, ood, Bool.false_eq_true, if_false] at hr
  cases hl : computeOod w with
  | nil =>
    rw [hl] at hr
    exact .inl ⟨hr, fun p hp => by have := mem_ood.2 hp; rw [hl] at this; cases this⟩
  | cons x l =>
    rw [hl] at hr
    refine .inr ⟨x :: l, hr, by simp, fun p => ?_⟩
    rw [← hl]; exact mem_ood

/-- Without an image docker is called only after one was made. -/
theorem C93_exists (w after : World) (memo : Option (List Src)) (build check interactive remove given : Bool)
    (mounts env : List (Str × Str)) (image : Str) (args cmd : List Str)
    (h : (run w after memo build check interactive remove given mounts env image args).1 = .docker cmd) :
    cmd = cmdArgs interactive remove mounts env image args ∧
      (run w after memo build check interactive remove given mounts env image args).2.1.image.isSome ∧
      (w.image = none → build = true ∧ after.image.isSome) := by
  unfold run at h ⊢
  cases hg : interactive && given with
  | true =>
    simp only [hg, if_true] at h
    cases hw : w.image with
    | none => cases build <;> simp [hw] at h; split at h <;> cases h
    | some l =>
      cases check with
      | false => simp [hw] at h
      | true => simp only [hw, if_true] at h; split at h <;> cases h
  | false =>
    simp only [hg, Bool.false_eq_true, if_false] at h ⊢
    cases hw : w.image with
    | none =>
      cases build with
      | false => simp [hw] at h
      | true =>
        cases ha : after.image with
        | none => simp [hw, ha] at h
        | some l => simp [hw, ha] at h ⊢; exact h.symm
    | some l =>
      cases check with
      | false => simp [hw] at h ⊢; exact h.symm
      | true =>
        simp only [hw, if_true] at h ⊢
        split at h
        · cases h; simp [hw]
        · cases h

/-- A Python file that is newer than the image is not noticed. -/
theorem C93_python_refuted : ∃ (w : World) (p : Src) (b : Nat), Source w p ∧ lastBuild w = some b ∧ b < p.mtime ∧
    computeOod w = [] :=
  ⟨⟨some [5], some (⟨0, false, false, 1⟩, ⟨1, true, false, 1⟩), [⟨2, true, false, 9⟩]⟩, ⟨2, true, false, 9⟩, 5,
    .inr ⟨by simp, rfl⟩, by decide, by decide, by decide⟩

/-- The answer is remembered: after a rebuild the same object still refuses, and after a change it still runs. -/
theorem C93_remembered_refuted (w w' after : World) (build interactive remove given : Bool) (mounts env : List (Str × Str))
    (image : Str) (args : List Str) (h : List Nat) (hw' : w'.image = some h) (hg : (interactive && given) = false) :
    (run w' after (ood w none).2 build true interactive remove given mounts env image args).1 =
      if computeOod w = [] then .docker (cmdArgs interactive remove mounts env image args) else .outOfDate (computeOod w) := by
  unfold run
  simp only [hw', hg, if_true, ood, Bool.false_eq_true, if_false]
  cases hl : computeOod w with
  | nil => rfl
  | cons x l => rfl

/-- A value with an equals sign arrives, and an argument that looks like an option is left to the command. -/
example : cmdArgs true true [("/src".toList, "/workdir".toList)] [("A".toList, "b=c".toList)] "img".toList ["-e".toList] =
    ["docker", "run", "-w=/workdir", "-it", "--rm", "-v", "/src:/workdir:cached", "-e", "A=b=c", "img", "-e"].map String.toList := by
  decide

end Verif.C93
