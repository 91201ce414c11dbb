import Verif.PassModuleLink
/- Programs of several modules for the examples; checks of the conditions on programs. -/
namespace Verif.PassModule

theorem plain_of {n : Name} (h : n.take 3 ≠ ['d', 'f', 's']) : Plain n := by
  intro m
  constructor <;> rintro rfl <;> exact h rfl

def Module.names (M : Module) : List Name := M.funcs.map (·.name) ++ M.aliases.map (·.name)

def okB (M : Module) : Bool :=
  decide M.names.Nodup && M.names.all (fun n => decide (n.take 3 ≠ ['d', 'f', 's'])) &&
  M.funcs.all (fun F => !F.loc || F.body.isSome) &&
  M.aliases.all (fun a => M.funcs.any fun F => decide (F.name = a.base) && F.body.isSome) &&
  M.funcs.all (fun F => (F.body.getD []).all fun r =>
    match r with
    | .call g => decide (g ∈ M.names)
    | .addr g => decide (g ∈ M.names)
    | .stop => true)

theorem okB_sound {M : Module} (h : okB M = true) : M.Ok := by
  simp only [okB, Bool.and_eq_true, decide_eq_true_eq, List.all_eq_true, List.any_eq_true, Bool.or_eq_true,
    Bool.not_eq_true'] at h
  obtain ⟨⟨⟨⟨h1, h2⟩, h3⟩, h4⟩, h5⟩ := h
  refine ⟨h1, fun n hn => plain_of (h2 n hn), fun F hF hl => ?_, fun a ha => ?_, fun F hF b hb r hr g hg => ?_⟩
  · rcases h3 F hF with h | h
    · rw [hl] at h; cases h
    · exact h
  · obtain ⟨F, hF, e, hb⟩ := h4 a ha
    exact ⟨F, hF, e, hb⟩
  · have := h5 F hF r (by rw [hb]; exact hr)
    rcases hg with rfl | rfl <;> exact of_decide_eq_true this

def uniqueB (P : List Module) : Bool :=
  P.zipIdx.all fun x => P.zipIdx.all fun y => x.1.defs.all fun d => y.1.defs.all fun e =>
    decide (d.1 = e.1 → d.2.1 = false → e.2.1 = false → x.2 = y.2)

def sigsB (P : List Module) : Bool :=
  P.all fun M => P.all fun N => M.names.all fun g =>
    M.isLoc g || N.isLoc g || (M.sig g).isNone || (N.sig g).isNone || decide (M.sig g = N.sig g)

theorem sig_names {M : Module} {g : Name} {s : Sig} (h : M.sig g = some s) : g ∈ M.names := by
  unfold Module.sig at h
  split at h
  · rename_i F hF
    obtain ⟨h1, rfl⟩ := func_some hF
    exact List.mem_append_left _ (List.mem_map_of_mem h1)
  · cases hf : M.aliases.find? fun a => decide (a.name = g) with
    | none => rw [hf] at h; cases h
    | some a =>
      obtain ⟨h1, rfl⟩ := find_name Alias.name hf
      exact List.mem_append_right _ (List.mem_map_of_mem h1)

theorem linkable_of {P : List Module} (h : (P.all okB && uniqueB P && sigsB P) = true) : Linkable P := by
  simp only [Bool.and_eq_true, List.all_eq_true] at h
  obtain ⟨⟨h1, h2⟩, h3⟩ := h
  refine ⟨fun i M hi => okB_sound (h1 M (List.mem_of_getElem? hi)), ?_, ?_⟩
  · intro i j M N g m n hi hj hm hn
    simp only [uniqueB, List.all_eq_true, decide_eq_true_eq] at h2
    exact h2 (M, i) (List.mem_zipIdx_iff_getElem?.2 hi) (N, j) (List.mem_zipIdx_iff_getElem?.2 hj) _ hm _ hn rfl rfl rfl
  · intro i j M N g s t hi hj hM hN hs ht
    simp only [sigsB, List.all_eq_true] at h3
    have := h3 M (List.mem_of_getElem? hi) N (List.mem_of_getElem? hj) g (sig_names hs)
    simpa [hM, hN, hs, ht] using this

def coversB (A : AbiList) (P : List Module) : Bool :=
  P.all (fun M => M.funcs.all fun F => F.body.isSome || A.unins F.name ||
    P.any fun N => N.defs.any fun d => decide (d.1 = F.name) && !d.2.1) &&
  P.all (fun M => M.aliases.all fun a => !(A.unins a.name && A.unins a.base)) &&
  P.all (fun M => M.aliases.all fun a => M.funcs.all fun F => decide (F.name ≠ a.base) || !F.sig.vararg ||
    decide (A.unins a.name = A.unins a.base)) &&
  P.all (fun M => M.funcs.all fun F => (F.body.getD []).all fun r =>
    match r with
    | .addr g => !((M.sig g).map (·.vararg)).getD false || !A.unins g
    | _ => true)

theorem covers_of {A : AbiList} {P : List Module} (hs : ∀ n, A.uninsSrc n = false) (h : coversB A P = true) : Covers A P := by
  simp only [coversB, Bool.and_eq_true, List.all_eq_true, Bool.or_eq_true, List.any_eq_true, decide_eq_true_eq,
    Bool.not_eq_true'] at h
  obtain ⟨⟨⟨h1, h2⟩, h3⟩, h4⟩ := h
  refine ⟨hs, ?_, ?_, ?_, ?_⟩
  · intro i M F hi hF hb hu
    rcases h1 M (List.mem_of_getElem? hi) F hF with (h | h) | ⟨N, hN, d, hd, he, hl⟩
    · rw [hb] at h; cases h
    · rw [hu] at h; cases h
    · obtain ⟨j, hj⟩ := List.mem_iff_getElem?.1 hN
      obtain ⟨x, l, n⟩ := d
      simp only at he hl
      subst he hl
      exact ⟨j, N, n, hj, hd⟩
  · rintro i M a hi ha ⟨e1, e2⟩
    have := h2 M (List.mem_of_getElem? hi) a ha
    rw [e1, e2] at this; cases this
  · intro i M a F hi ha hF hn hv
    rcases h3 M (List.mem_of_getElem? hi) a ha F hF with (h | h) | h
    · exact absurd hn h
    · rw [hv] at h; cases h
    · exact h
  · intro i M F b g s hi hF hb hg hs hv
    have := h4 M (List.mem_of_getElem? hi) F hF (.addr g) (by rw [hb]; exact hg)
    simpa [hs, hv] using this

/-! ### A program -/

abbrev one : Sig := ⟨1, false, false⟩
abbrev many : Sig := ⟨1, true, false⟩
abbrev unit : Sig := ⟨0, false, true⟩

def nm (s : String) : Name := s.toList

/-- Lists by names. -/
def listed (unins functional discard custom : List Name) : AbiList :=
  { unins := fun n => decide (n ∈ unins), uninsSrc := fun _ => false, functional := fun n => decide (n ∈ functional),
    discard := fun n => decide (n ∈ discard), custom := fun n => decide (n ∈ custom) }

/-- `main` calls a local function, a function of the other module through an alias, `read` (custom), `free` (discard), `printf`, and
takes the addresses of `free` and of its local function. -/
def prog0 : Module :=
  { src := nm "a.c"
    funcs := [⟨nm "main", one, false, some [.call (nm "helper"), .call (nm "work"), .call (nm "read"), .call (nm "free"),
        .call (nm "printf"), .addr (nm "free"), .addr (nm "helper"), .call (nm "entry"), .call (nm "abort")]⟩,
      ⟨nm "helper", one, true, some []⟩, ⟨nm "work", one, false, none⟩, ⟨nm "entry", one, false, none⟩,
      ⟨nm "read", one, false, none⟩, ⟨nm "free", one, false, none⟩, ⟨nm "printf", many, false, none⟩,
      ⟨nm "abort", unit, false, none⟩]
    aliases := [] }

/-- The other module: `work` is an alias of `doWork`; `entry` is listed and an alias of a function that is not. -/
def prog1 : Module :=
  { src := nm "b.c"
    funcs := [⟨nm "doWork", one, false, some [.call (nm "helper"), .addr (nm "read"), .call (nm "entry")]⟩,
      ⟨nm "helper", many, true, some [.call (nm "free")]⟩, ⟨nm "read", one, false, none⟩, ⟨nm "free", one, false, none⟩]
    aliases := [⟨nm "work", false, nm "doWork"⟩, ⟨nm "entry", false, nm "doWork"⟩] }

def progA : AbiList :=
  listed [nm "read", nm "free", nm "printf", nm "entry", nm "abort"] [] [nm "free", nm "printf", nm "entry", nm "abort"] [nm "read"]

theorem prog_linkable : Linkable [prog0, prog1] := linkable_of (by decide +kernel)

theorem prog_covers : Covers progA [prog0, prog1] := covers_of (fun _ => rfl) (by decide +kernel)

theorem prog_links : Links ([prog0, prog1].map (run progA)) (firstLink ([prog0, prog1].map (run progA))) :=
  links_exist (fun _ => rfl) prog_linkable.ok

end Verif.PassModule
