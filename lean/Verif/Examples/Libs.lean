import Verif.LibsPass
import Verif.Examples.Link
/- Libraries, a list and programs for the examples of C76. -/
namespace Verif.Libs
open PassModule

/-- The list as it is in the file. -/
def exList : AbiList :=
  { unins := fun n => decide ((n, Cat.unins) ∈ shipped), uninsSrc := fun _ => false,
    functional := fun n => decide ((n, Cat.functional) ∈ shipped), discard := fun n => decide ((n, Cat.discard) ∈ shipped),
    custom := fun n => decide ((n, Cat.custom) ∈ shipped) }

theorem exList_reads : Reads exList := by
  have h : ∀ x ∈ shipped, x.1 ∈ relevant := by decide +kernel
  refine ⟨fun _ => rfl, ?_, ?_⟩
  · intro g _ c
    cases c <;> exact decide_eq_true_iff
  · intro g hg
    exact decide_eq_false fun hc => hg (h _ hc)

/-- Source files with wrappers. -/
def exFiles : List String := (polyWrappers.map (·.2)).eraseDups

/-- Object of a source file; all refer to a part of libc++. -/
def exObj (f : String) : Obj :=
  { file := chars f, defs := (polyWrappers.filter fun x => x.2 = f).map fun x => dfswSym x.1, refs := [chars "_ZNSt8ios_baseD2Ev"] }

/-- The part of libc++ writes. -/
def exLibs : LinkLibs :=
  { user := [], cxx := [⟨chars "ios.cpp", [chars "_ZNSt8ios_baseD2Ev"], [dfswSym (chars "write")]⟩], cxxabi := [],
    poly := exFiles.map exObj, rt := [⟨chars "dfsan_custom.cpp", rtWrappers.map dfswSym, []⟩] }

theorem chars_inj {f f' : String} (h : chars f = chars f') : f = f' := String.toList_inj.1 h

theorem exLibs_ships : Ships exLibs := by
  have hf : ∀ x ∈ polyWrappers, x.2 ∈ exFiles := by decide +kernel
  refine ⟨?_, ?_, ?_, ?_⟩
  · intro g f
    constructor
    · rintro ⟨m, hm, he, hd⟩
      obtain ⟨f', -, rfl⟩ := List.mem_map.1 hm
      have := chars_inj he
      subst this
      obtain ⟨x, hx, hg⟩ := List.mem_map.1 hd
      obtain ⟨h1, h2⟩ := List.mem_filter.1 hx
      rw [← dfswSym_inj hg, ← of_decide_eq_true h2]
      exact h1
    · intro h
      exact ⟨exObj f, List.mem_map_of_mem (hf _ h), rfl, List.mem_map.2 ⟨(g, f), List.mem_filter.2 ⟨h, by simp⟩, rfl⟩⟩
  · intro m hm
    obtain ⟨f, -, rfl⟩ := List.mem_map.1 hm
    exact ⟨f, rfl⟩
  · intro g
    constructor
    · rintro ⟨m, hm, hd⟩
      rw [show exLibs.rt = [⟨chars "dfsan_custom.cpp", rtWrappers.map dfswSym, []⟩] from rfl, List.mem_singleton] at hm
      subst hm
      obtain ⟨x, hx, hg⟩ := List.mem_map.1 hd
      rw [← dfswSym_inj hg]; exact hx
    · intro h
      exact ⟨_, .head _, List.mem_map_of_mem h⟩
  · intro a ha m hm g hd
    have : ∀ a ∈ exLibs.user ++ [exLibs.cxx, exLibs.cxxabi], ∀ m ∈ a, ∀ d ∈ m.defs, d.take 7 ≠ ['_', '_', 'd', 'f', 's', 'w', '_'] := by
      decide +kernel
    exact this a ha m hm _ hd rfl

/-- A C program that opens a file and measures a text. -/
def exProg : Module :=
  ⟨chars "a.c", [⟨chars "main", ⟨0, false, true⟩, false, some [.call (chars "open"), .call (chars "strlen")]⟩,
    ⟨chars "open", ⟨2, true, false⟩, false, none⟩, ⟨chars "strlen", ⟨1, false, false⟩, false, none⟩], []⟩

theorem exProg_ok : exProg.Ok := okB_sound (by decide +kernel)

theorem exProg_up : Unprefixed [exProg] := by
  have : ∀ n ∈ exProg.funcs.map (·.name) ++ exProg.aliases.map (·.name), n.take 7 ≠ ['_', '_', 'd', 'f', 's', 'w', '_'] := by
    decide +kernel
  intro M hM n hn g e
  rw [List.mem_singleton] at hM
  subst hM
  exact this n hn (by rw [e]; rfl)

end Verif.Libs
