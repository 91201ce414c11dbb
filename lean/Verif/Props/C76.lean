import Verif.LibsPass
import Verif.Examples.Libs
/- C76: calls of the functions that the shipped list gives to wrappers reach PolyTracker's wrapper, or the runtime's. -/
namespace Verif
open PassModule Libs

/-- Groups of archives: a symbol that the objects of the program refer to comes from the first archive that has it. -/
theorem C76_group {pre post : List Archive} {a : Archive} {l : List Obj} {s : Name}
    (href : ∃ o ∈ l, s ∈ o.refs) (hl : ∀ o ∈ l, s ∉ o.defs) (hpre : ∀ b ∈ pre, ∀ m ∈ b, s ∉ m.defs)
    (ha : ∃ m ∈ a, s ∈ m.defs) : ∃ m ∈ a, s ∈ m.defs ∧ resolve (linkGroup (pre ++ a :: post) l) s = some m :=
  first_archive href hl hpre ha

namespace Libs

/-- Listed as custom without a wrapper in the sources. -/
def missing : List Name := ["_IO_putc", "__polytracker_log_taint_cmp", "__polytracker_log_taint_op"].map chars

/-- With a wrapper in the sources and not listed as custom. -/
def unused : List Name :=
  ["_IO_getc", "__getdelim", "__sanitizer_cov_trace_cmp", "_dl_get_tls_static_info", "_putc", "dfsan_get_origin", "epoll_wait",
    "fgetc_unlocked", "fork", "getdelim", "getpeername", "gets", "getsockname", "getsockopt", "memmove", "openat", "pthread_join",
    "recvmmsg", "recvmsg", "sigaltstack", "signal", "strpbrk"].map chars

theorem customs_table : ∀ x ∈ shipped, x.2 = Cat.custom →
    x.1 ∈ relevant ∧ (x.1, Cat.unins) ∈ shipped ∧ (x.1, Cat.functional) ∉ shipped ∧ (x.1, Cat.discard) ∉ shipped := by
  decide +kernel

theorem wrappers_table : ∀ x ∈ shipped, x.2 = Cat.custom →
    (x.1 ∈ polyWrappers.map (·.1) ∨ x.1 ∈ rtWrappers ↔ x.1 ∉ missing) := by
  decide +kernel

theorem unused_table : ∀ g ∈ polyWrappers.map (·.1) ++ rtWrappers, ((g, Cat.custom) ∉ shipped ↔ g ∈ unused) := by
  decide +kernel

theorem relevant_table : ∀ g ∈ polyWrappers.map (·.1) ++ rtWrappers, g ∈ relevant := by decide +kernel

theorem files_table : ∀ x ∈ polyWrappers, ∀ y ∈ polyWrappers, x.1 = y.1 → x.2 = y.2 := by decide +kernel

theorem listed_of {A : AbiList} (rd : Reads A) {g : Name} (h : (g, Cat.custom) ∈ shipped) :
    A.unins g = true ∧ ListedCustom A g := by
  obtain ⟨h1, h2, h3, h4⟩ := customs_table _ h rfl
  refine ⟨(rd.lines g h1 .unins).2 h2, (rd.lines g h1 .custom).2 h, ?_, ?_⟩
  · cases hf : A.functional g with
    | false => rfl
    | true => exact absurd ((rd.lines g h1 .functional).1 hf) h3
  · cases hf : A.discard g with
    | false => rfl
    | true => exact absurd ((rd.lines g h1 .discard).1 hf) h4

end Libs

/-- All functions that the shipped list names as custom are also named as not instrumented and have no other category:
calls of them go to the wrapper. -/
theorem C76_listed {A : AbiList} (rd : Reads A) {g : Name} (h : A.custom g = true) : A.unins g = true ∧ ListedCustom A g := by
  refine listed_of rd ?_
  by_cases hr : g ∈ relevant
  · exact (rd.lines g hr .custom).1 h
  · rw [rd.custom g hr] at h; cases h

/-- A call of a function that the shipped list names as custom: the executable has PolyTracker's wrapper, from the file
where it is, if there is one, even if the runtime has another; else the wrapper of the runtime. There is one of them for all
custom functions but `_IO_putc` and two of PolyTracker's own. -/
theorem C76_wrapper_partial {A : AbiList} {B : LinkLibs} {P : List Module} (rd : Reads A) (sh : Ships B)
    (ok : ∀ M ∈ P, M.Ok) (up : Unprefixed P)
    (al : ∀ M ∈ P, ∀ a ∈ M.aliases, ¬ (A.unins a.name = true ∧ A.unins a.base = true))
    {M : Module} {F : Func} {b : List Ref} {g : Name} (hM : M ∈ P) (hF : F ∈ M.funcs) (hb : F.body = some b)
    (hr : .call g ∈ b) (hc : A.custom g = true) :
    (∃ o ∈ lower B (P.map fun M => objOf (run A M)), dfswSym g ∈ o.refs) ∧
    (∀ f, (g, f) ∈ polyWrappers → ∃ m ∈ B.poly, m.file = chars f ∧
      resolve (lower B (P.map fun M => objOf (run A M))) (dfswSym g) = some m) ∧
    (g ∉ polyWrappers.map (·.1) → g ∈ rtWrappers → ∃ m ∈ B.rt,
      resolve (lower B (P.map fun M => objOf (run A M))) (dfswSym g) = some m) ∧
    (resolve (lower B (P.map fun M => objOf (run A M))) (dfswSym g) = none ↔ g ∈ missing) := by
  obtain ⟨hu, hl⟩ := C76_listed rd hc
  have hs : (g, Cat.custom) ∈ shipped := by
    by_cases hr : g ∈ relevant
    · exact (rd.lines g hr .custom).1 hc
    · rw [rd.custom g hr] at hc; cases hc
  obtain ⟨i, hi⟩ := List.getElem?_of_mem hM
  have huse := call_custom rd.src hi (ok M hM) (al M hM) ((ok M hM).declared F hF b hb _ hr g (.inl rfl)) hu hl
  have href : ∃ o ∈ P.map (fun M => objOf (run A M)), dfswSym g ∈ o.refs :=
    ⟨_, List.mem_map_of_mem hM, ref_mem hF hb hr (by rw [huse]; simp [refSyms])⟩
  have hdef : ∀ o ∈ P.map (fun M => objOf (run A M)), dfswSym g ∉ o.defs := by
    intro o ho
    obtain ⟨N, hN, rfl⟩ := List.mem_map.1 ho
    exact obj_defs up hN g
  have hpoly : ∀ f, (g, f) ∈ polyWrappers → ∃ m ∈ B.poly, m.file = chars f ∧
      resolve (lower B (P.map fun M => objOf (run A M))) (dfswSym g) = some m := by
    intro f hf
    obtain ⟨m, hm, -, hd⟩ := (sh.poly g f).2 hf
    have hline : B.line = (B.user ++ [B.cxx, B.cxxabi]) ++ B.poly :: [B.rt] := by simp [LinkLibs.line]
    obtain ⟨x, hx, hxd, hres⟩ := first_archive (post := [B.rt]) href hdef
      (fun a ha m hm => sh.others a ha m hm g) ⟨m, hm, hd⟩
    obtain ⟨f', hf'⟩ := sh.polyFiles x hx
    have := (sh.poly g f').1 ⟨x, hx, hf', hxd⟩
    refine ⟨x, hx, ?_, by rw [lower, hline]; exact hres⟩
    rw [hf']
    exact congrArg chars (files_table _ this _ hf rfl)
  have hrt : g ∉ polyWrappers.map (·.1) → g ∈ rtWrappers → ∃ m ∈ B.rt,
      resolve (lower B (P.map fun M => objOf (run A M))) (dfswSym g) = some m := by
    intro hn hg
    have hline : B.line = (B.user ++ [B.cxx, B.cxxabi, B.poly]) ++ B.rt :: [] := by simp [LinkLibs.line]
    have hpre : ∀ a ∈ B.user ++ [B.cxx, B.cxxabi, B.poly], ∀ m ∈ a, dfswSym g ∉ m.defs := by
      intro a ha m hm hd
      have : a ∈ B.user ++ [B.cxx, B.cxxabi] ∨ a = B.poly := by
        have e : B.user ++ [B.cxx, B.cxxabi, B.poly] = (B.user ++ [B.cxx, B.cxxabi]) ++ [B.poly] := by simp
        rw [e] at ha
        exact (List.mem_append.1 ha).imp id List.mem_singleton.1
      rcases this with h | rfl
      · exact sh.others a h m hm g hd
      · obtain ⟨f, hf⟩ := sh.polyFiles m hm
        exact hn (List.mem_map.2 ⟨_, (sh.poly g f).1 ⟨m, hm, hf, hd⟩, rfl⟩)
    obtain ⟨x, hx, -, hres⟩ := first_archive (post := []) href hdef hpre ((sh.rt g).2 hg)
    exact ⟨x, hx, by rw [lower, hline]; exact hres⟩
  refine ⟨?_, hpoly, hrt, ?_⟩
  · obtain ⟨o, ho, h⟩ := href
    obtain ⟨ms, h1, -⟩ := group_adds (((B.line).map (·.length)).sum + 1) B.line (P.map fun M => objOf (run A M))
    refine ⟨o, ?_, h⟩
    unfold lower linkGroup
    rw [h1]
    exact List.mem_append_left _ ho
  · constructor
    · intro hnone
      refine Classical.byContradiction fun hm => ?_
      rcases (wrappers_table _ hs rfl).2 hm with h | h
      · obtain ⟨x, hx, he⟩ := List.mem_map.1 h
        change x.1 = g at he
        obtain ⟨m, -, -, h⟩ := hpoly x.2 (by rw [← he]; exact hx)
        rw [hnone] at h; cases h
      · by_cases hp : g ∈ polyWrappers.map (·.1)
        · obtain ⟨x, hx, he⟩ := List.mem_map.1 hp
          obtain ⟨m, -, -, h⟩ := hpoly x.2 (by rw [← he]; exact hx)
          rw [hnone] at h; cases h
        · obtain ⟨m, -, h⟩ := hrt hp h
          rw [hnone] at h; cases h
    · intro hm
      have hno : ¬ (g ∈ polyWrappers.map (·.1) ∨ g ∈ rtWrappers) := fun h => (wrappers_table _ hs rfl).1 h hm
      refine no_archive hdef ?_
      intro a ha m hma hd
      have : a ∈ B.user ++ [B.cxx, B.cxxabi] ∨ a = B.poly ∨ a = B.rt := by
        have e : B.line = (B.user ++ [B.cxx, B.cxxabi]) ++ [B.poly, B.rt] := by simp [LinkLibs.line]
        rw [e] at ha
        exact (List.mem_append.1 ha).imp id (by simp)
      rcases this with h | rfl | rfl
      · exact sh.others a h m hma g hd
      · obtain ⟨f, hf⟩ := sh.polyFiles m hma
        exact hno (.inl (List.mem_map.2 ⟨_, (sh.poly g f).1 ⟨m, hma, hf, hd⟩, rfl⟩))
      · exact hno (.inr ((sh.rt g).1 ⟨m, hma, hd⟩))

example : (∃ m ∈ exLibs.poly, m.file = chars "taint_sources.cpp" ∧
      resolve (lower exLibs ([exProg].map fun M => objOf (run exList M))) (dfswSym (chars "open")) = some m) ∧
    ∃ m ∈ exLibs.rt, resolve (lower exLibs ([exProg].map fun M => objOf (run exList M))) (dfswSym (chars "strlen")) = some m := by
  constructor
  · exact (C76_wrapper_partial (P := [exProg]) exList_reads exLibs_ships (by simpa using exProg_ok) exProg_up (by simp [exProg])
      (.head _) (.head _) rfl (.head _) (by decide +kernel)).2.1 _ (by decide +kernel)
  · exact (C76_wrapper_partial (P := [exProg]) exList_reads exLibs_ships (by simpa using exProg_ok) exProg_up (by simp [exProg])
      (.head _) (.head _) rfl (.tail _ (.head _)) (by decide +kernel)).2.2.1 (by decide +kernel) (by decide +kernel)

/-- References that come only with a library: a part of libc++ that is added in the second round, since PolyTracker's
wrappers need it, calls `write`. The runtime's wrappers are already there, so it gets the runtime's, not PolyTracker's. -/
theorem C76_late_refuted : ∃ (A : AbiList) (B : LinkLibs) (P : List Module) (o m : Obj), Reads A ∧ Ships B ∧ (∀ M ∈ P, M.Ok) ∧
    Unprefixed P ∧ o ∈ lower B (P.map fun M => objOf (run A M)) ∧ dfswSym (chars "write") ∈ o.refs ∧
    (∃ x ∈ B.poly, dfswSym (chars "write") ∈ x.defs) ∧ m ∈ B.rt ∧ m ∉ B.poly ∧
    resolve (lower B (P.map fun M => objOf (run A M))) (dfswSym (chars "write")) = some m := by
  refine ⟨exList, exLibs, [exProg], ⟨chars "ios.cpp", [chars "_ZNSt8ios_baseD2Ev"], [dfswSym (chars "write")]⟩,
    ⟨chars "dfsan_custom.cpp", rtWrappers.map dfswSym, []⟩, exList_reads, exLibs_ships, by simpa using exProg_ok, exProg_up,
    ?_, by decide +kernel, ?_, .head _, ?_, ?_⟩
  · decide +kernel
  · obtain ⟨x, hx, -, h⟩ := (exLibs_ships.poly (chars "write") "write_taints.cpp").2 (by decide +kernel)
    exact ⟨x, hx, h⟩
  · decide +kernel
  · decide +kernel

/-- A program that calls a custom function without a wrapper cannot be linked. -/
theorem C76_missing_refuted {A : AbiList} (rd : Reads A) {g : Name} (hg : g ∈ missing) :
    A.custom g = true ∧ ∃ P : List Module, (∀ M ∈ P, M.Ok) ∧ Unprefixed P ∧
      ∀ B, Ships B → (∃ o ∈ lower B (P.map fun M => objOf (run A M)), dfswSym g ∈ o.refs) ∧
        resolve (lower B (P.map fun M => objOf (run A M))) (dfswSym g) = none := by
  have hs : ∀ g ∈ missing, (g, Cat.custom) ∈ shipped := by decide +kernel
  have hc : A.custom g = true := by
    have := hs g hg
    exact (rd.lines g (customs_table _ this rfl).1 .custom).2 this
  have hp : ∀ g ∈ missing, ([chars "main", g] : List Name).Nodup ∧ (∀ n ∈ [chars "main", g], n.take 3 ≠ ['d', 'f', 's']) ∧
      ∀ n ∈ [chars "main", g], n.take 7 ≠ ['_', '_', 'd', 'f', 's', 'w', '_'] := by decide +kernel
  obtain ⟨h1, h2, h3⟩ := hp g hg
  let M : Module := ⟨chars "a.c", [⟨chars "main", ⟨0, false, true⟩, false, some [.call g]⟩, ⟨g, ⟨1, false, false⟩, false, none⟩], []⟩
  have ok : M.Ok := by
    refine ⟨h1, fun n hn => plain_of (h2 n hn), ?_, by simp [M], ?_⟩
    · intro F hF
      rcases List.mem_cons.1 hF with rfl | hF
      · intro h; cases h
      · rcases List.mem_cons.1 hF with rfl | hF
        · intro h; cases h
        · cases hF
    · intro F hF b hb r hr n hn
      rcases List.mem_cons.1 hF with rfl | hF
      · cases hb
        rw [List.mem_singleton] at hr
        subst hr
        rcases hn with h | h <;> cases h
        exact .tail _ (.head _)
      · rcases List.mem_cons.1 hF with rfl | hF
        · cases hb
        · cases hF
  have up : Unprefixed [M] := by
    intro N hN n hn k e
    rw [List.mem_singleton] at hN
    subst hN
    refine h3 n hn ?_
    rw [e]; rfl
  refine ⟨hc, [M], by simpa using ok, up, fun B sh => ?_⟩
  obtain ⟨k1, -, -, k2⟩ := C76_wrapper_partial (P := [M]) (M := M) rd sh (by simpa using ok) up (by simp [M]) (by simp) (.head _) rfl
    (.head _) hc
  exact ⟨k1, k2.2 hg⟩

/-- 22 functions have a wrapper and are not listed as custom: no call in a program comes to these wrappers. Among them are
functions that read input (`gets`, `getdelim`, `fgetc_unlocked`, `recvmsg`, ...), `openat`, and `memmove`. -/
theorem C76_unused_refuted {A : AbiList} (rd : Reads A) {g : Name} (hg : g ∈ unused) :
    (g ∈ polyWrappers.map (·.1) ∨ g ∈ rtWrappers) ∧
    (∀ (P : List Module) (i : Nat) (n : Name), ¬ Expect A P i n (.custom g)) ∧
    ∀ P : List Module, (∀ M ∈ P, M.Ok) → Unprefixed P → ∀ M ∈ P, dfswSym g ∉ (objOf (run A M)).refs := by
  have hw : ∀ g ∈ unused, g ∈ polyWrappers.map (·.1) ++ rtWrappers := by decide +kernel
  have h1 := hw g hg
  have hc : A.custom g = false := by
    cases h : A.custom g with
    | false => rfl
    | true => exact absurd ((rd.lines g (relevant_table g h1) .custom).1 h) ((unused_table g h1).2 hg)
  refine ⟨List.mem_append.1 h1, ?_, ?_⟩
  · intro P i n h
    cases h with
    | custom _ h => rw [h.1] at hc; cases hc
    | alias _ _ _ h => rw [h.1] at hc; cases hc
  · intro P ok up M hM
    refine refs_wrapper up hM hc ?_ (ok M hM).declared
    have : ∀ g ∈ unused, dfswSym g ≠ "__dfsan_vararg_wrapper".toList := by decide +kernel
    exact this g hg

example : chars "gets" ∈ unused ∧ chars "memmove" ∈ unused ∧ chars "recvmsg" ∈ unused ∧ chars "_IO_putc" ∈ missing := by
  decide +kernel

example : exList.custom (chars "read") = true := by decide +kernel

end Verif
