import Verif.Files
import Verif.Props.C19
import Verif.Props.C40
import Verif.Props.C42
/- Lemmas for C60. -/
namespace Verif
open Spec Tracker

namespace Spec.FileSys

/-! ### Descriptors -/

theorem lowest_free (K : FileSys) : K.fds[K.lowest]? = some none ∨ K.fds.length ≤ K.lowest := by
  by_cases h : K.lowest < K.fds.length
  · left
    have := List.findIdx_getElem (p := fun x : Option Nat => x.isNone) (xs := K.fds) (w := h)
    rw [List.getElem?_eq_getElem h]
    cases hx : K.fds[K.lowest] with
    | none => rfl
    | some o => exact absurd (Eq.trans (congrArg Option.isNone hx).symm this) (by simp)
  · exact Or.inr (by omega)

theorem lowest_le (K : FileSys) : K.lowest ≤ K.fds.length := List.findIdx_le_length

theorem install_fds (K : FileSys) (o fd : Nat) :
    (K.install o).fds[fd]? = if fd = K.lowest then some (some o) else K.fds[fd]? := by
  have hle := K.lowest_le
  unfold install
  by_cases h : K.lowest < K.fds.length
  · simp only [if_pos h, List.getElem?_set]
    by_cases hf : fd = K.lowest
    · subst hf; simp
    · rw [if_neg hf, if_neg (fun e => hf e.symm)]
  · simp only [if_neg h]
    have he : K.lowest = K.fds.length := by omega
    rw [he]
    by_cases hf : fd = K.fds.length
    · subst hf; simp
    · rw [if_neg hf, List.getElem?_append]
      split
      · rfl
      · rw [List.getElem?_eq_none (by simp only [List.length_cons, List.length_nil]; omega),
          List.getElem?_eq_none (by omega)]

theorem lowest_unbound (K : FileSys) (o : Nat) : K.fds[K.lowest]? ≠ some (some o) := by
  rcases K.lowest_free with h | h
  · rw [h]; simp
  · rw [List.getElem?_eq_none h]; simp

theorem file_spec {K : FileSys} {fd o : Nat} {f : OpenFile} {nd : INode} (h : K.file fd = some (o, f, nd)) :
    K.fds[fd]? = some (some o) ∧ K.files[o]? = some f ∧ K.nodes[f.node]? = some nd := by
  unfold file at h
  split at h
  · split at h
    · split at h
      · cases h; exact ⟨by assumption, by assumption, by assumption⟩
      · cases h
    · cases h
  · cases h

theorem file_of {K : FileSys} {fd o : Nat} {f : OpenFile} {nd : INode} (h1 : K.fds[fd]? = some (some o))
    (h2 : K.files[o]? = some f) (h3 : K.nodes[f.node]? = some nd) : K.file fd = some (o, f, nd) := by
  unfold file; simp only [h1, h2, h3]

theorem WF.bound {K : FileSys} (hw : K.WF) {fd o : Nat} (h : K.fds[fd]? = some (some o)) :
    ∃ f nd, K.file fd = some (o, f, nd) := by
  have ho := hw.fds fd o h
  have hf := hw.files K.files[o] (List.getElem_mem _)
  exact ⟨K.files[o], K.nodes[K.files[o].node], file_of h (List.getElem?_eq_getElem ho) (List.getElem?_eq_getElem hf)⟩

/-! ### Well-formedness -/

theorem WF.install {K : FileSys} (hw : K.WF) {o : Nat} (ho : o < K.files.length) : (K.install o).WF := by
  refine ⟨fun fd o' h => ?_, hw.files, hw.names⟩
  rw [install_fds] at h
  split at h
  · cases h; exact ho
  · exact hw.fds fd o' h

theorem WF.setFile {K : FileSys} (hw : K.WF) {o : Nat} {f : OpenFile} (hf : f.node < K.nodes.length) :
    (K.setFile o f).WF := by
  refine ⟨fun fd o' h => ?_, fun g hg => ?_, hw.names⟩
  · simpa [FileSys.setFile] using hw.fds fd o' h
  · rcases List.mem_or_eq_of_mem_set hg with hg | rfl
    · exact hw.files g hg
    · exact hf

theorem WF.setData {K : FileSys} (hw : K.WF) {n : Nat} {nd : INode} {d : List Nat} : (K.setData n nd d).WF := by
  refine ⟨hw.fds, fun g hg => ?_, fun p n h => ?_⟩
  · simpa [FileSys.setData] using hw.files g hg
  · simpa [FileSys.setData] using hw.names p n h

theorem WF.attach {K : FileSys} (hw : K.WF) {n : Nat} {fl : OFlags} (hn : n < K.nodes.length) :
    (K.attach n fl).WF := by
  have h1 : ({ K with files := K.files ++ [{ node := n, pos := 0, wpos := 0, append := fl.append }] } : FileSys).WF := by
    refine ⟨fun fd o h => ?_, fun g hg => ?_, hw.names⟩
    · have := hw.fds fd o h
      rw [List.length_append]; omega
    · simp only [List.mem_append, List.mem_singleton] at hg
      rcases hg with hg | rfl
      · exact hw.files g hg
      · exact hn
  exact h1.install (by rw [List.length_append]; exact Nat.lt_succ_self _)

theorem WF.create {K : FileSys} (hw : K.WF) {p : List Nat} {m : Nat} : (K.create p m).WF := by
  refine ⟨hw.fds, fun g hg => ?_, fun q n h => ?_⟩
  · have := hw.files g hg
    simp [FileSys.create]; omega
  · simp only [FileSys.create] at h ⊢
    split at h
    · cases h; simp
    · have := hw.names q n h
      simp; omega

theorem WF.cut {K : FileSys} (hw : K.WF) {n : Nat} {nd : INode} : (K.cut n nd).WF := by
  refine ⟨hw.fds, fun g hg => ?_, fun p n h => ?_⟩
  · simpa [FileSys.cut] using hw.files g hg
  · simpa [FileSys.cut] using hw.names p n h

theorem WF.step {K : FileSys} (hw : K.WF) (op : FileOp) : (K.step op).1.WF := by
  have hopn : ∀ path fl mode, (K.opn path fl mode).1.WF := by
    intro path fl mode
    unfold FileSys.opn
    split
    · split
      · rename_i n _ nd _ _
        split
        · have hn := hw.names _ _ (by assumption)
          dsimp only
          split
          · exact hw.cut.attach (by simpa [FileSys.cut] using hn)
          · exact hw.attach hn
        · exact hw
      · exact hw
    · split
      · exact hw.create.attach (by simp [FileSys.create])
      · exact hw
  have hnode : ∀ {fd o f nd}, K.file fd = some (o, f, nd) → f.node < K.nodes.length := by
    intro fd o f nd h
    obtain ⟨-, -, h3⟩ := file_spec h
    exact (List.getElem?_eq_some_iff.1 h3).1
  cases op with
  | opn path fl mode => exact hopn path fl mode
  | openat path fl mode => exact hopn path fl mode
  | close fd =>
    simp only [FileSys.step]
    split
    · refine ⟨fun fd' o h => ?_, hw.files, hw.names⟩
      simp only [List.getElem?_set] at h
      split at h
      · split at h <;> cases h
      · exact hw.fds fd' o h
    · exact hw
  | dup fd =>
    simp only [FileSys.step]
    split
    · rename_i o h; exact hw.install (hw.fds fd o h)
    · exact hw
  | lseek fd pos =>
    simp only [FileSys.step]
    split
    · rename_i h
      have hn := hnode h
      split
      · exact hw.setFile hn
      · exact hw
    · exact hw
  | read fd buf n =>
    simp only [FileSys.step]
    split
    · rename_i h
      have hn := hnode h
      split
      · exact hw.setFile hn
      · exact WF.setData (hw.setFile (by exact hn))
    · exact hw
  | pread fd buf n off =>
    simp only [FileSys.step]
    split
    · split <;> exact hw
    · exact hw
  | write fd buf bytes =>
    simp only [FileSys.step]
    split
    · rename_i h
      have hn := hnode h
      split
      · exact WF.setData (hw.setFile (by exact hn))
      · exact hw.setFile hn
    · exact hw

/-! ### What a step changes -/

/-- The descriptor an operation works on, if it changes positions. -/
def target : FileOp → Option Nat
  | .lseek fd _ | .read fd _ _ | .write fd _ _ => some fd
  | _ => none

theorem attach_files (K : FileSys) (n : Nat) (fl : OFlags) (o : Nat) (ho : o < K.files.length) :
    (K.attach n fl).files[o]? = K.files[o]? := by
  simp only [attach, install]
  rw [List.getElem?_append_left ho]

/-- Descriptions other than the one worked on stay as they are. -/
theorem step_files {K : FileSys} (op : FileOp) (o : Nat) (ho : o < K.files.length)
    (ht : ∀ fd, target op = some fd → K.fds[fd]? ≠ some (some o)) :
    (K.step op).1.files[o]? = K.files[o]? := by
  have hopn : ∀ path fl mode, (K.opn path fl mode).1.files[o]? = K.files[o]? := by
    intro path fl mode
    unfold FileSys.opn
    split
    · split
      · split
        · dsimp only
          split
          · exact attach_files _ _ _ _ ho
          · exact attach_files _ _ _ _ ho
        · rfl
      · rfl
    · split
      · exact attach_files _ _ _ _ ho
      · rfl
  have hset : ∀ {fd o' f nd g}, target op = some fd → K.file fd = some (o', f, nd) →
      (K.setFile o' g).files[o]? = K.files[o]? := by
    intro fd o' f nd g h1 h2
    have := ht fd h1
    rw [(file_spec h2).1] at this
    simp only [setFile, List.getElem?_set]
    rw [if_neg (fun e => this (by rw [e]))]
  cases op with
  | opn path fl mode => exact hopn path fl mode
  | openat path fl mode => exact hopn path fl mode
  | close fd => simp only [step]; split <;> rfl
  | dup fd => simp only [step]; split <;> rfl
  | lseek fd pos =>
    simp only [step]
    split
    · rename_i h
      split
      · exact hset rfl h
      · rfl
    · rfl
  | read fd buf n =>
    simp only [step]
    split
    · rename_i h
      split
      · exact hset rfl h
      · exact hset rfl h
    · rfl
  | pread fd buf n off =>
    simp only [step]
    split
    · split <;> rfl
    · rfl
  | write fd buf bytes =>
    simp only [step]
    split
    · rename_i h
      split
      · exact hset rfl h
      · exact hset rfl h
    · rfl

/-- Files stay regular files or streams. -/
theorem step_regular {K : FileSys} (op : FileOp) (n : Nat) (hn : n < K.nodes.length) (nd' : INode)
    (h : (K.step op).1.nodes[n]? = some nd') : ∃ nd, K.nodes[n]? = some nd ∧ nd.regular = nd'.regular := by
  have hset : ∀ {m : Nat} {nd : INode} {d : List Nat}, K.nodes[m]? = some nd →
      (K.nodes.set m { nd with data := d })[n]? = some nd' → ∃ nd, K.nodes[n]? = some nd ∧ nd.regular = nd'.regular := by
    intro m nd d h1 h2
    rw [List.getElem?_set] at h2
    split at h2
    · rename_i e
      subst e
      rw [if_pos hn] at h2
      cases h2
      exact ⟨nd, h1, rfl⟩
    · exact ⟨nd', h2, rfl⟩
  have hopn : ∀ path fl mode, (K.opn path fl mode).1.nodes[n]? = some nd' →
      ∃ nd, K.nodes[n]? = some nd ∧ nd.regular = nd'.regular := by
    intro path fl mode h
    unfold FileSys.opn at h
    split at h
    · split at h
      · split at h
        · dsimp only at h
          split at h
          · exact hset (by assumption) h
          · exact ⟨nd', h, rfl⟩
        · exact ⟨nd', h, rfl⟩
      · exact ⟨nd', h, rfl⟩
    · split at h
      · have h' : (K.nodes ++ [{ data := [], mode := newMode K.umask mode, regular := true }])[n]? = some nd' := h
        rw [List.getElem?_append_left hn] at h'
        exact ⟨nd', h', rfl⟩
      · exact ⟨nd', h, rfl⟩
  cases op with
  | opn path fl mode => exact hopn path fl mode h
  | openat path fl mode => exact hopn path fl mode h
  | close fd =>
    simp only [step] at h
    split at h <;> exact ⟨nd', h, rfl⟩
  | dup fd =>
    simp only [step] at h
    split at h <;> exact ⟨nd', h, rfl⟩
  | lseek fd pos =>
    simp only [step] at h
    split at h
    · split at h <;> exact ⟨nd', h, rfl⟩
    · exact ⟨nd', h, rfl⟩
  | read fd buf m =>
    simp only [step] at h
    split at h
    · rename_i hf
      split at h
      · exact ⟨nd', h, rfl⟩
      · exact hset (file_spec hf).2.2 h
    · exact ⟨nd', h, rfl⟩
  | pread fd buf m off =>
    simp only [step] at h
    split at h
    · split at h <;> exact ⟨nd', h, rfl⟩
    · exact ⟨nd', h, rfl⟩
  | write fd buf bytes =>
    simp only [step] at h
    split at h
    · rename_i hf
      split at h
      · exact hset (file_spec hf).2.2 h
      · exact ⟨nd', h, rfl⟩
    · exact ⟨nd', h, rfl⟩

theorem attach_fds (K : FileSys) (n : Nat) (fl : OFlags) (fd : Nat) :
    (K.attach n fl).fds[fd]? = if fd = K.lowest then some (some K.files.length) else K.fds[fd]? :=
  install_fds { K with files := K.files ++ [{ node := n, pos := 0, wpos := 0, append := fl.append }] } _ fd

/-- A successful open: a new description at the lowest free descriptor. -/
theorem opn_spec (K : FileSys) (path : List Nat) (fl : OFlags) (mode : Nat) :
    ((K.opn path fl mode).2.ret = -1 ∧ (K.opn path fl mode).1 = K) ∨
    ((K.opn path fl mode).2.ret = K.lowest ∧
      (K.opn path fl mode).2.size = (K.opn path fl mode).1.sizeOf path ∧
      (∀ fd, (K.opn path fl mode).1.fds[fd]? = if fd = K.lowest then some (some K.files.length) else K.fds[fd]?) ∧
      ∃ f, (K.opn path fl mode).1.files[K.files.length]? = some f ∧ f.pos = 0 ∧ f.wpos = 0) := by
  have hnew : ∀ (K' : FileSys) n, (K'.attach n fl).files[K'.files.length]? =
      some { node := n, pos := 0, wpos := 0, append := fl.append } := by
    intro K' n
    simp [attach, install]
  unfold opn
  split
  · split
    · split
      · right
        dsimp only
        refine ⟨rfl, rfl, fun fd => ?_, ?_⟩
        · split <;> exact attach_fds _ _ _ _
        · split <;> exact ⟨_, hnew _ _, rfl, rfl⟩
      · exact Or.inl ⟨rfl, rfl⟩
    · exact Or.inl ⟨rfl, rfl⟩
  · split
    · right
      exact ⟨rfl, rfl, fun fd => attach_fds _ _ _ _, _, hnew _ _, rfl, rfl⟩
    · exact Or.inl ⟨rfl, rfl⟩

end Spec.FileSys
end Verif
