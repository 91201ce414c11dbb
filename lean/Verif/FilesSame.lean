import Verif.FilesTrack
/-
What the instrumented program sees of its files, compared with the uninstrumented one.
-/
namespace Verif
open Spec
namespace Spec.FileSys

theorem Alike.refl (K : FileSys) : Alike K K := ⟨rfl, rfl, rfl, rfl, rfl, rfl⟩

theorem Alike.node {K L : FileSys} (h : Alike K L) (n : Nat) :
    (K.nodes[n]? = none ∧ L.nodes[n]? = none) ∨
    ∃ a b, K.nodes[n]? = some a ∧ L.nodes[n]? = some b ∧ a.data = b.data ∧ a.regular = b.regular := by
  have hn := congrArg (fun l => l[n]?) h.nodes
  simp only [List.getElem?_map] at hn
  cases ha : K.nodes[n]? with
  | none =>
    rw [ha] at hn
    cases hb : L.nodes[n]? with
    | none => exact Or.inl ⟨rfl, rfl⟩
    | some b => rw [hb] at hn; cases hn
  | some a =>
    rw [ha] at hn
    cases hb : L.nodes[n]? with
    | none => rw [hb] at hn; cases hn
    | some b =>
      rw [hb] at hn
      simp only [Option.map_some, Option.some.injEq, Prod.mk.injEq] at hn
      exact Or.inr ⟨a, b, rfl, rfl, hn.1, hn.2⟩

theorem Alike.length {K L : FileSys} (h : Alike K L) : K.nodes.length = L.nodes.length := by
  have := congrArg List.length h.nodes
  simpa using this

theorem Alike.file {K L : FileSys} (h : Alike K L) (fd : Nat) :
    (K.file fd = none ∧ L.file fd = none) ∨
    ∃ o f a b, K.file fd = some (o, f, a) ∧ L.file fd = some (o, f, b) ∧ a.data = b.data ∧
      a.regular = b.regular := by
  simp only [FileSys.file, h.fds, h.files]
  split
  · rename_i o _
    split
    · rename_i f _
      rcases h.node f.node with ⟨h1, h2⟩ | ⟨a, b, h1, h2, h3, h4⟩
      · rw [h1, h2]; exact Or.inl ⟨rfl, rfl⟩
      · rw [h1, h2]; exact Or.inr ⟨o, f, a, b, rfl, rfl, h3, h4⟩
    · exact Or.inl ⟨rfl, rfl⟩
  · exact Or.inl ⟨rfl, rfl⟩

theorem Alike.sizeOf {K L : FileSys} (h : Alike K L) (path : List Nat) : K.sizeOf path = L.sizeOf path := by
  simp only [FileSys.sizeOf, h.names]
  split
  · rename_i n _
    rcases h.node n with ⟨h1, h2⟩ | ⟨a, b, h1, h2, h3, h4⟩
    · rw [h1, h2]
    · rw [h1, h2]; simp only [h3, h4]
  · rfl

theorem Alike.lowest {K L : FileSys} (h : Alike K L) : K.lowest = L.lowest := by
  simp only [FileSys.lowest, h.fds]

theorem Alike.install {K L : FileSys} (h : Alike K L) (o : Nat) : Alike (K.install o) (L.install o) :=
  ⟨h.root, h.umask, h.names, h.files, by simp only [FileSys.install, h.lowest, h.fds], h.nodes⟩

theorem Alike.setFile {K L : FileSys} (h : Alike K L) (o : Nat) (f : OpenFile) :
    Alike (K.setFile o f) (L.setFile o f) :=
  ⟨h.root, h.umask, h.names, by simp only [FileSys.setFile, h.files], h.fds, h.nodes⟩

theorem Alike.setData {K L : FileSys} (h : Alike K L) (n : Nat) {a b : INode} (data : List Nat)
    (hr : a.regular = b.regular) : Alike (K.setData n a data) (L.setData n b data) :=
  ⟨h.root, h.umask, h.names, h.files, h.fds, by
    simp only [FileSys.setData, List.map_set, h.nodes, hr]⟩

theorem Alike.attach {K L : FileSys} (h : Alike K L) (n : Nat) (fl : OFlags) :
    Alike (K.attach n fl) (L.attach n fl) := by
  have h1 : Alike { K with files := K.files ++ [{ node := n, pos := 0, wpos := 0, append := fl.append }] }
      { L with files := L.files ++ [{ node := n, pos := 0, wpos := 0, append := fl.append }] } :=
    ⟨h.root, h.umask, h.names, by simp only [h.files], h.fds, h.nodes⟩
  have h2 := h1.install K.files.length
  simp only [FileSys.attach, ← h.files] at h2 ⊢
  exact h2

theorem Alike.cut {K L : FileSys} (h : Alike K L) (n : Nat) {a b : INode} (hr : a.regular = b.regular) :
    Alike (K.cut n a) (L.cut n b) :=
  ⟨h.root, h.umask, h.names, h.files, h.fds, by simp only [FileSys.cut, List.map_set, h.nodes, hr]⟩

theorem Alike.create {K L : FileSys} (h : Alike K L) (path : List Nat) (m m' : Nat) :
    Alike (K.create path m) (L.create path m') :=
  ⟨h.root, h.umask, by simp only [FileSys.create, h.names, h.length], h.files, h.fds, by
    simp only [FileSys.create, List.map_append, h.nodes, List.map_cons, List.map_nil]⟩

theorem Alike.opn {K L : FileSys} (h : Alike K L) (hroot : K.root = true) (path : List Nat) (fl : OFlags) (m m' : Nat) :
    Alike (K.opn path fl m).1 (L.opn path fl m').1 ∧ (K.opn path fl m).2 = (L.opn path fl m').2 := by
  have hroot' := h.root.symm.trans hroot
  simp only [FileSys.opn, ← h.names]
  split
  · rename_i n _
    rcases h.node n with ⟨h1, h2⟩ | ⟨a, b, h1, h2, h3, h4⟩
    · rw [h1, h2]; exact ⟨h, rfl⟩
    · rw [h1, h2]
      simp only [hroot, hroot', Bool.true_or, if_true, h.lowest, ← h4]
      split
      · have := (h.cut n h4).attach n fl
        exact ⟨this, by rw [this.sizeOf]⟩
      · have := h.attach n fl
        exact ⟨this, by rw [this.sizeOf]⟩
  · split
    · have := (h.create path m m').attach L.nodes.length fl
      rw [h.length, h.lowest, this.sizeOf]
      exact ⟨this, rfl⟩
    · exact ⟨h, rfl⟩

theorem opn_root (K : FileSys) (path : List Nat) (fl : OFlags) (m : Nat) : (K.opn path fl m).1.root = K.root := by
  simp only [FileSys.opn]
  split
  · split
    · split
      · split <;> rfl
      · rfl
    · rfl
  · split <;> rfl

/-- An operation does not look at permission bits, if permissions are not checked. -/
theorem Alike.step {K L : FileSys} (h : Alike K L) (hroot : K.root = true) (op op' : FileOp)
    (hop : op = op' ∨ ∃ path fl m m', op = .opn path fl m ∧ op' = .opn path fl m') :
    Alike (K.step op).1 (L.step op').1 ∧ (K.step op).2 = (L.step op').2 := by
  rcases hop with rfl | ⟨path, fl, m, m', rfl, rfl⟩
  · cases op with
    | opn path fl m => exact h.opn hroot path fl m m
    | openat path fl m => exact h.opn hroot path fl m m
    | close fd =>
      simp only [FileSys.step, ← h.fds]
      split
      · exact ⟨⟨h.root, h.umask, h.names, h.files, rfl, h.nodes⟩, rfl⟩
      · exact ⟨h, rfl⟩
    | dup fd =>
      simp only [FileSys.step, ← h.fds]
      split
      · exact ⟨h.install _, by rw [h.lowest]⟩
      · exact ⟨h, rfl⟩
    | lseek fd pos =>
      rcases h.file fd with ⟨h1, h2⟩ | ⟨o, f, a, b, h1, h2, h3, h4⟩
      · simp only [FileSys.step, h1, h2]; exact ⟨h, trivial⟩
      · simp only [FileSys.step, h1, h2, ← h4]
        split
        · exact ⟨h.setFile _ _, rfl⟩
        · exact ⟨h, rfl⟩
    | read fd buf n =>
      rcases h.file fd with ⟨h1, h2⟩ | ⟨o, f, a, b, h1, h2, h3, h4⟩
      · simp only [FileSys.step, h1, h2]; exact ⟨h, trivial⟩
      · simp only [FileSys.step, h1, h2, ← h4, ← h3]
        split
        · exact ⟨h.setFile _ _, rfl⟩
        · exact ⟨(h.setFile _ _).setData _ _ h4, rfl⟩
    | pread fd buf n off =>
      rcases h.file fd with ⟨h1, h2⟩ | ⟨o, f, a, b, h1, h2, h3, h4⟩
      · simp only [FileSys.step, h1, h2]; exact ⟨h, trivial⟩
      · simp only [FileSys.step, h1, h2, ← h4, ← h3]
        split
        · exact ⟨h, rfl⟩
        · exact ⟨h, rfl⟩
    | write fd buf bytes =>
      rcases h.file fd with ⟨h1, h2⟩ | ⟨o, f, a, b, h1, h2, h3, h4⟩
      · simp only [FileSys.step, h1, h2]; exact ⟨h, trivial⟩
      · simp only [FileSys.step, h1, h2, ← h4, ← h3]
        split
        · exact ⟨(h.setFile _ _).setData _ _ h4, rfl⟩
        · exact ⟨h.setFile _ _, rfl⟩
  · exact h.opn hroot path fl m m'

theorem step_root (K : FileSys) (op : FileOp) : (K.step op).1.root = K.root := by
  cases op with
  | opn path fl m => exact opn_root K path fl m
  | openat path fl m => exact opn_root K path fl m
  | close fd => simp only [FileSys.step]; split <;> rfl
  | dup fd => simp only [FileSys.step]; split <;> rfl
  | lseek fd pos => simp only [FileSys.step]; split <;> (try split) <;> rfl
  | read fd buf n => simp only [FileSys.step]; split <;> (try split) <;> rfl
  | pread fd buf n off => simp only [FileSys.step]; split <;> (try split) <;> rfl
  | write fd buf bytes => simp only [FileSys.step]; split <;> (try split) <;> rfl

theorem run_append (K : FileSys) (a b : List FileOp) :
    K.run (a ++ b) = (((K.run a).1.run b).1, (K.run a).2 ++ ((K.run a).1.run b).2) := by
  induction a generalizing K with
  | nil => rfl
  | cons op a ih => simp only [List.cons_append, FileSys.run, ih]

/-- Only creating open calls look at the mode. -/
theorem opn_mode (K : FileSys) (path : List Nat) (fl : OFlags) (m m' : Nat) (h : fl.creat = false ∨ K.names path ≠ none) :
    K.opn path fl m = K.opn path fl m' := by
  unfold FileSys.opn
  split
  · rfl
  · rename_i hn
    rcases h with h | h
    · rw [h]; rfl
    · exact absurd hn h

end Spec.FileSys

namespace Files

theorem Exec.same {K₀ K : FileSys} {T₀ T : Tracker} {E : FHist} (he : Exec K₀ T₀ E K T)
    (hc : ∀ path fl mode, .opn path fl mode ∈ E.map Prod.fst → fl.creat = false) :
    K₀.run (E.reverse.map Prod.fst) = (K, E.reverse.map Prod.snd) := by
  induction he with
  | nil => rfl
  | call _ _ _ _ ih => exact ih hc
  | @file E K T va op K' T' o _ hf hs ih =>
    have h1 := ih (fun path fl mode h => hc path fl mode (List.mem_cons_of_mem _ h))
    have hk := step_kernel hs
    have h2 : K.step op = (K', o) := by
      cases op with
      | opn path fl mode =>
        rw [← hk]
        exact FileSys.opn_mode _ _ _ _ _ (Or.inl (hc path fl mode (List.mem_cons_self ..)))
      | _ => exact hk
    rw [List.reverse_cons, List.map_append, FileSys.run_append, h1, List.map_append]
    simp only [List.map_cons, List.map_nil, FileSys.run, h2]

theorem Exec.alike {K₀ K : FileSys} {T₀ T : Tracker} {E : FHist} (he : Exec K₀ T₀ E K T) (hroot : K₀.root = true) :
    FileSys.Alike K (K₀.run (E.reverse.map Prod.fst)).1 ∧ K.root = true ∧
      E.reverse.map Prod.snd = (K₀.run (E.reverse.map Prod.fst)).2 := by
  induction he with
  | nil => exact ⟨.refl _, hroot, rfl⟩
  | call _ _ _ _ ih => exact ih
  | @file E K T va op K' T' o _ hf hs ih =>
    obtain ⟨h1, h2, h3⟩ := ih
    have hk := step_kernel hs
    have hop : seen va op = op ∨ ∃ path fl m m', seen va op = .opn path fl m ∧ op = .opn path fl m' := by
      cases op with
      | opn path fl mode => exact Or.inr ⟨_, _, _, _, rfl, rfl⟩
      | _ => exact Or.inl rfl
    have h4 := h1.step h2 _ _ hop
    rw [List.reverse_cons, List.map_append, FileSys.run_append, List.map_append, h3]
    have h5 := FileSys.step_root K (seen va op)
    rw [hk] at h4 h5
    refine ⟨h4.1, h5.trans h2, ?_⟩
    simp only [List.map_cons, List.map_nil, FileSys.run]
    rw [← h4.2]

end Files
end Verif
