import Verif.FilesLemmas
/- Lemmas for C60: the tracker's calls made by file operations. -/
namespace Verif
open Spec Tracker

/-! ### Histories -/

theorem owner_inj {h : Trace} {a b : Int} {i : Nat} (ha : owner h a = some i) (hb : owner h b = some i) :
    a = b := by
  obtain ⟨e, h1, h2⟩ := lastIdx_spec ha
  obtain ⟨e', h3, h4⟩ := lastIdx_spec hb
  rw [h1] at h3; cases h3
  rw [← h2, ← h4]

theorem owner_cons_other {x : Call × Ret} {h : Trace} {fd : Int} (hfd : fd ≠ -1)
    (hx : ∀ fd' name size, x.1 ≠ .openFile fd' name size) : owner (x :: h) fd = owner h fd := by
  rw [owner_eq, owner_eq]
  rcases registered_cons x h with hr | ⟨fd', name', size', j, rfl, hr⟩ | ⟨name', addr, len, p, rfl, hr⟩
  · rw [hr]
  · exact absurd rfl (hx _ _ _)
  · rw [hr, lastIdx_snoc, if_neg (fun e => hfd e.symm)]

theorem owner_cons_open {h : Trace} {fd' : Int} {name : List Nat} {size : Option Nat} {j : Nat} (fd : Int) :
    owner ((.openFile fd' name size, .index (some j)) :: h) fd =
      if fd' = fd then some (registered h).length else owner h fd := by
  rw [owner_eq, owner_eq]
  show lastIdx (registered h ++ [_]) fd = _
  rw [lastIdx_snoc]

theorem registered_length_le (x : Call × Ret) (h : Trace) :
    (registered h).length ≤ (registered (x :: h)).length := by
  rcases registered_cons x h with hr | ⟨_, _, _, _, -, hr⟩ | ⟨_, _, _, _, -, hr⟩ <;> rw [hr] <;> simp

/-- Nothing was read from or written to an input that is not registered yet. -/
theorem positions_fresh {i : Nat} : ∀ h : Trace, (registered h).length ≤ i → readPos h i = 0 ∧ writePos h i = 0 := by
  intro h
  induction h with
  | nil => intro _; exact ⟨rfl, rfl⟩
  | cons x h ih =>
    intro hi
    have hl := registered_length_le x h
    obtain ⟨h1, h2⟩ := ih (by omega)
    have ho : ∀ fd, owner h fd ≠ some i := fun fd he => by have := owner_lt he; omega
    obtain ⟨cl, r⟩ := x
    cases cl with
    | read fd a off len =>
      cases off with
      | none => exact ⟨by simp only [readPos, h1, if_neg (ho fd)], h2⟩
      | some o => exact ⟨h1, h2⟩
    | write fd off a len =>
      cases off with
      | none => exact ⟨h1, by simp only [writePos, h2, if_neg (ho fd)]⟩
      | some o => exact ⟨h1, h2⟩
    | writeLabel fd off a len =>
      cases off with
      | none => exact ⟨h1, by simp only [writePos, h2, if_neg (ho fd)]⟩
      | some o => exact ⟨h1, h2⟩
    | _ => exact ⟨h1, h2⟩

namespace Files

/-! ### Calls made -/

/-- The operation as the kernel sees it. -/
def seen (va : Nat) : FileOp → FileOp
  | .opn path fl _ => .opn path fl (va % 2 ^ 32)
  | op => op

theorem step_kernel {va : Nat} {K K' : FileSys} {T T' : Tracker} {op : FileOp} {o : FObs}
    (h : step va K T op = .ok (K', T', o)) : K.step (seen va op) = (K', o) := by
  cases op with
  | opn path fl mode =>
    simp only [step, opn] at h
    simp only [seen, FileSys.step]
    split at h
    · simp only [Res.bind_eq_ok, Res.pure_eq] at h
      obtain ⟨p, -, h⟩ := h
      cases h; rfl
    · cases h; rfl
  | close fd =>
    simp only [step] at h
    simp only [seen]
    split at h <;> cases h <;> rfl
  | read fd buf n =>
    simp only [step, Res.bind_eq_ok, Res.pure_eq] at h
    obtain ⟨p, -, h⟩ := h
    cases h; rfl
  | pread fd buf n off =>
    simp only [step, Res.bind_eq_ok, Res.pure_eq] at h
    obtain ⟨p, -, h⟩ := h
    cases h; rfl
  | write fd buf bytes =>
    simp only [step, Res.bind_eq_ok, Res.pure_eq] at h
    obtain ⟨p, -, h⟩ := h
    cases h; rfl
  | openat path fl mode => simp only [step] at h; cases h; rfl
  | dup fd => simp only [step] at h; cases h; rfl
  | lseek fd pos => simp only [step] at h; cases h; rfl

/-- Operations without a call at the tracker. -/
theorem step_quiet {va : Nat} {K K' : FileSys} {T T' : Tracker} {op : FileOp} {o : FObs}
    (h : step va K T op = .ok (K', T', o))
    (hop : (∃ p fl m, op = .openat p fl m) ∨ (∃ fd, op = .close fd) ∨ (∃ fd, op = .dup fd) ∨
      ∃ fd pos, op = .lseek fd pos) : T' = T := by
  rcases hop with ⟨p, fl, m, rfl⟩ | ⟨fd, rfl⟩ | ⟨fd, rfl⟩ | ⟨fd, pos, rfl⟩
  · simp only [step] at h; cases h; rfl
  · simp only [step, closeFile] at h
    split at h <;> cases h <;> rfl
  · simp only [step] at h; cases h; rfl
  · simp only [step] at h; cases h; rfl

/-- open registers the file. -/
theorem step_opn {c : Config} {base : Nat} (hc : c.Ok base) {h : Trace} {va : Nat} {K K' : FileSys}
    {T T' : Tracker} (hr : Reach c base h T) {path : List Nat} {fl : OFlags} {mode : Nat} {o : FObs}
    (hf : Fits K T (.opn path fl mode)) (he : step va K T (.opn path fl mode) = .ok (K', T', o)) :
    (o.ret = -1 ∧ T' = T ∧ K' = K) ∨
    (o.ret = K.lowest ∧ ∃ j, Reach c base ((.openFile K.lowest path o.size, .index (some j)) :: h) T') := by
  have hk := step_kernel he
  simp only [seen, FileSys.step] at hk
  obtain ⟨f1, f2, f3, f4, f5⟩ := hf
  simp only [step, opn, hk] at he
  rcases FileSys.opn_spec K path fl (va % 2 ^ 32) with ⟨h1, h2⟩ | ⟨h1, h2, -, -⟩
  · rw [hk] at h1 h2
    rw [if_neg (by rw [h1]; decide)] at he
    cases he
    exact Or.inl ⟨h1, rfl, h2⟩
  · rw [hk] at h1 h2
    simp only at h1 h2
    rw [if_pos (by rw [h1]; omega)] at he
    simp only [Res.bind_eq_ok, Res.pure_eq] at he
    obtain ⟨⟨T1, i⟩, he, hx⟩ := he
    cases hx
    refine Or.inr ⟨h1, ?_⟩
    rw [← h2, h1] at he
    have hs := hr.sim hc
    obtain ⟨ss, ht⟩ := hs.tab
    -- there is room
    have hi : ∃ j, i = some j := by
      unfold openFile addSource at he
      by_cases hlen : path.length ≤ StrTab.maxLen
      · rcases StrTab.addString_spec ht.strs hlen with ⟨-, S', k1, -⟩ | ⟨k1, -⟩
        · simp only [k1, Res.bind_ok] at he
          split at he
          · cases he; exact ⟨_, rfl⟩
          · rename_i hn; exact absurd (by omega) hn
        · exfalso
          rw [ht.size, ← hs.cfg] at k1
          have h2 : StrTab.lenSize = 2 := rfl
          have hal : StrTab.allocatedLen path.length = (path.length + 3) / 2 * 2 := by
            simp only [StrTab.allocatedLen]
            split <;> omega
          rw [hal] at k1
          simp only [Section.size] at f5
          omega
      · simp only [StrTab.addString] at he
        rw [if_pos (by omega)] at he
        cases he
    obtain ⟨j, rfl⟩ := hi
    refine ⟨j, hr.snoc ⟨?_, ?_, f1, ?_⟩ ?_⟩
    · omega
    · have := K.lowest_le; omega
    · intro s hsz
      rw [h2] at hsz
      unfold FileSys.sizeOf at hsz
      split at hsz
      · split at hsz
        · split at hsz
          · cases hsz
            rename_i n hn nd hnd hreg
            -- the file was there before, or is new or cut
            have hdata : nd.data.length < 2 ^ 63 := by
              have hmem : nd ∈ (K.opn path fl (va % 2 ^ 32)).1.nodes := by
                rw [hk]; exact List.mem_of_getElem? hnd
              unfold FileSys.opn at hmem
              split at hmem
              · split at hmem
                · split at hmem
                  · dsimp only at hmem
                    split at hmem
                    · rcases List.mem_or_eq_of_mem_set hmem with hmem | rfl
                      · exact f3 nd hmem
                      · exact Nat.pow_pos (by decide)
                    · exact f3 nd hmem
                  · exact f3 nd hmem
                · exact f3 nd hmem
              · split at hmem
                · have hmem' : nd ∈ K.nodes ++ [{ data := [], mode := FileSys.newMode K.umask (va % 2 ^ 32), regular := true }] := hmem
                  simp only [List.mem_append, List.mem_singleton] at hmem'
                  rcases hmem' with hmem | rfl
                  · exact f3 nd hmem
                  · exact Nat.pow_pos (by decide)
                · exact f3 nd hmem
            omega
          · cases hsz
        · cases hsz
      · cases hsz
    · simp only [exec, he, Res.bind_ok, Res.pure_eq]

theorem knownPos_nat (n : Nat) : knownPos (n : Int) = some n := by
  unfold knownPos; rw [if_neg (by omega)]; rfl

theorem fromOffT_spec {pos : Int} {off : Option Nat} (h : Wrap.fromOffT pos = .ok off) : off = knownPos pos := by
  unfold Wrap.fromOffT at h
  unfold knownPos
  split at h
  · rename_i hp; cases h; rw [if_pos hp]
  · rename_i hp
    split at h
    · cases h
    · cases h; rw [if_neg hp]

theorem wrap_read {T T' : Tracker} {fd : Int} {buf : Nat} {pos ret : Int} {p : Int × Nat}
    (h : Wrap.read T fd buf pos ret = .ok (T', p)) :
    (ret ≤ 0 ∧ T' = T) ∨ (0 < ret ∧
      ∃ r, T.exec (.read fd (some buf) (knownPos pos) ret.toNat) = .ok (T', r)) := by
  simp only [Wrap.read, Res.bind_eq_ok, Res.pure_eq] at h
  obtain ⟨off, h1, T1, h2, h3⟩ := h
  cases h3
  rw [fromOffT_spec h1] at h2
  unfold Wrap.taintSourceBuffer Wrap.fromReturnedSize at h2
  by_cases hp : ret > 0
  · rw [if_pos hp] at h2
    simp only [Res.bind_eq_ok, Res.pure_eq] at h2
    obtain ⟨⟨T2, r⟩, h2, h3⟩ := h2
    cases h3
    exact Or.inr ⟨hp, .range r, by simp only [exec, h2, Res.bind_ok, Res.pure_eq]⟩
  · rw [if_neg hp] at h2
    cases h2
    exact Or.inl ⟨by omega, rfl⟩

theorem wrap_write {T T' : Tracker} {fd : Int} {buf : Nat} {pos ret : Int} {p : Int × Nat}
    (h : Wrap.write T fd buf pos ret = .ok (T', p)) :
    (ret ≤ 0 ∧ T' = T) ∨ (0 < ret ∧
      ∃ r, T.exec (.write fd (knownPos pos) buf ret.toNat) = .ok (T', r)) := by
  simp only [Wrap.write, Res.bind_eq_ok, Res.pure_eq] at h
  obtain ⟨off, h1, T1, h2, h3⟩ := h
  cases h3
  rw [fromOffT_spec h1] at h2
  unfold Wrap.taintSinkBuffer Wrap.fromReturnedSize at h2
  by_cases hp : ret > 0
  · rw [if_pos hp] at h2
    exact Or.inr ⟨hp, .unit, by simp only [exec, h2, Res.bind_ok, Res.pure_eq]⟩
  · rw [if_neg hp] at h2
    cases h2
    exact Or.inl ⟨by omega, rfl⟩

/-- Results of reading. -/
theorem read_ret {K : FileSys} {fd buf n : Nat} {o : FObs} (h : (K.step (.read fd buf n)).2 = o) :
    o.ret.toNat = o.data.length ∧ o.data.length ≤ n ∧ (o.data.length = 0 ↔ o.ret ≤ 0) := by
  subst h
  simp only [FileSys.step]
  split
  · split
    · dsimp only; rw [List.length_take]; omega
    · dsimp only; rw [List.length_take]; omega
  · exact ⟨rfl, by simp, by simp⟩

theorem pread_ret {K : FileSys} {fd buf n off : Nat} {o : FObs} (h : (K.step (.pread fd buf n off)).2 = o) :
    o.ret.toNat = o.data.length ∧ o.data.length ≤ n ∧ (o.data.length = 0 ↔ o.ret ≤ 0) := by
  subst h
  simp only [FileSys.step]
  split
  · split
    · dsimp only; rw [List.length_take]; omega
    · exact ⟨rfl, by simp, by simp⟩
  · exact ⟨rfl, by simp, by simp⟩

theorem getD_knownPos (p : Int) (d : Nat) : (knownPos p).getD d = if p < 0 then d else p.toNat := by
  unfold knownPos; split <;> rfl

theorem step_read {va : Nat} {K K' : FileSys} {T T' : Tracker} {fd buf n : Nat} {o : FObs}
    (hf : Fits K T (.read fd buf n)) (he : step va K T (.read fd buf n) = .ok (K', T', o)) :
    (o.data.length = 0 ∧ T' = T) ∨ (0 < o.data.length ∧
      T.Allowed (.read fd (some buf) (knownPos (K.tell fd)) o.data.length) ∧
      ∃ r, T.exec (.read fd (some buf) (knownPos (K.tell fd)) o.data.length) = .ok (T', r)) := by
  have hk := step_kernel he
  simp only [seen] at hk
  obtain ⟨r1, r2, r3⟩ := read_ret (K := K) (fd := fd) (buf := buf) (n := n) (o := o) (by rw [hk])
  simp only [step, Res.bind_eq_ok, Res.pure_eq] at he
  obtain ⟨⟨T1, p⟩, h1, h2⟩ := he
  rw [hk] at h1 h2
  cases h2
  dsimp only at h1
  rcases wrap_read h1 with ⟨h3, rfl⟩ | ⟨h3, r, h4⟩
  · exact Or.inl ⟨r3.2 h3, rfl⟩
  · rw [r1] at h4
    refine Or.inr ⟨by omega, fun i hi => ?_, r, h4⟩
    have := hf i hi
    rw [getD_knownPos]
    omega

theorem step_pread {va : Nat} {K K' : FileSys} {T T' : Tracker} {fd buf n off : Nat} {o : FObs}
    (hf : Fits K T (.pread fd buf n off)) (he : step va K T (.pread fd buf n off) = .ok (K', T', o)) :
    (o.data.length = 0 ∧ T' = T) ∨ (0 < o.data.length ∧
      T.Allowed (.read fd (some buf) (some off) o.data.length) ∧
      ∃ r, T.exec (.read fd (some buf) (some off) o.data.length) = .ok (T', r)) := by
  have hk := step_kernel he
  simp only [seen] at hk
  obtain ⟨r1, r2, r3⟩ := pread_ret (K := K) (fd := fd) (buf := buf) (n := n) (off := off) (o := o) (by rw [hk])
  simp only [step, Res.bind_eq_ok, Res.pure_eq, Wrap.pread] at he
  obtain ⟨⟨T1, p⟩, h1, h2⟩ := he
  rw [hk] at h1 h2
  cases h2
  dsimp only at h1
  rcases wrap_read h1 with ⟨h3, rfl⟩ | ⟨h3, r, h4⟩
  · exact Or.inl ⟨r3.2 h3, rfl⟩
  · rw [r1, knownPos_nat] at h4
    refine Or.inr ⟨by omega, fun i hi => ?_, r, h4⟩
    simp only [Fits] at hf
    simp only [Option.getD_some]
    omega

theorem write_ret {K : FileSys} {fd buf : Nat} {bytes : List Nat} {o : FObs}
    (h : (K.step (.write fd buf bytes)).2 = o) :
    (K.file fd = none ∧ o.ret = -1) ∨ ((∃ x, K.file fd = some x) ∧ o.ret = bytes.length) := by
  subst h
  simp only [FileSys.step]
  split
  · split <;> exact Or.inr ⟨⟨_, by assumption⟩, rfl⟩
  · exact Or.inl ⟨by assumption, rfl⟩

theorem step_write {va : Nat} {K K' : FileSys} {T T' : Tracker} {fd buf : Nat} {bytes : List Nat} {o : FObs}
    (hf : Fits K T (.write fd buf bytes)) (he : step va K T (.write fd buf bytes) = .ok (K', T', o)) :
    ((K.file fd = none ∨ bytes = []) ∧ T' = T) ∨ (0 < bytes.length ∧
      T.Allowed (.write fd (knownPos (K.tell fd)) buf bytes.length) ∧
      ∃ r, T.exec (.write fd (knownPos (K.tell fd)) buf bytes.length) = .ok (T', r)) := by
  have hk := step_kernel he
  simp only [seen] at hk
  have hret := write_ret (K := K) (fd := fd) (buf := buf) (bytes := bytes) (o := o) (by rw [hk])
  simp only [step, Res.bind_eq_ok, Res.pure_eq] at he
  obtain ⟨⟨T1, p⟩, h1, h2⟩ := he
  rw [hk] at h1 h2
  cases h2
  dsimp only at h1
  rcases wrap_write h1 with ⟨h3, rfl⟩ | ⟨h3, r, h4⟩
  · rcases hret with ⟨h5, -⟩ | ⟨-, h6⟩
    · exact Or.inl ⟨Or.inl h5, rfl⟩
    · refine Or.inl ⟨Or.inr (List.eq_nil_of_length_eq_zero (by omega)), rfl⟩
  · rcases hret with ⟨-, h6⟩ | ⟨h5, h6⟩
    · omega
    · rw [h6] at h4
      refine Or.inr ⟨by omega, fun i hi => ?_, r, h4⟩
      have := hf i hi
      rw [getD_knownPos]
      omega

/-! ### The invariant -/

/-- The tracker's history fits the file operations of the program. -/
structure Good (h : Trace) (K : FileSys) (E : FHist) : Prop where
  wf : K.WF
  last : ∀ (fd : Nat) p s, openedAs E fd = some (p, s) → lastOpen h fd = some (p, s, true)
  bound : ∀ (fd : Nat) p, openedAs E fd = some p → ∃ o, K.fds[fd]? = some (some o)
  solo : ∀ (fd : Nat) p o fd', openedAs E fd = some p → alone E fd = true → K.fds[fd]? = some (some o) →
    K.fds[fd']? = some (some o) → fd' = fd
  pos : ∀ (fd : Nat) p o f nd, openedAs E fd = some p → alone E fd = true → K.file fd = some (o, f, nd) →
    nd.regular = false → ∀ i, owner h fd = some i → readPos h i = f.pos ∧ writePos h i = f.wpos

theorem nat_ne_neg (fd : Nat) : (fd : Int) ≠ -1 := by omega

/-- Calls that concern no descriptor. -/
theorem Good.call {h : Trace} {K : FileSys} {E : FHist} (hg : Good h K E) {c : Call} {r : Ret} (hc : NoFile c) :
    Good ((c, r) :: h) K E := by
  have hno : ∀ fd' name size, (c, r).1 ≠ .openFile fd' name size := by
    intro _ _ _ e; simp only at e; rw [e] at hc; exact hc
  refine ⟨hg.wf, fun fd p s ho => ?_, hg.bound, hg.solo, fun fd p o f nd ho ha hf hn i hi => ?_⟩
  · rw [lastOpen_cons_other hno]; exact hg.last fd p s ho
  · rw [owner_cons_other (nat_ne_neg fd) hno] at hi
    have := hg.pos fd p o f nd ho ha hf hn i hi
    cases c <;> first | exact this | exact hc.elim

/-- A file seen after a step that did not move its description. -/
theorem file_back {K : FileSys} (hw : K.WF) {op : FileOp} {fd o : Nat} {f : OpenFile} {nd : INode}
    (hfd : (K.step op).1.fds[fd]? = K.fds[fd]?)
    (ht : ∀ fd', FileSys.target op = some fd' → K.fds[fd']? ≠ some (some o))
    (h : (K.step op).1.file fd = some (o, f, nd)) :
    ∃ nd', K.file fd = some (o, f, nd') ∧ nd'.regular = nd.regular := by
  obtain ⟨h1, h2, h3⟩ := FileSys.file_spec h
  rw [hfd] at h1
  rw [FileSys.step_files op o (hw.fds fd o h1) ht] at h2
  have hn := hw.files f (List.mem_of_getElem? h2)
  obtain ⟨nd', h4, h5⟩ := FileSys.step_regular op f.node hn nd h3
  exact ⟨nd', FileSys.file_of h1 h2 h4, h5⟩

/-- A step that leaves bindings and the tracker alone, except possibly a new descriptor without open or a
closed one: what is left to check. -/
theorem Good.quiet {h : Trace} {K : FileSys} {E : FHist} (hg : Good h K E) {op op' : FileOp} {o : FObs}
    (hopen : ∀ (fd : Nat) p, openedAs ((op', o) :: E) fd = some p →
      openedAs E fd = some p ∧ (K.step op).1.fds[fd]? = K.fds[fd]?)
    (halone : ∀ (fd : Nat) p, openedAs ((op', o) :: E) fd = some p → alone ((op', o) :: E) fd = true →
      alone E fd = true ∧ ∀ (o fd' : Nat), K.fds[fd]? = some (some o) → (K.step op).1.fds[fd']? = some (some o) →
        K.fds[fd']? = some (some o))
    (ht : FileSys.target op = none) : Good h (K.step op).1 ((op', o) :: E) := by
  refine ⟨hg.wf.step op, fun fd p s ho => hg.last fd p s (hopen fd _ ho).1, fun fd p ho => ?_,
    fun fd p o fd' ho ha h1 h2 => ?_, fun fd p o f nd ho ha hf hn i hi => ?_⟩
  · obtain ⟨h1, h2⟩ := hopen fd p ho
    rw [h2]; exact hg.bound fd p h1
  · obtain ⟨k1, k2⟩ := hopen fd p ho
    obtain ⟨k3, k4⟩ := halone fd p ho ha
    rw [k2] at h1
    exact hg.solo fd p o fd' k1 k3 h1 (k4 o fd' h1 h2)
  · obtain ⟨k1, k2⟩ := hopen fd p ho
    obtain ⟨k3, k4⟩ := halone fd p ho ha
    obtain ⟨nd', h1, h2⟩ := file_back hg.wf k2 (by rw [ht]; simp) hf
    exact hg.pos fd p o f nd' k1 k3 h1 (by rw [h2, hn]) i hi

theorem Good.openat {h : Trace} {K : FileSys} {E : FHist} (hg : Good h K E) {path : List Nat} {fl : OFlags}
    {mode : Nat} : Good h (K.step (.openat path fl mode)).1
      ((.openat path fl mode, (K.step (.openat path fl mode)).2) :: E) := by
  simp only [FileSys.step]
  have hs : K.opn path fl mode = K.step (.openat path fl mode) := rfl
  rcases FileSys.opn_spec K path fl mode with ⟨h1, h2⟩ | ⟨h1, -, h3, -⟩
  · have hret : ∀ fd : Nat, ¬ (K.opn path fl mode).2.ret = (fd : Int) := by intro fd; rw [h1]; omega
    have : Good h (K.step (.openat path fl mode)).1
        ((.openat path fl mode, (K.opn path fl mode).2) :: E) := by
      refine hg.quiet (fun fd p ho => ?_) (fun fd p ho ha => ?_) rfl
      · simp only [openedAs, if_neg (hret fd)] at ho
        exact ⟨ho, by rw [← hs, h2]⟩
      · exact ⟨ha, fun o fd' _ k => by rw [← hs, h2] at k; exact k⟩
    exact this
  · have : Good h (K.step (.openat path fl mode)).1
        ((.openat path fl mode, (K.opn path fl mode).2) :: E) := by
      refine hg.quiet (fun fd p ho => ?_) (fun fd p ho ha => ?_) rfl
      · simp only [openedAs, h1] at ho
        split at ho
        · cases ho
        · rename_i hne
          exact ⟨ho, by rw [← hs, h3, if_neg (by omega)]⟩
      · refine ⟨ha, fun o fd' k1 k2 => ?_⟩
        rw [← hs, h3] at k2
        split at k2
        · cases k2
          have := hg.wf.fds fd _ k1
          omega
        · exact k2
    exact this

theorem Good.close {h : Trace} {K : FileSys} {E : FHist} (hg : Good h K E) {fd : Nat} :
    Good h (K.step (.close fd)).1 ((.close fd, (K.step (.close fd)).2) :: E) := by
  refine hg.quiet (fun fd' p ho => ?_) (fun fd' p ho ha => ⟨ha, fun o fd'' k1 k2 => ?_⟩) rfl
  · simp only [openedAs] at ho
    split at ho
    · cases ho
    · rename_i hn
      refine ⟨ho, ?_⟩
      simp only [FileSys.step] at hn ⊢
      split
      · rename_i o hk
        simp only [hk, and_true] at hn
        simp only [List.getElem?_set, if_neg hn]
      · rfl
  · simp only [FileSys.step] at k2
    split at k2
    · simp only [List.getElem?_set] at k2
      split at k2
      · split at k2 <;> cases k2
      · exact k2
    · exact k2

theorem Good.dup {h : Trace} {K : FileSys} {E : FHist} (hg : Good h K E) {fd : Nat} :
    Good h (K.step (.dup fd)).1 ((.dup fd, (K.step (.dup fd)).2) :: E) := by
  refine hg.quiet (fun fd' p ho => ?_) (fun fd' p ho ha => ?_) rfl
  · simp only [openedAs] at ho
    split at ho
    · cases ho
    · rename_i hn
      refine ⟨ho, ?_⟩
      simp only [FileSys.step] at hn ⊢
      split
      · rename_i o hk
        simp only [hk] at hn
        rw [FileSys.install_fds, if_neg (fun e => hn (by rw [e]))]
      · rfl
  · simp only [alone] at ha
    split at ha
    · cases ha
    · rename_i hne
      refine ⟨ha, fun o fd'' k1 k2 => ?_⟩
      simp only [openedAs] at ho
      split at ho
      · cases ho
      · simp only [FileSys.step] at k2
        split at k2
        · rename_i o' hk
          rw [FileSys.install_fds] at k2
          split at k2
          · cases k2
            exact absurd (hg.solo fd' p _ fd ho ha k1 hk) hne
          · exact k2
        · exact k2

theorem setFile_fds (K : FileSys) (o : Nat) (f : OpenFile) : (K.setFile o f).fds = K.fds := rfl

theorem lseek_fds (K : FileSys) (fd pos : Nat) : (K.step (.lseek fd pos)).1.fds = K.fds := by
  simp only [FileSys.step]
  split
  · split <;> rfl
  · rfl

theorem read_fds (K : FileSys) (fd buf n : Nat) : (K.step (.read fd buf n)).1.fds = K.fds := by
  simp only [FileSys.step]
  split
  · split <;> rfl
  · rfl

theorem pread_same (K : FileSys) (fd buf n off : Nat) : (K.step (.pread fd buf n off)).1 = K := by
  simp only [FileSys.step]
  split
  · split <;> rfl
  · rfl

theorem write_fds (K : FileSys) (fd buf : Nat) (bytes : List Nat) :
    (K.step (.write fd buf bytes)).1.fds = K.fds := by
  simp only [FileSys.step]
  split
  · split <;> rfl
  · rfl

/-- Moving one description. -/
theorem Good.move {h h' : Trace} {K : FileSys} {E : FHist} (hg : Good h K E) {op : FileOp} {o : FObs} {fd : Nat}
    (hfds : (K.step op).1.fds = K.fds) (ht : FileSys.target op = some fd)
    (hopen : ∀ fd', openedAs ((op, o) :: E) fd' = openedAs E fd')
    (halone : ∀ fd', alone ((op, o) :: E) fd' = alone E fd')
    (hlast : ∀ fd' : Nat, lastOpen h' fd' = lastOpen h fd')
    (hown : ∀ fd' : Nat, owner h' fd' = owner h fd')
    (hpos : ∀ fd' i, fd' ≠ fd → owner h (fd' : Nat) = some i → readPos h' i = readPos h i ∧ writePos h' i = writePos h i)
    (hthis : ∀ p o f nd, openedAs E fd = some p → alone E fd = true → (K.step op).1.file fd = some (o, f, nd) →
      nd.regular = false → ∀ i, owner h fd = some i → readPos h' i = f.pos ∧ writePos h' i = f.wpos) :
    Good h' (K.step op).1 ((op, o) :: E) := by
  refine ⟨hg.wf.step op, fun fd' p s ho => ?_, fun fd' p ho => ?_, fun fd' p o fd'' ho ha h1 h2 => ?_,
    fun fd' p o f nd ho ha hf hn i hi => ?_⟩
  · rw [hopen] at ho; rw [hlast]; exact hg.last fd' p s ho
  · rw [hopen] at ho; rw [hfds]; exact hg.bound fd' p ho
  · rw [hopen] at ho; rw [halone] at ha; rw [hfds] at h1 h2
    exact hg.solo fd' p o fd'' ho ha h1 h2
  · rw [hopen] at ho; rw [halone] at ha; rw [hown] at hi
    by_cases hne : fd' = fd
    · subst hne
      exact hthis p o f nd ho ha hf hn i hi
    · have hb := (FileSys.file_spec hf).1
      rw [hfds] at hb
      obtain ⟨nd', k1, k2⟩ := file_back hg.wf (by rw [hfds])
        (fun fd2 e k => by rw [ht] at e; cases e; exact hne (hg.solo fd' p o _ ho ha hb k).symm) hf
      obtain ⟨k3, k4⟩ := hpos fd' i hne hi
      rw [k3, k4]
      exact hg.pos fd' p o f nd' ho ha k1 (by rw [k2, hn]) i hi

theorem Good.lseek {h : Trace} {K : FileSys} {E : FHist} (hg : Good h K E) {fd pos : Nat} :
    Good h (K.step (.lseek fd pos)).1 ((.lseek fd pos, (K.step (.lseek fd pos)).2) :: E) := by
  refine hg.move (lseek_fds K fd pos) rfl (fun _ => rfl) (fun _ => rfl) (fun _ => rfl) (fun _ => rfl)
    (fun _ _ _ _ => ⟨rfl, rfl⟩) (fun p o f nd ho ha hf hn i hi => ?_)
  obtain ⟨o', hb⟩ := hg.bound fd p ho
  obtain ⟨f', nd', hf'⟩ := hg.wf.bound hb
  simp only [FileSys.step, hf'] at hf
  by_cases hreg : nd'.regular = true
  · rw [if_pos hreg] at hf
    obtain ⟨h1, h2, h3⟩ := FileSys.file_spec hf
    obtain ⟨k1, k2, k3⟩ := FileSys.file_spec hf'
    rw [setFile_fds, k1] at h1
    cases h1
    have hlt := (List.getElem?_eq_some_iff.1 k2).1
    simp only [FileSys.setFile, List.getElem?_set, if_true, hlt] at h2
    cases h2
    simp only [FileSys.setFile] at h3
    rw [k3] at h3
    cases h3
    rw [hn] at hreg; cases hreg
  · rw [if_neg hreg] at hf
    exact hg.pos fd p o f nd ho ha hf hn i hi

/-- The description after a read. -/
theorem read_moved {K : FileSys} {fd buf n o o' : Nat} {f f' : OpenFile} {nd nd' : INode}
    (h : K.file fd = some (o, f, nd)) (h' : (K.step (.read fd buf n)).1.file fd = some (o', f', nd')) :
    nd'.regular = nd.regular ∧ f'.pos = f.pos + (K.step (.read fd buf n)).2.data.length ∧ f'.wpos = f.wpos := by
  obtain ⟨k1, k2, k3⟩ := FileSys.file_spec h
  have hlt := (List.getElem?_eq_some_iff.1 k2).1
  have hnl := (List.getElem?_eq_some_iff.1 k3).1
  simp only [FileSys.step, h] at h' ⊢
  by_cases hreg : nd.regular = true
  · rw [if_pos hreg] at h' ⊢
    obtain ⟨h1, h2, h3⟩ := FileSys.file_spec h'
    rw [setFile_fds, k1] at h1
    cases h1
    simp only [FileSys.setFile, List.getElem?_set, if_true, hlt] at h2
    cases h2
    simp only [FileSys.setFile] at h3
    rw [k3] at h3
    cases h3
    exact ⟨rfl, rfl, rfl⟩
  · rw [if_neg hreg] at h' ⊢
    obtain ⟨h1, h2, h3⟩ := FileSys.file_spec h'
    have h1' : K.fds[fd]? = some (some o') := h1
    rw [k1] at h1'
    cases h1'
    simp only [FileSys.setData, FileSys.setFile, List.getElem?_set, if_true, hlt] at h2
    cases h2
    simp only [FileSys.setData, FileSys.setFile, List.getElem?_set, if_true, hnl] at h3
    cases h3
    exact ⟨rfl, rfl, rfl⟩

/-- The description after a write. -/
theorem write_moved {K : FileSys} {fd buf o o' : Nat} {bytes : List Nat} {f f' : OpenFile} {nd nd' : INode}
    (h : K.file fd = some (o, f, nd)) (h' : (K.step (.write fd buf bytes)).1.file fd = some (o', f', nd')) :
    nd'.regular = nd.regular ∧ (nd.regular = false → f'.pos = f.pos ∧ f'.wpos = f.wpos + bytes.length) := by
  obtain ⟨k1, k2, k3⟩ := FileSys.file_spec h
  have hlt := (List.getElem?_eq_some_iff.1 k2).1
  have hnl := (List.getElem?_eq_some_iff.1 k3).1
  simp only [FileSys.step, h] at h'
  by_cases hreg : nd.regular = true
  · rw [if_pos hreg] at h'
    obtain ⟨h1, h2, h3⟩ := FileSys.file_spec h'
    have h1' : K.fds[fd]? = some (some o') := h1
    rw [k1] at h1'
    cases h1'
    simp only [FileSys.setData, FileSys.setFile, List.getElem?_set, if_true, hlt] at h2
    cases h2
    simp only [FileSys.setData, FileSys.setFile, List.getElem?_set, if_true, hnl] at h3
    cases h3
    exact ⟨rfl, fun e => by rw [e] at hreg; cases hreg⟩
  · rw [if_neg hreg] at h'
    obtain ⟨h1, h2, h3⟩ := FileSys.file_spec h'
    rw [setFile_fds, k1] at h1
    cases h1
    simp only [FileSys.setFile, List.getElem?_set, if_true, hlt] at h2
    cases h2
    simp only [FileSys.setFile] at h3
    rw [k3] at h3
    cases h3
    exact ⟨rfl, fun _ => ⟨rfl, rfl⟩⟩

theorem tell_stream {K : FileSys} {fd o : Nat} {f : OpenFile} {nd : INode} (h : K.file fd = some (o, f, nd))
    (hn : nd.regular = false) : knownPos (K.tell fd) = none := by
  simp only [FileSys.tell, h, hn]; rfl

theorem tell_regular {K : FileSys} {fd o : Nat} {f : OpenFile} {nd : INode} (h : K.file fd = some (o, f, nd))
    (hn : nd.regular = true) : knownPos (K.tell fd) = some f.pos := by
  simp only [FileSys.tell, h, hn, if_true]; exact knownPos_nat _

/-- A read without data. -/
theorem Good.readNone {h : Trace} {K : FileSys} {E : FHist} (hg : Good h K E) {fd buf n : Nat}
    (hd : (K.step (.read fd buf n)).2.data.length = 0) :
    Good h (K.step (.read fd buf n)).1 ((.read fd buf n, (K.step (.read fd buf n)).2) :: E) := by
  refine hg.move (read_fds K fd buf n) rfl (fun _ => rfl) (fun _ => rfl) (fun _ => rfl) (fun _ => rfl)
    (fun _ _ _ _ => ⟨rfl, rfl⟩) (fun p o f nd ho ha hf hn i hi => ?_)
  obtain ⟨o', hb⟩ := hg.bound fd p ho
  obtain ⟨f', nd', hf'⟩ := hg.wf.bound hb
  obtain ⟨h1, h2, h3⟩ := read_moved hf' hf
  rw [h2, h3, hd]
  exact hg.pos fd p o' f' nd' ho ha hf' (by rw [← h1, hn]) i hi

/-- A read with data. -/
theorem Good.read {h : Trace} {K : FileSys} {E : FHist} (hg : Good h K E) {fd buf n : Nat} {r : Ret} {a : Option Nat} :
    Good ((.read fd a (knownPos (K.tell fd)) (K.step (.read fd buf n)).2.data.length, r) :: h)
      (K.step (.read fd buf n)).1 ((.read fd buf n, (K.step (.read fd buf n)).2) :: E) := by
  have hno : ∀ fd' name size, (Call.read fd a (knownPos (K.tell fd)) (K.step (.read fd buf n)).2.data.length, r).1 ≠
      .openFile fd' name size := fun _ _ _ e => by cases e
  refine hg.move (read_fds K fd buf n) rfl (fun _ => rfl) (fun _ => rfl) (fun fd' => lastOpen_cons_other hno)
    (fun fd' => owner_cons_other (nat_ne_neg fd') hno) (fun fd' i hne hi => ?_) (fun p o f nd ho ha hf hn i hi => ?_)
  · cases hk : knownPos (K.tell fd) with
    | some x => exact ⟨rfl, rfl⟩
    | none =>
      refine ⟨?_, rfl⟩
      simp only [readPos]
      rw [if_neg (fun e => hne (by have := owner_inj e hi; omega))]
      rfl
  · obtain ⟨o', hb⟩ := hg.bound fd p ho
    obtain ⟨f', nd', hf'⟩ := hg.wf.bound hb
    obtain ⟨h1, h2, h3⟩ := read_moved hf' hf
    have hs : nd'.regular = false := by rw [← h1, hn]
    obtain ⟨k1, k2⟩ := hg.pos fd p o' f' nd' ho ha hf' hs i hi
    rw [tell_stream hf' hs, h2, h3]
    refine ⟨?_, k2⟩
    simp only [readPos]
    rw [if_pos hi, k1]

/-- A read at a given position. -/
theorem Good.pread {h : Trace} {K : FileSys} {E : FHist} (hg : Good h K E) {fd buf n off m : Nat} {r : Ret} {a : Option Nat}
    {o : FObs} : Good ((.read fd a (some off) m, r) :: h) K ((.pread fd buf n off, o) :: E) := by
  have hno : ∀ fd' name size, (Call.read fd a (some off) m, r).1 ≠
      .openFile fd' name size := fun _ _ _ e => by cases e
  refine ⟨hg.wf, fun fd p s ho => ?_, hg.bound, hg.solo, fun fd p o f nd ho ha hf hn i hi => ?_⟩
  · rw [lastOpen_cons_other hno]; exact hg.last fd p s ho
  · rw [owner_cons_other (nat_ne_neg fd) hno] at hi
    exact hg.pos fd p o f nd ho ha hf hn i hi

theorem Good.preadNone {h : Trace} {K : FileSys} {E : FHist} (hg : Good h K E) {fd buf n off : Nat}
    {o : FObs} : Good h K ((.pread fd buf n off, o) :: E) :=
  ⟨hg.wf, hg.last, hg.bound, hg.solo, hg.pos⟩

/-- A write of nothing or to nothing. -/
theorem Good.writeNone {h : Trace} {K : FileSys} {E : FHist} (hg : Good h K E) {fd buf : Nat} {bytes : List Nat}
    (hd : K.file fd = none ∨ bytes = []) :
    Good h (K.step (.write fd buf bytes)).1 ((.write fd buf bytes, (K.step (.write fd buf bytes)).2) :: E) := by
  refine hg.move (write_fds K fd buf bytes) rfl (fun _ => rfl) (fun _ => rfl) (fun _ => rfl) (fun _ => rfl)
    (fun _ _ _ _ => ⟨rfl, rfl⟩) (fun p o f nd ho ha hf hn i hi => ?_)
  obtain ⟨o', hb⟩ := hg.bound fd p ho
  obtain ⟨f', nd', hf'⟩ := hg.wf.bound hb
  rcases hd with hd | rfl
  · rw [hf'] at hd; cases hd
  obtain ⟨h1, h2⟩ := write_moved hf' hf
  have hs : nd'.regular = false := by rw [← h1, hn]
  obtain ⟨h3, h4⟩ := h2 hs
  rw [h3, h4]
  exact hg.pos fd p o' f' nd' ho ha hf' hs i hi

/-- A write. -/
theorem Good.write {h : Trace} {K : FileSys} {E : FHist} (hg : Good h K E) {fd buf : Nat} {bytes : List Nat} {r : Ret} :
    Good ((.write fd (knownPos (K.tell fd)) buf bytes.length, r) :: h)
      (K.step (.write fd buf bytes)).1 ((.write fd buf bytes, (K.step (.write fd buf bytes)).2) :: E) := by
  have hno : ∀ fd' name size, (Call.write fd (knownPos (K.tell fd)) buf bytes.length, r).1 ≠
      .openFile fd' name size := fun _ _ _ e => by cases e
  refine hg.move (write_fds K fd buf bytes) rfl (fun _ => rfl) (fun _ => rfl) (fun fd' => lastOpen_cons_other hno)
    (fun fd' => owner_cons_other (nat_ne_neg fd') hno) (fun fd' i hne hi => ?_) (fun p o f nd ho ha hf hn i hi => ?_)
  · cases hk : knownPos (K.tell fd) with
    | some x => exact ⟨rfl, rfl⟩
    | none =>
      refine ⟨rfl, ?_⟩
      simp only [writePos]
      rw [if_neg (fun e => hne (by have := owner_inj e hi; omega))]
      rfl
  · obtain ⟨o', hb⟩ := hg.bound fd p ho
    obtain ⟨f', nd', hf'⟩ := hg.wf.bound hb
    obtain ⟨h1, h2⟩ := write_moved hf' hf
    have hs : nd'.regular = false := by rw [← h1, hn]
    obtain ⟨h3, h4⟩ := h2 hs
    obtain ⟨k1, k2⟩ := hg.pos fd p o' f' nd' ho ha hf' hs i hi
    rw [tell_stream hf' hs, h3, h4]
    refine ⟨k1, ?_⟩
    simp only [writePos]
    rw [if_pos hi, k2]

/-- A failed open. -/
theorem Good.opnNone {h : Trace} {K : FileSys} {E : FHist} (hg : Good h K E) {path : List Nat} {fl : OFlags}
    {mode : Nat} {o : FObs} (ho : o.ret = -1) : Good h K ((.opn path fl mode, o) :: E) := by
  have hret : ∀ fd : Nat, ¬ o.ret = (fd : Int) := by intro fd; rw [ho]; omega
  refine ⟨hg.wf, fun fd p s h => ?_, fun fd p h => ?_, fun fd p o' fd' h1 h2 => ?_, fun fd p o' f nd h1 h2 => ?_⟩
  · simp only [openedAs, if_neg (hret fd)] at h; exact hg.last fd p s h
  · simp only [openedAs, if_neg (hret fd)] at h; exact hg.bound fd p h
  · simp only [openedAs, if_neg (hret fd)] at h1
    simp only [alone, if_neg (hret fd)] at h2
    exact hg.solo fd p o' fd' h1 h2
  · simp only [openedAs, if_neg (hret fd)] at h1
    simp only [alone, if_neg (hret fd)] at h2
    exact hg.pos fd p o' f nd h1 h2

/-- A successful open. -/
theorem Good.opn {h : Trace} {K : FileSys} {E : FHist} (hg : Good h K E) {path : List Nat} {fl : OFlags}
    {mode mode' j : Nat} (hret : (K.opn path fl mode).2.ret = K.lowest) :
    Good ((.openFile K.lowest path (K.opn path fl mode).2.size, .index (some j)) :: h) (K.opn path fl mode).1
      ((.opn path fl mode', (K.opn path fl mode).2) :: E) := by
  rcases FileSys.opn_spec K path fl mode with ⟨h1, -⟩ | ⟨-, -, h3, fnew, h4, h5, h6⟩
  · rw [hret] at h1; omega
  have hw := hg.wf.step (.opn path fl mode)
  have hcast : ∀ fd : Nat, ((K.lowest : Int) = (fd : Int)) ↔ K.lowest = fd := fun fd => by omega
  refine ⟨hw, fun fd p s h => ?_, fun fd p h => ?_, fun fd p o fd' h1 h2 b1 b2 => ?_,
    fun fd p o f nd h1 h2 hf hn i hi => ?_⟩
  · simp only [openedAs, hret, hcast] at h
    simp only [lastOpen, hcast]
    split at h
    · rename_i e; rw [if_pos e]; cases h; rfl
    · rename_i e; rw [if_neg e]; exact hg.last fd p s h
  · simp only [openedAs, hret, hcast] at h
    rw [h3]
    split at h
    · rename_i e; exact ⟨_, if_pos e.symm⟩
    · rename_i e; rw [if_neg (fun k => e k.symm)]; exact hg.bound fd p h
  · simp only [openedAs, hret, hcast] at h1
    simp only [alone, hret, hcast] at h2
    rw [h3] at b1 b2
    split at h1
    · rename_i e
      subst e
      rw [if_pos rfl] at b1
      cases b1
      split at b2
      · assumption
      · have := hg.wf.fds fd' _ b2; omega
    · rename_i e
      rw [if_neg e] at h2
      rw [if_neg (fun k => e k.symm)] at b1
      split at b2
      · cases b2
        have := hg.wf.fds fd _ b1; omega
      · exact hg.solo fd p o fd' h1 h2 b1 b2
  · simp only [openedAs, hret, hcast] at h1
    simp only [alone, hret, hcast] at h2
    rw [owner_cons_open] at hi
    simp only [hcast] at hi
    have hrp : ∀ i, readPos ((Call.openFile K.lowest path (K.opn path fl mode).2.size, Ret.index (some j)) :: h) i = readPos h i :=
      fun _ => rfl
    have hwp : ∀ i, writePos ((Call.openFile K.lowest path (K.opn path fl mode).2.size, Ret.index (some j)) :: h) i = writePos h i :=
      fun _ => rfl
    rw [hrp, hwp]
    split at h1
    · rename_i e
      subst e
      rw [if_pos rfl] at hi
      cases hi
      obtain ⟨k1, k2, -⟩ := FileSys.file_spec hf
      rw [h3, if_pos rfl] at k1
      cases k1
      rw [h4] at k2
      cases k2
      rw [h5, h6]
      exact positions_fresh h (Nat.le_refl _)
    · rename_i e
      rw [if_neg e] at h2 hi
      obtain ⟨nd', k1, k2⟩ := file_back (op := .opn path fl mode) hg.wf
        (by show (K.opn path fl mode).1.fds[fd]? = _; rw [h3, if_neg (fun k => e k.symm)])
        (fun _ e => by cases e) hf
      exact hg.pos fd p o f nd' h1 h2 k1 (by rw [k2, hn]) i hi

/-- Every run of the instrumented program. -/
theorem Exec.good {c : Config} {base : Nat} (hc : c.Ok base) {h₀ : Trace} {K₀ K : FileSys} {T₀ T : Tracker} {E : FHist}
    (hr : Reach c base h₀ T₀) (hw : K₀.WF) (he : Exec K₀ T₀ E K T) :
    ∃ h, Reach c base h T ∧ Good h K E := by
  induction he with
  | nil => exact ⟨h₀, hr, hw, fun _ _ _ h => (by cases h), fun _ _ h => (by cases h), fun _ _ _ _ h => (by cases h),
      fun _ _ _ _ _ h => (by cases h)⟩
  | @call E K T cl r T' _ hn ha hx ih =>
    obtain ⟨h, h1, h2⟩ := ih
    exact ⟨_, h1.snoc ha hx, h2.call hn⟩
  | @file E K T va op K' T' o _ hf hs ih =>
    obtain ⟨h, h1, h2⟩ := ih
    have hk := step_kernel hs
    cases op with
    | opn path fl mode =>
      simp only [seen, FileSys.step] at hk
      rcases step_opn hc h1 hf hs with ⟨k1, rfl, rfl⟩ | ⟨k1, j, k2⟩
      · exact ⟨h, h1, h2.opnNone k1⟩
      · refine ⟨_, k2, ?_⟩
        have hg := h2.opn (path := path) (fl := fl) (mode := va % 2 ^ 32) (mode' := mode) (j := j) (by rw [hk]; exact k1)
        rw [hk] at hg
        exact hg
    | openat path fl mode =>
      have := step_quiet hs (Or.inl ⟨_, _, _, rfl⟩)
      subst this
      have hg := h2.openat (path := path) (fl := fl) (mode := mode)
      rw [show K.step (.openat path fl mode) = (K', o) from hk] at hg
      exact ⟨h, h1, hg⟩
    | close fd =>
      have := step_quiet hs (Or.inr (Or.inl ⟨_, rfl⟩))
      subst this
      have hg := h2.close (fd := fd)
      rw [show K.step (.close fd) = (K', o) from hk] at hg
      exact ⟨h, h1, hg⟩
    | dup fd =>
      have := step_quiet hs (Or.inr (Or.inr (Or.inl ⟨_, rfl⟩)))
      subst this
      have hg := h2.dup (fd := fd)
      rw [show K.step (.dup fd) = (K', o) from hk] at hg
      exact ⟨h, h1, hg⟩
    | lseek fd pos =>
      have := step_quiet hs (Or.inr (Or.inr (Or.inr ⟨_, _, rfl⟩)))
      subst this
      have hg := h2.lseek (fd := fd) (pos := pos)
      rw [show K.step (.lseek fd pos) = (K', o) from hk] at hg
      exact ⟨h, h1, hg⟩
    | read fd buf n =>
      have hk : K.step (.read fd buf n) = (K', o) := hk
      rcases step_read hf hs with ⟨k1, rfl⟩ | ⟨-, k1, r, k2⟩
      · have hg := h2.readNone (fd := fd) (buf := buf) (n := n) (by rw [hk]; exact k1)
        rw [hk] at hg
        exact ⟨h, h1, hg⟩
      · have hg := h2.read (fd := fd) (buf := buf) (n := n) (r := r) (a := some buf)
        rw [hk] at hg
        exact ⟨_, h1.snoc k1 k2, hg⟩
    | pread fd buf n off =>
      have hk : K.step (.pread fd buf n off) = (K', o) := hk
      have hsame := pread_same K fd buf n off
      rw [hk] at hsame
      simp only at hsame
      subst hsame
      rcases step_pread hf hs with ⟨k1, rfl⟩ | ⟨-, k1, r, k2⟩
      · exact ⟨h, h1, h2.preadNone⟩
      · exact ⟨_, h1.snoc k1 k2, h2.pread⟩
    | write fd buf bytes =>
      have hk : K.step (.write fd buf bytes) = (K', o) := hk
      rcases step_write hf hs with ⟨k1, rfl⟩ | ⟨-, k1, r, k2⟩
      · have hg := h2.writeNone (fd := fd) (buf := buf) k1
        rw [hk] at hg
        exact ⟨h, h1, hg⟩
      · have hg := h2.write (fd := fd) (buf := buf) (bytes := bytes) (r := r)
        rw [hk] at hg
        exact ⟨_, h1.snoc k1 k2, hg⟩

end Files
end Verif
