import Verif.Stdio
import Verif.NetTrack
import Verif.Props.C40
/- Lemmas for C82: the calls at the tracker made for streams. -/
namespace Verif
open Spec Tracker
namespace Stdio

/-! ### Streams by descriptor -/

theorem get_del_ne {K : StdSys} {fd fd' : Nat} (h : fd' ≠ fd) : (K.del fd').get fd = K.get fd := by
  unfold StdSys.get StdSys.del
  congr 1
  induction K with
  | nil => rfl
  | cons x K ih =>
    by_cases h1 : x.1 = fd'
    · have h2 : ¬ x.1 = fd := fun e => h (h1.symm.trans e)
      rw [List.filter_cons_of_neg (by simp [h1]), List.find?_cons_of_neg (by simp [h2])]
      exact ih
    · rw [List.filter_cons_of_pos (by simp [h1])]
      by_cases h2 : x.1 = fd
      · rw [List.find?_cons_of_pos (by simp [h2]), List.find?_cons_of_pos (by simp [h2])]
      · rw [List.find?_cons_of_neg (by simp [h2]), List.find?_cons_of_neg (by simp [h2])]
        exact ih

theorem get_put (K : StdSys) (fd' fd : Nat) (s : Strm) :
    (K.put fd' s).get fd = if fd' = fd then some s else K.get fd := by
  by_cases h : fd' = fd
  · rw [if_pos h]; subst h
    simp [StdSys.put, StdSys.get]
  · rw [if_neg h, ← get_del_ne (K := K) h]
    simp [StdSys.put, StdSys.get, h]

theorem get_on (K : StdSys) (fd' fd : Nat) (f : Strm → Strm × StdObs) :
    (K.on fd' f).1.get fd = if fd' = fd then (K.get fd).map fun s => (f s).1 else K.get fd := by
  unfold StdSys.on
  by_cases h : fd' = fd
  · subst h
    rw [if_pos rfl]
    cases h0 : K.get fd' with
    | none => simp only [h0]; rfl
    | some s => simp only [get_put, if_pos]; rfl
  · rw [if_neg h]
    cases h0 : K.get fd' with
    | none => rfl
    | some s => simp only [get_put, if_neg h]

theorem obs_on {K : StdSys} {fd : Nat} {f : Strm → Strm × StdObs} {s : Strm} (h : K.get fd = some s) :
    (K.on fd f).2 = (f s).2 := by
  unfold StdSys.on; rw [h]

theorem step_kernel {K K' : StdSys} {T T' : Tracker} {op : StdOp} {o : StdObs} {l : Nat}
    (h : step K T op = .ok (K', T', o, l)) : K.step op = (K', o) := by
  cases op with
  | fclose fd =>
    simp only [step] at h
    split at h <;> cases h <;> rfl
  | fopen | fread | getc | fgets | fwrite | putc =>
    simp only [step, Res.bind_eq_ok, Res.pure_eq] at h
    obtain ⟨x, -, h⟩ := h
    cases h; rfl
  | adopt | scan | ungetc | fseek | puts => cases h; rfl

/-! ### What the wrappers do at the tracker -/

theorem wrap_fread {T T' : Tracker} {fd : Int} {buf size ret : Nat} {pos : Int} {p : Nat × Nat}
    (h : Wrap.fread T fd buf size pos ret = .ok (T', p)) :
    (size * ret = 0 ∧ T' = T) ∨ (0 < size * ret ∧
      ∃ r, T.exec (.read fd (some buf) (knownPos pos) (size * ret)) = .ok (T', r)) := by
  simp only [Wrap.fread, Res.bind_eq_ok, Res.pure_eq] at h
  obtain ⟨off, h1, len, h2, T1, h3, h4⟩ := h
  cases h4
  rw [Files.fromOffT_spec h1] at h3
  unfold Wrap.fromReturnedSizeCount at h2
  split at h2
  · cases h2
  · split at h2
    · rename_i h5
      cases h2; cases h3
      exact Or.inl ⟨h5, rfl⟩
    · rename_i h5
      cases h2
      simp only [Wrap.taintSourceBuffer, Res.bind_eq_ok, Res.pure_eq] at h3
      obtain ⟨⟨T2, r⟩, h3, h6⟩ := h3
      cases h6
      exact Or.inr ⟨by omega, .range r, by simp only [exec, h3, Res.bind_ok, Res.pure_eq]⟩

theorem wrap_getc {T T' : Tracker} {fd pos c c' : Int} {l : Nat} (h : Wrap.getc T fd pos c = .ok (T', c', l)) :
    (c = -1 ∧ T' = T ∧ l = 0) ∨ (c ≠ -1 ∧ ∃ r, T.exec (.read fd none (knownPos pos) 1) = .ok (T', .range r) ∧
      l = (r.map Prod.fst).getD 0) := by
  simp only [Wrap.getc, Res.bind_eq_ok, Res.pure_eq] at h
  obtain ⟨off, h1, h⟩ := h
  rw [Files.fromOffT_spec h1] at h
  split at h
  · rename_i hc
    simp only [Res.bind_eq_ok] at h
    obtain ⟨⟨T1, r⟩, h2, h3⟩ := h
    refine Or.inr ⟨hc, r, ?_⟩
    cases r with
    | none => cases h3; exact ⟨by simp only [exec, h2, Res.bind_ok, Res.pure_eq], rfl⟩
    | some x => cases h3; exact ⟨by simp only [exec, h2, Res.bind_ok, Res.pure_eq], rfl⟩
  · rename_i hc
    cases h
    exact Or.inl ⟨Classical.byContradiction hc, rfl, rfl⟩

theorem cStrLen_le : ∀ {s : List Nat} {n : Nat}, Wrap.cStrLen (s ++ [0]) = .ok n → n ≤ s.length := by
  intro s
  induction s with
  | nil => intro n h; simp only [List.nil_append, Wrap.cStrLen, if_true] at h; cases h; exact Nat.le_refl _
  | cons b s ih =>
    intro n h
    simp only [List.cons_append, Wrap.cStrLen] at h
    split at h
    · cases h; exact Nat.zero_le _
    · simp only [Res.bind_eq_ok, Res.pure_eq] at h
      obtain ⟨m, h1, h2⟩ := h
      cases h2
      have := ih h1
      simp only [List.length_cons]; omega

theorem wrap_fgets {T T' : Tracker} {fd pos : Int} {buf sl : Nat} {res : Option (List Nat)} {p : Bool × Nat}
    (h : Wrap.fgets T fd buf sl pos res = .ok (T', p)) :
    (res = none ∧ T' = T) ∨ ∃ d n, res = some d ∧ n ≤ d.length ∧ (0 ∉ d → n = d.length) ∧
      ∃ r, T.exec (.read fd (some buf) (knownPos pos) n) = .ok (T', r) := by
  simp only [Wrap.fgets, Res.bind_eq_ok, Res.pure_eq] at h
  obtain ⟨off, h1, len, h2, T1, h3, h4⟩ := h
  cases h4
  rw [Files.fromOffT_spec h1] at h3
  cases res with
  | none => cases h2; cases h3; exact Or.inl ⟨rfl, rfl⟩
  | some d =>
    simp only [Option.map_some, Wrap.fromReturnedString, Res.bind_eq_ok, Res.pure_eq] at h2
    obtain ⟨n, h2, h5⟩ := h2
    cases h5
    simp only [Wrap.taintSourceBuffer, Res.bind_eq_ok, Res.pure_eq] at h3
    obtain ⟨⟨T2, r⟩, h3, h6⟩ := h3
    cases h6
    refine Or.inr ⟨d, n, rfl, cStrLen_le h2, fun h0 => ?_, .range r, by simp only [exec, h3, Res.bind_ok, Res.pure_eq]⟩
    have := cStrLen_append d [] (fun b hb e => h0 (e ▸ hb))
    rw [h2] at this
    cases this; rfl

theorem wrap_fwrite {T T' : Tracker} {fd : Int} {buf size ret : Nat} {pos : Int} {p : Nat × Nat}
    (h : Wrap.fwrite T fd buf size pos ret = .ok (T', p)) :
    (size * ret = 0 ∧ T' = T) ∨ (0 < size * ret ∧
      ∃ r, T.exec (.write fd (knownPos pos) buf (size * ret)) = .ok (T', r)) := by
  simp only [Wrap.fwrite, Res.bind_eq_ok, Res.pure_eq] at h
  obtain ⟨off, h1, len, h2, T1, h3, h4⟩ := h
  cases h4
  rw [Files.fromOffT_spec h1] at h3
  unfold Wrap.fromReturnedSizeCount at h2
  split at h2
  · cases h2
  · split at h2
    · rename_i h5
      cases h2; cases h3
      exact Or.inl ⟨h5, rfl⟩
    · rename_i h5
      cases h2
      simp only [Wrap.taintSinkBuffer] at h3
      exact Or.inr ⟨by omega, .unit, by simp only [exec, h3, Res.bind_ok, Res.pure_eq]⟩

theorem wrap_putc {T T' : Tracker} {fd ch pos ret : Int} {l : Nat} {p : Int × Nat}
    (h : Wrap.putc T fd ch l pos ret = .ok (T', p)) :
    (ret ≠ ch ∧ T' = T) ∨ (ret = ch ∧ ∃ r, T.exec (.writeLabel fd (knownPos pos) l 1) = .ok (T', r)) := by
  simp only [Wrap.putc, Res.bind_eq_ok, Res.pure_eq] at h
  obtain ⟨off, h1, h⟩ := h
  rw [Files.fromOffT_spec h1] at h
  split at h
  · rename_i hc
    simp only [Res.bind_eq_ok] at h
    obtain ⟨T1, h2, h3⟩ := h
    cases h3
    exact Or.inr ⟨hc, .unit, by simp only [exec, h2, Res.bind_ok, Res.pure_eq]⟩
  · rename_i hc
    cases h
    exact Or.inl ⟨hc, rfl⟩

theorem knownPos_getD (pos : Int) (n : Nat) : (knownPos pos).getD n = if pos < 0 then n else pos.toNat := by
  unfold knownPos; split <;> rfl

/-- Effect of a call on what is known about the positions. -/
structure Moved (h h' : Trace) (fd0 rl wl : Nat) : Prop where
  last : ∀ fd : Nat, lastOpen h' fd = lastOpen h fd
  own : ∀ fd : Nat, owner h' fd = owner h fd
  rd : ∀ i, readPos h' i = readPos h i + if owner h fd0 = some i then rl else 0
  wr : ∀ i, writePos h' i = writePos h i + if owner h fd0 = some i then wl else 0

theorem Moved.refl (h : Trace) (fd0 : Nat) : Moved h h fd0 0 0 := by
  refine ⟨fun _ => rfl, fun _ => rfl, fun i => ?_, fun i => ?_⟩ <;> split <;> rfl

theorem Moved.read (h : Trace) (fd0 : Nat) (a off : Option Nat) (len : Nat) (r : Ret) :
    Moved h ((.read fd0 a off len, r) :: h) fd0 (if off = none then len else 0) 0 := by
  refine ⟨fun _ => rfl, fun fd => owner_cons_other (Files.nat_ne_neg fd) (by simp), fun i => ?_, fun i => ?_⟩
  · cases off with
    | none => rfl
    | some o => simp only [readPos, reduceCtorEq, if_false]; split <;> rfl
  · simp only [writePos]; split <;> rfl

theorem Moved.write (h : Trace) (fd0 : Nat) (a : Nat) (off : Option Nat) (len : Nat) (r : Ret) :
    Moved h ((.write fd0 off a len, r) :: h) fd0 0 (if off = none then len else 0) := by
  refine ⟨fun _ => rfl, fun fd => owner_cons_other (Files.nat_ne_neg fd) (by simp), fun i => ?_, fun i => ?_⟩
  · simp only [readPos]; split <;> rfl
  · cases off with
    | none => rfl
    | some o => simp only [writePos, reduceCtorEq, if_false]; split <;> rfl

theorem Moved.writeLabel (h : Trace) (fd0 : Nat) (l : Nat) (off : Option Nat) (len : Nat) (r : Ret) :
    Moved h ((.writeLabel fd0 off l len, r) :: h) fd0 0 (if off = none then len else 0) := by
  refine ⟨fun _ => rfl, fun fd => owner_cons_other (Files.nat_ne_neg fd) (by simp), fun i => ?_, fun i => ?_⟩
  · simp only [readPos]; split <;> rfl
  · cases off with
    | none => rfl
    | some o => simp only [writePos, reduceCtorEq, if_false]; split <;> rfl

/-! ### The invariant -/

structure Good (h : Trace) (K : StdSys) (E : StdHist) : Prop where
  last : ∀ (fd : Nat) p z, fopened E fd = some (p, z) → lastOpen h fd = some (p, z, true)
  strm : ∀ (fd : Nat) p, fopened E fd = some p → ∃ s, K.get fd = some s
  rd : ∀ (fd : Nat) p s, fopened E fd = some p → K.get fd = some s → evenIn E fd = true →
    s.back = [] ∧ (s.regular = false → ∀ i, owner h fd = some i → readPos h i = s.pos)
  wr : ∀ (fd : Nat) p s, fopened E fd = some p → K.get fd = some s → evenOut E fd = true →
    s.regular = false → ∀ i, owner h fd = some i → writePos h i = s.out.length

theorem Good.nil (h : Trace) (K : StdSys) : Good h K [] := by
  refine ⟨?_, ?_, ?_, ?_⟩
  · intro _ _ _ e; cases e
  · intro _ _ e; cases e
  · intro _ _ _ e; cases e
  · intro _ _ _ e; cases e

/-- Calls at the tracker that have nothing to do with streams. -/
theorem Good.call {h : Trace} {K : StdSys} {E : StdHist} (g : Good h K E) {c : Call} {r : Ret} (hc : Aside K c) :
    Good ((c, r) :: h) K E := by
  have H : ∀ (fd : Nat), (K.get fd).isSome = true → lastOpen ((c, r) :: h) fd = lastOpen h fd ∧
      owner ((c, r) :: h) fd = owner h fd ∧ ∀ i, owner h fd = some i →
        readPos ((c, r) :: h) i = readPos h i ∧ writePos ((c, r) :: h) i = writePos h i := by
    intro fd hsome
    cases c with
    | openFile fd' name size =>
      have hne : fd' ≠ (fd : Int) := hc fd hsome
      exact ⟨by simp only [lastOpen, if_neg hne], Net.owner_cons_ne hne, fun i _ => ⟨rfl, rfl⟩⟩
    | read fd' a off len =>
      have hne : fd' ≠ (fd : Int) := hc fd hsome
      refine ⟨rfl, owner_cons_other (Files.nat_ne_neg fd) (by simp), fun i ho => ⟨?_, rfl⟩⟩
      cases off with
      | none => simp only [readPos]; rw [if_neg (fun k => hne (owner_inj k ho)), Nat.add_zero]
      | some o => rfl
    | write fd' off a len =>
      have hne : fd' ≠ (fd : Int) := hc fd hsome
      refine ⟨rfl, owner_cons_other (Files.nat_ne_neg fd) (by simp), fun i ho => ⟨rfl, ?_⟩⟩
      cases off with
      | none => simp only [writePos]; rw [if_neg (fun k => hne (owner_inj k ho)), Nat.add_zero]
      | some o => rfl
    | writeLabel fd' off a len =>
      have hne : fd' ≠ (fd : Int) := hc fd hsome
      refine ⟨rfl, owner_cons_other (Files.nat_ne_neg fd) (by simp), fun i ho => ⟨rfl, ?_⟩⟩
      cases off with
      | none => simp only [writePos]; rw [if_neg (fun k => hne (owner_inj k ho)), Nat.add_zero]
      | some o => rfl
    | _ => exact ⟨lastOpen_cons_other (by simp), owner_cons_other (Files.nat_ne_neg fd) (by simp), fun i _ => ⟨rfl, rfl⟩⟩
  have H' : ∀ (fd : Nat) p, fopened E fd = some p → (K.get fd).isSome = true := fun fd p hp => by
    obtain ⟨s, hs⟩ := g.strm fd p hp
    rw [hs]; rfl
  refine ⟨fun fd p z hp => ?_, g.strm, fun fd p s hp hs he => ?_, fun fd p s hp hs he hn i ho => ?_⟩
  · rw [(H fd (H' fd _ hp)).1]; exact g.last fd p z hp
  · obtain ⟨h1, h2⟩ := g.rd fd p s hp hs he
    refine ⟨h1, fun hn i ho => ?_⟩
    obtain ⟨-, h3, h4⟩ := H fd (H' fd _ hp)
    rw [h3] at ho
    rw [(h4 i ho).1]; exact h2 hn i ho
  · obtain ⟨-, h3, h4⟩ := H fd (H' fd _ hp)
    rw [h3] at ho
    rw [(h4 i ho).2]; exact g.wr fd p s hp hs he hn i ho

/-- A call on the stream `fd0` that changes the stream by `f` and counts `rl` and `wl` bytes. -/
theorem Good.move {h h' : Trace} {K K' : StdSys} {E : StdHist} (g : Good h K E) {x : StdOp × StdObs} {fd0 rl wl : Nat}
    (m : Moved h h' fd0 rl wl) {f : Strm → Strm}
    (hK : ∀ fd, K'.get fd = if fd0 = fd then (K.get fd).map f else K.get fd)
    (hj : ∀ fd, fopened (x :: E) fd = fopened E fd)
    (hi : ∀ fd, evenIn (x :: E) fd = (evenOp fd x && evenIn E fd))
    (ho : ∀ fd, evenOut (x :: E) fd = (evenOutOp fd x && evenOut E fd))
    (hf : ∀ s, K.get fd0 = some s → (f s).regular = s.regular ∧
      (evenOp fd0 x = true → s.back = [] → (f s).back = [] ∧ (s.regular = false → (f s).pos = s.pos + rl)) ∧
      (evenOutOp fd0 x = true → s.regular = false → (f s).out.length = s.out.length + wl)) : Good h' K' (x :: E) := by
  have hget : ∀ fd s', K'.get fd = some s' → ∃ s, K.get fd = some s ∧ (fd0 = fd → s' = f s) ∧ (fd0 ≠ fd → s' = s) := by
    intro fd s' hs
    rw [hK] at hs
    by_cases e : fd0 = fd
    · rw [if_pos e] at hs
      cases h0 : K.get fd with
      | none => rw [h0] at hs; cases hs
      | some s => rw [h0] at hs; cases hs; exact ⟨s, rfl, fun _ => rfl, fun k => absurd e k⟩
    · rw [if_neg e] at hs
      exact ⟨s', hs, fun k => absurd k e, fun _ => rfl⟩
  refine ⟨fun fd p z hp => ?_, fun fd p hp => ?_, fun fd p s' hp hs he => ?_, fun fd p s' hp hs he hn i hoi => ?_⟩
  · rw [hj] at hp
    rw [m.last]; exact g.last fd p z hp
  · rw [hj] at hp
    obtain ⟨s, hs⟩ := g.strm fd p hp
    rw [hK, hs]
    by_cases e : fd0 = fd
    · rw [if_pos e]; exact ⟨f s, rfl⟩
    · rw [if_neg e]; exact ⟨s, rfl⟩
  · rw [hj] at hp
    rw [hi, Bool.and_eq_true] at he
    obtain ⟨s, h1, h2, h3⟩ := hget fd s' hs
    obtain ⟨h4, h5⟩ := g.rd fd p s hp h1 he.2
    by_cases e : fd0 = fd
    · subst e
      obtain ⟨h6, h7, -⟩ := hf s h1
      obtain ⟨h8, h9⟩ := h7 he.1 h4
      rw [h2 rfl]
      refine ⟨h8, fun hn i hoi => ?_⟩
      rw [m.own] at hoi
      rw [h6] at hn
      rw [m.rd, if_pos hoi, h9 hn, h5 hn i hoi]
    · rw [h3 e]
      refine ⟨h4, fun hn i hoi => ?_⟩
      rw [m.own] at hoi
      rw [m.rd, if_neg (fun k => e (by have := owner_inj k hoi; omega)), h5 hn i hoi]; rfl
  · rw [hj] at hp
    rw [ho, Bool.and_eq_true] at he
    obtain ⟨s, h1, h2, h3⟩ := hget fd s' hs
    rw [m.own] at hoi
    by_cases e : fd0 = fd
    · subst e
      obtain ⟨h6, -, h7⟩ := hf s h1
      rw [h2 rfl] at hn ⊢
      rw [h6] at hn
      rw [m.wr, if_pos hoi, h7 he.1 hn, g.wr fd0 p s hp h1 he.2 hn i hoi]
    · rw [h3 e] at hn ⊢
      rw [m.wr, if_neg (fun k => e (by have := owner_inj k hoi; omega)), g.wr fd p s hp h1 he.2 hn i hoi]; rfl

/-- A call that leaves the tracker alone and takes the file of `fd0` from the list, if any. -/
theorem Good.drop {h : Trace} {K K' : StdSys} {E : StdHist} (g : Good h K E) {x : StdOp × StdObs} {fd0 : Nat}
    (hK : ∀ fd, fd0 ≠ fd → K'.get fd = K.get fd)
    (hj : ∀ fd, fopened (x :: E) fd = if fd0 = fd then none else fopened E fd)
    (hi : ∀ fd, fd0 ≠ fd → evenIn (x :: E) fd = evenIn E fd)
    (ho : ∀ fd, fd0 ≠ fd → evenOut (x :: E) fd = evenOut E fd) : Good h K' (x :: E) := by
  have H : ∀ fd p, fopened (x :: E) fd = some p → fd0 ≠ fd ∧ fopened E fd = some p := by
    intro fd p hp
    rw [hj] at hp
    by_cases e : fd0 = fd
    · rw [if_pos e] at hp; cases hp
    · rw [if_neg e] at hp; exact ⟨e, hp⟩
  refine ⟨fun fd p z hp => ?_, fun fd p hp => ?_, fun fd p s' hp hs he => ?_, fun fd p s' hp hs he => ?_⟩
  · exact g.last fd p z (H fd _ hp).2
  · obtain ⟨e, hp⟩ := H fd _ hp
    rw [hK fd e]; exact g.strm fd p hp
  · obtain ⟨e, hp⟩ := H fd _ hp
    rw [hK fd e] at hs
    rw [hi fd e] at he
    exact g.rd fd p s' hp hs he
  · obtain ⟨e, hp⟩ := H fd _ hp
    rw [hK fd e] at hs
    rw [ho fd e] at he
    exact g.wr fd p s' hp hs he

/-- fopen. -/
theorem Good.open {h : Trace} {K : StdSys} {E : StdHist} (g : Good h K E) {fd0 j : Nat} {path : List Nat} {s0 : Strm}
    {z : Option Nat} {o : StdObs} (h1 : s0.regular = true ∨ s0.pos = 0) (h2 : s0.back = []) (h3 : s0.out = []) :
    Good ((.openFile fd0 path z, .index (some j)) :: h) (K.put fd0 s0) ((.fopen fd0 path s0 z, o) :: E) := by
  have hlast : ∀ fd : Nat, lastOpen ((.openFile fd0 path z, .index (some j)) :: h) fd =
      if fd0 = fd then some (path, z, true) else lastOpen h fd := by
    intro fd; simp only [lastOpen, Int.natCast_inj]
  have hown : ∀ fd : Nat, owner ((.openFile fd0 path z, .index (some j)) :: h) fd =
      if fd0 = fd then some (registered h).length else owner h fd := by
    intro fd; rw [owner_cons_open]; simp only [Int.natCast_inj]
  have hfresh := positions_fresh (i := (registered h).length) h (Nat.le_refl _)
  refine ⟨fun fd p z' hp => ?_, fun fd p hp => ?_, fun fd p s' hp hs he => ?_, fun fd p s' hp hs he hn i hoi => ?_⟩
  · rw [hlast]
    simp only [fopened] at hp
    by_cases e : fd0 = fd
    · rw [if_pos e] at hp ⊢; cases hp; rfl
    · rw [if_neg e] at hp ⊢; exact g.last fd p z' hp
  · rw [get_put]
    simp only [fopened] at hp
    by_cases e : fd0 = fd
    · rw [if_pos e]; exact ⟨_, rfl⟩
    · rw [if_neg e] at hp ⊢; exact g.strm fd p hp
  · rw [get_put] at hs
    simp only [fopened] at hp
    simp only [evenIn] at he
    by_cases e : fd0 = fd
    · rw [if_pos e] at hs; cases hs
      refine ⟨h2, fun hn i hoi => ?_⟩
      rw [hown, if_pos e] at hoi; cases hoi
      rcases h1 with h1 | h1
      · rw [hn] at h1; cases h1
      · rw [h1]; exact hfresh.1
    · rw [if_neg e] at hp hs he
      simp only [evenOp, Bool.true_and] at he
      obtain ⟨k1, k2⟩ := g.rd fd p s' hp hs he
      refine ⟨k1, fun hn i hoi => ?_⟩
      rw [hown, if_neg e] at hoi
      exact k2 hn i hoi
  · rw [get_put] at hs
    simp only [fopened] at hp
    simp only [evenOut] at he
    rw [hown] at hoi
    by_cases e : fd0 = fd
    · rw [if_pos e] at hs hoi; cases hs; cases hoi
      rw [h3]; exact hfresh.2
    · rw [if_neg e] at hp hs he hoi
      simp only [evenOutOp, Bool.true_and] at he
      exact g.wr fd p s' hp hs he hn i hoi

/-! ### Calls of the program -/

theorem tell_some {K : StdSys} {fd : Nat} {s : Strm} (h : K.get fd = some s) : tell K fd = s.tell := by
  unfold tell; rw [h]; rfl

theorem tell_pipe {s : Strm} (h : s.regular = false) : s.tell = -1 := by
  unfold Strm.tell; rw [h]; rfl

theorem tell_file {s : Strm} (h : s.regular = true) (hb : s.back = []) : s.tell = s.pos := by
  unfold Strm.tell; rw [h, hb]; simp

theorem known_pipe {K : StdSys} {fd : Nat} {s : Strm} (h : K.get fd = some s) (hn : s.regular = false) :
    knownPos (tell K fd) = none := by
  rw [tell_some h, tell_pipe hn]; rfl

theorem line_length : ∀ (n : Nat) (s : List Nat), (Strm.line n s).length ≤ s.length
  | 0, _ => Nat.zero_le _
  | _ + 1, [] => Nat.le_refl _
  | n + 1, b :: s => by
    rw [Strm.line]
    split
    · simp
    · have := line_length n s
      simp only [List.length_cons]; omega

/-- fread reports the number of whole items. -/
theorem fread_obs {K : StdSys} {fd buf size count avail : Nat} (h0 : 0 < size) :
    size * (K.step (.fread fd buf size count avail)).2.ret.toNat ≤ (K.step (.fread fd buf size count avail)).2.data.length ∧
      ∀ s, K.get fd = some s → (K.step (.fread fd buf size count avail)).2 =
        { ret := ((((s.next avail).take (size * count)).length / size : Nat) : Int), data := (s.next avail).take (size * count) } := by
  refine ⟨?_, fun s hs => obs_on hs⟩
  cases hs : K.get fd with
  | none => simp only [StdSys.step, StdSys.on, hs]; exact Nat.le_refl _
  | some s =>
    rw [show (K.step (.fread fd buf size count avail)).2 = _ from obs_on hs]
    simp only [Int.toNat_natCast]
    exact Nat.mul_div_le _ _

theorem step_fread {K K' : StdSys} {T T' : Tracker} {fd buf size count avail : Nat} {o : StdObs} {l : Nat}
    (hf : Fits K T (.fread fd buf size count avail)) (he : step K T (.fread fd buf size count avail) = .ok (K', T', o, l)) :
    (size * o.ret.toNat = 0 ∧ T' = T) ∨ (T.Allowed (.read fd (some buf) (knownPos (tell K fd)) (size * o.ret.toNat)) ∧
      ∃ r, T.exec (.read fd (some buf) (knownPos (tell K fd)) (size * o.ret.toNat)) = .ok (T', r)) := by
  have hk := step_kernel he
  obtain ⟨h0, hf⟩ := hf
  have hle := (fread_obs (K := K) (fd := fd) (buf := buf) (count := count) (avail := avail) h0).1
  simp only [hk] at hf hle
  simp only [step, hk, Res.bind_eq_ok, Res.pure_eq] at he
  obtain ⟨⟨T1, p⟩, h1, h2⟩ := he
  cases h2
  rcases wrap_fread h1 with ⟨h3, rfl⟩ | ⟨h3, r, h4⟩
  · exact Or.inl ⟨h3, rfl⟩
  · refine Or.inr ⟨fun i hi => ?_, r, h4⟩
    have := hf i hi
    rw [knownPos_getD]
    omega

theorem step_getc {K K' : StdSys} {T T' : Tracker} {fd avail : Nat} {o : StdObs} {l : Nat}
    (hf : Fits K T (.getc fd avail)) (he : step K T (.getc fd avail) = .ok (K', T', o, l)) :
    (o.ret = -1 ∧ T' = T ∧ l = 0) ∨ (o.ret ≠ -1 ∧ T.Allowed (.read fd none (knownPos (tell K fd)) 1) ∧
      ∃ r, T.exec (.read fd none (knownPos (tell K fd)) 1) = .ok (T', .range r) ∧ l = (r.map Prod.fst).getD 0) := by
  have hk := step_kernel he
  simp only [step, hk, Res.bind_eq_ok, Res.pure_eq] at he
  obtain ⟨⟨T1, c, l1⟩, h1, h2⟩ := he
  cases h2
  rcases wrap_getc h1 with h3 | ⟨h3, r, h4⟩
  · exact Or.inl h3
  · refine Or.inr ⟨h3, fun i hi => ?_, r, h4⟩
    rw [knownPos_getD]
    exact hf i hi

theorem step_fgets {K K' : StdSys} {T T' : Tracker} {fd buf n avail : Nat} {o : StdObs} {l : Nat}
    (hf : Fits K T (.fgets fd buf n avail)) (he : step K T (.fgets fd buf n avail) = .ok (K', T', o, l)) :
    (o.ret ≤ 0 ∧ T' = T) ∨ ∃ m, (0 ∉ o.data → m = o.data.length) ∧
      T.Allowed (.read fd (some buf) (knownPos (tell K fd)) m) ∧
      ∃ r, T.exec (.read fd (some buf) (knownPos (tell K fd)) m) = .ok (T', r) := by
  have hk := step_kernel he
  obtain ⟨-, hf⟩ := hf
  simp only [hk] at hf
  simp only [step, hk, Res.bind_eq_ok, Res.pure_eq] at he
  obtain ⟨⟨T1, p⟩, h1, h2⟩ := he
  cases h2
  rcases wrap_fgets h1 with ⟨h3, rfl⟩ | ⟨d, m, h3, h4, h5, r, h6⟩
  · split at h3
    · cases h3
    · rename_i h3; exact Or.inl ⟨by omega, rfl⟩
  · split at h3
    · cases h3
      refine Or.inr ⟨m, h5, fun i hi => ?_, r, h6⟩
      have := hf i hi
      rw [knownPos_getD]
      omega
    · cases h3

theorem step_fwrite {K K' : StdSys} {T T' : Tracker} {fd buf size k : Nat} {bytes : List Nat} {o : StdObs} {l : Nat} {s : Strm}
    (hs : K.get fd = some s) (hf : Fits K T (.fwrite fd buf size bytes k))
    (he : step K T (.fwrite fd buf size bytes k) = .ok (K', T', o, l)) :
    (size * k = 0 ∧ T' = T) ∨ (0 < size * k ∧ T.Allowed (.write fd (knownPos (tell K fd)) buf (size * k)) ∧
      ∃ r, T.exec (.write fd (knownPos (tell K fd)) buf (size * k)) = .ok (T', r)) := by
  have hk := step_kernel he
  have ho : o.ret.toNat = k := by
    have hk2 : (K.step (.fwrite fd buf size bytes k)).2 = o := congrArg Prod.snd hk
    rw [← hk2]
    rw [show (K.step (.fwrite fd buf size bytes k)).2 = _ from obs_on hs]
    rfl
  obtain ⟨-, h0, hf⟩ := hf
  simp only [step, hk, Res.bind_eq_ok, Res.pure_eq] at he
  obtain ⟨⟨T1, p⟩, h1, h2⟩ := he
  cases h2
  rw [ho] at h1
  rcases wrap_fwrite h1 with ⟨h3, rfl⟩ | ⟨h3, r, h4⟩
  · exact Or.inl ⟨h3, rfl⟩
  · refine Or.inr ⟨h3, fun i hi => ?_, r, h4⟩
    have := hf i hi
    rw [knownPos_getD]
    omega

theorem step_fwrite_none {K K' : StdSys} {T T' : Tracker} {fd buf size k : Nat} {bytes : List Nat} {o : StdObs} {l : Nat}
    (hs : K.get fd = none) (he : step K T (.fwrite fd buf size bytes k) = .ok (K', T', o, l)) : T' = T := by
  have hk := step_kernel he
  have ho : o.ret.toNat = 0 := by
    have hk2 : (K.step (.fwrite fd buf size bytes k)).2 = o := congrArg Prod.snd hk
    rw [← hk2]
    simp only [StdSys.step, StdSys.on, hs]; rfl
  simp only [step, hk, Res.bind_eq_ok, Res.pure_eq] at he
  obtain ⟨⟨T1, p⟩, h1, h2⟩ := he
  cases h2
  rw [ho] at h1
  rcases wrap_fwrite h1 with ⟨h3, rfl⟩ | ⟨h3, -⟩
  · rfl
  · simp at h3

theorem step_putc {K K' : StdSys} {T T' : Tracker} {fd : Nat} {ch : Int} {label : Nat} {o : StdObs} {l : Nat}
    (hf : Fits K T (.putc fd ch label)) (he : step K T (.putc fd ch label) = .ok (K', T', o, l)) :
    (o.ret ≠ ch ∧ T' = T) ∨ (o.ret = ch ∧ T.Allowed (.writeLabel fd (knownPos (tell K fd)) label 1) ∧
      ∃ r, T.exec (.writeLabel fd (knownPos (tell K fd)) label 1) = .ok (T', r)) := by
  have hk := step_kernel he
  obtain ⟨h0, hf⟩ := hf
  simp only [step, hk, Res.bind_eq_ok, Res.pure_eq] at he
  obtain ⟨⟨T1, p⟩, h1, h2⟩ := he
  cases h2
  rcases wrap_putc h1 with ⟨h3, rfl⟩ | ⟨h3, r, h4⟩
  · exact Or.inl ⟨h3, rfl⟩
  · refine Or.inr ⟨h3, ⟨h0, fun i hi => ?_⟩, r, h4⟩
    have := hf i hi
    rw [knownPos_getD]
    omega

theorem emit_pipe {s : Strm} (h : s.regular = false) (bytes : List Nat) : s.emit bytes = { s with out := s.out ++ bytes } := by
  unfold Strm.emit; rw [h]; rfl

theorem emit_regular (s : Strm) (bytes : List Nat) : (s.emit bytes).regular = s.regular := by
  unfold Strm.emit; split <;> rfl

theorem emit_back {s : Strm} (bytes : List Nat) (h : s.back = []) : (s.emit bytes).back = [] := by
  unfold Strm.emit; split
  · rfl
  · exact h

theorem skip_even {s : Strm} (n : Nat) (h : s.back = []) : (s.skip n).back = [] ∧ (s.skip n).pos = s.pos + n := by
  unfold Strm.skip; rw [h]; simp

/-- The invariant for reading: what the call at the tracker counted is what the stream lost. -/
theorem Good.reads {c : Config} {base : Nat} {h : Trace} {K K' : StdSys} {T T' : Tracker} {E : StdHist}
    (hr : Reach c base h T) (g : Good h K E) {op : StdOp} {o : StdObs} {fd0 len : Nat} {a : Option Nat} {f : Strm → Strm}
    (hx : T' = T ∧ len = 0 ∨ (T.Allowed (.read fd0 a (knownPos (tell K fd0)) len) ∧
      ∃ r, T.exec (.read fd0 a (knownPos (tell K fd0)) len) = .ok (T', r)))
    (hK : ∀ fd, K'.get fd = if fd0 = fd then (K.get fd).map f else K.get fd)
    (hj : ∀ fd, fopened ((op, o) :: E) fd = fopened E fd)
    (hi : ∀ fd, evenIn ((op, o) :: E) fd = (evenOp fd (op, o) && evenIn E fd))
    (ho : ∀ fd, evenOut ((op, o) :: E) fd = (evenOutOp fd (op, o) && evenOut E fd))
    (hf : ∀ s, K.get fd0 = some s → ∃ n, f s = s.skip n ∧ (evenOp fd0 (op, o) = true → n = len)) :
    ∃ h', Reach c base h' T' ∧ Good h' K' ((op, o) :: E) := by
  have main : ∀ {h'} {rl : Nat}, Moved h h' fd0 rl 0 → (∀ s, K.get fd0 = some s → s.regular = false → rl = len) →
      Good h' K' ((op, o) :: E) := by
    intro h' rl m hrl
    refine g.move m hK hj hi ho fun s hs => ?_
    obtain ⟨n, h1, h2⟩ := hf s hs
    rw [h1]
    refine ⟨rfl, fun hev hb => ?_, fun _ _ => rfl⟩
    obtain ⟨h3, h4⟩ := skip_even n hb
    refine ⟨h3, fun hn => ?_⟩
    rw [h4, h2 hev, hrl s hs hn]
  rcases hx with ⟨rfl, rfl⟩ | ⟨h1, r, h2⟩
  · exact ⟨h, hr, main (Moved.refl h fd0) fun _ _ _ => rfl⟩
  · refine ⟨_, hr.snoc h1 h2, main (Moved.read h fd0 a _ len r) fun s hs hn => ?_⟩
    rw [if_pos (known_pipe hs hn)]

/-- Every call of the program keeps the histories in step. -/
theorem Good.step {c : Config} {base : Nat} (hc : c.Ok base) {h : Trace} {K K' : StdSys} {T T' : Tracker} {E : StdHist}
    (hr : Reach c base h T) (g : Good h K E) {op : StdOp} {o : StdObs} {l : Nat} (hf : Fits K T op)
    (he : step K T op = .ok (K', T', o, l)) : ∃ h', Reach c base h' T' ∧ Good h' K' ((op, o) :: E) := by
  have hk := step_kernel he
  have hK : (K.step op).1 = K' := congrArg Prod.fst hk
  have ho : (K.step op).2 = o := congrArg Prod.snd hk
  cases op with
  | fopen fd0 path s z =>
    simp only [Stdio.step, hk, Res.bind_eq_ok, Res.pure_eq] at he
    obtain ⟨⟨T1, i⟩, h1, h2⟩ := he
    cases h2
    obtain ⟨f1, f2, f3, f4, f5, f6, f7, f8, f9⟩ := hf
    obtain ⟨j, rfl⟩ := Net.open_room hc hr f3 f5 f6 h1
    have hal : T.Allowed (.openFile fd0 path z) := ⟨by omega, by omega, f2, fun x e => by rw [e] at f4; exact f4⟩
    refine ⟨_, hr.snoc (r := .index (some j)) hal (by simp only [exec, h1, Res.bind_ok, Res.pure_eq]), ?_⟩
    rw [← hK]
    exact g.open f7 f8 f9
  | adopt fd0 s =>
    cases he
    refine ⟨h, hr, g.drop (fd0 := fd0) (fun fd e => ?_) (fun fd => rfl) (fun fd e => ?_) (fun fd e => ?_)⟩
    · show (K.put fd0 s).get fd = _
      rw [get_put, if_neg e]
    · simp only [evenIn, evenOp, Bool.true_and]
    · simp only [evenOut, evenOutOp, Bool.true_and]
  | fread fd0 buf size count avail =>
    have hx := step_fread hf he
    refine g.reads hr (fd0 := fd0) (len := size * o.ret.toNat) (a := some buf) ?_ (fun fd => by rw [← hK]; exact get_on _ _ _ _)
      (fun _ => rfl) (fun _ => rfl) (fun _ => rfl) fun s hs => ⟨_, rfl, fun hev => ?_⟩
    · rcases hx with ⟨h1, h2⟩ | h1
      · exact Or.inl ⟨h2, h1⟩
      · exact Or.inr h1
    · have h1 := (fread_obs (K := K) (fd := fd0) (buf := buf) (count := count) (avail := avail) hf.1).2 s hs
      rw [ho] at h1
      simp only [evenOp, ne_eq, not_true_eq_false, decide_false, Bool.false_or, decide_eq_true_eq] at hev
      rw [Nat.mul_comm size o.ret.toNat, hev, h1]
  | getc fd0 avail =>
    have hx := step_getc hf he
    cases hs : K.get fd0 with
    | none =>
      refine g.reads hr (fd0 := fd0) (len := 0) (a := none) (f := id) ?_ (fun fd => ?_)
        (fun _ => rfl) (fun _ => rfl) (fun _ => rfl) fun s hs' => ?_
      · rcases hx with ⟨-, h2, -⟩ | ⟨h1, -⟩
        · exact Or.inl ⟨h2, rfl⟩
        · exfalso; apply h1; rw [← ho]; simp only [StdSys.step, StdSys.on, hs]
      · rw [← hK]; simp only [StdSys.step, StdSys.on, hs]
        split
        · cases K.get fd <;> rfl
        · rfl
      · rw [hs] at hs'; cases hs'
    | some s =>
      have ho' := ho
      rw [show (K.step (.getc fd0 avail)).2 = _ from obs_on hs] at ho'
      refine g.reads hr (fd0 := fd0) (len := if o.ret = -1 then 0 else 1) (a := none) ?_
        (fun fd => by rw [← hK]; exact get_on _ _ _ _) (fun _ => rfl) (fun _ => rfl) (fun _ => rfl) fun s' hs' => ?_
      · rcases hx with ⟨h1, h2, -⟩ | ⟨h1, h2, r, h3, -⟩
        · exact Or.inl ⟨h2, if_pos h1⟩
        · rw [if_neg h1]; exact Or.inr ⟨h2, _, h3⟩
      · rw [hs] at hs'; cases hs'
        cases hn : s.next avail with
        | nil =>
          rw [hn] at ho'
          subst ho'
          exact ⟨0, by simp [Strm.skip], fun _ => rfl⟩
        | cons b rest =>
          rw [hn] at ho'
          subst ho'
          refine ⟨1, by simp, fun _ => ?_⟩
          rw [if_neg]
          simp only; omega
  | fgets fd0 buf n avail =>
    rcases step_fgets hf he with ⟨h1, rfl⟩ | ⟨m, h1, h2⟩
    · refine g.reads hr (fd0 := fd0) (len := 0) (a := some buf) (Or.inl ⟨rfl, rfl⟩) (fun fd => by rw [← hK]; exact get_on _ _ _ _)
        (fun _ => rfl) (fun _ => rfl) (fun _ => rfl) fun s hs => ⟨_, rfl, fun hev => ?_⟩
      have ho' := ho
      rw [show (K.step (.fgets fd0 buf n avail)).2 = _ from obs_on hs] at ho'
      subst ho'
      simp only at h1
      omega
    · refine g.reads hr (fd0 := fd0) (len := m) (a := some buf) (Or.inr h2) (fun fd => by rw [← hK]; exact get_on _ _ _ _)
        (fun _ => rfl) (fun _ => rfl) (fun _ => rfl) fun s hs => ⟨_, rfl, fun hev => ?_⟩
      have ho' := ho
      rw [show (K.step (.fgets fd0 buf n avail)).2 = _ from obs_on hs] at ho'
      simp only [evenOp, ne_eq, not_true_eq_false, decide_false, Bool.false_or, decide_eq_true_eq] at hev
      rw [h1 hev]
      subst ho'
      rfl
  | scan fd0 n avail =>
    cases he
    refine g.reads hr (fd0 := fd0) (len := 0) (a := none) (Or.inl ⟨rfl, rfl⟩) (fun fd => get_on _ _ _ _)
      (fun _ => rfl) (fun _ => rfl) (fun _ => rfl) fun s hs => ⟨_, rfl, fun hev => ?_⟩
    simp [evenOp] at hev
  | ungetc fd0 b =>
    cases he
    refine ⟨h, hr, g.move (Moved.refl h fd0) (fun fd => get_on _ _ _ _) (fun _ => rfl) (fun _ => rfl) (fun _ => rfl) fun s hs => ?_⟩
    refine ⟨rfl, fun hev => ?_, fun _ _ => rfl⟩
    simp [evenOp] at hev
  | fseek fd0 pos =>
    cases he
    refine ⟨h, hr, g.move (Moved.refl h fd0) (fun fd => get_on _ _ _ _) (fun _ => rfl) (fun _ => rfl) (fun _ => rfl) fun s hs => ?_⟩
    cases hreg : s.regular with
    | true => simp [hreg]
    | false => simp [hreg]
  | fwrite fd0 buf size bytes k =>
    have hget : ∀ fd, K'.get fd = if fd0 = fd then (K.get fd).map (fun s => s.emit (bytes.take (size * k))) else K.get fd :=
      fun fd => by rw [← hK]; exact get_on _ _ _ _
    have main : ∀ {h'} {wl : Nat}, Moved h h' fd0 0 wl → (∀ s, K.get fd0 = some s → s.regular = false → wl = size * k) →
        Good h' K' ((.fwrite fd0 buf size bytes k, o) :: E) := by
      intro h' wl m hwl
      refine g.move m hget (fun _ => rfl) (fun _ => rfl) (fun _ => rfl) fun s hs => ?_
      refine ⟨emit_regular s _, fun _ hb => ⟨emit_back _ hb, fun hn => ?_⟩, fun _ hn => ?_⟩
      · rw [emit_pipe hn]; rfl
      · have := hf.2.1
        rw [emit_pipe hn, hwl s hs hn]
        simp only [List.length_append, List.length_take]
        omega
    cases hs : K.get fd0 with
    | none =>
      have := step_fwrite_none hs he
      subst this
      exact ⟨h, hr, main (Moved.refl h fd0) fun s hs' => by rw [hs] at hs'; cases hs'⟩
    | some s =>
      rcases step_fwrite hs hf he with ⟨h1, rfl⟩ | ⟨-, h1, r, h2⟩
      · exact ⟨h, hr, main (Moved.refl h fd0) fun _ _ _ => h1.symm⟩
      · refine ⟨_, hr.snoc h1 h2, main (Moved.write h fd0 buf _ _ r) fun s hs hn => ?_⟩
        rw [if_pos (known_pipe hs hn)]
  | putc fd0 ch label =>
    have hget : ∀ fd, K'.get fd = if fd0 = fd then (K.get fd).map (fun s => s.emit [(ch % 256).toNat]) else K.get fd :=
      fun fd => by rw [← hK]; exact get_on _ _ _ _
    have main : ∀ {h'} {wl : Nat}, Moved h h' fd0 0 wl → (∀ s, K.get fd0 = some s → 0 ≤ ch ∧ ch < 256 → s.regular = false → wl = 1) →
        Good h' K' ((.putc fd0 ch label, o) :: E) := by
      intro h' wl m hwl
      refine g.move m hget (fun _ => rfl) (fun _ => rfl) (fun _ => rfl) fun s hs => ?_
      refine ⟨emit_regular s _, fun _ hb => ⟨emit_back _ hb, fun hn => ?_⟩, fun hev hn => ?_⟩
      · rw [emit_pipe hn]; rfl
      · simp only [evenOutOp, ne_eq, not_true_eq_false, decide_false, Bool.false_or, decide_eq_true_eq] at hev
        rw [emit_pipe hn, hwl s hs hev hn]
        simp only [List.length_append, List.length_singleton]
    rcases step_putc hf he with ⟨h1, rfl⟩ | ⟨h1, h2, r, h3⟩
    · refine ⟨h, hr, main (Moved.refl h fd0) fun s hs hr _ => ?_⟩
      rw [show (K.step (.putc fd0 ch label)).2 = _ from obs_on hs] at ho
      subst ho
      exact absurd (Int.emod_eq_of_lt hr.1 hr.2) h1
    · refine ⟨_, hr.snoc h2 h3, main (Moved.writeLabel h fd0 label _ _ r) fun s hs _ hn => ?_⟩
      rw [if_pos (known_pipe hs hn)]
  | puts fd0 bytes =>
    cases he
    refine ⟨h, hr, g.move (Moved.refl h fd0) (fun fd => get_on _ _ _ _) (fun _ => rfl) (fun _ => rfl) (fun _ => rfl) fun s hs => ?_⟩
    refine ⟨emit_regular s _, fun _ hb => ⟨emit_back _ hb, fun hn => ?_⟩, fun hev => ?_⟩
    · rw [emit_pipe hn]; rfl
    · simp [evenOutOp] at hev
  | fclose fd0 =>
    have hT : T' = T := by
      simp only [Stdio.step, closeFile] at he
      split at he <;> cases he <;> rfl
    subst hT
    refine ⟨h, hr, g.drop (fd0 := fd0) (fun fd e => ?_) (fun fd => rfl) (fun fd e => ?_) (fun fd e => ?_)⟩
    · simp only [StdSys.step] at hK
      cases h0 : K.get fd0 with
      | none => rw [h0] at hK; simp only at hK; rw [← hK]
      | some s0 => rw [h0] at hK; simp only at hK; rw [← hK, get_del_ne e]
    · simp only [evenIn, evenOp, Bool.true_and]
    · simp only [evenOut, evenOutOp, Bool.true_and]

theorem Exec.good {c : Config} {base : Nat} (hc : c.Ok base) {h₀ : Trace} {K₀ K : StdSys} {T₀ T : Tracker} {E : StdHist}
    (hr : Reach c base h₀ T₀) (he : Exec K₀ T₀ E K T) : ∃ h, Reach c base h T ∧ Good h K E := by
  induction he with
  | nil => exact ⟨h₀, hr, Good.nil _ _⟩
  | std _ hf hs ih =>
    obtain ⟨h, h1, h2⟩ := ih
    exact h2.step hc h1 hf hs
  | call _ ha hal hx ih =>
    obtain ⟨h, h1, h2⟩ := ih
    exact ⟨_, h1.snoc hal hx, h2.call ha⟩

/-- The program gets the results it would get without PolyTracker. -/
theorem Exec.same {K₀ K : StdSys} {T₀ T : Tracker} {E : StdHist} (he : Exec K₀ T₀ E K T) :
    K₀.run (E.reverse.map Prod.fst) = (K, E.reverse.map Prod.snd) := by
  have happ : ∀ (ops : List StdOp) (op : StdOp) (K : StdSys), K.run (ops ++ [op]) =
      (((K.run ops).1.step op).1, (K.run ops).2 ++ [((K.run ops).1.step op).2]) := by
    intro ops op
    induction ops with
    | nil => intro K; rfl
    | cons x ops ih =>
      intro K
      simp only [List.cons_append, StdSys.run, ih, Prod.map, id]
  induction he with
  | nil => rfl
  | std _ hf hs ih =>
    rw [List.reverse_cons, List.map_append, List.map_append, List.map_cons, List.map_nil, happ, ih]
    simp only [step_kernel hs]
    rfl
  | call _ _ _ _ ih => exact ih

end Stdio
end Verif
