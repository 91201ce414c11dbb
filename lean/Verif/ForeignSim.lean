import Verif.Foreign
import Verif.UnwindSim
/- Helper lemmas: the instrumented program with foreign code follows the original program, if what foreign code writes
is taken to depend on what was there before. -/
namespace Verif
namespace Foreign
open Ir PassIr Spec Labels DfsanMem Tracker EndToEnd Linked Unwind

variable {dom : Nat → Nat → Nat → Bool} {P : Prog} {lands : Lands} {cap src : Nat}

theorem wstep_sub {τ : Type} {A : Alg τ} {inp : World} {s : State τ} {a : Deed} {g' : Glob τ}
    (h : globAfter (wstep A P lands inp s a) = some g') : Sub s.glob g' := by
  cases a with
  | go => exact step_sub h
  | throws v => exact xstep_sub (lands := lands) (inp := inp) (a := some v) h
  | writes a x o =>
    simp only [wstep] at h
    split at h
    · cases h
      exact ⟨Nat.le_refl _, List.prefix_refl _, List.prefix_refl _⟩
    · cases h

theorem wrun_sub {τ : Type} {A : Alg τ} {inp : World} : ∀ (as : List Deed) {s : State τ} {g' : Glob τ},
    globAfter (wrun A P lands inp as s) = some g' → Sub s.glob g'
  | [], s, g', h => by cases h; exact .refl _
  | a :: as, s, g', h => by
    unfold wrun at h
    cases e : wstep A P lands inp s a with
    | stuck => rw [e] at h; cases h
    | done v g =>
      rw [e] at h
      exact wstep_sub (a := a) (by rw [e]; exact h)
    | next s' =>
      rw [e] at h
      exact (wstep_sub (a := a) (by rw [e]; rfl)).trans (wrun_sub as h)

/-- If the taints fit, it makes no difference. -/
theorem wstep_blind {τ : Type} {A : Alg τ} {inp : World} {s : State τ} {b : Deed}
    (h : ∀ a x o, b = .writes a x o → o.taint A s = s.glob.tmem a) :
    wstep A P lands inp s b.blind = wstep A P lands inp s b := by
  cases b with
  | go => rfl
  | throws v => rfl
  | writes a x o =>
    simp only [Deed.blind, wstep]
    rw [h a x o rfl]
    rfl

theorem wrun_blind {τ : Type} {A : Alg τ} {inp : World} : ∀ (as : List Deed) {s : State τ}, Agree A P lands inp as s →
    wrun A P lands inp (as.map Deed.blind) s = wrun A P lands inp as s ∧
    wcost A P lands inp (as.map Deed.blind) s = wcost A P lands inp as s
  | [], s, _ => ⟨rfl, rfl⟩
  | a :: as, s, h => by
    have e := wstep_blind (P := P) (lands := lands) (inp := inp) h.1
    have e' : (a.blind = .go) ↔ (a = .go) := by cases a <;> simp [Deed.blind]
    simp only [List.map_cons, wrun, wcost, e, e']
    cases k : wstep A P lands inp s a with
    | stuck => exact ⟨rfl, rfl⟩
    | done v g => exact ⟨rfl, rfl⟩
    | next s' =>
      obtain ⟨h1, h2⟩ := wrun_blind as (h.2 s' k)
      exact ⟨h1, by simp only [h2]⟩

/-- The instrumented program does not care. -/
theorem twrun_blind {inp : World} {io : Io} : ∀ (as : List Deed) {i : IState} {T : Tracker},
    twrun dom P lands inp io (as.map Deed.blind) i T = twrun dom P lands inp io as i T
  | [], i, T => rfl
  | a :: as, i, T => by
    have e : twstep dom P lands inp io i T a.blind = twstep dom P lands inp io i T a := by cases a <;> rfl
    simp only [List.map_cons, twrun, e]
    congr 1
    funext x
    obtain ⟨o, T'⟩ := x
    cases o with
    | next s => exact twrun_blind as
    | done v l g => rfl
    | stuck => rfl

theorem grel_write {g : IGlob} {gs : Glob (Nat × Nat → Prop)} (h : GRel cap g gs) {a : Nat} (ha : CanAccess a 1)
    (x : Nat) : GRel cap { g with mem := writeInt g.mem a 1 x }
      { gs with mem := putInt gs.mem a 1 x, tmem := putAll gs.tmem a 1 (gs.tmem a) } where
  store := h.store
  bytes := by
    intro y
    simp only [writeInt]
    split
    · exact Nat.mod_lt _ (by decide)
    · exact h.bytes y
  mem := by
    intro b hb
    simp only [putInt, writeInt]
    rw [h.mem b hb]
  lab := by
    intro b hb
    rw [Threads.labelOf_writeInt _ ha.1 hb]
    have e : putAll gs.tmem a 1 (gs.tmem a) b = gs.tmem b := by
      unfold putAll
      split
      · rw [show b = a by omega]
      · rfl
    show Den g.L _ (putAll gs.tmem a 1 (gs.tmem a) b)
    rw [e]
    exact h.lab b hb
  sp := h.sp
  pos := h.pos
  out := h.out
  ev := h.ev

variable {c : Config} {base snk : Nat} {io : Io} {h0 : Trace} {inp : World}

theorem twrun_sim (hP : ProgOk dom P) (hL : LandsOk P lands) (hc : c.Ok base) (hsrc : src < 256)
    (hin : owner h0 io.fdIn = some src)
    (hout : owner h0 io.fdOut = some snk) : ∀ (as : List Deed) {i : IState} {s : State (Nat × Nat → Prop)} {T : Tracker}
    {h : Trace} {gf : Glob (Nat × Nat → Prop)}, (∀ b ∈ as, b.blind = b) → Rel dom P c.labelCap i s →
    Link c base io src snk h0 i.glob T h → globAfter (wrun (sets src) P lands inp as s) = some gf → gf.pos < 2 ^ 54 → Fine gf →
    TGoes c (wcost (sets src) P lands inp as s) i.glob.L (cfEvents h0).length (saidCount gf.ev)
      (twrun dom P lands inp io as i T)
      (Ends dom P c base src snk io h0 (wcost (sets src) P lands inp as s) i.glob (wrun (sets src) P lands inp as s)) := by
  intro as
  induction as with
  | nil =>
    intro i s T h gf _ hrel hl _ _ _
    exact .ok ⟨i, T, h, rfl, hrel, .refl _, hl⟩
  | cons a as ih =>
    intro i s T h gf hbl hrel hl hgf hpos hf
    have later : ∀ {k : Nat} {s' : State (Nat × Nat → Prop)} {i' : IState} {T' : Tracker} {h' : Trace},
        globAfter (wrun (sets src) P lands inp as s') = some gf → Rel dom P c.labelCap i' s' →
        Evolves k i.glob i'.glob → Link c base io src snk h0 i'.glob T' h' →
        TGoes c (k + wcost (sets src) P lands inp as s') i.glob.L (cfEvents h0).length (saidCount gf.ev)
          (twrun dom P lands inp io as i' T')
          (Ends dom P c base src snk io h0 (k + wcost (sets src) P lands inp as s') i.glob
            (wrun (sets src) P lands inp as s')) := by
      intro k s' i' T' h' hgf h1 h2 h3
      refine (TGoes.from h2.room.choose_spec (ih (fun b hb => hbl b (by simp [hb])) h1 h3 hgf hpos hf)).mono ?_
      intro x hx
      cases e2 : wrun (sets src) P lands inp as s' with
      | stuck => trivial
      | next s2 =>
        rw [e2] at hx
        obtain ⟨i2, T2, h2', rfl, k1, k2, k3⟩ := hx
        exact ⟨i2, T2, h2', rfl, k1, h2.trans k2, k3⟩
      | done v g =>
        rw [e2] at hx
        obtain ⟨l, g2, T2, h2', rfl, k1, k2, k3, k4⟩ := hx
        exact ⟨l, g2, T2, h2', rfl, k1, k2, h2.trans k3, k4⟩
    unfold wrun at hgf
    unfold wrun wcost twrun
    cases a with
    | go =>
      simp only [wstep, twstep, if_true] at hgf ⊢
      cases e : step (sets src) P inp s with
      | stuck => rw [e] at hgf; cases hgf
      | done v g =>
        rw [e] at hgf
        cases hgf
        dsimp only
        refine TGoes.bind (tstep_done hP hsrc hrel hl hpos e _ _) ?_
        rintro x ⟨l, g', T', h', rfl, hx⟩
        exact .ok ⟨l, g', T', h', rfl, hx⟩
      | next s' =>
        rw [e] at hgf
        dsimp only at hgf ⊢
        have hsub' := wrun_sub as hgf
        refine TGoes.bind ((tstep_next hP hc hsrc hrel hl hin hout (Nat.lt_of_le_of_lt hsub'.pos hpos) e (hf.sub hsub')).weak (Nat.le_add_right _ _)
          hsub'.ev.sublist.countP_le) ?_
        rintro x ⟨i', T', h', rfl, -, h1, h2, h3⟩
        exact later hgf h1 h2 h3
    | throws v =>
      simp only [wstep, twstep] at hgf ⊢
      cases e : raise (sets src) P lands v s with
      | stuck => rw [e] at hgf; cases hgf
      | done v g => exact absurd e raise_not_done
      | next s' =>
        rw [e] at hgf
        dsimp only at hgf ⊢
        obtain ⟨i', h', k1, k2, k3, k4⟩ := traise_sim hP hL hrel hl e
        rw [k1]
        exact later hgf k2 k3 k4
    | writes a x o =>
      have ho : o = .byte a := by
        have := hbl (.writes a x o) (by simp)
        simp only [Deed.blind, Deed.writes.injEq, true_and] at this
        exact this.symm
      subst ho
      simp only [wstep, twstep] at hgf ⊢
      by_cases ha : CanAccess a 1
      · rw [if_pos ha] at hgf
        simp only [if_pos ha]
        dsimp only at hgf ⊢
        obtain ⟨fr, rest, sf, srest, F, B, e1, e2, hAt, hSt⟩ := hrel.frames
        refine later (k := 0) (h' := h) hgf ⟨⟨fr, rest, sf, srest, F, B, e1, e2, hAt, hSt⟩, grel_write hrel.glob ha x⟩
          (.quiet rfl rfl) ?_
        exact ⟨hl.reach, hl.labels, hl.reg, hl.rd, hl.wr, hl.written, hl.cf, hl.fns, hl.given⟩
      · rw [if_neg ha] at hgf
        cases hgf

end Foreign
end Verif
