import Verif.LinkedStep
/- Helper lemmas: many steps of the linked program. -/
namespace Verif
namespace Linked
open Ir PassIr Spec Labels DfsanMem Tracker EndToEnd

theorem run_sub {τ : Type} {A : Alg τ} {P : Prog} {inp : World} : ∀ (n : Nat) {s : State τ} {g' : Glob τ},
    globAfter (run A P inp n s) = some g' → Sub s.glob g'
  | 0, s, g', h => by cases h; exact .refl _
  | n + 1, s, g', h => by
    unfold Ir.run at h
    cases hs : step A P inp s with
    | next s' =>
      rw [hs] at h
      exact (step_sub (by rw [hs]; rfl)).trans (run_sub n h)
    | done v g => rw [hs] at h; cases h; exact step_sub (by rw [hs]; rfl)
    | stuck => rw [hs] at h; cases h

/-! ### Steps -/

theorem TGoes.ok {α : Type} {c : Config} {k n m : Nat} {L : Labels} {x : α} {Q : α → Prop} (h : Q x) :
    TGoes c k L n m (.ok x) Q := Or.inl ⟨x, rfl, h⟩

theorem TGoes.bind {α β : Type} {c : Config} {k n m : Nat} {L : Labels} {r : Res α} {f : α → Res β}
    {Q : α → Prop} {R : β → Prop} (h : TGoes c k L n m r Q) (hf : ∀ x, Q x → TGoes c k L n m (f x) R) :
    TGoes c k L n m (r >>= f) R := by
  rcases h with ⟨x, rfl, hx⟩ | ⟨rfl | rfl, h⟩ | ⟨rfl, h⟩
  · exact hf x hx
  · exact Or.inr (Or.inl ⟨Or.inl rfl, h⟩)
  · exact Or.inr (Or.inl ⟨Or.inr rfl, h⟩)
  · exact Or.inr (Or.inr ⟨rfl, h⟩)

theorem TGoes.mono {α : Type} {c : Config} {k n m : Nat} {L : Labels} {r : Res α} {Q R : α → Prop}
    (h : TGoes c k L n m r Q) (hf : ∀ x, Q x → R x) : TGoes c k L n m r R := by
  rcases h with ⟨x, rfl, hx⟩ | h
  · exact Or.inl ⟨x, rfl, hf x hx⟩
  · exact Or.inr h

theorem TGoes.weak {α : Type} {c : Config} {k k' n m m' : Nat} {L : Labels} {r : Res α} {Q : α → Prop}
    (h : TGoes c k L n m r Q) (hk : k ≤ k') (hm : m ≤ m') : TGoes c k' L n m' r Q := by
  rcases h with h | ⟨h, e⟩ | ⟨h, e⟩
  · exact Or.inl h
  · exact Or.inr (Or.inl ⟨h, by omega⟩)
  · exact Or.inr (Or.inr ⟨h, by omega⟩)

theorem TGoes.from {α : Type} {c : Config} {j k n m : Nat} {ms : List Event} {L L' : Labels} {r : Res α}
    {Q : α → Prop} (g : GrowsM ms j L L') (h : TGoes c k L' n m r Q) : TGoes c (j + k) L n m r Q := by
  rcases h with h | ⟨h, e⟩ | h
  · exact Or.inl h
  · exact Or.inr (Or.inl ⟨h, by have := g.2; omega⟩)
  · exact Or.inr (Or.inr h)

variable {dom : Nat → Nat → Nat → Bool} {P : Prog} {c : Config} {base src snk : Nat} {inp : World} {io : Io}
  {h0 : Trace}

/-- The linked program is where the original program is. -/
def Ends (dom : Nat → Nat → Nat → Bool) (P : Prog) (c : Config) (base src snk : Nat) (io : Io)
    (h0 : Trace) (k : Nat) (g : IGlob) : Out (Nat × Nat → Prop) → IOut × Tracker → Prop
  | .next s', x => ∃ i' T' h', x = (.next i', T') ∧ Rel dom P c.labelCap i' s' ∧ Evolves k g i'.glob ∧
      Link c base io src snk h0 i'.glob T' h'
  | .done v gs, x => ∃ l g' T' h', x = (.done v.1 l g', T') ∧ Den g'.L l v.2 ∧ GRel c.labelCap g' gs ∧
      Evolves k g g' ∧ Link c base io src snk h0 g' T' h'
  | .stuck, _ => True

theorem tstep_done (hP : ProgOk dom P) (hsrc : src < 256) {i : IState} {T : Tracker} {h : Trace}
    {s : State (Nat × Nat → Prop)} {v : Nat × (Nat × Nat → Prop)} {gs' : Glob (Nat × Nat → Prop)}
    (hrel : Rel dom P c.labelCap i s) (hl : Link c base io src snk h0 i.glob T h) (hpos : gs'.pos < 2 ^ 54)
    (hs : step (sets src) P inp s = .done v gs') (n m : Nat) :
    TGoes c (s.cost P inp) i.glob.L n m (tstep dom P inp io i T)
      (Ends dom P c base src snk io h0 (s.cost P inp) i.glob (.done v gs')) := by
  have hq := step_sim (inp := inp) hP hsrc hrel (by rw [hs]; exact Nat.le_of_lt hpos)
  rw [hs] at hq
  dsimp only at hq
  obtain ⟨fr, rest, sf, srest, F, B, e1, e2, hAt, hSt⟩ := hrel.frames
  obtain ⟨is, g⟩ := i
  obtain ⟨ss, gs⟩ := s
  simp only at e1 e2 hAt hSt hl
  subst e1 e2
  have hoth : ∀ I, B.body[fr.idx]? = some I → other I = true := by
    intro I hI
    have hfr := hAt.rel
    simp only [step, ← hfr.fn, ← hfr.blk, ← hfr.idx, hAt.func, hAt.block, hI] at hs
    exact (stepInstr_not_done hs).elim
  have hcom := tstep_quiet (dom := dom) (io := io) (src := src) (inp := inp) (rest := rest)
    hAt.func hAt.block hl.labels hoth
  rcases hq with ⟨o, ho, l, g', rfl, hden, hrel', hev⟩ | ⟨hq, hq2⟩
  · rcases hcom with hcom | hcom
    · have hkeep := (istep_keeps hAt.func hAt.block hoth).2 v.1 l g' ho
      obtain ⟨h', hl'⟩ := hl.quiet hev hkeep.2.1 hkeep.2.2 hkeep.1
      refine Or.inl ⟨_, ?_, l, g', _, h', rfl, hden, hrel', hev, hl'⟩
      rw [hcom, ho]
      rfl
    · rw [hcom] at ho; cases ho
  · right; left
    refine ⟨?_, hq2⟩
    rcases hcom with hcom | hcom
    · rw [hcom]
      rcases hq with hq | hq <;> rw [hq]
      · exact Or.inl rfl
      · exact Or.inr rfl
    · rw [hcom] at hq
      rcases hq with hq | hq <;> cases hq

/-- Many steps. -/
theorem trun_sim (hP : ProgOk dom P) (hc : c.Ok base) (hsrc : src < 256) (hin : owner h0 io.fdIn = some src)
    (hout : owner h0 io.fdOut = some snk) : ∀ (n : Nat) {i : IState} {s : State (Nat × Nat → Prop)} {T : Tracker}
    {h : Trace} {gf : Glob (Nat × Nat → Prop)}, Rel dom P c.labelCap i s →
    Link c base io src snk h0 i.glob T h → globAfter (run (sets src) P inp n s) = some gf → gf.pos < 2 ^ 54 → Fine gf →
    TGoes c (runCost (sets src) P inp n s) i.glob.L (cfEvents h0).length (saidCount gf.ev)
      (trun dom P inp io n i T)
      (Ends dom P c base src snk io h0 (runCost (sets src) P inp n s) i.glob (run (sets src) P inp n s)) := by
  intro n
  induction n with
  | zero =>
    intro i s T h gf hrel hl _ _ _
    exact .ok ⟨i, T, h, rfl, hrel, .refl _, hl⟩
  | succ n ih =>
    intro i s T h gf hrel hl hgf hpos hf
    unfold Ir.run at hgf
    unfold Ir.run runCost trun
    cases e : step (sets src) P inp s with
    | stuck => rw [e] at hgf; cases hgf
    | done v g =>
      rw [e] at hgf
      cases hgf
      dsimp only
      refine TGoes.bind (tstep_done hP hsrc hrel hl hpos e _ _) ?_
      rintro x ⟨l, g', T', h', rfl, hx⟩
      exact .ok ⟨l, g', T', h', rfl, hx⟩
    | next s' =>
      rw [e] at hgf
      dsimp only at hgf ⊢
      have hsub' := run_sub n hgf
      refine TGoes.bind ((tstep_next hP hc hsrc hrel hl hin hout (Nat.lt_of_le_of_lt hsub'.pos hpos) e (hf.sub hsub')).weak (Nat.le_add_right _ _)
        hsub'.ev.sublist.countP_le) ?_
      rintro x ⟨i', T', h', rfl, -, h1, h2, h3⟩
      refine (TGoes.from h2.room.choose_spec (ih h1 h3 hgf hpos hf)).mono ?_
      intro x hx
      cases e2 : run (sets src) P inp n s' with
      | stuck => trivial
      | next s2 =>
        rw [e2] at hx
        obtain ⟨i2, T2, h2', rfl, k1, k2, k3⟩ := hx
        exact ⟨i2, T2, h2', rfl, k1, h2.trans k2, k3⟩
      | done v g =>
        rw [e2] at hx
        obtain ⟨l, g2, T2, h2', rfl, k1, k2, k3, k4⟩ := hx
        exact ⟨l, g2, T2, h2', rfl, k1, k2, h2.trans k3, k4⟩

end Linked
end Verif
