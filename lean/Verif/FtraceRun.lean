import Verif.FtraceSim
/- Helper lemmas: many steps of the linked program with function tracing. -/
namespace Verif
namespace Ftrace
open Ir PassIr CfPass Spec Labels DfsanMem Tracker EndToEnd Linked

variable {c : Config} {base : Nat} {io : Io} {src snk : Nat} {hv h h0 : Trace} {T : Tracker}
  {N : Fns} {P : Prog} {dom : Nat → Nat → Nat → Bool} {inp : World}

theorem stack_length {L : Labels} {fn : Nat} {rest : List IFrame} {srest : List (Frame (Nat × Nat → Prop))}
    (h : Stack dom P L fn rest srest) : rest.length = srest.length := by
  induction h with
  | nil => rfl
  | cons _ _ _ _ ih => rw [List.length_cons, List.length_cons, ih]

theorem rel_length {cap : Nat} {i : IState} {s : State (Nat × Nat → Prop)} (h : Rel dom P cap i s) :
    i.frames.length = s.frames.length := by
  obtain ⟨fr, rest, sf, srest, F, B, e1, e2, -, h2⟩ := h.frames
  rw [e1, e2, List.length_cons, List.length_cons, stack_length h2]

theorem toFnEvent_inj : Function.Injective toFnEvent := by
  rintro ⟨a, i⟩ ⟨b, j⟩ h
  simp only [toFnEvent, FnEvent.mk.injEq] at h
  obtain ⟨h1, rfl⟩ := h
  cases a <;> cases b <;> simp at h1 ⊢

/-- A step of the program without the inserted calls. -/
theorem FInv.step {g g' : IGlob} {T' : Tracker} {h' : Trace} {done : List (Bool × Nat)} (hc : c.Ok base)
    (hi : FInv N P c h0 T h done) (hl : Link c base io src snk hv g T h) (hl' : Link c base io src snk hv g' T' h')
    (hk : over T T' = T') : FInv N P c h0 T' h' done ∧ functions h' = functions h := by
  have hf : functions h' = functions h := by rw [hl'.fns, hl.fns]
  have hs : T'.strings = T.strings := by rw [← hk]; rfl
  have he : T'.events = T.events := by rw [← hk]; rfl
  have hev : fnEvents h' = fnEvents h := by
    rw [(hl.reach.sim hc).events, (hl'.reach.sim hc).events] at he
    exact toFnEvent_inj.list_map he
  refine ⟨⟨?_, ?_, ?_, by rw [hf]; exact hi.only⟩, hf⟩
  · rw [hev, hf]; exact hi.said
  · rw [hs, hf]; exact hi.strs
  · rw [hf]; exact hi.fns

/-- What a step does to calls and returns. -/
theorem shape_next {A : Type} {sf : Frame A} {rest : List (Frame A)} {gs : Glob A} {s' : State A}
    (hsh : Shape P sf rest (.next s')) :
    ∃ l, outOf P (sf :: rest) l ∧ callStep ⟨sf :: rest, gs⟩ s' = l ++ pend s'.frames ∧
      ∀ (fs : List (List Nat)) (saved : List Nat) (i' : IState), List.Forall₂ (Knows N fs) saved (sf :: rest) →
        i'.frames.length = s'.frames.length → Kept N fs (shift (sf :: rest).length saved (.next i')) s'.frames := by
  cases hsh with
  | same fr' g hr hf hn =>
    refine ⟨[], ⟨_, _, rfl, Or.inr ⟨hr, rfl⟩⟩, ?_, ?_⟩
    · have : ¬ (fr'.blk = 0 ∧ fr'.idx = 0) := hn
      simp [callStep, pend, this]
    · intro fs saved i' hx hlen
      cases hx with
      | @cons a _ as _ h1 h2 =>
        refine ⟨fr', rest, a, as, rfl, ?_, Or.inr ?_, h2⟩
        · simp [shift, hlen]
        · unfold Knows at h1 ⊢
          rw [hf]
          exact h1
  | call fr' g hr hn hp =>
    refine ⟨[], ⟨_, _, rfl, Or.inr ⟨hr, rfl⟩⟩, ?_, ?_⟩
    · have : fr'.blk = 0 ∧ fr'.idx = 0 := hn
      simp [callStep, pend, this, State.top]
    · intro fs saved i' h1 hlen
      refine ⟨fr', sf :: rest, 0, saved, rfl, ?_, Or.inl hn, h1⟩
      simp [shift, hlen]
  | ret c0 c' r g hr hc hf hn =>
    refine ⟨[(false, sf.fn)], ⟨_, _, rfl, Or.inl ⟨hr, rfl⟩⟩, ?_, ?_⟩
    · have : ¬ (c'.blk = 0 ∧ c'.idx = 0) := hn
      simp [callStep, pend, this, State.top, hc]
    · subst hc
      intro fs saved i' hx hlen
      cases hx with
      | @cons a _ as _ h1 h2 =>
        cases h2 with
        | @cons b _ bs _ h2 h3 =>
          refine ⟨c', r, b, bs, rfl, ?_, Or.inr ?_, h3⟩
          · have : ¬ (r.length + 1 < r.length) := by omega
            simp [shift, hlen, this]
          · unfold Knows at h2 ⊢
            rw [hf]
            exact h2

/-- The claim for a step. -/
def FSteps (N : Fns) (dom : Nat → Nat → Nat → Bool) (P : Prog) (c : Config) (base src snk : Nat) (io : Io)
    (h0 : Trace) (k : Nat) (g : IGlob) (s' : State (Nat × Nat → Prop)) (all : List (Bool × Nat))
    (x : IOut × List Nat × Tracker) : Prop :=
  ∃ i' saved' T' h' hv' done', x = (.next i', saved', T') ∧ Rel dom P c.labelCap i' s' ∧ Evolves k g i'.glob ∧
    Link c base io src snk hv' i'.glob T' h' ∧ Base h0 hv' ∧ FInv N P c h0 T' h' done' ∧
    Kept N (functions h') saved' s'.frames ∧ done' ++ pend s'.frames = all

/-- The inserted calls before a step. -/
theorem before_ok (hc : c.Ok base) (hnm : ∀ f, f < P.length → N.traced f = true → ∀ b ∈ N.name f, b < 256)
    {i : IState} {s : State (Nat × Nat → Prop)} (hrel : Rel dom P c.labelCap i s)
    (hl : Link c base io src snk hv i.glob T h) (hb : Base h0 hv) {done l : List (Bool × Nat)}
    (hi : FInv N P c h0 T h done) {saved : List Nat} (hk : Kept N (functions h) saved s.frames) (ho : outOf P s.frames l)
    (hev : (fnEvents h0).length + ((done ++ pend s.frames ++ l).filter (fun x => N.traced x.2)).length ≤ c.evCap) :
    ∃ T2 saved2 h2 hv2, Link c base io src snk hv2 i.glob T2 h2 ∧ Base h0 hv2 ∧
      FInv N P c h0 T2 h2 (done ++ pend s.frames ++ l) ∧ List.Forall₂ (Knows N (functions h2)) saved2 s.frames ∧
      ftstep N dom P inp io i saved T = (do
        let (o, T) ← tstep dom P inp io i T2
        pure (o, shift s.frames.length saved2 o, T)) := by
  have hlen := rel_length hrel
  obtain ⟨fr, rest, sf, srest, F, B, e1, e2, hAt, hSt⟩ := hrel.frames
  rw [e2] at hk ho hev ⊢
  have hfr := hAt.rel
  have hp : sf.fn < P.length := by
    have := hAt.func
    rw [hfr.fn] at this
    exact (List.getElem?_eq_some_iff.1 this).1
  have hev1 : (fnEvents h0).length + ((done ++ pend (sf :: srest)).filter (fun x => N.traced x.2)).length ≤ c.evCap := by
    rw [List.filter_append, List.length_append] at hev
    omega
  obtain ⟨T1, saved1, h1, hv1, a1, a2, a3, a4, a5⟩ := enters_ok hc hnm hl hb hi hfr.fn hfr.blk hfr.idx hk hp hev1
  obtain ⟨T2, h2, hv2, b1, b2, b3, b4, b5⟩ := leaves_ok hc a2 a3 a4 hfr.fn hfr.blk hfr.idx a5 ho hev
  refine ⟨T2, saved1, h2, hv2, b2, b3, b4, by rw [b5]; exact a5, ?_⟩
  rw [e2] at hlen
  unfold ftstep
  rw [← hlen, e1]
  simp only [a1, b1, Res.bind_ok]

theorem Base.owner {h0 hv : Trace} (hb : Base h0 hv) (fd : Int) : Spec.owner hv fd = Spec.owner h0 fd := by
  unfold Spec.owner
  rw [hb.reg]

theorem ftstep_next (hP : ProgOk dom P) (hA : C49.Accepted P) (hc : c.Ok base) (hsrc : src < 256)
    (hnm : ∀ f, f < P.length → N.traced f = true → ∀ b ∈ N.name f, b < 256) {i : IState}
    {s s' : State (Nat × Nat → Prop)} (hrel : Rel dom P c.labelCap i s)
    (hl : Link c base io src snk hv i.glob T h) (hb : Base h0 hv) (hin : owner h0 io.fdIn = some src)
    (hout : owner h0 io.fdOut = some snk) {done : List (Bool × Nat)} (hi : FInv N P c h0 T h done) {saved : List Nat}
    (hk : Kept N (functions h) saved s.frames) (hpos : s'.glob.pos < 2 ^ 54)
    (hs : step (sets src) P inp s = .next s') (hf : Fine s'.glob)
    (hev : (fnEvents h0).length + ((done ++ pend s.frames ++ callStep s s').filter (fun x => N.traced x.2)).length ≤ c.evCap) :
    TGoes c (s.cost P inp) i.glob.L (cfEvents h0).length (saidCount s'.glob.ev) (ftstep N dom P inp io i saved T)
      (FSteps N dom P c base src snk io h0 (s.cost P inp) i.glob s' (done ++ pend s.frames ++ callStep s s')) := by
  obtain ⟨fr, rest, sf, srest, F, B, e1, e2, hAt, hSt⟩ := hrel.frames
  have hsh := step_shape (A := sets src) (inp := inp) hA sf srest s.glob
  have es : (⟨sf :: srest, s.glob⟩ : State (Nat × Nat → Prop)) = s := by rw [← e2]
  rw [es, hs] at hsh
  obtain ⟨l, ho, hcs, hkept⟩ := shape_next (N := N) (gs := s.glob) hsh
  rw [es] at hcs
  rw [← e2] at ho hkept
  rw [hcs, ← List.append_assoc] at hev ⊢
  have hev1 : (fnEvents h0).length + ((done ++ pend s.frames ++ l).filter (fun x => N.traced x.2)).length ≤ c.evCap := by
    rw [List.filter_append, List.length_append] at hev
    omega
  obtain ⟨T2, saved2, h2, hv2, a1, a2, a3, a4, a5⟩ := before_ok (inp := inp) hc hnm hrel hl hb hi hk ho hev1
  rw [a5]
  have ht := tstep_next hP hc hsrc hrel a1 (by rw [a2.owner]; exact hin) (by rw [a2.owner]; exact hout) hpos hs hf
  rw [a2.cf] at ht
  rcases ht with ⟨x, hx, i', T', h', rfl, -, k1, k2, k3⟩ | ⟨hx, k⟩ | ⟨hx, k⟩
  · rw [hx]
    obtain ⟨m1, m2⟩ := a3.step hc a1 k3 (tstep_keeps hx)
    refine .ok ⟨i', _, T', h', hv2, _, rfl, k1, k2, k3, a2, m1, ?_, rfl⟩
    rw [m2]
    exact hkept _ _ _ a4 (rel_length k1)
  · refine Or.inr (Or.inl ⟨?_, k⟩)
    rcases hx with hx | hx <;> rw [hx]
    · exact Or.inl rfl
    · exact Or.inr rfl
  · refine Or.inr (Or.inr ⟨?_, k⟩)
    rw [hx]
    rfl

/-- The linked program with function tracing is where the original program is, and has reported `all`, up to
the entry of a function that is at its start. -/
def FEnds (N : Fns) (dom : Nat → Nat → Nat → Bool) (P : Prog) (c : Config) (base src snk : Nat) (io : Io)
    (h0 : Trace) (k : Nat) (g : IGlob) (all : List (Bool × Nat)) :
    Out (Nat × Nat → Prop) → IOut × List Nat × Tracker → Prop
  | .next s', x => FSteps N dom P c base src snk io h0 k g s' all x
  | .done v gs, x => ∃ l g' saved' T' h' hv', x = (.done v.1 l g', saved', T') ∧ Den g'.L l v.2 ∧
      GRel c.labelCap g' gs ∧ Evolves k g g' ∧ Link c base io src snk hv' g' T' h' ∧ Base h0 hv' ∧
      FInv N P c h0 T' h' all
  | .stuck, _ => True

theorem ftstep_done (hP : ProgOk dom P) (hA : C49.Accepted P) (hc : c.Ok base) (hsrc : src < 256)
    (hnm : ∀ f, f < P.length → N.traced f = true → ∀ b ∈ N.name f, b < 256) {i : IState}
    {s : State (Nat × Nat → Prop)} {v : Nat × (Nat × Nat → Prop)} {gs' : Glob (Nat × Nat → Prop)}
    (hrel : Rel dom P c.labelCap i s)
    (hl : Link c base io src snk hv i.glob T h) (hb : Base h0 hv) {done : List (Bool × Nat)}
    (hi : FInv N P c h0 T h done) {saved : List Nat}
    (hk : Kept N (functions h) saved s.frames) (hpos : gs'.pos < 2 ^ 54)
    (hs : step (sets src) P inp s = .done v gs')
    (hev : (fnEvents h0).length + ((done ++ pend s.frames ++ [(false, s.top)]).filter (fun x => N.traced x.2)).length ≤ c.evCap)
    (n m : Nat) :
    TGoes c (s.cost P inp) i.glob.L n m (ftstep N dom P inp io i saved T)
      (FEnds N dom P c base src snk io h0 (s.cost P inp) i.glob (done ++ pend s.frames ++ [(false, s.top)]) (.done v gs')) := by
  obtain ⟨fr, rest, sf, srest, F, B, e1, e2, hAt, hSt⟩ := hrel.frames
  have hsh := step_shape (A := sets src) (inp := inp) hA sf srest s.glob
  have es : (⟨sf :: srest, s.glob⟩ : State (Nat × Nat → Prop)) = s := by rw [← e2]
  rw [es, hs] at hsh
  have ho : outOf P s.frames [(false, s.top)] := by
    cases hsh with
    | done _ _ hr _ =>
      refine ⟨sf, srest, e2, Or.inl ⟨hr, ?_⟩⟩
      simp [State.top, e2]
  obtain ⟨T2, saved2, h2, hv2, a1, a2, a3, a4, a5⟩ := before_ok (inp := inp) hc hnm hrel hl hb hi hk ho hev
  rw [a5]
  have ht := tstep_done hP hsrc hrel a1 hpos hs n m
  rcases ht with ⟨x, hx, l, g', T', h', rfl, k1, k2, k3, k4⟩ | ⟨hx, k⟩ | ⟨hx, k⟩
  · rw [hx]
    obtain ⟨m1, -⟩ := a3.step hc a1 k4 (tstep_keeps hx)
    exact .ok ⟨l, g', _, T', h', hv2, rfl, k1, k2, k3, k4, a2, m1⟩
  · refine Or.inr (Or.inl ⟨?_, k⟩)
    rcases hx with hx | hx <;> rw [hx]
    · exact Or.inl rfl
    · exact Or.inr rfl
  · refine Or.inr (Or.inr ⟨?_, k⟩)
    rw [hx]
    rfl

/-- Many steps. -/
theorem ftrun_sim (hP : ProgOk dom P) (hA : C49.Accepted P) (hc : c.Ok base) (hsrc : src < 256)
    (hnm : ∀ f, f < P.length → N.traced f = true → ∀ b ∈ N.name f, b < 256) (hin : owner h0 io.fdIn = some src)
    (hout : owner h0 io.fdOut = some snk) : ∀ (n : Nat) {i : IState} {s : State (Nat × Nat → Prop)} {T : Tracker}
    {h hv : Trace} {gf : Glob (Nat × Nat → Prop)} {done : List (Bool × Nat)} {saved : List Nat},
    Rel dom P c.labelCap i s →
    Link c base io src snk hv i.glob T h → Base h0 hv → FInv N P c h0 T h done → Kept N (functions h) saved s.frames →
    globAfter (run (sets src) P inp n s) = some gf → gf.pos < 2 ^ 54 → Fine gf →
    (fnEvents h0).length +
      ((done ++ pend s.frames ++ callsRun (sets src) P inp n s).filter (fun x => N.traced x.2)).length ≤ c.evCap →
    TGoes c (runCost (sets src) P inp n s) i.glob.L (cfEvents h0).length (saidCount gf.ev)
      (ftrun N dom P inp io n i saved T)
      (FEnds N dom P c base src snk io h0 (runCost (sets src) P inp n s) i.glob
        (done ++ pend s.frames ++ callsRun (sets src) P inp n s) (run (sets src) P inp n s)) := by
  intro n
  induction n with
  | zero =>
    intro i s T h hv gf done saved hrel hl hb hi hk _ _ _ _
    refine .ok ⟨i, saved, T, h, hv, done, rfl, hrel, .refl _, hl, hb, hi, hk, ?_⟩
    simp [callsRun]
  | succ n ih =>
    intro i s T h hv gf done saved hrel hl hb hi hk hgf hpos hf hev
    unfold Ir.run at hgf
    unfold callsRun at hev
    unfold Ir.run runCost ftrun callsRun
    cases e : step (sets src) P inp s with
    | stuck => rw [e] at hgf; cases hgf
    | done v g =>
      rw [e] at hgf hev
      cases hgf
      dsimp only
      refine TGoes.bind (ftstep_done hP hA hc hsrc hnm hrel hl hb hi hk hpos e hev _ _) ?_
      rintro x ⟨l, g', saved', T', h', hv', rfl, hx⟩
      exact .ok ⟨l, g', saved', T', h', hv', rfl, hx⟩
    | next s' =>
      rw [e] at hgf hev
      dsimp only at hgf hev ⊢
      have hsub' := run_sub n hgf
      rw [← List.append_assoc] at hev ⊢
      have hev1 : (fnEvents h0).length + ((done ++ pend s.frames ++ callStep s s').filter (fun x => N.traced x.2)).length ≤ c.evCap := by
        rw [List.filter_append, List.length_append] at hev
        omega
      refine TGoes.bind ((ftstep_next hP hA hc hsrc hnm hrel hl hb hin hout hi hk (Nat.lt_of_le_of_lt hsub'.pos hpos) e
        (hf.sub hsub') hev1).weak (Nat.le_add_right _ _) hsub'.ev.sublist.countP_le) ?_
      rintro x ⟨i', saved', T', h', hv', done', rfl, h1, h2, h3, h4, h5, h6, h7⟩
      rw [← h7] at hev ⊢
      refine (TGoes.from h2.room.choose_spec (ih h1 h3 h4 h5 h6 hgf hpos hf hev)).mono ?_
      intro x hx
      cases e2 : run (sets src) P inp n s' with
      | stuck => trivial
      | next s2 =>
        rw [e2] at hx
        obtain ⟨i2, sv2, T2, h2', hv2, d2, rfl, k1, k2, k3⟩ := hx
        exact ⟨i2, sv2, T2, h2', hv2, d2, rfl, k1, h2.trans k2, k3⟩
      | done v g =>
        rw [e2] at hx
        obtain ⟨l, g2, sv2, T2, h2', hv2, rfl, k1, k2, k3, k4⟩ := hx
        exact ⟨l, g2, sv2, T2, h2', hv2, rfl, k1, k2, h2.trans k3, k4⟩

end Ftrace
end Verif
