import Verif.Unwind
import Verif.LinkedRun
import Verif.ThreadsSim
/- Helper lemmas: the instrumented program goes to the landing block as the original program does. -/
namespace Verif
namespace Unwind
open Ir PassIr Spec Labels DfsanMem Tracker EndToEnd Linked

variable {dom : Nat → Nat → Nat → Bool} {P : Prog} {lands : Lands} {cap src : Nat}

/-- An instruction that can be left by an exception. -/
def Leaves : Instr → Prop
  | .untracked _ _ => True
  | .call _ _ _ => True
  | _ => False

theorem landing_some {fn b j t : Nat} {F : Func} {B : Block} (hF : P[fn]? = some F) (hB : F.blocks[b]? = some B)
    (h : landing P lands fn b j = some t) : j + 1 = B.body.length ∧ lands fn b = some t := by
  simp only [landing, hF, hB, Option.bind_some] at h
  split at h
  · exact ⟨by assumption, h⟩
  · cases h

/-- The frame at the end of the block, with the landing value. -/
theorem landed (hP : ProgOk dom P) {F : Func} {B : Block} {fr : IFrame} {sf : Frame (Nat × Nat → Prop)} {g : IGlob}
    {gs : Glob (Nat × Nat → Prop)} (hAt : At dom P g.L F B fr sf) (hg : GRel cap g gs) {rest : List IFrame}
    {srest : List (Frame (Nat × Nat → Prop))} (hst : Stack dom P g.L fr.fn rest srest) {I : Instr}
    (hI : B.body[fr.idx]? = some I) (hl : Leaves I) (v : Nat) :
    Here dom P cap F B ((fr.label ((instrument (dom fr.fn) F).st.ann (fr.blk, fr.idx + 1)).dst 0).set v)
      (sf.set (v, (sets src).zero)) g gs rest srest := by
  have h : Here dom P cap F B fr sf g gs rest srest := ⟨hP, hAt, hg, hst⟩
  obtain ⟨V, st0, hE⟩ := hAt.env hP hAt.reach
  have hvp := visitPt_ins (dom := dom fr.fn) hAt.block hI st0
  have hlt := (List.getElem?_eq_some_iff.1 hI).1
  have key : FRel F (instrument (dom fr.fn) F).st (fr.blk, fr.idx + 2)
      ((fr.label ((instrument (dom fr.fn) F).st.ann (fr.blk, fr.idx + 1)).dst 0).set v)
      (sf.set (v, (sets src).zero)) g.L := by
    cases I with
    | untracked f args =>
      have hdst : ((instrument (dom fr.fn) F).st.ann (fr.blk, fr.idx + 1)).dst = none := by
        rw [hE.ann, hvp]
        simp [visitInstr, PSt.close]
      rw [hdst]
      refine FRel.finish hE rfl rfl hAt.block hlt hAt.rel hg.store
          (.first hE hAt.rel) (by rw [hvp]; simp [visitInstr, PSt.close, PSt.setShadow]) ?_
      rw [hE.shadow (r := .ins fr.blk fr.idx) rfl, hvp]
      simp only [visitInstr, PSt.close, PSt.setShadow, if_true, Option.getD_some]
      exact hg.store.den_zero
    | call void f args =>
      cases hv : void with
      | true =>
        have hdst : ((instrument (dom fr.fn) F).st.ann (fr.blk, fr.idx + 1)).dst = none := by
          rw [hE.ann, hvp]
          simp [visitInstr, hv, PSt.close]
        rw [hdst]
        refine FRel.finish hE rfl rfl hAt.block hlt hAt.rel hg.store
          (.first hE hAt.rel) (by rw [hvp]; simp [visitInstr, hv, PSt.close]) ?_
        rw [hE.shadow (r := .ins fr.blk fr.idx) rfl, hvp]
        simp only [visitInstr, hv, if_true, PSt.close]
        rw [hE.shadow_none rfl]
        exact hg.store.den_zero
      | false =>
        have hvis : visitInstr (dom fr.fn) F fr.blk fr.idx st0 (.call void f args) =
            (((({ st0 with em := st0.em ++ argStores F st0 0 args } : PSt).fresh (fr.blk, fr.idx + 1)).1).setShadow
              (.ins fr.blk fr.idx) (.v st0.next)).close (fr.blk, fr.idx + 1) [] (some st0.next) := by
          unfold visitInstr
          dsimp only
          rw [hv]
          rfl
        have hdst : ((instrument (dom fr.fn) F).st.ann (fr.blk, fr.idx + 1)).dst = some st0.next := by
          rw [hE.ann, hvp, hvis]
          simp [PSt.close]
        rw [hdst]
        have hz := hg.store.den_zero
        have hx := first_put h hE (k := 0)
          (st1 := (({ st0 with em := st0.em ++ argStores F st0 0 args } : PSt).fresh (fr.blk, fr.idx + 1)).1)
          rfl (by simp [PSt.fresh]) rfl (h.below hI hE hvis) (.refl _) hz.1
        refine FRel.finish hE rfl rfl hAt.block hlt hAt.rel hg.store
          hx (by rw [hvp, hvis]; rfl) ?_
        rw [hE.shadow (r := .ins fr.blk fr.idx) rfl, hvp, hvis]
        simp only [PSt.close, PSt.setShadow, if_true, Option.getD_some, labS, IFrame.put]
        exact hz
    | _ => exact hl.elim
  generalize ((instrument (dom fr.fn) F).st.ann (fr.blk, fr.idx + 1)).dst = d at key ⊢
  have hfn : ((fr.label d 0).set v).fn = fr.fn := by cases d <;> rfl
  have hblk : ((fr.label d 0).set v).blk = fr.blk := by cases d <;> rfl
  have hidx : ((fr.label d 0).set v).idx = fr.idx + 1 := by cases d <;> rfl
  refine ⟨hP, ⟨?_, ?_, ?_, ?_, ?_⟩, hg, ?_⟩
  · rw [hfn]; exact hAt.func
  · rw [hblk]; exact hAt.block
  · rw [hidx]; exact hlt
  · rw [hblk, hidx]; exact .step hAt.reach (.seq hAt.block hlt)
  · rw [hfn, hblk, hidx]; exact key
  · rw [hfn]; exact hst

theorem jump_glob {τ : Type} {A : Alg τ} {F : Func} {fr : Frame τ} {rest : List (Frame τ)} {g : Glob τ} {t : Nat}
    {s' : State τ} (h : jump A F fr rest g t = .next s') : s'.glob = g := by
  unfold jump at h
  split at h
  · cases h
  · split at h
    · cases h
    · cases h; rfl

theorem ijump_glob {F : Func} {st : PSt} {fr : IFrame} {rest : List IFrame} {g : IGlob} {t : Nat}
    {i' : IState} (h : ijump F st fr rest g t = .next i') : i'.glob = g := by
  unfold ijump at h
  split at h
  · cases h
  · split at h
    · cases h
    · cases h; rfl

theorem jump_not_done {τ : Type} {A : Alg τ} {F : Func} {fr : Frame τ} {rest : List (Frame τ)} {g g' : Glob τ} {t : Nat}
    {v : Nat × τ} : jump A F fr rest g t ≠ .done v g' := by
  intro h
  unfold jump at h
  split at h
  · cases h
  · split at h <;> cases h

/-- The call has a landing block. -/
theorem catch_sim (hP : ProgOk dom P) (hL : LandsOk P lands) (v : Nat) {srest : List (Frame (Nat × Nat → Prop))}
    {rest : List IFrame} {fr : IFrame} {sf : Frame (Nat × Nat → Prop)} {F : Func} {B : Block} {I : Instr} {g : IGlob}
    {gs : Glob (Nat × Nat → Prop)} {s' : State (Nat × Nat → Prop)} (hAt : At dom P g.L F B fr sf) (hg : GRel cap g gs)
    (hst : Stack dom P g.L fr.fn rest srest) (hI : B.body[fr.idx]? = some I) (hl : Leaves I) {t : Nat}
    (hla : landing P lands fr.fn fr.blk fr.idx = some t)
    (hj : jump (sets src) F (sf.set (v, (sets src).zero)) srest gs t = .next s') :
    ∃ i', ijump F (instrument (dom fr.fn) F).st
        ((fr.label ((instrument (dom fr.fn) F).st.ann (fr.blk, fr.idx + 1)).dst 0).set v) rest g t = .next i' ∧
      Rel dom P cap i' s' ∧ i'.glob = g := by
  obtain ⟨h1, h2⟩ := landing_some hAt.func hAt.block hla
  have ht := hL _ _ _ _ _ hAt.func hAt.block h2
  have hh := landed (src := src) hP hAt hg hst hI hl v
  generalize ((instrument (dom fr.fn) F).st.ann (fr.blk, fr.idx + 1)).dst = d at hh ⊢
  have hfn : ((fr.label d 0).set v).fn = fr.fn := by cases d <;> rfl
  have hidx : ((fr.label d 0).set v).idx = fr.idx + 1 := by cases d <;> rfl
  obtain ⟨i', k1, k2, -⟩ := jump_sim hh (hidx.trans h1) ht hj
  rw [hfn] at k1
  exact ⟨i', k1, k2, ijump_glob k1⟩

theorem unwind_sim (hP : ProgOk dom P) (hL : LandsOk P lands) (v : Nat) : ∀ {srest : List (Frame (Nat × Nat → Prop))}
    {rest : List IFrame} {fr : IFrame} {sf : Frame (Nat × Nat → Prop)} {F : Func} {B : Block} {I : Instr} {g : IGlob}
    {gs : Glob (Nat × Nat → Prop)} {s' : State (Nat × Nat → Prop)}, At dom P g.L F B fr sf → GRel cap g gs →
    Stack dom P g.L fr.fn rest srest → B.body[fr.idx]? = some I → Leaves I →
    unroll (sets src) P lands v gs (sf :: srest) = .next s' →
    ∃ i' sp, iunwind dom P lands v g (fr :: rest) = .next i' ∧ Rel dom P cap i' s' ∧ i'.glob = { g with sp } := by
  intro srest
  induction srest with
  | nil =>
    intro rest fr sf F B I g gs s' hAt hg hst hI hl hu
    have e1 := hAt.rel.fn
    have e2 := hAt.rel.blk
    have e3 := hAt.rel.idx
    unfold unroll at hu
    unfold iunwind
    rw [← e1, ← e2, ← e3, hAt.func] at hu
    rw [hAt.func]
    cases hla : landing P lands fr.fn fr.blk fr.idx with
    | none =>
      rw [hla] at hu
      cases hu
    | some t =>
      rw [hla] at hu
      obtain ⟨i', k1, k2, k3⟩ := catch_sim hP hL v hAt hg hst hI hl hla hu
      exact ⟨i', g.sp, k1, k2, k3⟩
  | cons sc srest ih =>
    intro rest fr sf F B I g gs s' hAt hg hst hI hl hu
    have e1 := hAt.rel.fn
    have e2 := hAt.rel.blk
    have e3 := hAt.rel.idx
    unfold unroll at hu
    unfold iunwind
    rw [← e1, ← e2, ← e3, hAt.func] at hu
    rw [hAt.func]
    cases hla : landing P lands fr.fn fr.blk fr.idx with
    | none =>
      rw [hla] at hu
      dsimp only at hu ⊢
      cases hst with
      | @cons _ cf _ rest' _ G C f args H hAt' hI' hH hst' =>
        rw [← hAt.rel.sp] at hu
        obtain ⟨i', sp, k1, k2, k3⟩ := ih (g := { g with sp := fr.sp }) (gs := { gs with sp := fr.sp }) hAt'
          { hg with sp := rfl } hst' hI' (by trivial) hu
        exact ⟨i', sp, k1, k2, k3⟩
    | some t =>
      rw [hla] at hu
      obtain ⟨i', k1, k2, k3⟩ := catch_sim hP hL v hAt hg hst hI hl hla hu
      exact ⟨i', g.sp, k1, k2, k3⟩

theorem unwind_none (v : Nat) {srest : List (Frame (Nat × Nat → Prop))} {rest : List IFrame} {L : Labels} {fn : Nat}
    (hst : Stack dom P L fn rest srest) : ∀ {g : IGlob},
    (∀ f ∈ srest, landing P lands f.fn f.blk f.idx = none) → iunwind dom P lands v g rest = .stuck := by
  induction hst with
  | nil => intro g _; rfl
  | @cons fn fr sf rest srest F B f args G hAt hI hG _ ih =>
    intro g h
    have h1 := h sf (by simp)
    rw [← hAt.rel.fn, ← hAt.rel.blk, ← hAt.rel.idx] at h1
    unfold iunwind
    rw [h1]
    exact ih (fun f hf => h f (by simp [hf]))

theorem tthrow_none (hP : ProgOk dom P) {i : IState} {s : State (Nat × Nat → Prop)}
    {c : Config} {base snk : Nat} {io : Io} {h0 h : Trace}
    {T : Tracker} (hrel : Rel dom P c.labelCap i s) (hl : Link c base io src snk h0 i.glob T h) {v : Nat}
    {fr : Frame (Nat × Nat → Prop)} {rest : List (Frame (Nat × Nat → Prop))} (hf : s.frames = fr :: rest)
    {f : List Nat → Nat} {args : List Opd} (hI : instrAt P fr.fn fr.blk fr.idx = some (.untracked f args))
    (hn : ∀ f ∈ s.frames, landing P lands f.fn f.blk f.idx = none) :
    tthrow dom P lands v i T = .ok (.stuck, T) := by
  obtain ⟨ifr, irest, sf, srest, F, B, e1, e2, hAt, hSt⟩ := hrel.frames
  obtain ⟨is, g⟩ := i
  obtain ⟨ss, gs⟩ := s
  simp only at e1 e2 hAt hSt hl hf hn
  subst e1 e2
  cases hf
  have h1 := hn fr (by simp)
  rw [← hAt.rel.fn, ← hAt.rel.blk, ← hAt.rel.idx] at hI h1
  have hI' : B.body[ifr.idx]? = some (.untracked f args) := by
    simpa only [instrAt, hAt.func, hAt.block, Option.bind_some] using hI
  unfold tthrow
  simp only [hAt.func, hI]
  obtain ⟨V, st0, hE⟩ := hAt.env hP hAt.reach
  have hpre : ((instrument (dom ifr.fn) F).st.ann (ifr.blk, ifr.idx + 1)).pre = [] := by
    rw [hE.ann, visitPt_ins hAt.block hI']
    simp [visitInstr, PSt.close, PSt.setShadow, hE.em0]
  rw [hpre, hl.labels]
  show Res.ok (iunwind dom P lands v g (ifr :: irest), { T with labels := g.L }) = _
  unfold iunwind
  rw [h1]
  dsimp only
  rw [unwind_none v hSt (fun f hf => hn f (by simp [hf])), ← hl.labels]

theorem txrun_append {inp : World} {io : Io} : ∀ (as bs : List (Option Nat)) {i i' : IState} {T T' : Tracker},
    txrun dom P lands inp io as i T = .ok (.next i', T') →
    txrun dom P lands inp io (as ++ bs) i T = txrun dom P lands inp io bs i' T'
  | [], bs, i, i', T, T', h => by cases h; rfl
  | a :: as, bs, i, i', T, T', h => by
    rw [List.cons_append, txrun]
    rw [txrun, Res.bind_eq_ok] at h
    obtain ⟨⟨o, T1⟩, h1, h2⟩ := h
    rw [h1]
    cases o with
    | next s =>
      show txrun dom P lands inp io (as ++ bs) s T1 = _
      exact txrun_append as bs h2
    | done v l g => cases h2
    | stuck => cases h2

theorem unwind_glob {τ : Type} {A : Alg τ} (v : Nat) : ∀ {fs : List (Frame τ)} {g : Glob τ} {s' : State τ},
    unroll A P lands v g fs = .next s' → ∃ sp, s'.glob = { g with sp }
  | [], g, s', h => by cases h
  | fr :: fs, g, s', h => by
    unfold unroll at h
    split at h
    · exact ⟨g.sp, jump_glob h⟩
    · obtain ⟨sp, e⟩ := unwind_glob v h
      exact ⟨sp, e⟩

theorem unwind_not_done {τ : Type} {A : Alg τ} (v : Nat) : ∀ {fs : List (Frame τ)} {g g' : Glob τ} {x : Nat × τ},
    unroll A P lands v g fs ≠ .done x g'
  | [], g, g', x, h => by cases h
  | fr :: fs, g, g', x, h => by
    unfold unroll at h
    split at h
    · exact jump_not_done h
    · exact unwind_not_done v h

theorem raise_glob {τ : Type} {A : Alg τ} {v : Nat} {s s' : State τ} (h : raise A P lands v s = .next s') :
    ∃ sp, s'.glob = { s.glob with sp } := by
  unfold raise at h
  split at h
  · cases h
  · split at h
    · exact unwind_glob v h
    · cases h

theorem raise_not_done {τ : Type} {A : Alg τ} {v : Nat} {s : State τ} {x : Nat × τ} {g : Glob τ} :
    raise A P lands v s ≠ .done x g := by
  intro h
  unfold raise at h
  split at h
  · cases h
  · split at h
    · exact unwind_not_done v h
    · cases h

theorem xstep_sub {τ : Type} {A : Alg τ} {inp : World} {s : State τ} {a : Option Nat} {g' : Glob τ}
    (h : globAfter (xstep A P lands inp s a) = some g') : Sub s.glob g' := by
  cases a with
  | none => exact step_sub h
  | some v =>
    simp only [xstep] at h
    cases e : raise A P lands v s with
    | stuck => rw [e] at h; cases h
    | done x g => exact absurd e raise_not_done
    | next s' =>
      rw [e] at h
      cases h
      obtain ⟨sp, e'⟩ := raise_glob e
      rw [e']
      exact ⟨Nat.le_refl _, List.prefix_refl _, List.prefix_refl _⟩

theorem xrun_sub {τ : Type} {A : Alg τ} {inp : World} : ∀ (as : List (Option Nat)) {s : State τ} {g' : Glob τ},
    globAfter (xrun A P lands inp as s) = some g' → Sub s.glob g'
  | [], s, g', h => by cases h; exact .refl _
  | a :: as, s, g', h => by
    unfold xrun at h
    cases e : xstep A P lands inp s a with
    | stuck => rw [e] at h; cases h
    | done v g =>
      rw [e] at h
      exact xstep_sub (a := a) (by rw [e]; exact h)
    | next s' =>
      rw [e] at h
      exact (xstep_sub (a := a) (by rw [e]; rfl)).trans (xrun_sub as h)

variable {c : Config} {base snk : Nat} {io : Io} {h0 : Trace} {inp : World}

theorem traise_sim (hP : ProgOk dom P) (hL : LandsOk P lands) {i : IState} {s s' : State (Nat × Nat → Prop)}
    {T : Tracker} {h : Trace} (hrel : Rel dom P c.labelCap i s) (hl : Link c base io src snk h0 i.glob T h) {v : Nat}
    (hs : raise (sets src) P lands v s = .next s') :
    ∃ i' h', tthrow dom P lands v i T = .ok (.next i', T) ∧ Rel dom P c.labelCap i' s' ∧
      Evolves 0 i.glob i'.glob ∧ Link c base io src snk h0 i'.glob T h' := by
  obtain ⟨fr, rest, sf, srest, F, B, e1, e2, hAt, hSt⟩ := hrel.frames
  obtain ⟨is, g⟩ := i
  obtain ⟨ss, gs⟩ := s
  simp only at e1 e2 hAt hSt hl
  subst e1 e2
  have hG := hrel.glob
  simp only at hG
  have k1 := hAt.rel.fn
  have k2 := hAt.rel.blk
  have k3 := hAt.rel.idx
  unfold raise at hs
  simp only [← k1, ← k2, ← k3] at hs
  unfold tthrow
  simp only [hAt.func]
  cases hI : instrAt P fr.fn fr.blk fr.idx with
  | none => rw [hI] at hs; cases hs
  | some I =>
    rw [hI] at hs
    have hI' : B.body[fr.idx]? = some I := by
      simpa only [instrAt, hAt.func, hAt.block, Option.bind_some] using hI
    cases I with
    | untracked f args =>
      dsimp only at hs ⊢
      obtain ⟨i', sp, h1, h2, h3⟩ := unwind_sim hP hL v hAt hG hSt hI' (by trivial) hs
      obtain ⟨V, st0, hE⟩ := hAt.env hP hAt.reach
      have hpre : ((instrument (dom fr.fn) F).st.ann (fr.blk, fr.idx + 1)).pre = [] := by
        rw [hE.ann, visitPt_ins hAt.block hI']
        simp [visitInstr, PSt.close, PSt.setShadow, hE.em0]
      refine ⟨i', h, ?_, h2, ?_, ?_⟩
      · rw [hpre, hl.labels]
        show Res.ok (iunwind dom P lands v g (fr :: rest), { T with labels := g.L }) = _
        rw [h1, ← hl.labels]
      · rw [h3]; exact .quiet rfl rfl
      · rw [h3]; exact Threads.link_own hl _ _ _
    | _ => cases hs

theorem txrun_sim (hP : ProgOk dom P) (hL : LandsOk P lands) (hc : c.Ok base) (hsrc : src < 256)
    (hin : owner h0 io.fdIn = some src)
    (hout : owner h0 io.fdOut = some snk) : ∀ (as : List (Option Nat)) {i : IState} {s : State (Nat × Nat → Prop)} {T : Tracker}
    {h : Trace} {gf : Glob (Nat × Nat → Prop)}, Rel dom P c.labelCap i s →
    Link c base io src snk h0 i.glob T h → globAfter (xrun (sets src) P lands inp as s) = some gf → gf.pos < 2 ^ 54 → Fine gf →
    TGoes c (xcost (sets src) P lands inp as s) i.glob.L (cfEvents h0).length (saidCount gf.ev)
      (txrun dom P lands inp io as i T)
      (Ends dom P c base src snk io h0 (xcost (sets src) P lands inp as s) i.glob (xrun (sets src) P lands inp as s)) := by
  intro as
  induction as with
  | nil =>
    intro i s T h gf hrel hl _ _ _
    exact .ok ⟨i, T, h, rfl, hrel, .refl _, hl⟩
  | cons a as ih =>
    intro i s T h gf hrel hl hgf hpos hf
    have later : ∀ {k : Nat} {s' : State (Nat × Nat → Prop)} {i' : IState} {T' : Tracker} {h' : Trace},
        globAfter (xrun (sets src) P lands inp as s') = some gf → Rel dom P c.labelCap i' s' →
        Evolves k i.glob i'.glob → Link c base io src snk h0 i'.glob T' h' →
        TGoes c (k + xcost (sets src) P lands inp as s') i.glob.L (cfEvents h0).length (saidCount gf.ev)
          (txrun dom P lands inp io as i' T')
          (Ends dom P c base src snk io h0 (k + xcost (sets src) P lands inp as s') i.glob
            (xrun (sets src) P lands inp as s')) := by
      intro k s' i' T' h' hgf h1 h2 h3
      refine (TGoes.from h2.room.choose_spec (ih h1 h3 hgf hpos hf)).mono ?_
      intro x hx
      cases e2 : xrun (sets src) P lands inp as s' with
      | stuck => trivial
      | next s2 =>
        rw [e2] at hx
        obtain ⟨i2, T2, h2', rfl, k1, k2, k3⟩ := hx
        exact ⟨i2, T2, h2', rfl, k1, h2.trans k2, k3⟩
      | done v g =>
        rw [e2] at hx
        obtain ⟨l, g2, T2, h2', rfl, k1, k2, k3, k4⟩ := hx
        exact ⟨l, g2, T2, h2', rfl, k1, k2, h2.trans k3, k4⟩
    unfold xrun at hgf
    unfold xrun xcost txrun
    cases a with
    | none =>
      simp only [xstep, txstep, if_true] at hgf ⊢
      cases e : step (sets src) P inp s with
      | stuck => rw [e] at hgf; cases hgf
      | done v g =>
        rw [e] at hgf
        cases hgf
        dsimp only
        refine TGoes.bind (tstep_done hP hsrc hrel hl hpos e _ _) ?_
        rintro x ⟨l, g', T', h', rfl, hx⟩
        exact .ok ⟨l, g', T', h', rfl, hx⟩
      | next s' =>
        rw [e] at hgf
        dsimp only at hgf ⊢
        have hsub' := xrun_sub as hgf
        refine TGoes.bind ((tstep_next hP hc hsrc hrel hl hin hout (Nat.lt_of_le_of_lt hsub'.pos hpos) e (hf.sub hsub')).weak (Nat.le_add_right _ _)
          hsub'.ev.sublist.countP_le) ?_
        rintro x ⟨i', T', h', rfl, -, h1, h2, h3⟩
        exact later hgf h1 h2 h3
    | some v =>
      simp only [xstep, txstep] at hgf ⊢
      cases e : raise (sets src) P lands v s with
      | stuck => rw [e] at hgf; cases hgf
      | done v g => exact absurd e raise_not_done
      | next s' =>
        rw [e] at hgf
        dsimp only at hgf ⊢
        obtain ⟨i', h', k1, k2, k3, k4⟩ := traise_sim hP hL hrel hl e
        rw [k1]
        exact later hgf k2 k3 k4

end Unwind
end Verif
