import Verif.PassIrSim
/- Helper lemmas: one instruction of the program and of the instrumented program. -/
namespace Verif
namespace PassIr
open Ir Spec Labels DfsanMem

/-- The labels given to the calls of `__polytracker_log_conditional_branch` that are reported to affect
control flow. -/
def notedOf (x : Hook × Nat × Nat) : Option Nat := if x.1 = .noted ∧ 0 < x.2.2 then some x.2.2 else none

/-- The input bytes an event makes sources of. -/
def srcBytes : Event → Nat
  | .source _ _ n _ => max n 1
  | _ => 0

/-- From `g` to `g'`: some calls of the reporting functions, at most `k` new labels; the labels flagged
are those that were reported, and there is one source for each input byte read. -/
def Evolves (k : Nat) (g g' : IGlob) : Prop :=
  ∃ new ms, g'.ev = g.ev ++ new ∧ ms.filterMap markOf = new.filterMap notedOf ∧
    g'.pos = g.pos + (ms.map srcBytes).sum ∧ GrowsM ms k g.L g'.L

theorem Evolves.of {k : Nat} {g g' : IGlob} (h : Grows k g.L g'.L) (he : g'.ev = g.ev)
    (hp : g'.pos = g.pos := by rfl) : Evolves k g g' :=
  ⟨[], [], by simpa using he, rfl, hp, h⟩

theorem Evolves.quiet {k : Nat} {g g' : IGlob} (h : g'.L = g.L) (he : g'.ev = g.ev)
    (hp : g'.pos = g.pos := by rfl) : Evolves k g g' :=
  .of (by rw [h]; exact .refl _) he hp

theorem Evolves.refl {k : Nat} (g : IGlob) : Evolves k g g := .quiet rfl rfl

theorem Evolves.trans {j k : Nat} {g g1 g2 : IGlob} (h : Evolves j g g1) (h' : Evolves k g1 g2) :
    Evolves (j + k) g g2 := by
  obtain ⟨n, m, e, e1, e2, h⟩ := h
  obtain ⟨n', m', e', e1', e2', h'⟩ := h'
  exact ⟨n ++ n', m ++ m', by rw [e', e, List.append_assoc], by rw [List.filterMap_append, List.filterMap_append, e1, e1'],
    by rw [e2', e2, List.map_append, List.sum_append, Nat.add_assoc], h.trans h'⟩

theorem Evolves.room {k : Nat} {g g' : IGlob} (h : Evolves k g g') : ∃ ms, GrowsM ms k g.L g'.L := by
  obtain ⟨_, ms, -, -, -, h⟩ := h
  exact ⟨ms, h⟩

/-- After the code before the instruction, the instruction leads to a state related to `s'`. -/
def After (dom : Nat → Nat → Nat → Bool) (P : Prog) (cap : Nat) (inp : World) (src : Nat)
    (vv : Opd → Nat) (av : Nat → Nat) (g : IGlob) (rest : List IFrame) (I : Instr) (an : Ann) (idx : Nat) (s' : State (Nat × Nat → Prop))
    (x : IFrame × IGlob) : Prop :=
  x.1.idx = idx ∧ Goes cap (I.cost vv av) g.L (istepInstr P inp src an x.1 rest x.2 I)
    (fun o => ∃ i', o = .next i' ∧ Rel dom P cap i' s' ∧ Evolves (I.cost vv av) g i'.glob)

/-- What is known before an instruction. -/
structure Here (dom : Nat → Nat → Nat → Bool) (P : Prog) (cap : Nat) (F : Func) (B : Block) (fr : IFrame)
    (sf : Frame (Nat × Nat → Prop)) (g : IGlob) (gs : Glob (Nat × Nat → Prop)) (rest : List IFrame)
    (srest : List (Frame (Nat × Nat → Prop))) : Prop where
  prog : ProgOk dom P
  here : At dom P g.L F B fr sf
  glob : GRel cap g gs
  stack : Stack dom P g.L fr.fn rest srest

variable {dom : Nat → Nat → Nat → Bool} {P : Prog} {cap : Nat} {F : Func} {B : Block} {fr : IFrame}
  {sf : Frame (Nat × Nat → Prop)} {g : IGlob} {gs : Glob (Nat × Nat → Prop)} {rest : List IFrame}
  {srest : List (Frame (Nat × Nat → Prop))} {inp : World} {src : Nat} {V : Pt → Prop} {st0 : PSt}
  {vv : Opd → Nat} {av : Nat → Nat}

theorem Here.next (h : Here dom P cap F B fr sf g gs rest srest) {I : Instr}
    (hI : B.body[fr.idx]? = some I) {fr' : IFrame} {sf' : Frame (Nat × Nat → Prop)} {g' : IGlob}
    {gs' : Glob (Nat × Nat → Prop)} (hfn : fr'.fn = fr.fn) (hblk : fr'.blk = fr.blk)
    (hidx : fr'.idx = fr.idx + 1)
    (hr : FRel F (instrument (dom fr.fn) F).st (fr.blk, fr.idx + 2) fr' sf' g'.L)
    (hg : GRel cap g' gs') {ms : List Event} (hgr : GrowsM ms (I.cost vv av) g.L g'.L) :
    Rel dom P cap ⟨fr' :: rest, g'⟩ ⟨sf' :: srest, gs'⟩ := by
  have hlt := (List.getElem?_eq_some_iff.1 hI).1
  refine ⟨⟨fr', rest, sf', srest, F, B, rfl, rfl, ⟨?_, ?_, ?_, ?_, ?_⟩, ?_⟩, hg⟩
  · rw [hfn]; exact h.here.func
  · rw [hblk]; exact h.here.block
  · rw [hidx]; exact hlt
  · rw [hblk, hidx]; exact .step h.here.reach (.seq h.here.block hlt)
  · rw [hfn, hblk, hidx]; exact hr
  · rw [hfn]; exact h.stack.grows h.prog h.glob.store hgr

theorem Here.usable (h : Here dom P cap F B fr sf g gs rest srest) {I : Instr}
    (hI : B.body[fr.idx]? = some I) {o : Opd} (ho : o ∈ I.opds) : F.Usable (fr.blk, fr.idx + 1) o :=
  (h.here.valid h.prog).ins _ _ _ _ h.here.block hI h.here.reach o ho

theorem below_finish (st : PSt) (r : Reg) (s : SV) (p : Pt) (xs : List SV) (d : Option Nat) :
    Below st ((st.setShadow r s).close p xs d) := ⟨Nat.le_refl _, fun _ _ => rfl, fun _ _ => rfl⟩

theorem below_close (st : PSt) (p : Pt) (xs : List SV) (d : Option Nat) :
    Below st (st.close p xs d) := ⟨Nat.le_refl _, fun _ _ => rfl, fun _ _ => rfl⟩

abbrev Here.Env (_ : Here dom P cap F B fr sf g gs rest srest) (V : Pt → Prop) (st0 : PSt) : Prop :=
  PassIr.Env (dom fr.fn) F V (fr.blk, fr.idx + 1) st0 (instrument (dom fr.fn) F).st

theorem Here.below (h : Here dom P cap F B fr sf g gs rest srest) {I : Instr}
    (hI : B.body[fr.idx]? = some I) (hE : h.Env V st0) {st : PSt} {r : Reg} {s : SV} {p : Pt}
    {xs : List SV} {d : Option Nat}
    (hv : visitInstr (dom fr.fn) F fr.blk fr.idx st0 I = (st.setShadow r s).close p xs d) :
    Below st (instrument (dom fr.fn) F).st := by
  have := hE.ext.toBelow
  rw [visitPt_ins h.here.block hI, hv] at this
  exact (below_finish _ _ _ _ _ _).trans this

/-- An instruction that only computes a value. -/
theorem Here.value (h : Here dom P cap F B fr sf g gs rest srest) {I : Instr}
    (hI : B.body[fr.idx]? = some I) (hE : h.Env V st0) {st : PSt} {s : SV}
    (hv : visitInstr (dom fr.fn) F fr.blk fr.idx st0 I =
      (st.setShadow (.ins fr.blk fr.idx) s).close (fr.blk, fr.idx + 1) [] none) {v : Nat}
    {T : Nat × Nat → Prop}
    (hrun : ∀ x, RunInv F (instrument (dom fr.fn) F).st (fr.blk, fr.idx + 1) st0 fr g (I.cost vv av) st x →
      istepInstr P inp src ((instrument (dom fr.fn) F).st.ann (fr.blk, fr.idx + 1)) x.1 rest x.2 I =
        .ok (.next ⟨x.1.set v :: rest, x.2⟩))
    (hgo : Goes cap (I.cost vv av) g.L (sexecs avoid st.em fr g) (fun x =>
      RunInv F (instrument (dom fr.fn) F).st (fr.blk, fr.idx + 1) st0 fr g (I.cost vv av) st x ∧
        Den x.2.L (labS x.1.senv x.1.sargs s) T)) :
    Goes cap (Instr.cost vv av I) g.L (sexecs avoid ((instrument (dom fr.fn) F).st.ann (fr.blk, fr.idx + 1)).pre fr g)
      (After dom P cap inp src vv av g rest I ((instrument (dom fr.fn) F).st.ann (fr.blk, fr.idx + 1))
        fr.idx ⟨sf.set (v, T) :: srest, gs⟩) := by
  have hvp := visitPt_ins (dom := dom fr.fn) h.here.block hI st0
  rw [hv] at hvp
  have hann : ((instrument (dom fr.fn) F).st.ann (fr.blk, fr.idx + 1)).pre = st.em := by
    rw [hE.ann, hvp]; simp [PSt.close, PSt.setShadow]
  have hsh : (instrument (dom fr.fn) F).st.shadow (.ins fr.blk fr.idx) = some s := by
    rw [hE.shadow (r := .ins fr.blk fr.idx) rfl, hvp]; simp [PSt.close, PSt.setShadow]
  rw [hann]
  refine hgo.mono ?_
  rintro x ⟨hx, hd⟩
  refine ⟨by rw [hx.frame], ?_⟩
  rw [hrun x hx]
  refine .ok ⟨_, rfl, h.next (vv := vv) (av := av) hI (by rw [hx.frame]; rfl) (by rw [hx.frame]; rfl) (by rw [hx.frame]; rfl)
    (FRel.finish hE rfl rfl h.here.block (List.getElem?_eq_some_iff.1 hI).1 h.here.rel h.glob.store hx
      (by rw [hvp]; rfl) (by rw [hsh]; exact hd)) ?_ hx.grows, .of hx.grows (by rw [hx.glob]) (by show x.2.pos = _; rw [hx.glob])⟩
  have := h.glob.grows hx.grows
  rw [hx.glob]
  exact this

theorem op_sim (h : Here dom P cap F B fr sf g gs rest srest) (hE : h.Env V st0) {f : List Nat → Nat}
    {args : List Opd} (hI : B.body[fr.idx]? = some (.op f args)) :
    Goes cap (Instr.cost vv av (.op f args)) g.L (sexecs avoid ((instrument (dom fr.fn) F).st.ann (fr.blk, fr.idx + 1)).pre fr g)
      (After dom P cap inp src vv av g rest (.op f args)
        ((instrument (dom fr.fn) F).st.ann (fr.blk, fr.idx + 1)) fr.idx
        ⟨sf.set (f ((args.map (sf.get (sets src))).map (·.1)),
          (sets src).all ((args.map (sf.get (sets src))).map (·.2))) :: srest, gs⟩) := by
  have hn := (h.prog _ _ h.here.func).2.1
  have hu : ∀ o ∈ args, F.Usable (fr.blk, fr.idx + 1) o := fun o ho => h.usable hI ho
  have hv : visitInstr (dom fr.fn) F fr.blk fr.idx st0 (.op f args) =
      ((combineOperands (dom fr.fn) F (fr.blk, fr.idx + 1) st0 args).1.setShadow (.ins fr.blk fr.idx)
        (combineOperands (dom fr.fn) F (fr.blk, fr.idx + 1) st0 args).2).close (fr.blk, fr.idx + 1) []
        none := rfl
  have hbel : Below (combineOperands (dom fr.fn) F (fr.blk, fr.idx + 1) st0 args).1
      (instrument (dom fr.fn) F).st := h.below hI hE hv
  refine h.value hI hE hv ?_ ((combineOperands_run hE h.glob.store avoid
    (fun o => (sf.get (sets src) o).2) args (.first hE h.here.rel) hu
    (fun o ho => den_opd hE h.here.rel h.glob.store hn src (hu o ho)) hbel).mono ?_)
  · intro x hx
    simp only [istepInstr]
    rw [← h.here.rel.gets src, show args.map x.1.get = args.map fr.get from
      List.map_congr_left (fun o _ => hx.get o)]
    rfl
  · rintro x ⟨hx, hd⟩
    refine ⟨hx, hd.congr (fun b => ?_)⟩
    rw [all_sets]
    simp

/-- An instruction whose result is not tainted and that needs no code. -/
theorem zero_run (h : Here dom P cap F B fr sf g gs rest srest) (hE : h.Env V st0) (k : Nat) :
    Goes cap k g.L (sexecs avoid st0.em fr g) (fun x =>
      RunInv F (instrument (dom fr.fn) F).st (fr.blk, fr.idx + 1) st0 fr g k st0 x ∧
        Den x.2.L (labS x.1.senv x.1.sargs .zero) (fun _ => False)) := by
  rw [hE.em0]
  exact .ok ⟨(RunInv.first hE h.here.rel).weak (Nat.zero_le k), h.glob.store.den_zero⟩

theorem untracked_sim (h : Here dom P cap F B fr sf g gs rest srest) (hE : h.Env V st0)
    {f : List Nat → Nat} {args : List Opd} (hI : B.body[fr.idx]? = some (.untracked f args)) :
    Goes cap (Instr.cost vv av (.untracked f args)) g.L (sexecs avoid ((instrument (dom fr.fn) F).st.ann (fr.blk, fr.idx + 1)).pre fr g)
      (After dom P cap inp src vv av g rest (.untracked f args)
        ((instrument (dom fr.fn) F).st.ann (fr.blk, fr.idx + 1)) fr.idx
        ⟨sf.set (f ((args.map (sf.get (sets src))).map (·.1)), (sets src).zero) :: srest, gs⟩) := by
  refine h.value hI hE (st := st0) (s := .zero) rfl ?_ (zero_run h hE _)
  intro x hx
  simp only [istepInstr]
  rw [← h.here.rel.gets src, show args.map x.1.get = args.map fr.get from
    List.map_congr_left (fun o _ => hx.get o)]
  rfl

theorem readInt_congr {m m' : Nat → Nat} : ∀ (n a : Nat), (∀ x, a ≤ x → x < a + n → m x = m' x) →
    readInt m a n = readInt m' a n := by
  intro n
  induction n with
  | zero => intro a _; rfl
  | succ n ih =>
    intro a h
    simp only [readInt]
    rw [h a (Nat.le_refl _) (by omega), ih (a + 1) (fun x h1 h2 => h x (by omega) (by omega))]

theorem isApp_of_access {a n x : Nat} (h : CanAccess a n) (h1 : a ≤ x) (h2 : x < a + n) : IsApp x := by
  obtain ⟨h3, h4, -⟩ := h
  exact ⟨by omega, by omega⟩

/-- The first shadow at a place, made by one instruction. -/
theorem first_put (h : Here dom P cap F B fr sf g gs rest srest) (hE : h.Env V st0) {st1 : PSt}
    (hn : st1.next = st0.next + 1) (hp : st1.place st0.next = (fr.blk, fr.idx + 1))
    (he : st1.elems = st0.elems) (hb : Below st1 (instrument (dom fr.fn) F).st) {l : Nat} {L' : Labels}
    {ms : List Event} {k : Nat} (hg : GrowsM ms k g.L L') (hl : l < L'.words.length) :
    RunInv F (instrument (dom fr.fn) F).st (fr.blk, fr.idx + 1) st0 fr g k st1
      (fr.put st0.next l, { g with L := L' }) ms := by
  have := (RunInv.first hE h.here.rel).put hE h.glob.store (Nat.le_refl _) hn hp hb hg hl (by
    intro E e
    rw [he, elems_new hE.inv0] at e
    cases e)
  rwa [Nat.zero_add] at this

theorem load_sim (h : Here dom P cap F B fr sf g gs rest srest) (hE : h.Env V st0) {a : Opd} {n : Nat}
    (hI : B.body[fr.idx]? = some (.load a n)) (h0 : n ≠ 0)
    (ha : CanAccess (sf.get (sets src) a).1 n) :
    Goes cap (Instr.cost vv av (.load a n)) g.L (sexecs avoid ((instrument (dom fr.fn) F).st.ann (fr.blk, fr.idx + 1)).pre fr g)
      (After dom P cap inp src vv av g rest (.load a n)
        ((instrument (dom fr.fn) F).st.ann (fr.blk, fr.idx + 1)) fr.idx
        ⟨sf.set (readInt gs.mem (sf.get (sets src) a).1 n,
          (sets src).join ((sets src).all ((List.range n).map
            (fun i => gs.tmem ((sf.get (sets src) a).1 + i)))) (sf.get (sets src) a).2) :: srest, gs⟩) := by
  have hn := (h.prog _ _ h.here.func).2.1
  have hu : F.Usable (fr.blk, fr.idx + 1) a := h.usable hI (by simp [Instr.opds])
  have hget := h.here.rel.get src a
  rw [← hget] at ha ⊢
  -- the states of the pass
  have hm0 : Mid F V (fr.blk, fr.idx + 1) st0 st0 := .start hE.inv0
  have hm1 := hm0.fresh.emit ((st0.fresh (fr.blk, fr.idx + 1)).1.em ++ [.load st0.next a n])
  generalize hst1 : ({ (st0.fresh (fr.blk, fr.idx + 1)).1 with
    em := (st0.fresh (fr.blk, fr.idx + 1)).1.em ++ [.load st0.next a n] } : PSt) = st1 at hm1
  have hok1 : st1.OkAt F (fr.blk, fr.idx + 1) (.v st0.next) := by rw [← hst1]; exact okAt_fresh _
  have hok2 := hm1.getShadow hu
  have hem1 : st1.em = [.load st0.next a n] := by rw [← hst1]; simp [PSt.fresh, hE.em0]
  obtain ⟨m1, m2, m3⟩ := hm1.combine hE.ctx hE.ds hok1 hok2
  generalize hc : combine (dom fr.fn) (fr.blk, fr.idx + 1) st1 (.v st0.next) (st1.getShadow F a) = c at m1 m2 m3
  have hv : visitInstr (dom fr.fn) F fr.blk fr.idx st0 (.load a n) =
      (c.1.setShadow (.ins fr.blk fr.idx) c.2).close (fr.blk, fr.idx + 1) [] none := by
    unfold visitInstr
    dsimp only
    rw [if_neg h0, ← hc, ← hst1]
    rfl
  have hbel : Below c.1 (instrument (dom fr.fn) F).st := h.below hI hE hv
  refine h.value hI hE hv ?_ ?_
  · intro x hx
    simp only [istepInstr]
    rw [if_neg h0, hx.get, if_pos ha, hx.glob]
    simp only [Res.pure_eq]
    rw [readInt_congr n (fr.get a) (fun y h1 h2 => h.glob.mem y (isApp_of_access ha h1 h2))]
  · obtain ⟨ins, hins⟩ := combine_em (dom fr.fn) (fr.blk, fr.idx + 1) st1 (.v st0.next) (st1.getShadow F a)
    rw [hc] at hins
    rw [hins, hem1, sexecs_append]
    have happ : IsApp (fr.get a) := isApp_of_access ha (Nat.le_refl _) (by omega)
    have hload := goes_of_combines (loadShadow_combines (avoid := avoid) (started := true)
      h.glob.store.good h.glob.store.cap (Or.inl rfl) h.glob.bytes happ ha.2.1
      (fun i hi => (h.glob.lab _ (isApp_of_access ha (Nat.le_add_right _ i) (by omega))).1))
    rw [sexecs_one]
    simp only [sexec]
    refine Goes.bind (Goes.bind (hload.weak (by simp only [Instr.cost]; omega)) (R := fun x =>
      RunInv F (instrument (dom fr.fn) F).st (fr.blk, fr.idx + 1) st0 fr g (n - 1) st1 x ∧
      Den x.2.L (labS x.1.senv x.1.sargs (.v st0.next))
        ((sets src).all ((List.range n).map (fun i => gs.tmem (fr.get a + i))))) ?_) ?_
    · rintro ⟨L', l⟩ ⟨hgr, hd⟩
      refine .ok ⟨first_put h hE (by rw [← hst1]; rfl) (by rw [← hst1]; simp [PSt.fresh])
        (by rw [← hst1]; rfl) (m2.trans hbel) hgr hd.1, ?_⟩
      simp only [IFrame.put, labS, if_true]
      refine hd.congr (fun b => ?_)
      rw [all_sets]
      simp only [List.mem_map, List.mem_range]
      constructor
      · rintro ⟨i, hi, hb⟩
        exact ⟨_, ⟨i, hi, rfl⟩, ((h.glob.lab _ (isApp_of_access ha (Nat.le_add_right _ i) (by omega))).2 b).1 hb⟩
      · rintro ⟨t, ⟨i, hi, rfl⟩, hb⟩
        exact ⟨i, hi, ((h.glob.lab _ (isApp_of_access ha (Nat.le_add_right _ i) (by omega))).2 b).2 hb⟩
    · rintro x ⟨hx, hd⟩
      have hda : Den x.2.L (labS x.1.senv x.1.sargs (st1.getShadow F a)) (sf.get (sets src) a).2 := by
        rw [getShadow_congr hm1.shadow]
        exact hx.den_keep h.glob.store (hE.opd hu) (den_opd hE h.here.rel h.glob.store hn src hu)
      have := combine_run hE h.glob.store hm1 hx hok1 hok2 (by rw [hc]; exact hbel) hd hda avoid ins
        (by rw [hc]; exact hins)
      rw [hc, show n - 1 + 1 = n by omega] at this
      exact this

theorem zero_sim (h : Here dom P cap F B fr sf g gs rest srest) (hE : h.Env V st0) {I : Instr}
    (hI : B.body[fr.idx]? = some I) (v : Nat)
    (hv : visitInstr (dom fr.fn) F fr.blk fr.idx st0 I =
      (st0.setShadow (.ins fr.blk fr.idx) .zero).close (fr.blk, fr.idx + 1) [] none)
    (hrun : ∀ x, RunInv F (instrument (dom fr.fn) F).st (fr.blk, fr.idx + 1) st0 fr g (I.cost vv av) st0 x →
      istepInstr P inp src ((instrument (dom fr.fn) F).st.ann (fr.blk, fr.idx + 1)) x.1 rest x.2 I =
        .ok (.next ⟨x.1.set v :: rest, x.2⟩)) :
    Goes cap (Instr.cost vv av I) g.L (sexecs avoid ((instrument (dom fr.fn) F).st.ann (fr.blk, fr.idx + 1)).pre fr g)
      (After dom P cap inp src vv av g rest I
        ((instrument (dom fr.fn) F).st.ann (fr.blk, fr.idx + 1)) fr.idx
        ⟨sf.set (v, (sets src).zero) :: srest, gs⟩) :=
  h.value hI hE hv hrun (zero_run h hE _)

theorem load0_sim (h : Here dom P cap F B fr sf g gs rest srest) (hE : h.Env V st0) {a : Opd}
    (hI : B.body[fr.idx]? = some (.load a 0)) :
    Goes cap (Instr.cost vv av (.load a 0)) g.L (sexecs avoid ((instrument (dom fr.fn) F).st.ann (fr.blk, fr.idx + 1)).pre fr g)
      (After dom P cap inp src vv av g rest (.load a 0)
        ((instrument (dom fr.fn) F).st.ann (fr.blk, fr.idx + 1)) fr.idx
        ⟨sf.set (0, (sets src).zero) :: srest, gs⟩) :=
  zero_sim h hE hI 0 rfl (fun _ _ => rfl)

theorem select_sim (h : Here dom P cap F B fr sf g gs rest srest) (hE : h.Env V st0) {c t e : Opd}
    (hI : B.body[fr.idx]? = some (.select c t e)) {y : Nat × (Nat × Nat → Prop)}
    (hy : y = if (sf.get (sets src) c).1 ≠ 0 then sf.get (sets src) t else sf.get (sets src) e) :
    Goes cap (Instr.cost vv av (.select c t e)) g.L (sexecs avoid ((instrument (dom fr.fn) F).st.ann (fr.blk, fr.idx + 1)).pre fr g)
      (After dom P cap inp src vv av g rest (.select c t e)
        ((instrument (dom fr.fn) F).st.ann (fr.blk, fr.idx + 1)) fr.idx
        ⟨sf.set (y.1, (sets src).join (sf.get (sets src) c).2 y.2) :: srest, gs⟩) := by
  have hn := (h.prog _ _ h.here.func).2.1
  have huc : F.Usable (fr.blk, fr.idx + 1) c := h.usable hI (by simp [Instr.opds])
  have hut : F.Usable (fr.blk, fr.idx + 1) t := h.usable hI (by simp [Instr.opds])
  have hue : F.Usable (fr.blk, fr.idx + 1) e := h.usable hI (by simp [Instr.opds])
  have hdc := den_opd hE h.here.rel h.glob.store hn src huc
  have hdt := den_opd hE h.here.rel h.glob.store hn src hut
  have hde := den_opd hE h.here.rel h.glob.store hn src hue
  have hm0 : Mid F V (fr.blk, fr.idx + 1) st0 st0 := .start hE.inv0
  have hval : ∀ x : IFrame × IGlob, (∀ o, x.1.get o = fr.get o) →
      istepInstr P inp src ((instrument (dom fr.fn) F).st.ann (fr.blk, fr.idx + 1)) x.1 rest x.2
        (.select c t e) = .ok (.next ⟨x.1.set y.1 :: rest, x.2⟩) := by
    intro x hx
    simp only [istepInstr, hx, h.here.rel.get src, hy]
    split <;> rfl
  by_cases ht : st0.getShadow F t = st0.getShadow F e
  · have hv : visitInstr (dom fr.fn) F fr.blk fr.idx st0 (.select c t e) =
        ((combine (dom fr.fn) (fr.blk, fr.idx + 1) st0 (st0.getShadow F c)
          (st0.getShadow F t)).1.setShadow (.ins fr.blk fr.idx) (combine (dom fr.fn) (fr.blk, fr.idx + 1)
          st0 (st0.getShadow F c) (st0.getShadow F t)).2).close (fr.blk, fr.idx + 1) [] none := by
      unfold visitInstr
      dsimp only
      rw [if_pos ht]
    have hx0 := RunInv.first hE h.here.rel
    refine h.value hI hE hv (fun x hx => hval x hx.get) ?_
    refine combine_run hE h.glob.store hm0 hx0 (hm0.getShadow huc) (hm0.getShadow hut)
      (h.below hI hE hv) hdc ?_ avoid _ (by rw [hE.em0]; rfl)
    rw [hy]
    split
    · exact hdt
    · rw [ht]; exact hde
  · have hm1 := hm0.fresh.emit ((st0.fresh (fr.blk, fr.idx + 1)).1.em ++
      [.sel st0.next c (st0.getShadow F t) (st0.getShadow F e)])
    generalize hst1 : ({ (st0.fresh (fr.blk, fr.idx + 1)).1 with
      em := (st0.fresh (fr.blk, fr.idx + 1)).1.em ++
        [.sel st0.next c (st0.getShadow F t) (st0.getShadow F e)] } : PSt) = st1 at hm1
    have hok1 : st1.OkAt F (fr.blk, fr.idx + 1) (.v st0.next) := by rw [← hst1]; exact okAt_fresh _
    have hsh1 : ∀ o, st1.getShadow F o = st0.getShadow F o := getShadow_congr hm1.shadow
    have hok2 : st1.OkAt F (fr.blk, fr.idx + 1) (st0.getShadow F c) := by
      rw [← hsh1]; exact hm1.getShadow huc
    have hem1 : st1.em = [.sel st0.next c (st0.getShadow F t) (st0.getShadow F e)] := by
      rw [← hst1]; simp [PSt.fresh, hE.em0]
    obtain ⟨m1, m2, m3⟩ := hm1.combine hE.ctx hE.ds hok2 hok1
    generalize hc : combine (dom fr.fn) (fr.blk, fr.idx + 1) st1 (st0.getShadow F c) (.v st0.next) = k
      at m1 m2 m3
    have hv : visitInstr (dom fr.fn) F fr.blk fr.idx st0 (.select c t e) =
        (k.1.setShadow (.ins fr.blk fr.idx) k.2).close (fr.blk, fr.idx + 1) [] none := by
      unfold visitInstr
      dsimp only
      rw [if_neg ht, ← hc, ← hst1]
      rfl
    have hbel := h.below hI hE hv
    refine h.value hI hE hv (fun x hx => hval x hx.get) ?_
    obtain ⟨ins, hins⟩ := combine_em (dom fr.fn) (fr.blk, fr.idx + 1) st1 (st0.getShadow F c) (.v st0.next)
    rw [hc] at hins
    rw [hins, hem1, sexecs_append, sexecs_one]
    simp only [sexec]
    have hdl : Den g.L (if fr.get c ≠ 0 then fr.lab (st0.getShadow F t) else fr.lab (st0.getShadow F e))
        y.2 := by
      rw [hy, h.here.rel.get src, lab_eq, lab_eq]
      split
      · exact hdt
      · exact hde
    have hx1 := first_put h hE (by rw [← hst1]; rfl) (by rw [← hst1]; simp [PSt.fresh])
        (by rw [← hst1]; rfl) (m2.trans hbel) (k := 0) (.refl _) hdl.1
    have := combine_run hE h.glob.store hm1 hx1 hok2 hok1 (by rw [hc]; exact hbel)
      (hx1.den_keep h.glob.store (hE.opd huc) hdc)
      (B := y.2) (by simp only [IFrame.put, labS, if_true]; exact hdl) avoid ins
      (by rw [hc]; exact hins)
    rw [hc] at this
    exact this

theorem getVar_sim (h : Here dom P cap F B fr sf g gs rest srest) (hE : h.Env V st0) {k : Nat}
    (hI : B.body[fr.idx]? = some (.getVar k)) :
    Goes cap (Instr.cost vv av (.getVar k)) g.L (sexecs avoid ((instrument (dom fr.fn) F).st.ann (fr.blk, fr.idx + 1)).pre fr g)
      (After dom P cap inp src vv av g rest (.getVar k)
        ((instrument (dom fr.fn) F).st.ann (fr.blk, fr.idx + 1)) fr.idx
        ⟨sf.set (sf.vars k) :: srest, gs⟩) := by
  have hv : visitInstr (dom fr.fn) F fr.blk fr.idx st0 (.getVar k) =
      ((((st0.fresh (fr.blk, fr.idx + 1)).1.emit (.getVar st0.next k))).setShadow (.ins fr.blk fr.idx)
        (.v st0.next)).close (fr.blk, fr.idx + 1) [] none := by
    unfold visitInstr
    dsimp only
    unfold combine
    rw [if_neg (by simp), if_pos rfl]
    rfl
  refine h.value hI hE hv ?_ (T := (sf.vars k).2) (v := (sf.vars k).1) ?_
  · intro x hx
    simp only [istepInstr]
    rw [show x.1.vars = fr.vars by rw [hx.frame], h.here.rel.vars]
    rfl
  · rw [show ((st0.fresh (fr.blk, fr.idx + 1)).1.emit (.getVar st0.next k)).em = [.getVar st0.next k] by
      simp [PSt.fresh, PSt.emit, hE.em0], sexecs_one]
    have hd := h.here.rel.svars k
    refine .ok ⟨first_put h hE (st1 := (st0.fresh (fr.blk, fr.idx + 1)).1.emit (.getVar st0.next k)) rfl
      (by simp [PSt.fresh, PSt.emit]) rfl (h.below hI hE hv) (.refl _) hd.1, ?_⟩
    simp only [IFrame.put, labS, if_true]
    exact hd

/-- An instruction without a shadow. -/
theorem Here.plain (h : Here dom P cap F B fr sf g gs rest srest) {I : Instr}
    (hI : B.body[fr.idx]? = some I) (hE : h.Env V st0) {em : List SIns} {xs : List SV}
    (hv : visitInstr (dom fr.fn) F fr.blk fr.idx st0 I =
      ({ st0 with em } : PSt).close (fr.blk, fr.idx + 1) xs none) :
    ((instrument (dom fr.fn) F).st.ann (fr.blk, fr.idx + 1)) = ⟨em, xs, none⟩ ∧
    FRel F (instrument (dom fr.fn) F).st (fr.blk, fr.idx + 2) (fr.set 0)
      (sf.set (0, fun _ => False)) g.L := by
  have hvp := visitPt_ins (dom := dom fr.fn) h.here.block hI st0
  rw [hv] at hvp
  constructor
  · rw [hE.ann, hvp]; simp [PSt.close]
  · refine FRel.finish hE rfl rfl h.here.block (List.getElem?_eq_some_iff.1 hI).1 h.here.rel h.glob.store
      (.first hE h.here.rel) (by rw [hvp]; rfl) ?_
    rw [hE.shadow (r := .ins fr.blk fr.idx) rfl, hvp]
    simp only [PSt.close]
    rw [hE.shadow_none rfl]
    exact h.glob.store.den_zero

theorem store0_sim (h : Here dom P cap F B fr sf g gs rest srest) (hE : h.Env V st0) {a v : Opd}
    (hI : B.body[fr.idx]? = some (.store a v 0)) :
    Goes cap (Instr.cost vv av (.store a v 0)) g.L (sexecs avoid ((instrument (dom fr.fn) F).st.ann (fr.blk, fr.idx + 1)).pre fr g)
      (After dom P cap inp src vv av g rest (.store a v 0)
        ((instrument (dom fr.fn) F).st.ann (fr.blk, fr.idx + 1)) fr.idx
        ⟨sf.set (0, (sets src).zero) :: srest, gs⟩) := by
  obtain ⟨h1, h2⟩ := h.plain hI hE (em := st0.em) (xs := []) rfl
  rw [h1, hE.em0]
  exact .ok ⟨rfl, .ok ⟨_, rfl, h.next (vv := vv) (av := av) hI rfl rfl rfl h2 h.glob (.refl _), .quiet rfl rfl⟩⟩

theorem alloca_sim (h : Here dom P cap F B fr sf g gs rest srest) (hE : h.Env V st0) {n : Nat}
    (hI : B.body[fr.idx]? = some (.alloca n)) :
    Goes cap (Instr.cost vv av (.alloca n)) g.L (sexecs avoid ((instrument (dom fr.fn) F).st.ann (fr.blk, fr.idx + 1)).pre fr g)
      (After dom P cap inp src vv av g rest (.alloca n)
        ((instrument (dom fr.fn) F).st.ann (fr.blk, fr.idx + 1)) fr.idx
        ⟨sf.set (gs.sp - n, (sets src).zero) :: srest, { gs with sp := gs.sp - n }⟩) := by
  have hvp := visitPt_ins (dom := dom fr.fn) h.here.block hI st0
  have hann : ((instrument (dom fr.fn) F).st.ann (fr.blk, fr.idx + 1)).pre = [] := by
    rw [hE.ann, hvp]; simp [visitInstr, PSt.close, PSt.setShadow, hE.em0]
  rw [hann]
  refine .ok ⟨rfl, .ok ⟨_, rfl, h.next (vv := vv) (av := av) hI rfl rfl rfl ?_ ?_ (.refl _), .quiet rfl rfl⟩⟩
  · rw [h.glob.sp]
    refine FRel.finish hE rfl rfl h.here.block (List.getElem?_eq_some_iff.1 hI).1 h.here.rel h.glob.store
      (.first hE h.here.rel) (by rw [hvp]; rfl) ?_
    rw [hE.shadow (r := .ins fr.blk fr.idx) rfl, hvp]
    simp only [visitInstr, PSt.close, PSt.setShadow, if_true, Option.getD_some]
    exact h.glob.store.den_zero
  · exact { h.glob with sp := by simp only; rw [h.glob.sp] }

theorem lt32 {L : Labels} (hs : Store cap L) {l : Nat} (hl : l < L.words.length) : l < 2 ^ 32 := by
  have h1 := hs.good.wf.cap
  have h2 := hs.good.wf.fits
  omega

theorem store_sim (h : Here dom P cap F B fr sf g gs rest srest) (hE : h.Env V st0) {a v : Opd} {n : Nat}
    (hI : B.body[fr.idx]? = some (.store a v n)) (h0 : n ≠ 0)
    (ha : CanAccess (sf.get (sets src) a).1 n) :
    Goes cap (Instr.cost vv av (.store a v n)) g.L (sexecs avoid ((instrument (dom fr.fn) F).st.ann (fr.blk, fr.idx + 1)).pre fr g)
      (After dom P cap inp src vv av g rest (.store a v n)
        ((instrument (dom fr.fn) F).st.ann (fr.blk, fr.idx + 1)) fr.idx
        ⟨sf.set (0, (sets src).zero) :: srest,
          { gs with
            mem := putInt gs.mem (sf.get (sets src) a).1 n (sf.get (sets src) v).1
            tmem := putAll gs.tmem (sf.get (sets src) a).1 n (sf.get (sets src) v).2 }⟩) := by
  have hn := (h.prog _ _ h.here.func).2.1
  have huv : F.Usable (fr.blk, fr.idx + 1) v := h.usable hI (by simp [Instr.opds])
  have hdv := den_opd hE h.here.rel h.glob.store hn src huv
  obtain ⟨h1, h2⟩ := h.plain hI hE (em := st0.em ++ [.store a n (st0.getShadow F v)]) (xs := []) (by
    unfold visitInstr; dsimp only; rw [if_neg h0]; rfl)
  rw [h1, hE.em0, List.nil_append, sexecs_one]
  have hga := h.here.rel.get src a
  have hgv := h.here.rel.get src v
  rw [← hga, ← hgv]
  rw [← hga] at ha
  rw [← lab_eq] at hdv
  refine .ok ⟨rfl, ?_⟩
  simp only [istepInstr]
  rw [if_neg h0, if_pos ha]
  have happ : IsApp (fr.get a) := isApp_of_access ha (Nat.le_refl _) (by omega)
  have hz : decide (st0.getShadow F v = .zero) = true → fr.lab (st0.getShadow F v) = 0 := by
    intro e
    rw [of_decide_eq_true e]; rfl
  obtain ⟨c1, c2⟩ := C45_store g.mem (decide (st0.getShadow F v = .zero)) (fr.get a) n (fr.get v)
    (fr.lab (st0.getShadow F v)) ha.2.2 (lt32 h.glob.store hdv.1) hz happ ha.2.1
  have hbytes := h.glob.bytes.storeInst (decide (st0.getShadow F v = .zero)) (fr.get a) n (fr.get v)
    (fr.lab (st0.getShadow F v))
  have heq : storeInst (decide (st0.getShadow F v = .zero)) g.mem (fr.get a) n (fr.get v)
      (fr.lab (st0.getShadow F v)) = writeInt (storeShadow (decide (st0.getShadow F v = .zero)) g.mem
        (fr.get a) n (fr.lab (st0.getShadow F v))) (fr.get a) n (fr.get v) := by
    unfold storeInst; rw [if_neg h0]
  rw [heq] at c1 c2 hbytes
  refine .ok ⟨_, rfl, h.next (vv := vv) (av := av) hI rfl rfl rfl h2 ?_ (.refl _), .quiet rfl rfl⟩
  refine { h.glob with bytes := hbytes, mem := ?_, lab := ?_ }
  · intro b hb
    simp only [putInt]
    rw [c2 b hb, h.glob.mem b hb]
  · intro b hb
    simp only [putAll]
    rw [c1 b hb]
    unfold fill
    split
    · exact hdv
    · exact h.glob.lab b hb

theorem rmw_sim (h : Here dom P cap F B fr sf g gs rest srest) (hE : h.Env V st0)
    {f : Nat → List Nat → Nat × Nat} {a : Opd} {args : List Opd} {n : Nat}
    (hI : B.body[fr.idx]? = some (.rmw f a args n)) (h0 : 0 < n)
    (ha : CanAccess (sf.get (sets src) a).1 n) :
    Goes cap (Instr.cost vv av (.rmw f a args n)) g.L (sexecs avoid ((instrument (dom fr.fn) F).st.ann (fr.blk, fr.idx + 1)).pre fr g)
      (After dom P cap inp src vv av g rest (.rmw f a args n)
        ((instrument (dom fr.fn) F).st.ann (fr.blk, fr.idx + 1)) fr.idx
        ⟨sf.set ((f (readInt gs.mem (sf.get (sets src) a).1 n)
            ((args.map (sf.get (sets src))).map (·.1))).2, (sets src).zero) :: srest,
          { gs with
            mem := putInt gs.mem (sf.get (sets src) a).1 n (f (readInt gs.mem (sf.get (sets src) a).1 n)
              ((args.map (sf.get (sets src))).map (·.1))).1
            tmem := putAll gs.tmem (sf.get (sets src) a).1 n (sets src).zero }⟩) := by
  have hvp := visitPt_ins (dom := dom fr.fn) h.here.block hI st0
  have hann : ((instrument (dom fr.fn) F).st.ann (fr.blk, fr.idx + 1)).pre = [.store a n .zero] := by
    rw [hE.ann, hvp]; simp [visitInstr, PSt.close, PSt.setShadow, PSt.emit, hE.em0]
  rw [hann, sexecs_one]
  have hga := h.here.rel.get src a
  rw [← hga] at ha ⊢
  have hargs : (args.map (sf.get (sets src))).map (·.1) = args.map fr.get := by
    rw [List.map_map]
    exact List.map_congr_left (fun o _ => (h.here.rel.get src o).symm)
  rw [hargs]
  have happ : IsApp (fr.get a) := isApp_of_access ha (Nat.le_refl _) (by omega)
  refine .ok ⟨rfl, ?_⟩
  simp only [istepInstr]
  rw [if_pos ⟨h0, ha⟩]
  have hread : readInt (storeShadow (decide True) g.mem (fr.get a) n (fr.lab .zero)) (fr.get a) n =
      readInt gs.mem (fr.get a) n := by
    refine readInt_congr n (fr.get a) (fun y h1 h2 => ?_)
    have hy := isApp_of_access ha h1 h2
    rw [C45_store_data g.mem (decide True) (fr.get a) n (fr.lab .zero) ha.2.2 (by simp [IFrame.lab]) (fun _ => rfl) happ ha.2.1 y hy]
    exact h.glob.mem y hy
  rw [hread]
  obtain ⟨c1, c2⟩ := C45_store g.mem (decide True) (fr.get a) n
    (f (readInt gs.mem (fr.get a) n) (args.map fr.get)).1
    (fr.lab .zero) ha.2.2 (by simp [IFrame.lab]) (fun _ => rfl) happ ha.2.1
  have hbytes := h.glob.bytes.storeInst (decide True) (fr.get a) n
    (f (readInt gs.mem (fr.get a) n) (args.map fr.get)).1 (fr.lab .zero)
  have heq : ∀ v, storeInst (decide True) g.mem (fr.get a) n v
      (fr.lab .zero) = writeInt (storeShadow (decide True) g.mem
        (fr.get a) n (fr.lab .zero)) (fr.get a) n v := by
    intro v; unfold storeInst; rw [if_neg (by omega)]
  rw [heq] at c1 c2 hbytes
  refine .ok ⟨_, rfl, h.next (vv := vv) (av := av) hI rfl rfl rfl ?_ ?_ (.refl _), .quiet rfl rfl⟩
  · refine FRel.finish hE rfl rfl h.here.block (List.getElem?_eq_some_iff.1 hI).1 h.here.rel h.glob.store
      (.first hE h.here.rel) (by rw [hvp]; rfl) ?_
    rw [hE.shadow (r := .ins fr.blk fr.idx) rfl, hvp]
    simp only [visitInstr, PSt.close, PSt.setShadow, if_true, Option.getD_some]
    exact h.glob.store.den_zero
  · refine { h.glob with bytes := hbytes, mem := ?_, lab := ?_ }
    · intro b hb
      simp only [putInt]
      rw [c2 b hb, h.glob.mem b hb]
    · intro b hb
      simp only [putAll]
      rw [c1 b hb]
      unfold fill
      split
      · exact h.glob.store.den_zero
      · exact h.glob.lab b hb

theorem setVar_sim (h : Here dom P cap F B fr sf g gs rest srest) (hE : h.Env V st0) {k : Nat} {v : Opd}
    (hI : B.body[fr.idx]? = some (.setVar k v)) :
    Goes cap (Instr.cost vv av (.setVar k v)) g.L (sexecs avoid ((instrument (dom fr.fn) F).st.ann (fr.blk, fr.idx + 1)).pre fr g)
      (After dom P cap inp src vv av g rest (.setVar k v)
        ((instrument (dom fr.fn) F).st.ann (fr.blk, fr.idx + 1)) fr.idx
        ⟨{ sf.set (0, (sets src).zero) with
          vars := fun i => if i = k then sf.get (sets src) v else sf.vars i } :: srest, gs⟩) := by
  have hn := (h.prog _ _ h.here.func).2.1
  have huv : F.Usable (fr.blk, fr.idx + 1) v := h.usable hI (by simp [Instr.opds])
  have hdv := den_opd hE h.here.rel h.glob.store hn src huv
  obtain ⟨h1, h2⟩ := h.plain hI hE (em := st0.em ++ [.setVar k (st0.getShadow F v)]) (xs := []) rfl
  rw [h1, hE.em0, List.nil_append, sexecs_one]
  refine .ok ⟨rfl, .ok ⟨_, rfl, h.next (vv := vv) (av := av) hI rfl rfl rfl ?_ h.glob (.refl _), .quiet rfl rfl⟩⟩
  refine ⟨h2.fn, h2.blk, h2.idx, h2.sp, h2.env, h2.args, ?_, h2.lab, h2.regs, h2.sargs, ?_⟩
  · intro i
    simp only
    split
    · rw [← h.here.rel.get src]; cases v <;> rfl
    · exact h2.vars i
  · intro i
    simp only [IFrame.set]
    split
    · rw [lab_eq]; exact hdv
    · exact h2.svars i

theorem putc_sim (h : Here dom P cap F B fr sf g gs rest srest) (hE : h.Env V st0) {v : Opd}
    (hI : B.body[fr.idx]? = some (.putc v)) :
    Goes cap (Instr.cost vv av (.putc v)) g.L (sexecs avoid ((instrument (dom fr.fn) F).st.ann (fr.blk, fr.idx + 1)).pre fr g)
      (After dom P cap inp src vv av g rest (.putc v)
        ((instrument (dom fr.fn) F).st.ann (fr.blk, fr.idx + 1)) fr.idx
        ⟨sf.set (0, (sets src).zero) :: srest,
          { gs with out := gs.out ++ [sf.get (sets src) v] }⟩) := by
  have hn := (h.prog _ _ h.here.func).2.1
  have huv : F.Usable (fr.blk, fr.idx + 1) v := h.usable hI (by simp [Instr.opds])
  have hdv := den_opd hE h.here.rel h.glob.store hn src huv
  obtain ⟨h1, h2⟩ := h.plain hI hE (em := st0.em) (xs := [st0.getShadow F v]) rfl
  rw [h1, hE.em0]
  refine .ok ⟨rfl, .ok ⟨_, rfl, h.next (vv := vv) (av := av) hI rfl rfl rfl h2 ?_ (.refl _), .quiet rfl rfl⟩⟩
  refine { h.glob with out := ?_ }
  simp only [List.headD_cons]
  refine List.rel_append h.glob.out ?_
  refine .cons ⟨h.here.rel.get src v, ?_⟩ .nil
  rw [lab_eq]; exact hdv

/-- New labels for input bytes. -/
theorem sources_goes {L : Labels} (hs : Store cap L) {off m : Nat} (hm : 0 < m) (hsrc : src < 256)
    (hoff : off + m ≤ 2 ^ 54) :
    Goes cap m L (L.createSourceLabels src off m)
      (fun x => GrowsM [.source src off m x.2.1] m L x.1 ∧ x.2.1 + m ≤ x.1.words.length ∧
        ∀ k, k < m → Den x.1 (x.2.1 + k) ((sets src).src (off + k))) := by
  by_cases hfit : L.words.length + m ≤ L.cap
  · obtain ⟨L', e, hwf, hlen, hcap, hold, hnew⟩ :=
      createSourceLabels_spec hs.good.wf (n := m) (off := off) hm hsrc hoff hfit
    refine Or.inl ⟨_, e, ⟨⟨[.source src off m L.words.length], ?_, rfl⟩, by simp only; omega⟩, ?_, ?_⟩
    · have : Runs L ([] ++ [.source src off m L.words.length]) L' := by
        refine .snoc (op := .source src off m) (.nil L) ⟨hsrc, by omega, by omega, hfit⟩ ?_
        simp [Labels.exec, e]
      exact this
    · simp only; omega
    · intro k hk
      refine ⟨by simp only; omega, ?_⟩
      intro b
      simp only [sets]
      rw [denotes_iff (hnew k hk)]
      rfl
  · refine Or.inr ⟨Or.inr ?_, ?_⟩
    · simp [createSourceLabels, hfit, Nat.ne_of_gt hm]
    · have h1 := hs.good.wf.fits
      have h2 := hs.cap
      omega

/-- A new label for one input byte. -/
theorem source_goes {L : Labels} (hs : Store cap L) {off : Nat} (hsrc : src < 256) (hoff : off < 2 ^ 54) :
    Goes cap 1 L (L.createSourceLabels src off 1)
      (fun x => GrowsM [.source src off 1 x.2.1] 1 L x.1 ∧ Den x.1 x.2.1 ((sets src).src off)) :=
  (sources_goes hs Nat.one_pos hsrc hoff).mono (fun _ h => ⟨h.1, h.2.2 0 Nat.one_pos⟩)

/-- A call of a library function whose result has a label of its own. -/
theorem Here.custom (h : Here dom P cap F B fr sf g gs rest srest) (hE : h.Env V st0) {I : Instr} {xs : List SV}
    (hI : B.body[fr.idx]? = some I)
    (hv : visitInstr (dom fr.fn) F fr.blk fr.idx st0 I = ((st0.fresh (fr.blk, fr.idx + 1)).1.setShadow
      (.ins fr.blk fr.idx) (.v st0.next)).close (fr.blk, fr.idx + 1) xs (some st0.next)) :
    (instrument (dom fr.fn) F).st.ann (fr.blk, fr.idx + 1) = ⟨[], xs, some st0.next⟩ ∧
    ∀ {ms : List Event} {k : Nat} {L' : Labels} {l v : Nat} {T : Nat × Nat → Prop}, GrowsM ms k g.L L' →
      Den L' l T → FRel F (instrument (dom fr.fn) F).st (fr.blk, fr.idx + 2) ((fr.put st0.next l).set v)
        (sf.set (v, T)) L' := by
  have hvp := visitPt_ins (dom := dom fr.fn) h.here.block hI st0
  rw [hv] at hvp
  have hsh : (instrument (dom fr.fn) F).st.shadow (.ins fr.blk fr.idx) = some (.v st0.next) := by
    rw [hE.shadow (r := .ins fr.blk fr.idx) rfl, hvp]; simp [PSt.close, PSt.setShadow]
  refine ⟨by rw [hE.ann, hvp]; simp [PSt.close, PSt.setShadow, PSt.fresh, hE.em0], ?_⟩
  intro ms k L' l v T hgr hd
  have hx := first_put h hE (st1 := (st0.fresh (fr.blk, fr.idx + 1)).1) rfl (by simp [PSt.fresh]) rfl
    (h.below hI hE hv) hgr hd.1
  refine FRel.finish hE rfl rfl h.here.block (List.getElem?_eq_some_iff.1 hI).1 h.here.rel h.glob.store hx
    (by rw [hvp]; rfl) ?_
  rw [hsh]
  simp only [Option.getD_some, IFrame.put, labS, if_true]
  exact hd

theorem getc_sim (h : Here dom P cap F B fr sf g gs rest srest) (hE : h.Env V st0)
    (hI : B.body[fr.idx]? = some .getc) (hsrc : src < 256) {c : Fin 256} (hc : inp.byte gs.pos = some c)
    (hpos : gs.pos < 2 ^ 54) :
    Goes cap (Instr.cost vv av .getc) g.L (sexecs avoid ((instrument (dom fr.fn) F).st.ann (fr.blk, fr.idx + 1)).pre fr g)
      (After dom P cap inp src vv av g rest .getc
        ((instrument (dom fr.fn) F).st.ann (fr.blk, fr.idx + 1)) fr.idx
        ⟨sf.set (c.val, (sets src).src gs.pos) :: srest, { gs with pos := gs.pos + 1 }⟩) := by
  obtain ⟨hann, hf⟩ := h.custom hE hI rfl
  rw [hann]
  refine .ok ⟨rfl, ?_⟩
  simp only [istepInstr, h.glob.pos, hc]
  refine Goes.bind (source_goes h.glob.store hsrc hpos) ?_
  rintro ⟨L', l, u⟩ ⟨hgr, hd⟩
  simp only at hgr hd
  refine .ok ⟨_, rfl, h.next (vv := vv) (av := av) hI rfl rfl rfl (hf hgr hd) ?_ hgr, [], _,
    (List.append_nil _).symm, rfl, by simp only [h.glob.pos]; rfl, hgr⟩
  exact { h.glob.grows hgr with pos := rfl }

/-- The end of the input. -/
theorem eof_sim (h : Here dom P cap F B fr sf g gs rest srest) (hE : h.Env V st0)
    (hI : B.body[fr.idx]? = some .getc) (hc : inp.byte gs.pos = none) :
    Goes cap (Instr.cost vv av .getc) g.L (sexecs avoid ((instrument (dom fr.fn) F).st.ann (fr.blk, fr.idx + 1)).pre fr g)
      (After dom P cap inp src vv av g rest .getc
        ((instrument (dom fr.fn) F).st.ann (fr.blk, fr.idx + 1)) fr.idx
        ⟨sf.set (eof, (sets src).zero) :: srest, gs⟩) := by
  obtain ⟨hann, hf⟩ := h.custom hE hI rfl
  rw [hann]
  refine .ok ⟨rfl, ?_⟩
  simp only [istepInstr, h.glob.pos, hc]
  exact .ok ⟨_, rfl, h.next (vv := vv) (av := av) hI rfl rfl rfl (hf (k := 0) (.refl _) h.glob.store.den_zero) h.glob
    (.refl _), .quiet rfl rfl⟩

/-- Memory written to the output. -/
theorem write_sim (h : Here dom P cap F B fr sf g gs rest srest) (hE : h.Env V st0) {a n : Opd}
    (hI : B.body[fr.idx]? = some (.write a n))
    (ha : CanAccess (sf.get (sets src) a).1 (sf.get (sets src) n).1) :
    Goes cap (Instr.cost vv av (.write a n)) g.L (sexecs avoid ((instrument (dom fr.fn) F).st.ann (fr.blk, fr.idx + 1)).pre fr g)
      (After dom P cap inp src vv av g rest (.write a n)
        ((instrument (dom fr.fn) F).st.ann (fr.blk, fr.idx + 1)) fr.idx
        ⟨sf.set (inp.took gs.out.length (sf.get (sets src) n).1, (sets src).zero) :: srest,
          { gs with
            out := gs.out ++ (List.range (inp.took gs.out.length (sf.get (sets src) n).1)).map
              (fun i => (gs.mem ((sf.get (sets src) a).1 + i), gs.tmem ((sf.get (sets src) a).1 + i))) }⟩) := by
  obtain ⟨hann, hf⟩ := h.custom hE hI rfl
  rw [hann]
  refine .ok ⟨rfl, ?_⟩
  simp only [istepInstr]
  rw [← h.here.rel.get src a, ← h.here.rel.get src n, ← h.glob.out.length_eq] at *
  rw [if_pos ha]
  refine .ok ⟨_, rfl, h.next (vv := vv) (av := av) hI rfl rfl rfl (hf (k := 0) (.refl _) h.glob.store.den_zero) ?_
    (.refl _), .quiet rfl rfl⟩
  have hle := inp.took_le g.out.length (fr.get n)
  obtain ⟨a1, a2, -⟩ := ha
  refine { h.glob with out := List.rel_append h.glob.out ?_ }
  rw [List.forall₂_map_left_iff, List.forall₂_map_right_iff, List.forall₂_same]
  intro i hi
  rw [List.mem_range] at hi
  have hx : IsApp (fr.get a + i) := ⟨by omega, by omega⟩
  exact ⟨h.glob.mem _ hx, h.glob.lab _ hx⟩

end PassIr
end Verif
