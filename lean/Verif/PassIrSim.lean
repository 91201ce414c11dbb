import Verif.PassIrRun
import Verif.IrMap
import Mathlib.Data.List.Forall2
/- Helper lemmas: one step of the program and of the instrumented program. -/
namespace Verif
namespace PassIr
open Ir Spec Labels DfsanMem

/-! ### The relation between states -/

/-- Two frames at place `p`. -/
structure FRel (F : Func) (fin : PSt) (p : Pt) (fr : IFrame) (sf : Frame (Nat × Nat → Prop))
    (L : Labels) : Prop where
  fn : fr.fn = sf.fn
  blk : fr.blk = sf.blk
  idx : fr.idx = sf.idx
  sp : fr.sp = sf.sp
  env : ∀ r, fr.env r = (sf.env r).1
  args : fr.args = sf.args.map (·.1)
  vars : ∀ k, fr.vars k = (sf.vars k).1
  lab : Labelled fin (D0 F fin p) fr.senv fr.sargs L
  regs : ∀ r, F.Defines r → F.Avail r.pt p →
    Den L (labS fr.senv fr.sargs ((fin.shadow r).getD .zero)) (sf.env r).2
  sargs : ∀ i, i < F.nparams → Den L (fr.sargs i) (sf.args.getD i (0, fun _ => False)).2
  svars : ∀ k, Den L (fr.svars k) (sf.vars k).2

/-- Memory, input, output and the label store. -/
structure GRel (cap : Nat) (g : IGlob) (gs : Glob (Nat × Nat → Prop)) : Prop where
  store : Store cap g.L
  bytes : Spec.IsBytes g.mem
  mem : ∀ a, IsApp a → g.mem a = gs.mem a
  lab : ∀ a, IsApp a → Den g.L (labelOf g.mem a) (gs.tmem a)
  sp : g.sp = gs.sp
  pos : g.pos = gs.pos
  out : List.Forall₂ (fun x y => x.1 = y.1 ∧ Den g.L x.2 y.2) g.out gs.out
  ev : List.Forall₂ (fun x y => x.1 = y.1 ∧ x.2.1 = y.2.1 ∧ Den g.L x.2.2 y.2.2) g.ev gs.ev

/-- The frames are at a place of the program that can be reached. -/
structure At (dom : Nat → Nat → Nat → Bool) (P : Prog) (L : Labels) (F : Func) (B : Block) (fr : IFrame)
    (sf : Frame (Nat × Nat → Prop)) : Prop where
  func : P[fr.fn]? = some F
  block : F.blocks[fr.blk]? = some B
  bound : fr.idx ≤ B.body.length
  reach : F.Reach (fr.blk, fr.idx + 1)
  rel : FRel F (instrument (dom fr.fn) F).st (fr.blk, fr.idx + 1) fr sf L

/-- The callers of a call of `fn`. -/
inductive Stack (dom : Nat → Nat → Nat → Bool) (P : Prog) (L : Labels) :
    Nat → List IFrame → List (Frame (Nat × Nat → Prop)) → Prop where
  | nil (fn : Nat) : Stack dom P L fn [] []
  | cons {fn fr sf rest srest F B f args G} : At dom P L F B fr sf →
      B.body[fr.idx]? = some (.call G.void f args) → P[fn]? = some G →
      Stack dom P L fr.fn rest srest → Stack dom P L fn (fr :: rest) (sf :: srest)

/-- Two states. -/
structure Rel (dom : Nat → Nat → Nat → Bool) (P : Prog) (cap : Nat) (i : IState)
    (s : State (Nat × Nat → Prop)) : Prop where
  frames : ∃ fr rest sf srest F B, i.frames = fr :: rest ∧ s.frames = sf :: srest ∧
    At dom P i.glob.L F B fr sf ∧ Stack dom P i.glob.L fr.fn rest srest
  glob : GRel cap i.glob s.glob

/-- What is assumed of a program. -/
def ProgOk (dom : Nat → Nat → Nat → Bool) (P : Prog) : Prop :=
  ∀ fn F, P[fn]? = some F → F.Valid ∧ F.nparams ≤ 200 ∧ DomSound F (dom fn)

theorem FRel.get {F : Func} {fin : PSt} {p : Pt} {fr : IFrame} {sf : Frame (Nat × Nat → Prop)}
    {L : Labels} (h : FRel F fin p fr sf L) (src : Nat) (o : Opd) :
    fr.get o = (sf.get (sets src) o).1 := by
  cases o with
  | const v => rfl
  | arg i =>
    simp only [IFrame.get, Frame.get, h.args, List.getD, List.getElem?_map]
    cases sf.args[i]? <;> rfl
  | reg r => exact h.env r

theorem FRel.gets {F : Func} {fin : PSt} {p : Pt} {fr : IFrame} {sf : Frame (Nat × Nat → Prop)}
    {L : Labels} (h : FRel F fin p fr sf L) (src : Nat) (os : List Opd) :
    os.map fr.get = (os.map (sf.get (sets src))).map (·.1) := by
  rw [List.map_map]
  exact List.map_congr_left (fun o _ => h.get src o)

theorem FRel.grows {cap k : Nat} {ms : List Event} {F : Func} {fin : PSt} {W : Pt → Prop} (hf : SInv F W fin) {p : Pt}
    {fr : IFrame} {sf : Frame (Nat × Nat → Prop)} {L L' : Labels} (hs : Store cap L) (g : GrowsM ms k L L')
    (h : FRel F fin p fr sf L) : FRel F fin p fr sf L' :=
  { h with
    lab := h.lab.grows hs g (closed_D0 hf p)
    regs := fun r hr ha => (h.regs r hr ha).grows hs g
    sargs := fun i hi => (h.sargs i hi).grows hs g
    svars := fun k => (h.svars k).grows hs g }

theorem At.valid {dom : Nat → Nat → Nat → Bool} {P : Prog} (hP : ProgOk dom P) {L : Labels} {F : Func}
    {B : Block} {fr : IFrame} {sf : Frame (Nat × Nat → Prop)} (h : At dom P L F B fr sf) : F.Valid :=
  (hP _ _ h.func).1

theorem blocks_ne {F : Func} {b : Nat} {B : Block} (h : F.blocks[b]? = some B) : F.blocks ≠ [] := by
  intro e; rw [e] at h; simp at h

theorem At.inv {dom : Nat → Nat → Nat → Bool} {P : Prog} (hP : ProgOk dom P) {L : Labels} {F : Func}
    {B : Block} {fr : IFrame} {sf : Frame (Nat × Nat → Prop)} (h : At dom P L F B fr sf) :
    SInv F (· ∈ pts F) (instrument (dom fr.fn) F).st :=
  final_inv (hP _ _ h.func).1 (blocks_ne h.block) (hP _ _ h.func).2.2

theorem At.grows {cap k : Nat} {ms : List Event} {dom : Nat → Nat → Nat → Bool} {P : Prog} (hP : ProgOk dom P) {L L' : Labels}
    {F : Func} {B : Block} {fr : IFrame} {sf : Frame (Nat × Nat → Prop)} (hs : Store cap L)
    (g : GrowsM ms k L L') (h : At dom P L F B fr sf) : At dom P L' F B fr sf :=
  { h with rel := h.rel.grows (h.inv hP) hs g }

theorem Stack.grows {cap k : Nat} {ms : List Event} {dom : Nat → Nat → Nat → Bool} {P : Prog} (hP : ProgOk dom P)
    {L L' : Labels} (hs : Store cap L) (g : GrowsM ms k L L') {fn : Nat} {is : List IFrame}
    {ss : List (Frame (Nat × Nat → Prop))} (h : Stack dom P L fn is ss) : Stack dom P L' fn is ss := by
  induction h with
  | nil fn => exact .nil fn
  | cons h1 h2 h3 _ ih => exact .cons (h1.grows hP hs g) h2 h3 ih

theorem GRel.grows {cap k : Nat} {ms : List Event} {g : IGlob} {gs : Glob (Nat × Nat → Prop)} {L' : Labels}
    (h : GRel cap g gs) (hg : GrowsM ms k g.L L') : GRel cap { g with L := L' } gs :=
  { store := h.store.grows hg
    bytes := h.bytes
    mem := h.mem
    lab := fun a ha => (h.lab a ha).grows h.store hg
    sp := h.sp
    pos := h.pos
    out := h.out.imp (fun _ _ hxy => ⟨hxy.1, hxy.2.grows h.store hg⟩)
    ev := h.ev.imp (fun _ _ hxy => ⟨hxy.1, hxy.2.1, hxy.2.2.grows h.store hg⟩) }

/-- The place of a frame. -/
theorem At.env {dom : Nat → Nat → Nat → Bool} {P : Prog} (hP : ProgOk dom P) {L : Labels} {F : Func}
    {B : Block} {fr : IFrame} {sf : Frame (Nat × Nat → Prop)} (h : At dom P L F B fr sf) {p : Pt}
    (hr : F.Reach p) :
    ∃ V st0, Env (dom fr.fn) F V p st0 (instrument (dom fr.fn) F).st := by
  obtain ⟨hv, -, hd⟩ := hP _ _ h.func
  obtain ⟨V, st0, h1, h2, h3, h4, h5⟩ := place_facts hv (blocks_ne h.block) hd hr
  exact ⟨V, st0, h1, hd, h2, h3, h4, h5, _, h.inv hP⟩

/-! ### Operands -/

variable {dom : Nat → Nat → Bool} {F : Func} {V : Pt → Prop} {p : Pt} {st0 fin : PSt}
variable {fr0 : IFrame} {g0 : IGlob} {sf : Frame (Nat × Nat → Prop)}

theorem argOffset_eq : ∀ (n off i : Nat),
    argOffset off n i = if i < n ∧ off + 4 * i + 4 ≤ argTLSSize then some (off + 4 * i) else none := by
  intro n
  induction n with
  | zero => intro off i; simp [argOffset]
  | succ n ih =>
    intro off i
    cases i with
    | zero =>
      unfold argOffset
      by_cases c : off + 4 ≤ argTLSSize
      · rw [if_neg (by omega), if_pos ⟨by omega, by omega⟩]; rfl
      · rw [if_pos (by omega), if_neg (by omega)]
    | succ i =>
      unfold argOffset
      rw [ih]
      by_cases c : off + 4 ≤ argTLSSize
      · rw [if_neg (by omega), show off + 4 + 4 * i = off + 4 * (i + 1) by omega]
        by_cases d : i < n ∧ off + 4 * (i + 1) + 4 ≤ argTLSSize
        · rw [if_pos d, if_pos ⟨by omega, d.2⟩]
        · rw [if_neg d, if_neg (fun x => d ⟨by omega, x.2⟩)]
      · rw [if_pos (by omega), if_neg (by omega)]

theorem argOffset_small {n i : Nat} (hn : n ≤ 200) (hi : i < n) : argOffset 0 n i = some (4 * i) := by
  rw [argOffset_eq, if_pos ⟨hi, by unfold argTLSSize; omega⟩, Nat.zero_add]

theorem den_fin {cap : Nat} (h : FRel F fin p fr0 sf g0.L) (hs : Store cap g0.L) (hn : F.nparams ≤ 200)
    (src : Nat) {o : Opd} (ho : F.Usable p o) :
    Den g0.L (labS fr0.senv fr0.sargs (fin.getShadow F o)) (sf.get (sets src) o).2 := by
  cases o with
  | const v => exact hs.den_zero
  | arg i =>
    have hi : i < F.nparams := ho
    simp only [PSt.getShadow, argOffset_small hn hi, Option.isSome_some, if_true]
    exact h.sargs i hi
  | reg r => exact h.regs r ho.1 ho.2

theorem Env.getShadow (hE : Env dom F V p st0 fin) {o : Opd} (ho : F.Usable p o) :
    fin.getShadow F o = st0.getShadow F o := by
  cases o with
  | const v => rfl
  | arg i => rfl
  | reg r =>
    have hV := hE.ctx.path _ ho.2
    simp only [PSt.getShadow, hE.ext.shadow r (Or.inl hV), hE.vis.ext.shadow r hV]

theorem den_opd {cap : Nat} (hE : Env dom F V p st0 fin) (h : FRel F fin p fr0 sf g0.L)
    (hs : Store cap g0.L) (hn : F.nparams ≤ 200) (src : Nat) {o : Opd} (ho : F.Usable p o) :
    Den g0.L (labS fr0.senv fr0.sargs (st0.getShadow F o)) (sf.get (sets src) o).2 := by
  rw [← hE.getShadow ho]
  exact den_fin h hs hn src ho

theorem all_sets (src : Nat) (ts : List (Nat × Nat → Prop)) (b : Nat × Nat) :
    (sets src).all ts b ↔ ∃ t ∈ ts, t b := by
  induction ts with
  | nil => simp [Alg.all, sets]
  | cons t ts ih =>
    have : (sets src).all (t :: ts) b ↔ t b ∨ (sets src).all ts b := Iff.rfl
    rw [this, ih]; simp

/-! ### Finishing an instruction -/

theorem shadow_D0 {W : Pt → Prop} (hf : SInv F W fin) {r : Reg} (ha : F.Avail r.pt p) {n : Nat}
    (e : (fin.shadow r).getD .zero = .v n) : D0 F fin p n := by
  cases hs : fin.shadow r with
  | none => rw [hs] at e; cases e
  | some s =>
    rw [hs, Option.getD_some] at e
    obtain ⟨-, -, h⟩ := hf.shadow r s hs
    obtain ⟨h1, h2⟩ := h n e
    refine ⟨h1, ?_⟩
    rcases h2 with h2 | h2
    · exact Func.avail_trans h2 ha
    · rw [h2]; exact ha

theorem RunInv.first (hE : Env dom F V p st0 fin) (h : FRel F fin p fr0 sf g0.L) :
    RunInv F fin p st0 fr0 g0 0 st0 (fr0, g0) :=
  .start (h.lab.mono (fun _ hn => hE.d0.1 hn))

theorem FRel.finish {cap k : Nat} {b j : Nat} {B : Block} (hE : Env dom F V (b, j + 1) st0 fin)
    (hb : fr0.blk = b) (hj : fr0.idx = j) (hB : F.blocks[b]? = some B) (hlt : j < B.body.length)
    (h : FRel F fin (b, j + 1) fr0 sf g0.L) (hs : Store cap g0.L) {st : PSt} {x : IFrame × IGlob}
    {ms : List Event} (hr : RunInv F fin (b, j + 1) st0 fr0 g0 k st x ms)
    (hn : st.next = (visitPt dom F st0 (b, j + 1)).next) {v : Nat} {T : Nat × Nat → Prop}
    (hd : Den x.2.L (labS x.1.senv x.1.sargs ((fin.shadow (.ins b j)).getD .zero)) T) :
    FRel F fin (b, j + 2) (x.1.set v) (sf.set (v, T)) x.2.L := by
  obtain ⟨W, hf⟩ := hE.inv
  have hedge : F.Edge (b, j + 1) (b, j + 1 + 1) := .seq hB hlt
  have hx := hr.frame
  have hblk : x.1.blk = b := by rw [hx]; exact hb
  have hidx : x.1.idx = j := by rw [hx]; exact hj
  have hsb : sf.blk = b := by rw [← h.blk]; exact hb
  have hsj : sf.idx = j := by rw [← h.idx]; exact hj
  refine ⟨?_, ?_, ?_, ?_, ?_, ?_, ?_, ?_, ?_, ?_, ?_⟩
  · simp only [IFrame.set, Frame.set]; rw [hx]; exact h.fn
  · simp only [IFrame.set, Frame.set]; rw [hx]; exact h.blk
  · simp only [IFrame.set, Frame.set]; rw [hx]; simp only; rw [h.idx]
  · simp only [IFrame.set, Frame.set]; rw [hx]; exact h.sp
  · intro r
    simp only [IFrame.set, Frame.set, hblk, hidx, hsb, hsj]
    by_cases c : r = .ins b j
    · rw [if_pos c, if_pos c]
    · rw [if_neg c, if_neg c, hx]; exact h.env r
  · simp only [IFrame.set, Frame.set]; rw [hx]; exact h.args
  · intro k; simp only [IFrame.set, Frame.set]; rw [hx]; exact h.vars k
  · refine hr.lab.mono ?_
    rintro n ⟨h1, h2⟩
    rw [hn]
    refine hE.d1 ⟨h1, ?_⟩
    rcases Func.avail_edge h2 hedge with h3 | h3
    · exact Or.inr h3
    · exact Or.inl h3
  · intro r hdef ha
    simp only [IFrame.set, Frame.set, hsb, hsj]
    rcases Func.avail_edge ha hedge with h3 | h3
    · cases r with
      | phi b' k => simp [Reg.pt] at h3
      | ins b' j' =>
        simp only [Reg.pt, Prod.mk.injEq, Nat.add_right_cancel_iff] at h3
        obtain ⟨rfl, rfl⟩ := h3
        rw [if_pos rfl]
        exact hd
    · have hne : r ≠ .ins b j := by
        rintro rfl
        exact Func.avail_irrefl hE.ctx.reach h3
      rw [if_neg hne]
      exact hr.den_keep hs (fun n e => hE.d0.2 (shadow_D0 hf h3 e)) (h.regs r hdef h3)
  · intro i hi
    simp only [IFrame.set, Frame.set]
    rw [hr.sargs]
    exact (h.sargs i hi).grows hs hr.grows
  · intro k
    simp only [IFrame.set, Frame.set]
    rw [hx]
    exact (h.svars k).grows hs hr.grows

theorem visitPt_ins {b j : Nat} {B : Block} {I : Instr} (hB : F.blocks[b]? = some B)
    (hI : B.body[j]? = some I) (st : PSt) :
    visitPt dom F st (b, j + 1) = visitInstr dom F b j st I := by
  simp only [visitPt, hB, hI]

/-- The annotation at `p`. -/
theorem Env.ann (hE : Env dom F V p st0 fin) : fin.ann p = (visitPt dom F st0 p).ann p :=
  hE.ext.ann p (Or.inr rfl)

theorem Env.shadow (hE : Env dom F V p st0 fin) {r : Reg} (hr : r.pt = p) :
    fin.shadow r = (visitPt dom F st0 p).shadow r :=
  hE.ext.shadow r (Or.inr hr)

theorem Env.shadow_none (hE : Env dom F V p st0 fin) {r : Reg} (hr : r.pt = p) : st0.shadow r = none := by
  cases h : st0.shadow r with
  | none => rfl
  | some s =>
    obtain ⟨h1, -, -⟩ := hE.inv0.shadow r s h
    rw [hr] at h1
    exact absurd h1 hE.ctx.notin

end PassIr
end Verif
