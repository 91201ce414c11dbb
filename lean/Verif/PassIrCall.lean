import Verif.PassIrMem
/- Helper lemmas: calls, returns and branches; any step. -/
namespace Verif
namespace PassIr
open Ir Spec Labels DfsanMem

variable {dom : Nat → Nat → Nat → Bool} {P : Prog} {cap : Nat} {F : Func} {B : Block} {fr : IFrame}
  {sf : Frame (Nat × Nat → Prop)} {g : IGlob} {gs : Glob (Nat × Nat → Prop)} {rest : List IFrame}
  {srest : List (Frame (Nat × Nat → Prop))} {inp : World} {src : Nat} {V : Pt → Prop} {st0 : PSt}
  {vv : Opd → Nat} {av : Nat → Nat}

/-! ### Calls -/

theorem argStores_run (avoid : Bool) (F : Func) (st : PSt) (fr : IFrame) : ∀ (os : List Opd) (off : Nat)
    (g : IGlob), ∃ tls, sexecs avoid (argStores F st off os) fr g = .ok (fr, { g with argTls := tls }) ∧
      (∀ i o, os[i]? = some o → off + 4 * i + 4 ≤ argTLSSize →
        tls (off + 4 * i) = fr.lab (st.getShadow F o)) ∧
      ∀ o, o < off → tls o = g.argTls o := by
  intro os
  induction os with
  | nil =>
    intro off g
    exact ⟨g.argTls, rfl, fun i o h => by simp at h, fun _ _ => rfl⟩
  | cons o os ih =>
    intro off g
    unfold argStores
    by_cases c : off + 4 > argTLSSize
    · rw [if_pos c]
      exact ⟨g.argTls, rfl, fun i o _ h => by omega, fun _ _ => rfl⟩
    · rw [if_neg c]
      obtain ⟨tls, h1, h2, h3⟩ := ih (off + 4) 
        { g with argTls := (fun x => if x = off then fr.lab (st.getShadow F o) else g.argTls x) }
      refine ⟨tls, h1, ?_, ?_⟩
      · intro i o' ho hi
        cases i with
        | zero =>
          simp only [List.getElem?_cons_zero, Option.some.injEq] at ho
          subst ho
          rw [Nat.mul_zero, Nat.add_zero, h3 off (by omega)]
          simp
        | succ i =>
          have := h2 i o' (by simpa using ho) (by omega)
          rwa [show off + 4 + 4 * i = off + 4 * (i + 1) by omega] at this
      · intro x hx
        rw [h3 x (by omega)]
        simp only
        rw [if_neg (by omega)]

/-- The callee starts in order. -/
theorem enter_rel {fn : Nat} {G : Func} (hP : ProgOk dom P) (hG : P[fn]? = some G)
    (hne : G.blocks ≠ []) {g : IGlob} {args : List (Nat × (Nat × Nat → Prop))} (hs : Store cap g.L)
    (hsp : g.sp = gs.sp)
    (htls : ∀ i, i < G.nparams → Den g.L (g.argTls (4 * i)) (args.getD i (0, fun _ => False)).2) :
    ∃ B, At dom P g.L G B (newIFrame G fn (args.map (·.1)) g)
      (newFrame (sets src) fn args gs.sp) := by
  obtain ⟨hv, hn, hd⟩ := hP _ _ hG
  cases hB : G.blocks[0]? with
  | none =>
    exfalso
    apply hne
    exact List.length_eq_zero_iff.1 (by have := List.getElem?_eq_none_iff.1 hB; omega)
  | some B =>
  refine ⟨B, hG, hB, Nat.zero_le _, .step .entry (.seq hB (Nat.zero_le _)), ?_⟩
  have hedge : G.Edge (0, 0) (0, 1) := .seq hB (Nat.zero_le _)
  obtain ⟨V, st0, hc, hi0, he0, hvis, hext⟩ := place_facts hv hne hd (p := (0, 0)) .entry
  have hE : Env (dom fn) G V (0, 0) st0 (instrument (dom fn) G).st :=
    ⟨hc, hd, hi0, he0, hvis, hext, _, final_inv hv hne hd⟩
  have hnone : ∀ n, ¬ D0 G (instrument (dom fn) G).st (0, 1) n := by
    rintro n ⟨h1, h2⟩
    rcases Func.avail_edge h2 hedge with h3 | h3
    · have := hE.d1 ⟨h1, Or.inr h3⟩
      have hnx : (visitPt (dom fn) G st0 (0, 0)).next = st0.next := by
        simp only [visitPt, hB, hv.entry B hB, visitPhis]
      rw [hnx, hE.d0] at this
      exact Func.avail_entry this.2
    · exact Func.avail_entry h3
  have hsa : ∀ i, (newIFrame G fn (args.map (·.1)) g).sargs i =
      if i < G.nparams then g.argTls (4 * i) else 0 := by
    intro i
    simp only [newIFrame]
    by_cases c : i < G.nparams
    · rw [argOffset_small hn c, if_pos c]
    · rw [argOffset_eq, if_neg (fun h => c h.1), if_neg c]
  refine ⟨rfl, rfl, rfl, hsp, fun _ => rfl, rfl, fun _ => rfl, ⟨?_, ?_, ?_⟩, ?_, ?_, ?_⟩
  · intro n h; exact absurd h (hnone n)
  · intro i
    rw [hsa]
    split
    · rename_i h; exact (htls i h).1
    · exact hs.pos
  · intro n E h; exact absurd h (hnone n)
  · intro r hdef ha
    exfalso
    have ha' : G.Avail r.pt (0, 1) := ha
    rcases Func.avail_edge ha' hedge with h3 | h3
    · cases r with
      | ins b j => simp [Reg.pt] at h3
      | phi b k =>
        simp only [Reg.pt, Prod.mk.injEq, and_true] at h3
        subst h3
        obtain ⟨B', hB', hk⟩ := hdef
        rw [hB] at hB'
        cases hB'
        rw [hv.entry B hB] at hk
        simp at hk
    · exact Func.avail_entry h3
  · intro i hi
    rw [hsa, if_pos hi]
    exact htls i hi
  · intro k; exact hs.den_zero

theorem call_sim (h : Here dom P cap F B fr sf g gs rest srest) (hE : h.Env V st0) {G : Func} {f : Opd}
    {args : List Opd} (hI : B.body[fr.idx]? = some (.call G.void f args))
    (hG : P[(sf.get (sets src) f).1]? = some G) (hlen : G.nparams = args.length) (hne : G.blocks ≠ []) :
    Goes cap (Instr.cost vv av (.call G.void f args)) g.L (sexecs avoid ((instrument (dom fr.fn) F).st.ann (fr.blk, fr.idx + 1)).pre fr g)
      (After dom P cap inp src vv av g rest (.call G.void f args)
        ((instrument (dom fr.fn) F).st.ann (fr.blk, fr.idx + 1)) fr.idx
        ⟨newFrame (sets src) (sf.get (sets src) f).1 (args.map (sf.get (sets src))) gs.sp :: sf :: srest,
          gs⟩) := by
  have hn := (h.prog _ _ h.here.func).2.1
  have hnG := (h.prog _ _ hG).2.1
  have hvp := visitPt_ins (dom := dom fr.fn) h.here.block hI st0
  have hann : ((instrument (dom fr.fn) F).st.ann (fr.blk, fr.idx + 1)).pre = argStores F st0 0 args := by
    rw [hE.ann, hvp]
    unfold visitInstr
    dsimp only
    split <;> simp [PSt.close, PSt.setShadow, PSt.fresh, hE.em0]
  rw [hann]
  obtain ⟨tls, h1, h2, -⟩ := argStores_run avoid F st0 fr args 0 g
  rw [h1]
  refine .ok ⟨rfl, ?_⟩
  have hget := h.here.rel.get src f
  simp only [istepInstr]
  rw [hget, hG]
  dsimp only
  rw [if_pos ⟨hlen, rfl, hne⟩]
  have hg' : GRel cap { g with argTls := tls } gs := { h.glob with }
  have hgets := h.here.rel.gets src args
  obtain ⟨BG, hAt⟩ := enter_rel (dom := dom) (g := { g with argTls := tls }) (gs := gs) (src := src)
    (args := args.map (sf.get (sets src))) h.prog hG hne h.glob.store h.glob.sp (by
      intro i hi
      have hi' : i < args.length := by omega
      have := h2 i args[i] (List.getElem?_eq_getElem hi') (by unfold argTLSSize; omega)
      rw [Nat.zero_add] at this
      simp only
      rw [this, lab_eq]
      have hu : F.Usable (fr.blk, fr.idx + 1) args[i] :=
        h.usable hI (by simp only [Instr.opds, List.mem_cons]; exact Or.inr (List.getElem_mem hi'))
      have hd := den_opd hE h.here.rel h.glob.store hn src hu
      simp only [List.getD, List.getElem?_map, List.getElem?_eq_getElem hi', Option.map_some,
        Option.getD_some]
      exact hd)
  rw [hgets]
  refine .ok ⟨_, rfl, ⟨⟨_, _, _, _, G, BG, rfl, rfl, hAt, ?_⟩, hg'⟩, .quiet rfl rfl⟩
  exact .cons h.here hI hG h.stack

/-! ### Returns -/

/-- The annotations of the program. -/
def annsOf (dom : Nat → Nat → Nat → Bool) (P : Prog) : Nat → Pt → Ann := fun fn p =>
  match P[fn]? with
  | some F => (instrument (dom fn) F).st.ann p
  | none => ⟨[], [], none⟩

theorem return_sim (hP : ProgOk dom P) {G : Func} {fn : Nat} (hG : P[fn]? = some G) {g : IGlob}
    {gs : Glob (Nat × Nat → Prop)} (hg : GRel cap g gs) {rest : List IFrame}
    {srest : List (Frame (Nat × Nat → Prop))} (hst : Stack dom P g.L fn rest srest) {sp : Nat}
    {v : Nat} {T : Nat × Nat → Prop} (hT : G.void = true → T = fun _ => False)
    (hd : G.void = false → Den g.L g.retTls T) :
    (∀ v' g', doReturn gs sp (v, T) srest = .done v' g' → ∃ g2 l,
      idoReturn (annsOf dom P) g sp v G.void rest = .done v'.1 l g2 ∧ Den g2.L l v'.2 ∧ GRel cap g2 g' ∧
        Evolves 0 g g2) ∧
    (∀ s', doReturn gs sp (v, T) srest = .next s' → ∃ i',
      idoReturn (annsOf dom P) g sp v G.void rest = .next i' ∧ Rel dom P cap i' s' ∧ Evolves 0 g i'.glob) ∧
    doReturn gs sp (v, T) srest ≠ .stuck := by
  have hg2 : GRel cap { g with sp := sp } { gs with sp := sp } := { hg with sp := rfl }
  cases hst with
  | nil =>
    refine ⟨?_, ?_, by simp [doReturn]⟩
    · intro v' g' e
      simp only [doReturn, Out.done.injEq] at e
      obtain ⟨rfl, rfl⟩ := e
      refine ⟨_, _, rfl, ?_, hg2, .quiet rfl rfl⟩
      cases hv : G.void with
      | true => simp only [if_true]; rw [hT hv]; exact hg.store.den_zero
      | false => simp only [Bool.false_eq_true, if_false]; exact hd hv
    · intro s' e; simp [doReturn] at e
  | @cons _ c sc rest srest F B f args G' hAt hI hG' hrest =>
    rw [hG] at hG'
    cases hG'
    refine ⟨fun v' g' e => by simp [doReturn] at e, ?_, by simp [doReturn]⟩
    intro s' e
    simp only [doReturn, Out.next.injEq] at e
    subst e
    have h : Here dom P cap F B c sc g gs rest srest := ⟨hP, hAt, hg, hrest⟩
    obtain ⟨V, st0, hE⟩ := hAt.env hP hAt.reach
    have hvp := visitPt_ins (dom := dom c.fn) hAt.block hI st0
    have hanns : annsOf dom P c.fn (c.blk, c.idx + 1) =
        (visitPt (dom c.fn) F st0 (c.blk, c.idx + 1)).ann (c.blk, c.idx + 1) := by
      unfold annsOf
      rw [hAt.func]
      exact hE.ann
    cases hv : G.void with
    | true =>
      have hdst : (annsOf dom P c.fn (c.blk, c.idx + 1)).dst = none := by
        rw [hanns, hvp]
        simp [visitInstr, hv, PSt.close]
      have hrel : FRel F (instrument (dom c.fn) F).st (c.blk, c.idx + 2) (c.set v)
          (sc.set (v, T)) g.L := by
        refine FRel.finish hE rfl rfl hAt.block (List.getElem?_eq_some_iff.1 hI).1 hAt.rel hg.store
          (.first hE hAt.rel) (by rw [hvp]; simp [visitInstr, hv, PSt.close]) ?_
        rw [hE.shadow (r := .ins c.blk c.idx) rfl, hvp]
        simp only [visitInstr, hv, if_true, PSt.close]
        rw [hE.shadow_none rfl, hT hv]
        exact hg.store.den_zero
      refine ⟨_, ?_, h.next (vv := fun _ => 0) (av := fun _ => 0) hI (fr' := c.set v) (g' := { g with sp := sp }) rfl rfl rfl hrel hg2 (.refl _),
        .quiet rfl rfl⟩
      simp only [idoReturn, hdst, IFrame.label]
    | false =>
      have hvis : visitInstr (dom c.fn) F c.blk c.idx st0 (.call G.void f args) =
          (((({ st0 with em := st0.em ++ argStores F st0 0 args } : PSt).fresh (c.blk, c.idx + 1)).1).setShadow
            (.ins c.blk c.idx) (.v st0.next)).close (c.blk, c.idx + 1) [] (some st0.next) := by
        unfold visitInstr
        dsimp only
        rw [hv]
        rfl
      have hdst : (annsOf dom P c.fn (c.blk, c.idx + 1)).dst = some st0.next := by
        rw [hanns, hvp, hvis]
        simp [PSt.close]
      have hx := first_put h hE (k := 0)
        (st1 := (({ st0 with em := st0.em ++ argStores F st0 0 args } : PSt).fresh (c.blk, c.idx + 1)).1)
        rfl (by simp [PSt.fresh]) rfl (h.below hI hE hvis) (.refl _) (hd hv).1
      have hrel : FRel F (instrument (dom c.fn) F).st (c.blk, c.idx + 2)
          ((c.put st0.next g.retTls).set v) (sc.set (v, T)) g.L := by
        refine FRel.finish hE rfl rfl hAt.block (List.getElem?_eq_some_iff.1 hI).1 hAt.rel hg.store
          hx (by rw [hvp, hvis]; rfl) ?_
        rw [hE.shadow (r := .ins c.blk c.idx) rfl, hvp, hvis]
        simp only [PSt.close, PSt.setShadow, if_true, Option.getD_some, labS, IFrame.put]
        exact hd hv
      refine ⟨_, ?_, h.next (vv := fun _ => 0) (av := fun _ => 0) hI (fr' := (c.put st0.next g.retTls).set v) (g' := { g with sp := sp })
        rfl rfl rfl hrel hg2 (.refl _), .quiet rfl rfl⟩
      simp only [idoReturn, hdst, IFrame.label]

/-! ### Branches -/

theorem foldl_put_frame : ∀ (ys : List (Nat × Nat)) (fr : IFrame),
    ys.foldl (fun f x => f.put x.1 x.2) fr =
      { fr with senv := (ys.foldl (fun f x => f.put x.1 x.2) fr).senv } := by
  intro ys
  induction ys with
  | nil => intro fr; rfl
  | cons y ys ih =>
    intro fr
    simp only [List.foldl_cons]
    conv_lhs => rw [ih]
    rfl

theorem foldl_put_out {n : Nat} : ∀ (ys : List (Nat × Nat)) (fr : IFrame), (∀ y ∈ ys, y.1 ≠ n) →
    (ys.foldl (fun f x => f.put x.1 x.2) fr).senv n = fr.senv n := by
  intro ys
  induction ys with
  | nil => intro fr _; rfl
  | cons y ys ih =>
    intro fr h
    simp only [List.foldl_cons]
    rw [ih _ (fun z hz => h z (by simp [hz]))]
    simp only [IFrame.put]
    rw [if_neg (fun e => h y (by simp) e.symm)]

theorem foldl_put_in {n l : Nat} : ∀ (ys : List (Nat × Nat)) (fr : IFrame), (∃ y ∈ ys, y.1 = n) →
    (∀ y ∈ ys, y.1 = n → y.2 = l) → (ys.foldl (fun f x => f.put x.1 x.2) fr).senv n = l := by
  intro ys
  induction ys with
  | nil => intro fr ⟨y, hy, _⟩ _; simp at hy
  | cons y ys ih =>
    intro fr hex h
    simp only [List.foldl_cons]
    by_cases c : ∃ z ∈ ys, z.1 = n
    · exact ih _ c (fun z hz => h z (by simp [hz]))
    · rw [foldl_put_out _ _ (fun z hz e => c ⟨z, hz, e⟩)]
      obtain ⟨z, hz, e⟩ := hex
      rcases List.mem_cons.1 hz with rfl | hz
      · simp only [IFrame.put]
        rw [if_pos e.symm]
        exact h z (by simp) e
      · exact absurd ⟨z, hz, e⟩ c

theorem phiOpds_spec (b : Nat) : ∀ (phis : List (List (Nat × Opd))) {os : List Opd},
    phiOpds b phis = some os → os.length = phis.length ∧
      ∀ (k : Nat) o, os[k]? = some o → ∃ inc ∈ phis, inc.lookup b = some o := by
  intro phis
  unfold phiOpds
  induction phis with
  | nil =>
    intro os h
    simp at h
    subst h
    exact ⟨rfl, fun k o h => by simp at h⟩
  | cons inc phis ih =>
    intro os h
    simp only [List.mapM_cons, Option.bind_eq_bind, Option.bind_eq_some_iff] at h
    obtain ⟨o, h1, os', h2, h3⟩ := h
    cases h3
    obtain ⟨i1, i2⟩ := ih h2
    refine ⟨by simp [i1], ?_⟩
    intro k o' hk
    cases k with
    | zero =>
      simp only [List.getElem?_cons_zero, Option.some.injEq] at hk
      subst hk
      exact ⟨inc, by simp, h1⟩
    | succ k =>
      obtain ⟨inc', m1, m2⟩ := i2 k o' (by simpa using hk)
      exact ⟨inc', by simp [m1], m2⟩

theorem jump_sim (h : Here dom P cap F B fr sf g gs rest srest) (hidx : fr.idx = B.body.length) {t : Nat}
    (ht : t ∈ B.succs) {s' : State (Nat × Nat → Prop)}
    (hj : jump (sets src) F sf srest gs t = .next s') :
    ∃ i', ijump F (instrument (dom fr.fn) F).st fr rest g t = .next i' ∧ Rel dom P cap i' s' ∧
      Evolves 0 g i'.glob := by
  have hval := h.here.valid h.prog
  have hn := (h.prog _ _ h.here.func).2.1
  have hrp := h.here.reach
  rw [hidx] at hrp
  have hej : F.Edge (fr.blk, B.body.length + 1) (t, 0) := .jump h.here.block ht
  have hrt : F.Reach (t, 0) := .step hrp hej
  obtain ⟨V, st0, hE⟩ := h.here.env h.prog hrp
  obtain ⟨V', st1, hE'⟩ := h.here.env h.prog hrt
  have hrel := h.here.rel
  rw [hidx] at hrel
  obtain ⟨W, hfin⟩ := hE.inv
  unfold jump at hj
  cases hT : F.blocks[t]? with
  | none => rw [hT] at hj; simp at hj
  | some T =>
  rw [hT] at hj
  dsimp only at hj
  rw [← hrel.blk] at hj
  cases hos : phiOpds fr.blk T.phis with
  | none => rw [hos] at hj; simp at hj
  | some os =>
  rw [hos] at hj
  dsimp only at hj
  rw [Out.next.injEq] at hj
  subst hj
  have het : F.Edge (t, 0) (t, 1) := .seq hT (Nat.zero_le _)
  obtain ⟨hlen, hinc⟩ := phiOpds_spec _ _ hos
  have hu : ∀ (k : Nat) o, os[k]? = some o → F.Usable (fr.blk, B.body.length + 1) o := by
    intro k o hk
    obtain ⟨inc, m1, m2⟩ := hinc k o hk
    exact hval.phi _ _ _ _ _ _ h.here.block ht hT hrp m1 m2
  have hden : ∀ (k : Nat) o, os[k]? = some o → Den g.L (labS fr.senv fr.sargs
      ((instrument (dom fr.fn) F).st.getShadow F o)) (sf.get (sets src) o).2 :=
    fun k o hk => den_fin hrel h.glob.store hn src (hu k o hk)
  -- phis of the target
  have hph := visitPhis_spec t T.phis 0 st1
  have hvt : visitPt (dom fr.fn) F st1 (t, 0) = visitPhis t 0 T.phis st1 := by
    simp only [visitPt, hT]
  rw [← hvt] at hph
  generalize hfe : (instrument (dom fr.fn) F).st = fin at *
  have hphis : ∀ k, k < T.phis.length → fin.phis (.phi t k) = st1.next + k := by
    intro k hk
    rw [hE'.ext.phis _ (Or.inr rfl)]
    have := hph.phNew k hk
    rwa [Nat.zero_add] at this
  have hsh : ∀ k, k < T.phis.length → fin.shadow (.phi t k) = some (.v (st1.next + k)) := by
    intro k hk
    rw [hE'.ext.shadow _ (Or.inr rfl)]
    have := hph.shNew k hk
    rwa [Nat.zero_add] at this
  have hplace : ∀ k, k < T.phis.length → fin.place (st1.next + k) = (t, 0) := by
    intro k hk
    rw [hE'.ext.place _ (by rw [hph.next]; omega)]
    exact hph.placeNew k hk
  -- the new labels
  let ys : List (Nat × Nat) := (sphi F fin t os).map (fun x => (x.1, fr.lab x.2))
  have hys : ∀ y, y ∈ ys ↔ ∃ (k : Nat) (o : Opd), os[k]? = some o ∧
      y = (st1.next + k, labS fr.senv fr.sargs (fin.getShadow F o)) := by
    intro y
    simp only [ys, sphi, List.mem_map, Prod.exists]
    constructor
    · rintro ⟨a, b, ⟨o, k, hm, e⟩, rfl⟩
      simp only [Prod.mk.injEq] at e
      obtain ⟨rfl, rfl⟩ := e
      have hk := List.mem_zipIdx_iff_getElem?.1 hm
      have hk' : k < T.phis.length := by
        rw [← hlen]; exact (List.getElem?_eq_some_iff.1 hk).1
      exact ⟨k, o, hk, by rw [lab_eq, hphis k hk']⟩
    · rintro ⟨k, o, hk, rfl⟩
      have hk' : k < T.phis.length := by
        rw [← hlen]; exact (List.getElem?_eq_some_iff.1 hk).1
      exact ⟨_, _, ⟨o, k, List.mem_zipIdx_iff_getElem?.2 hk, rfl⟩, by rw [lab_eq, hphis k hk']⟩
  have hput : fr.putAll (sphi F fin t os) = ys.foldl (fun f x => f.put x.1 x.2) fr := rfl
  generalize hS : (fr.putAll (sphi F fin t os)).senv = senv'
  have hframe : fr.putAll (sphi F fin t os) = { fr with senv := senv' } := by
    rw [← hS, hput]; exact foldl_put_frame ys fr
  have hin : ∀ (k : Nat) o, os[k]? = some o → senv' (st1.next + k) = labS fr.senv fr.sargs (fin.getShadow F o) := by
    intro k o hk
    rw [← hS, hput]
    refine foldl_put_in ys fr ⟨_, (hys _).2 ⟨k, o, hk, rfl⟩, rfl⟩ ?_
    intro y hy e
    obtain ⟨k', o', hk', rfl⟩ := (hys y).1 hy
    simp only at e
    have : k' = k := by omega
    subst this
    rw [hk] at hk'
    cases hk'
    rfl
  have hold : ∀ n, D0 F fin (t, 0) n → senv' n = fr.senv n := by
    intro n hn'
    rw [← hS, hput]
    refine foldl_put_out ys fr ?_
    intro y hy e
    obtain ⟨k, o, hk, rfl⟩ := (hys y).1 hy
    simp only at e
    have hk' : k < T.phis.length := by
      rw [← hlen]; exact (List.getElem?_eq_some_iff.1 hk).1
    have := hn'.2
    rw [← e, hplace k hk'] at this
    exact Func.avail_irrefl hrt this
  -- shadows available in the target were available before
  have hterm : (visitPt (dom fr.fn) F st0 (fr.blk, B.body.length + 1)).next = st0.next := by
    simp only [visitPt, h.here.block, List.getElem?_eq_none (Nat.le_refl _)]
    unfold visitTerm
    split <;> rfl
  have hback : ∀ n, D0 F fin (t, 0) n → D0 F fin (fr.blk, B.body.length + 1) n := by
    rintro n ⟨h1, h2⟩
    have : D1 F fin (fr.blk, B.body.length + 1) n := by
      refine ⟨h1, ?_⟩
      rcases Func.avail_edge h2 hej with h3 | h3
      · exact Or.inr h3
      · exact Or.inl h3
    have := hE.d1 this
    rw [hterm, hE.d0] at this
    exact this
  have hcases : ∀ n, D0 F fin (t, 1) n → D0 F fin (t, 0) n ∨ ∃ k, k < T.phis.length ∧ n = st1.next + k := by
    rintro n ⟨h1, h2⟩
    rcases Func.avail_edge h2 het with h3 | h3
    · right
      have h4 : n < (visitPt (dom fr.fn) F st1 (t, 0)).next := by
        by_contra c
        exact hE'.ext.away n (by omega) h1 (Or.inr h3)
      have h5 : st1.next ≤ n := by
        by_contra c
        rw [hE'.below0.place n (by omega)] at h3
        exact hE'.ctx.notin (h3 ▸ hE'.inv0.seen n (by omega))
      rw [hph.next] at h4
      exact ⟨n - st1.next, by omega, by omega⟩
    · exact Or.inl ⟨h1, h3⟩
  have hos' : ∀ (k : Nat), k < T.phis.length → ∃ o, os[k]? = some o := by
    intro k hk
    exact ⟨_, List.getElem?_eq_getElem (by rw [hlen]; exact hk)⟩
  have hlabold : ∀ s, (∀ n, s = .v n → D0 F fin (t, 0) n) →
      labS senv' fr.sargs s = labS fr.senv fr.sargs s := by
    intro s hs
    cases s with
    | zero => rfl
    | arg i => rfl
    | v n => exact hold n (hs n rfl)
  have hrt1 : F.Reach (t, 1) := .step hrt het
  refine ⟨_, by unfold ijump; simp only [hT, hos]; rfl, ?_, .quiet rfl rfl⟩
  refine ⟨⟨_, _, _, _, F, T, rfl, rfl, ⟨?_, hT, Nat.zero_le _, hrt1, ?_⟩, ?_⟩, h.glob⟩
  · simp only [hframe]; exact h.here.func
  · simp only [hframe, hfe]
    refine ⟨hrel.fn, rfl, rfl, hrel.sp, ?_, hrel.args, hrel.vars, ⟨?_, hrel.lab.arg, ?_⟩, ?_, hrel.sargs,
      hrel.svars⟩
    · intro r
      cases r with
      | ins b j => exact hrel.env _
      | phi b k =>
        simp only
        split
        · cases os[k]? with
          | some o => exact hrel.get src _
          | none => exact hrel.env _
        · exact hrel.env _
    · intro n hD
      rcases hcases n hD with h1 | ⟨k, hk, rfl⟩
      · simp only
        rw [hold n h1]
        exact hrel.lab.lab n (hback n h1)
      · obtain ⟨o, ho⟩ := hos' k hk
        simp only
        rw [hin k o ho]
        exact (hden k o ho).1
    · intro n E hD hel b
      simp only
      rcases hcases n hD with h1 | ⟨k, hk, rfl⟩
      · rw [hold n h1, hrel.lab.eqn n E (hback n h1) hel]
        have : ∀ e ∈ E, labS senv' fr.sargs e = labS fr.senv fr.sargs e :=
          fun e he => hlabold e (fun m hm => closed_D0 hfin (t, 0) n E m h1 hel (hm ▸ he))
        constructor
        · rintro ⟨e, he, hd⟩; exact ⟨e, he, by rw [this e he]; exact hd⟩
        · rintro ⟨e, he, hd⟩; exact ⟨e, he, by rw [← this e he]; exact hd⟩
      · exfalso
        have hlt : st1.next + k < (visitPt (dom fr.fn) F st1 (t, 0)).next := by rw [hph.next]; omega
        rw [hE'.ext.elems _ (fun m e => by cases e; exact hlt), hph.elems] at hel
        obtain ⟨m, e, hm, -⟩ := hE'.inv0.elems _ _ hel
        cases e
        omega
    · intro r hdef ha
      have ha' : F.Avail r.pt (t, 1) := ha
      simp only
      rcases Func.avail_edge ha' het with h3 | h3
      · cases r with
        | ins b j => simp [Reg.pt] at h3
        | phi b k =>
          simp only [Reg.pt, Prod.mk.injEq, and_true] at h3
          subst h3
          obtain ⟨T', hT', hk⟩ := hdef
          rw [hT] at hT'
          cases hT'
          obtain ⟨o, ho⟩ := hos' k hk
          rw [hsh k hk]
          simp only [Option.getD_some, labS, if_true, ho]
          rw [hin k o ho]
          exact hden k o ho
      · have hav : F.Avail r.pt (fr.blk, B.body.length + 1) := by
          rcases Func.avail_edge h3 hej with h4 | h4
          · exfalso
            cases r with
            | phi b k => simp [Reg.pt] at h4
            | ins b j =>
              simp only [Reg.pt, Prod.mk.injEq, Nat.add_right_cancel_iff] at h4
              obtain ⟨rfl, rfl⟩ := h4
              obtain ⟨B', hB', hj'⟩ := hdef
              rw [h.here.block] at hB'
              cases hB'
              omega
          · exact h4
        rw [hlabold _ (fun n e => shadow_D0 hfin h3 e)]
        have hd := hrel.regs r hdef hav
        cases r with
        | ins b j => exact hd
        | phi b k =>
          have hne : b ≠ t := by
            rintro rfl
            exact Func.avail_irrefl hrt h3
          simp only [if_neg hne]
          exact hd
  · simp only [hframe]; exact h.stack

/-! ### Any step -/

/-- How much input was read. -/
def _root_.Verif.Ir.Out.pos {τ : Type} : Out τ → Nat
  | .next s => s.glob.pos
  | .done _ g => g.pos
  | .stuck => 0

/-- One step of the program and of the instrumented program. -/
theorem step_sim (hP : ProgOk dom P) (hsrc : src < 256) {i : IState} {s : State (Nat × Nat → Prop)}
    (h : Rel dom P cap i s) (hpos : (step (sets src) P inp s).pos ≤ 2 ^ 54) :
    match step (sets src) P inp s with
    | .stuck => True
    | .next s' => Goes cap (s.cost P inp) i.glob.L (istep dom P inp src i) (fun o =>
        ∃ i', o = .next i' ∧ Rel dom P cap i' s' ∧ Evolves (s.cost P inp) i.glob i'.glob)
    | .done v g => Goes cap (s.cost P inp) i.glob.L (istep dom P inp src i) (fun o =>
        ∃ l g', o = .done v.1 l g' ∧ Den g'.L l v.2 ∧ GRel cap g' g ∧ Evolves (s.cost P inp) i.glob g') := by
  obtain ⟨fr, rest, sf, srest, F, B, e1, e2, hAt, hSt⟩ := h.frames
  obtain ⟨is, g⟩ := i
  obtain ⟨ss, gs⟩ := s
  simp only at e1 e2 hAt hSt
  subst e1 e2
  have hG := h.glob
  simp only at hG
  have hh : Here dom P cap F B fr sf g gs rest srest := ⟨hP, hAt, hG, hSt⟩
  obtain ⟨V, st0, hE⟩ := hAt.env hP hAt.reach
  have hrel := hAt.rel
  unfold step at hpos
  unfold step istep
  simp only [State.cost, ← hrel.fn, ← hrel.blk, ← hrel.idx, hAt.func, hAt.block] at hpos ⊢
  cases hI : B.body[fr.idx]? with
  | some I =>
    dsimp only
    -- enough: the code before the instruction and the instruction
    have key : ∀ s', stepInstr (sets src) P inp sf srest gs I = .next s' →
        Goes cap (I.cost sf.val (inp.got gs.pos)) g.L (sexecs (instrument (dom fr.fn) F).avoid
          ((instrument (dom fr.fn) F).st.ann (fr.blk, fr.idx + 1)).pre fr g)
          (After dom P cap inp src sf.val (inp.got gs.pos) g rest I
            ((instrument (dom fr.fn) F).st.ann (fr.blk, fr.idx + 1)) fr.idx s') := by
      intro s' hs'
      rw [hI] at hpos
      simp only [hs', Out.pos] at hpos
      cases I with
      | op f args => cases hs'; exact op_sim hh hE hI
      | untracked f args => cases hs'; exact untracked_sim hh hE hI
      | load a n =>
        simp only [stepInstr] at hs'
        split at hs'
        · rename_i h0
          subst h0
          cases hs'
          exact load0_sim hh hE hI
        · rename_i h0
          split at hs'
          · rename_i ha
            cases hs'
            exact load_sim hh hE hI h0 ha
          · cases hs'
      | store a v n =>
        simp only [stepInstr] at hs'
        split at hs'
        · rename_i h0
          subst h0
          cases hs'
          exact store0_sim hh hE hI
        · rename_i h0
          split at hs'
          · rename_i ha
            cases hs'
            exact store_sim hh hE hI h0 ha
          · cases hs'
      | select c t e => cases hs'; exact select_sim hh hE hI rfl
      | call void f args =>
        simp only [stepInstr] at hs'
        split at hs'
        · cases hs'
        · rename_i G hG
          split at hs'
          · rename_i hc
            obtain ⟨c1, rfl, c3⟩ := hc
            cases hs'
            exact call_sim hh hE hI hG c1 c3
          · cases hs'
      | alloca n => cases hs'; exact alloca_sim hh hE hI
      | getVar k => cases hs'; exact getVar_sim hh hE hI
      | setVar k v => cases hs'; exact setVar_sim hh hE hI
      | getc =>
        simp only [stepInstr] at hs'
        split at hs'
        · rename_i hc
          cases hs'
          exact getc_sim hh hE hI hsrc hc hpos
        · rename_i hc
          cases hs'
          exact eof_sim hh hE hI hc
      | read a n =>
        simp only [stepInstr] at hs'
        split at hs'
        · rename_i ha
          cases hs'
          exact read_sim hh hE hI hsrc ha hpos
        · cases hs'
      | write a n =>
        simp only [stepInstr] at hs'
        split at hs'
        · rename_i ha
          cases hs'
          exact write_sim hh hE hI ha
        · cases hs'
      | putc v => cases hs'; exact putc_sim hh hE hI
      | memset d c n =>
        simp only [stepInstr] at hs'
        split at hs'
        · rename_i ha
          cases hs'
          exact memset_sim hh hE hI ha
        · cases hs'
      | memcpy move d s n =>
        simp only [stepInstr] at hs'
        split at hs'
        · rename_i ha
          cases hs'
          exact memcpy_sim hh hE hI ha
        · cases hs'
      | rmw f a args n =>
        simp only [stepInstr] at hs'
        split at hs'
        · rename_i ha
          cases hs'
          exact rmw_sim hh hE hI ha.1 ha.2
        · cases hs'
      | hook k v => cases hs'; exact hook_sim hh hE hI
    cases hs : stepInstr (sets src) P inp sf srest gs I with
    | stuck => trivial
    | done v g' =>
      exfalso
      cases I <;> simp only [stepInstr] at hs <;> (repeat' split at hs) <;> cases hs
    | next s' =>
      dsimp only
      refine Goes.bind (key s' hs) ?_
      rintro ⟨fr', g'⟩ ⟨hx1, hx2⟩
      simp only at hx1 hx2 ⊢
      rw [hx1, hI]
      exact hx2
  | none =>
    dsimp only
    have hidx : fr.idx = B.body.length := by
      have := List.getElem?_eq_none_iff.1 hI
      have := hAt.bound
      omega
    have hvp : visitPt (dom fr.fn) F st0 (fr.blk, fr.idx + 1) =
        visitTerm F (fr.blk, fr.idx + 1) st0 B.term := by
      simp only [visitPt, hAt.block, hI]
    have hu : ∀ o ∈ B.term.opds, F.Usable (fr.blk, fr.idx + 1) o := by
      rw [hidx]
      exact (hAt.valid hP).term _ _ hAt.block (hidx ▸ hAt.reach)
    cases hT : B.term with
    | unreachable => simp only [stepTerm]
    | br c f ts =>
      have hann : ((instrument (dom fr.fn) F).st.ann (fr.blk, fr.idx + 1)).pre = [] := by
        rw [hE.ann, hvp, hT]; simp [visitTerm, PSt.close, hE.em0]
      simp only [stepTerm, hann, sexecs, Res.pure_eq, Res.bind_ok, hI, istepTerm, hrel.get src]
      split
      · trivial
      · rename_i s' hs
        split at hs
        · cases hs
        · rename_i t ht
          rw [ht]
          have hmem : t ∈ B.succs := by
            simp only [Block.succs, hT]
            exact List.mem_of_getElem? ht
          obtain ⟨i', j1, j2, j3⟩ := jump_sim hh hidx hmem hs
          exact .ok ⟨i', j1, j2, j3⟩
      · rename_i v g' hs
        exfalso
        split at hs
        · cases hs
        · unfold jump at hs
          repeat' split at hs
          all_goals cases hs
    | ret v =>
      cases v with
      | none =>
        have hann : ((instrument (dom fr.fn) F).st.ann (fr.blk, fr.idx + 1)).pre = [] := by
          rw [hE.ann, hvp, hT]; simp [visitTerm, PSt.close, hE.em0]
        simp only [stepTerm, hann, sexecs, Res.pure_eq, Res.bind_ok, hI, istepTerm]
        cases hv : F.void with
        | false => simp only [Bool.false_eq_true, if_false]
        | true =>
          simp only [if_true]
          have hret := return_sim (sp := fr.sp) (v := 0) (T := fun _ => False) hP hAt.func hG hSt
            (fun _ => rfl) (fun e => by rw [hv] at e; cases e)
          rw [hv, hrel.sp] at hret
          rw [hrel.sp]
          obtain ⟨r1, r2, r3⟩ := hret
          have ez : ((0 : Nat), (sets src).zero) = (0, fun _ => False) := rfl
          rw [ez]
          cases hs : doReturn gs sf.sp (0, fun _ => False) srest with
          | stuck => exact absurd hs r3
          | next s' =>
            obtain ⟨i', j1, j2, j3⟩ := r2 s' hs
            exact .ok ⟨i', j1, j2, j3⟩
          | done v' g' =>
            obtain ⟨g2, l, j1, j2, j3, j4⟩ := r1 v' g' hs
            exact .ok ⟨l, g2, j1, j2, j3, j4⟩
      | some o =>
        have hann : ((instrument (dom fr.fn) F).st.ann (fr.blk, fr.idx + 1)).pre =
            [.setRet (st0.getShadow F o)] := by
          rw [hE.ann, hvp, hT]; simp [visitTerm, PSt.close, PSt.emit, hE.em0]
        rw [hT] at hu
        have hd := den_opd hE hrel hG.store (hP _ _ hAt.func).2.1 src (hu o (by simp [Term.opds]))
        simp only [stepTerm, hann, sexecs_one, sexec, Res.pure_eq, Res.bind_ok, hI, istepTerm]
        cases hv : F.void with
        | true => simp only [if_true]
        | false =>
          simp only [Bool.false_eq_true, if_false]
          have hG' : GRel cap { g with retTls := fr.lab (st0.getShadow F o) } gs := { hG with }
          have hret := return_sim (sp := fr.sp) (v := fr.get o) (T := (sf.get (sets src) o).2) hP hAt.func
            hG' hSt (fun e => by rw [hv] at e; cases e) (fun _ => by simp only; rw [lab_eq]; exact hd)
          rw [hv, hrel.sp] at hret
          rw [hrel.sp]
          obtain ⟨r1, r2, r3⟩ := hret
          rw [hrel.get src] at r1 r2 r3 ⊢
          cases hs : doReturn gs sf.sp (sf.get (sets src) o) srest with
          | stuck => exact absurd hs r3
          | next s' =>
            obtain ⟨i', j1, j2, j3⟩ := r2 s' hs
            exact .ok ⟨i', j1, j2, j3⟩
          | done v' g' =>
            obtain ⟨g2, l, j1, j2, j3, j4⟩ := r1 v' g' hs
            exact .ok ⟨l, g2, j1, j2, j3, j4⟩

end PassIr
end Verif
