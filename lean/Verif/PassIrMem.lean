import Verif.PassIrStep
import Verif.CopyLemmas
/- Helper lemmas: block instructions and reports, in the program and in the instrumented program. -/
namespace Verif
namespace PassIr
open Ir Spec Labels DfsanMem

theorem passShadow_eq (a : Nat) : passShadow a = shadowFor a := by
  unfold passShadow shadowFor
  rw [Nat.shiftLeft_eq]
  rfl

theorem bytes_writeShadow (l : Nat) : ∀ (n p : Nat) (m : Mem), IsBytes m → IsBytes (writeShadow l p n m) := by
  intro n
  induction n with
  | zero => intro p m h; exact h
  | succ n ih =>
    intro p m h
    simp only [writeShadow]
    split
    · exact ih _ _ h
    · exact ih _ _ (h.write32 _ _)

theorem bytes_memset0 {m : Mem} (h : IsBytes m) (a n : Nat) : IsBytes (memset m a 0 n) := by
  intro x
  rw [memset_zero]
  split
  · decide
  · exact h x

theorem bytes_clearShadow {m m' : Mem} (h : IsBytes m) {a n : Nat} (e : clearShadow m a n = .ok m') :
    IsBytes m' := by
  unfold clearShadow at e
  obtain ⟨z, -, e⟩ := Res.bind_eq_ok.1 e
  cases z <;> simp only [Bool.false_eq_true, if_false, if_true, Res.ok.injEq] at e <;> subst e
  · exact bytes_memset0 h _ _
  · exact h

theorem bytes_setLabel {m m' : Mem} (h : IsBytes m) {page l a n : Nat}
    (e : setLabel page m l a n = .ok m') : IsBytes m' := by
  unfold setLabel at e
  dsimp only at e
  split at e
  · cases e; exact bytes_writeShadow _ _ _ _ h
  · split at e
    · cases e; exact bytes_writeShadow _ _ _ _ h
    · obtain ⟨m1, e1, e2⟩ := Res.bind_eq_ok.1 e
      refine bytes_clearShadow ?_ e2
      have h1 := bytes_clearShadow h e1
      unfold releasePages
      dsimp only
      split
      · intro x
        dsimp only
        split
        · decide
        · exact h1 x
      · exact h1

theorem bytes_copy {m m' : Mem} (h : IsBytes m) {d s n : Nat}
    (e : ∀ x, m' x = if d ≤ x ∧ x < d + n then m (s + (x - d)) else m x) : IsBytes m' := by
  intro x
  rw [e]
  split <;> exact h _

variable {dom : Nat → Nat → Nat → Bool} {P : Prog} {cap : Nat} {F : Func} {B : Block} {fr : IFrame}
  {sf : Frame (Nat × Nat → Prop)} {g : IGlob} {gs : Glob (Nat × Nat → Prop)} {rest : List IFrame}
  {srest : List (Frame (Nat × Nat → Prop))} {inp : World} {src : Nat} {V : Pt → Prop} {st0 : PSt}
  {avoid : Bool} {vv : Opd → Nat} {av : Nat → Nat}

/-- Filling a range: labels, data. -/
theorem fill_spec {m : Mem} {c l a n : Nat} (hb : IsBytes m) (hc : c < 256) (hl : l < 2 ^ 32)
    (ha : CanFill a n) :
    ∃ m1, setLabel 4096 m l a n = .ok m1 ∧ IsBytes (fillBytes c a n m1) ∧
      (∀ b, IsApp b → fillBytes c a n m1 b = Ir.putAll m a n c b) ∧
      (∀ b, IsApp b → labelOf (fillBytes c a n m1) b = Ir.putAll (labelOf m) a n l b) := by
  obtain ⟨⟨h1, h2, -⟩, h3⟩ := ha
  obtain ⟨m1, e, k1, k2⟩ := setLabel_app' (k := 12) m (by decide) hl h1 h3
  refine ⟨m1, e, ?_, ?_, ?_⟩
  · intro x
    rw [fillBytes_eq]
    split
    · exact hc
    · exact bytes_setLabel hb e x
  · intro b hb
    rw [fillBytes_eq]
    unfold Ir.putAll
    split
    · rfl
    · exact k2 b hb
  · intro b hb
    rw [show Ir.putAll (labelOf m) a n l b = Spec.fill (labelOf m) a n l b from rfl, ← k1 b hb]
    obtain ⟨b1, b2⟩ := hb
    have eb := shadow_sum (show 0x700000000000 ≤ b by omega) (by omega)
    apply read32_congr
    intro x x1 x2
    rw [fillBytes_eq, if_neg (by omega)]

/-- The labels of consecutive bytes. -/
theorem labelBytes_spec : ∀ (n : Nat) {m : Mem} {a l : Nat}, IsBytes m → l + n ≤ 2 ^ 32 → 0x700000008000 ≤ a →
    a + n < 0x800000000000 → ∃ m1, labelBytes m a l n = .ok m1 ∧ IsBytes m1 ∧
      (∀ b, IsApp b → m1 b = m b) ∧
      (∀ b, IsApp b → labelOf m1 b = if a ≤ b ∧ b < a + n then l + (b - a) else labelOf m b)
  | 0, m, a, l, hb, _, _, _ => ⟨m, rfl, hb, fun _ _ => rfl, fun b _ => by rw [if_neg (by omega)]⟩
  | n + 1, m, a, l, hb, hl, h1, h2 => by
    have hmod : l % 2 ^ 32 = l := Nat.mod_eq_of_lt (by omega)
    obtain ⟨m1, e, k1, k2⟩ := setLabel_app' (k := 12) (l := l) (n := 1) m (by decide) (by omega) h1 (by omega)
    obtain ⟨m2, e2, b2, j2, j3⟩ := labelBytes_spec n (m := m1) (a := a + 1) (l := l + 1) (bytes_setLabel hb e) (by omega)
      (by omega) (by omega)
    refine ⟨m2, ?_, b2, fun b hb => by rw [j2 b hb, k2 b hb], ?_⟩
    · simp only [labelBytes, hmod]
      rw [show setLabel 4096 m l a 1 = .ok m1 from e, Res.bind_ok, e2]
    · intro b hb
      rw [j3 b hb, k1 b hb]
      unfold Spec.fill
      split
      · rw [if_pos (by omega)]; omega
      · split
        · rw [if_pos (by omega)]; omega
        · rw [if_neg (by omega)]

theorem at_lt (w : World) (i : Nat) : w.at i < 256 := by
  unfold World.at
  cases w.byte i with
  | none => decide
  | some c => exact c.isLt

theorem labelOf_putBytes (m : Mem) {pos a k b : Nat} (ha : 0x700000008000 ≤ a) (hb : IsApp b) :
    labelOf (putBytes inp pos a k m) b = labelOf m b := by
  obtain ⟨b1, b2⟩ := hb
  have eb := shadow_sum (show 0x700000000000 ≤ b by omega) (by omega)
  apply read32_congr
  intro x x1 x2
  unfold putBytes
  rw [if_neg (by omega)]

/-- Input read into memory. -/
theorem read_sim (h : Here dom P cap F B fr sf g gs rest srest) (hE : h.Env V st0) {a n : Opd}
    (hI : B.body[fr.idx]? = some (.read a n)) (hsrc : src < 256)
    (ha : CanFill (sf.get (sets src) a).1 (sf.get (sets src) n).1)
    (hpos : gs.pos + inp.got gs.pos (sf.get (sets src) n).1 ≤ 2 ^ 54) :
    Goes cap (Instr.cost sf.val (inp.got gs.pos) (.read a n)) g.L (sexecs avoid ((instrument (dom fr.fn) F).st.ann (fr.blk, fr.idx + 1)).pre fr g)
      (After dom P cap inp src sf.val (inp.got gs.pos) g rest (.read a n)
        ((instrument (dom fr.fn) F).st.ann (fr.blk, fr.idx + 1)) fr.idx
        ⟨sf.set (inp.got gs.pos (sf.get (sets src) n).1, (sets src).zero) :: srest,
          { gs with
            mem := fun x => if (sf.get (sets src) a).1 ≤ x ∧
                x < (sf.get (sets src) a).1 + inp.got gs.pos (sf.get (sets src) n).1
              then inp.at (gs.pos + (x - (sf.get (sets src) a).1)) else gs.mem x
            tmem := fun x => if (sf.get (sets src) a).1 ≤ x ∧
                x < (sf.get (sets src) a).1 + inp.got gs.pos (sf.get (sets src) n).1
              then (sets src).src (gs.pos + (x - (sf.get (sets src) a).1)) else gs.tmem x
            pos := gs.pos + inp.got gs.pos (sf.get (sets src) n).1 }⟩) := by
  obtain ⟨hann, hf⟩ := h.custom hE hI rfl
  rw [hann]
  have hcost : Instr.cost sf.val (inp.got gs.pos) (.read a n) = inp.got gs.pos (fr.get n) := by
    simp only [Instr.cost]
    rw [h.here.rel.get src n, get_val]
  rw [← h.here.rel.get src a, ← h.here.rel.get src n] at *
  refine .ok ⟨rfl, ?_⟩
  rw [hcost]
  simp only [istepInstr, h.glob.pos]
  rw [if_pos ha]
  have hle := inp.got_le gs.pos (fr.get n)
  obtain ⟨⟨a1, a2, -⟩, a3⟩ := ha
  generalize inp.got gs.pos (fr.get n) = m at *
  by_cases hm : m = 0
  · subst hm
    rw [if_pos rfl]
    refine .ok ⟨_, rfl, h.next (vv := sf.val) (av := inp.got gs.pos) hI rfl rfl rfl (hf (k := 0) (.refl _) h.glob.store.den_zero) ?_
      (.refl _), .quiet rfl rfl⟩
    have e : ∀ x, ¬(fr.get a ≤ x ∧ x < fr.get a) := by intro x; omega
    simp only [e, if_false, Nat.add_zero]
    exact h.glob
  · rw [if_neg hm]
    refine Goes.bind (sources_goes h.glob.store (by omega) hsrc hpos) ?_
    rintro ⟨L', l, u⟩ ⟨hgr, hlen, hd⟩
    simp only at hgr hlen hd
    have hs' := h.glob.store.grows hgr
    have h32 : l + m ≤ 2 ^ 32 := by
      have h1 := hs'.good.wf.cap
      have h2 := hs'.good.wf.fits
      omega
    have hb : IsBytes (putBytes inp gs.pos (fr.get a) m g.mem) := by
      intro x
      unfold putBytes
      split
      · exact at_lt _ _
      · exact h.glob.bytes x
    obtain ⟨m1, e1, b1, j1, j2⟩ := labelBytes_spec m (l := l) hb h32 a1 (by omega)
    simp only [e1, Res.bind_ok]
    refine .ok ⟨_, rfl, h.next (vv := sf.val) (av := inp.got gs.pos) hI rfl rfl rfl (hf hgr hs'.den_zero) ?_ (by rw [hcost]; exact hgr), [], _,
      (List.append_nil _).symm, rfl, ?_, hgr⟩
    · refine { h.glob.grows hgr with bytes := b1, mem := ?_, lab := ?_, pos := rfl }
      · intro b hb
        simp only
        rw [j1 b hb]
        unfold putBytes
        split
        · rfl
        · exact h.glob.mem b hb
      · intro b hb
        simp only
        rw [j2 b hb]
        split
        · exact hd _ (by omega)
        · rw [labelOf_putBytes _ a1 hb]
          exact (h.glob.lab b hb).grows h.glob.store hgr
    · simp only [h.glob.pos, List.map_cons, List.map_nil, List.sum_cons, List.sum_nil, srcBytes]
      omega

theorem memset_sim (h : Here dom P cap F B fr sf g gs rest srest) (hE : h.Env V st0) {d c n : Opd}
    (hI : B.body[fr.idx]? = some (.memset d c n))
    (ha : CanFill (sf.get (sets src) d).1 (sf.get (sets src) n).1) :
    Goes cap (Instr.cost vv av (.memset d c n)) g.L (sexecs avoid ((instrument (dom fr.fn) F).st.ann (fr.blk, fr.idx + 1)).pre fr g)
      (After dom P cap inp src vv av g rest (.memset d c n)
        ((instrument (dom fr.fn) F).st.ann (fr.blk, fr.idx + 1)) fr.idx
        ⟨sf.set (0, (sets src).zero) :: srest,
          { gs with
            mem := putAll gs.mem (sf.get (sets src) d).1 (sf.get (sets src) n).1 ((sf.get (sets src) c).1 % 256)
            tmem := putAll gs.tmem (sf.get (sets src) d).1 (sf.get (sets src) n).1 (sf.get (sets src) c).2 }⟩) := by
  have hn := (h.prog _ _ h.here.func).2.1
  have huc : F.Usable (fr.blk, fr.idx + 1) c := h.usable hI (by simp [Instr.opds])
  have hdc := den_opd hE h.here.rel h.glob.store hn src huc
  obtain ⟨h1, h2⟩ := h.plain hI hE (em := st0.em ++ [.fill (st0.getShadow F c) d n]) (xs := []) rfl
  rw [h1, hE.em0, List.nil_append, sexecs_one]
  rw [← h.here.rel.get src d, ← h.here.rel.get src n] at ha ⊢
  rw [← h.here.rel.get src c]
  rw [← lab_eq] at hdc
  obtain ⟨m1, e, k1, k2, k3⟩ := fill_spec h.glob.bytes (Nat.mod_lt (fr.get c) (by decide : 0 < 256))
    (lt32 h.glob.store hdc.1) ha
  simp only [sexec, e, Res.bind_ok]
  refine .ok ⟨rfl, ?_⟩
  simp only [istepInstr]
  rw [if_pos ha]
  refine .ok ⟨_, rfl, h.next (vv := vv) (av := av) hI rfl rfl rfl h2 ?_ (.refl _), .quiet rfl rfl⟩
  refine { h.glob with bytes := k1, mem := ?_, lab := ?_ }
  · intro b hb
    rw [show 2 ^ 8 = 256 from rfl]
    simp only
    rw [k2 b hb]
    unfold putAll
    split
    · rfl
    · exact h.glob.mem b hb
  · intro b hb
    rw [show 2 ^ 8 = 256 from rfl]
    simp only
    rw [k3 b hb]
    unfold putAll
    split
    · exact hdc
    · exact h.glob.lab b hb

theorem memcpy_sim (h : Here dom P cap F B fr sf g gs rest srest) (hE : h.Env V st0) {move : Bool}
    {d s n : Opd} (hI : B.body[fr.idx]? = some (.memcpy move d s n))
    (ha : CanCopy move (sf.get (sets src) d).1 (sf.get (sets src) s).1 (sf.get (sets src) n).1) :
    Goes cap (Instr.cost vv av (.memcpy move d s n)) g.L (sexecs avoid ((instrument (dom fr.fn) F).st.ann (fr.blk, fr.idx + 1)).pre fr g)
      (After dom P cap inp src vv av g rest (.memcpy move d s n)
        ((instrument (dom fr.fn) F).st.ann (fr.blk, fr.idx + 1)) fr.idx
        ⟨sf.set (0, (sets src).zero) :: srest,
          { gs with
            mem := copyAll gs.mem (sf.get (sets src) d).1 (sf.get (sets src) s).1 (sf.get (sets src) n).1
            tmem := copyAll gs.tmem (sf.get (sets src) d).1 (sf.get (sets src) s).1
              (sf.get (sets src) n).1 }⟩) := by
  obtain ⟨h1, h2⟩ := h.plain hI hE (em := st0.em ++ [.copy move d s n]) (xs := []) rfl
  rw [h1, hE.em0, List.nil_append, sexecs_one]
  rw [← h.here.rel.get src d, ← h.here.rel.get src s, ← h.here.rel.get src n] at ha ⊢
  have ha' := ha
  obtain ⟨⟨d1, d2, d3⟩, ⟨s1, s2, -⟩, hdis⟩ := ha
  -- enough: the effect of the two copies
  have key : ∀ (m1 m2 : Mem), (∀ x, m1 x = if shadowFor (fr.get d) ≤ x ∧ x < shadowFor (fr.get d) + 4 * fr.get n
        then g.mem (shadowFor (fr.get s) + (x - shadowFor (fr.get d))) else g.mem x) →
      (∀ x, m2 x = if fr.get d ≤ x ∧ x < fr.get d + fr.get n then m1 (fr.get s + (x - fr.get d)) else m1 x) →
      GRel cap { g with mem := m2 } { gs with
        mem := copyAll gs.mem (fr.get d) (fr.get s) (fr.get n)
        tmem := copyAll gs.tmem (fr.get d) (fr.get s) (fr.get n) } := by
    intro m1 m2 e1 e2
    obtain ⟨k1, k2⟩ := copy_shadow d1 s1 d2 s2 e1
    obtain ⟨j1, j2⟩ := copy_data d1 e2
    refine { h.glob with bytes := bytes_copy (bytes_copy h.glob.bytes e1) e2, mem := ?_, lab := ?_ }
    · intro b hb
      simp only
      rw [j2]
      unfold Spec.copy copyAll
      split
      · have hb' : IsApp (fr.get s + (b - fr.get d)) := ⟨by omega, by omega⟩
        rw [k2 _ hb', h.glob.mem _ hb']
      · rw [k2 _ hb, h.glob.mem _ hb]
    · intro b hb
      simp only
      rw [j1 b hb, k1 b hb]
      unfold Spec.copy copyAll
      split
      · exact h.glob.lab _ ⟨by omega, by omega⟩
      · exact h.glob.lab b hb
  have hmod : fr.get n * 4 % 2 ^ 64 = 4 * fr.get n := by omega
  cases move with
  | true =>
    obtain ⟨m1, e1, t1⟩ := memmove_eq g.mem (d := shadowFor (fr.get d)) (s := shadowFor (fr.get s))
      (n := 4 * fr.get n) (by omega)
    obtain ⟨m2, e2, t2⟩ := memmove_eq m1 (d := fr.get d) (s := fr.get s) (n := fr.get n) (by omega)
    simp only [sexec, passShadow_eq, hmod, e1, Res.bind_ok, if_true]
    refine .ok ⟨rfl, ?_⟩
    simp only [istepInstr]
    rw [if_pos ha']
    simp only [if_true, e2, Res.bind_ok]
    exact .ok ⟨_, rfl, h.next (vv := vv) (av := av) hI rfl rfl rfl h2 (key m1 m2 t1 t2) (.refl _), .quiet rfl rfl⟩
  | false =>
    have hdis : fr.get d + fr.get n ≤ fr.get s ∨ fr.get s + fr.get n ≤ fr.get d := by simpa using hdis
    simp only [sexec, passShadow_eq, hmod, Bool.false_eq_true, if_false]
    refine .ok ⟨rfl, ?_⟩
    simp only [istepInstr]
    rw [if_pos ha']
    simp only [Bool.false_eq_true, if_false]
    refine .ok ⟨_, rfl, h.next (vv := vv) (av := av) hI rfl rfl rfl h2 (key _ _ (fun x => ?_) (fun x => memcpy_eq _ hdis x))
      (.refl _), .quiet rfl rfl⟩
    rcases Nat.eq_zero_or_pos (fr.get n) with h0 | h0
    · rw [h0, if_neg (by omega)]; rfl
    · have ed := shadow_sum (show 0x700000000000 ≤ fr.get d by omega) (by omega)
      have es := shadow_sum (show 0x700000000000 ≤ fr.get s by omega) (by omega)
      exact memcpy_eq g.mem (by omega) x

theorem hook_sim (h : Here dom P cap F B fr sf g gs rest srest) (hE : h.Env V st0) {k : Hook} {v : Opd}
    (hI : B.body[fr.idx]? = some (.hook k v)) :
    Goes cap (Instr.cost vv av (.hook k v)) g.L (sexecs avoid ((instrument (dom fr.fn) F).st.ann (fr.blk, fr.idx + 1)).pre fr g)
      (After dom P cap inp src vv av g rest (.hook k v)
        ((instrument (dom fr.fn) F).st.ann (fr.blk, fr.idx + 1)) fr.idx
        ⟨sf.set (if k.gives then sf.get (sets src) v else (0, (sets src).zero)) :: srest,
          { gs with ev := gs.ev ++ [(k, (sf.get (sets src) v).1,
            if k.seen then (sf.get (sets src) v).2 else (sets src).zero)] }⟩) := by
  have hn := (h.prog _ _ h.here.func).2.1
  have huv : F.Usable (fr.blk, fr.idx + 1) v := h.usable hI (by simp [Instr.opds])
  have hdv := den_opd hE h.here.rel h.glob.store hn src huv
  rw [← lab_eq] at hdv
  have hgv := h.here.rel.get src v
  have hvp := visitPt_ins (dom := dom fr.fn) h.here.block hI st0
  -- enter and leave
  have silent : ∀ k : Hook, k.gives = false → k.seen = false →
      B.body[fr.idx]? = some (.hook k v) →
      visitInstr (dom fr.fn) F fr.blk fr.idx st0 (.hook k v) =
        (st0.setShadow (.ins fr.blk fr.idx) .zero).close (fr.blk, fr.idx + 1) [] none →
      (∀ fr' g', istepInstr P inp src ⟨[], [], none⟩ fr' rest g' (.hook k v) =
        .ok (.next ⟨fr'.set 0 :: rest, { g' with ev := g'.ev ++ [(k, fr'.get v, 0)] }⟩)) →
      Goes cap 0 g.L (sexecs avoid ((instrument (dom fr.fn) F).st.ann (fr.blk, fr.idx + 1)).pre fr g)
      (After dom P cap inp src vv av g rest (.hook k v)
        ((instrument (dom fr.fn) F).st.ann (fr.blk, fr.idx + 1)) fr.idx
        ⟨sf.set (if k.gives then sf.get (sets src) v else (0, (sets src).zero)) :: srest,
          { gs with ev := gs.ev ++ [(k, (sf.get (sets src) v).1,
            if k.seen then (sf.get (sets src) v).2 else (sets src).zero)] }⟩) := by
    intro k k1 k2 hI hv hst
    have hvp := visitPt_ins (dom := dom fr.fn) h.here.block hI st0
    rw [hv] at hvp
    have hann : ((instrument (dom fr.fn) F).st.ann (fr.blk, fr.idx + 1)) = ⟨[], [], none⟩ := by
      rw [hE.ann, hvp]; simp [PSt.close, PSt.setShadow, hE.em0]
    rw [hann, k1, k2]
    refine .ok ⟨rfl, ?_⟩
    rw [hst]
    simp only [Bool.false_eq_true, if_false]
    refine .ok ⟨_, rfl, h.next (vv := vv) (av := av) hI rfl rfl rfl ?_ ?_ (.refl _), [(k, fr.get v, 0)], [], rfl,
      by simp [notedOf], rfl, GrowsM.refl _⟩
    · refine FRel.finish hE rfl rfl h.here.block (List.getElem?_eq_some_iff.1 hI).1 h.here.rel h.glob.store
        (.first hE h.here.rel) (by rw [hvp]; rfl) ?_
      rw [hE.shadow (r := .ins fr.blk fr.idx) rfl, hvp]
      simp only [PSt.close, PSt.setShadow, if_true, Option.getD_some]
      exact h.glob.store.den_zero
    · refine { h.glob with ev := List.rel_append h.glob.ev (.cons ⟨rfl, ?_, ?_⟩ .nil) }
      · exact hgv
      · exact h.glob.store.den_zero
  cases k with
  | enter f => exact silent (.enter f) rfl rfl hI rfl (fun _ _ => rfl)
  | leave f => exact silent (.leave f) rfl rfl hI rfl (fun _ _ => rfl)
  | noted =>
    obtain ⟨h1, h2⟩ := h.plain hI hE (em := st0.em) (xs := [st0.getShadow F v]) rfl
    rw [h1, hE.em0]
    refine .ok ⟨rfl, ?_⟩
    simp only [istepInstr, List.headD_cons]
    by_cases hl : 0 < fr.lab (st0.getShadow F v)
    · obtain ⟨L', e, -, hfo, -⟩ := affectsControlFlow_spec h.glob.store.good.wf h.glob.store.good.closed hl hdv.1
      have hgr : GrowsM [.mark (fr.lab (st0.getShadow F v))] 0 g.L L' := by
        refine ⟨⟨[] ++ [.mark (fr.lab (st0.getShadow F v))], ?_, rfl⟩, ?_⟩
        · refine .snoc (op := .mark (fr.lab (st0.getShadow F v))) (.nil _) ⟨hl, hdv.1⟩ ?_
          simp [Labels.exec, e]
        · rw [hfo.len]; exact Nat.le_refl _
      simp only [hl, if_true, e, Res.bind_ok]
      refine .ok ⟨_, rfl, h.next (vv := vv) (av := av) hI rfl rfl rfl (h2.grows (h.here.inv h.prog) h.glob.store hgr) ?_ hgr,
        [(.noted, fr.get v, fr.lab (st0.getShadow F v))], _, rfl, ?_, rfl, hgr.mono (Nat.zero_le _)⟩
      · have hg' := h.glob.grows hgr
        exact { hg' with ev := List.rel_append hg'.ev (.cons ⟨rfl, hgv, hdv.grows h.glob.store hgr⟩ .nil) }
      · simp [notedOf, hl, markOf]
    · simp only [hl, if_false, Res.pure_eq, Res.bind_ok]
      refine .ok ⟨_, rfl, h.next (vv := vv) (av := av) hI rfl rfl rfl h2 ?_ (.refl _),
        [(.noted, fr.get v, fr.lab (st0.getShadow F v))], [], rfl, ?_, rfl, .refl _⟩
      · exact { h.glob with ev := List.rel_append h.glob.ev (.cons ⟨rfl, hgv, hdv⟩ .nil) }
      · simp [notedOf, hl]
  | taken f =>
    have hv : visitInstr (dom fr.fn) F fr.blk fr.idx st0 (.hook (.taken f) v) =
        ((st0.fresh (fr.blk, fr.idx + 1)).1.setShadow (.ins fr.blk fr.idx)
          (.v st0.next)).close (fr.blk, fr.idx + 1) [st0.getShadow F v] (some st0.next) := rfl
    rw [hv] at hvp
    have hann : (instrument (dom fr.fn) F).st.ann (fr.blk, fr.idx + 1) =
        ⟨[], [st0.getShadow F v], some st0.next⟩ := by
      rw [hE.ann, hvp]; simp [PSt.close, PSt.setShadow, PSt.fresh, hE.em0]
    have hsh : (instrument (dom fr.fn) F).st.shadow (.ins fr.blk fr.idx) = some (.v st0.next) := by
      rw [hE.shadow (r := .ins fr.blk fr.idx) rfl, hvp]; simp [PSt.close, PSt.setShadow]
    rw [hann]
    have hx := first_put h hE (st1 := (st0.fresh (fr.blk, fr.idx + 1)).1) rfl (by simp [PSt.fresh]) rfl
      (h.below hI hE hv) (k := 0) (.refl _) hdv.1
    refine .ok ⟨rfl, .ok ⟨_, rfl, h.next (vv := vv) (av := av) hI rfl rfl rfl ?_ ?_ (.refl _),
      [(.taken f, fr.get v, fr.lab (st0.getShadow F v))], [], rfl, rfl, rfl, .refl _⟩⟩
    · have := FRel.finish hE rfl rfl h.here.block (List.getElem?_eq_some_iff.1 hI).1 h.here.rel
        h.glob.store hx (by rw [hvp]; rfl) (v := fr.get v) (T := (sf.get (sets src) v).2) (by
          rw [hsh]
          simp only [Option.getD_some, IFrame.put, labS, if_true]
          exact hdv)
      rw [hgv] at this
      show FRel F _ _ ((fr.put st0.next (fr.lab (st0.getShadow F v))).set (fr.get v)) (sf.set (sf.get (sets src) v)) g.L
      rw [hgv]
      exact this
    · exact { h.glob with ev := List.rel_append h.glob.ev (.cons ⟨rfl, hgv, hdv⟩ .nil) }

end PassIr
end Verif
