import Verif.Threads
import Verif.LinkedMain
/- Helper lemmas: a linked program with threads does what the program with threads does. -/
namespace Verif
namespace Threads
open Ir PassIr Linked Spec Labels DfsanMem Tracker EndToEnd

/-- A thread of the linked program and one of the original program. -/
def ThRel (dom : Nat → Nat → Nat → Bool) (P : Prog) (L : Labels) : IThread → Thread (Nat × Nat → Prop) → Prop
  | .live is _ _ sp, .live ss sp' => sp = sp' ∧ ∃ fr rest sf srest F B, is = fr :: rest ∧ ss = sf :: srest ∧
      At dom P L F B fr sf ∧ Stack dom P L fr.fn rest srest
  | .ended v l, .ended w => v = w.1 ∧ Den L l w.2
  | _, _ => False

/-- All threads. -/
structure MRel (dom : Nat → Nat → Nat → Bool) (P : Prog) (cap : Nat) (M : IMulti) (S : Multi (Nat × Nat → Prop)) :
    Prop where
  threads : List.Forall₂ (ThRel dom P M.glob.L) M.threads S.threads
  glob : GRel cap M.glob S.glob

variable {dom : Nat → Nat → Nat → Bool} {P : Prog} {c : Config} {base src snk : Nat} {inp : World} {io : Io}
  {h0 : Trace}

theorem ThRel.grows {cap k : Nat} {ms : List Event} (hP : ProgOk dom P) {L L' : Labels} (hs : Store cap L)
    (g : GrowsM ms k L L') {x : IThread} {y : Thread (Nat × Nat → Prop)} (h : ThRel dom P L x y) :
    ThRel dom P L' x y := by
  cases x with
  | live is a r sp =>
    cases y with
    | live ss sp' =>
      obtain ⟨h1, fr, rest, sf, srest, F, B, h2, h3, h4, h5⟩ := h
      exact ⟨h1, fr, rest, sf, srest, F, B, h2, h3, h4.grows hP hs g, h5.grows hP hs g⟩
    | ended w => exact h.elim
  | ended v l =>
    cases y with
    | live ss sp' => exact h.elim
    | ended w => exact ⟨h.1, h.2.grows hs g⟩

theorem forall₂_set {α β : Type} {R : α → β → Prop} {xs : List α} {ys : List β} (h : List.Forall₂ R xs ys)
    {x : α} {y : β} (hxy : R x y) : ∀ i, List.Forall₂ R (xs.set i x) (ys.set i y) := by
  induction h with
  | nil => intro i; exact .nil
  | cons h t ih =>
    intro i
    cases i with
    | zero => exact .cons hxy t
    | succ i => exact .cons h (ih i)

theorem forall₂_get {α β : Type} {R : α → β → Prop} {xs : List α} {ys : List β} (h : List.Forall₂ R xs ys)
    {i : Nat} {y : β} (hy : ys[i]? = some y) : ∃ x, xs[i]? = some x ∧ R x y := by
  induction h generalizing i with
  | nil => cases hy
  | @cons a b as bs h t ih =>
    cases i with
    | zero => cases hy; exact ⟨a, rfl, h⟩
    | succ i => exact ih hy

theorem link_own {g : IGlob} {T : Tracker} {h : Trace} (hl : Link c base io src snk h0 g T h) (a : Nat → Nat) (r sp : Nat) :
    Link c base io src snk h0 { g with argTls := a, retTls := r, sp } T h :=
  ⟨hl.reach, hl.labels, hl.reg, hl.rd, hl.wr, hl.written, hl.cf, hl.fns, hl.given⟩

theorem grel_own {cap : Nat} {g : IGlob} {gs : Glob (Nat × Nat → Prop)} (h : GRel cap g gs) (a : Nat → Nat) (r sp : Nat) :
    GRel cap { g with argTls := a, retTls := r, sp } { gs with sp } :=
  ⟨h.store, h.bytes, h.mem, h.lab, rfl, h.pos, h.out, h.ev⟩

/-- The action of the linked program. -/
def plain {τ : Type} : Act (Nat × τ) → Act Nat
  | .run i => .run i
  | .spawn f args sp => .spawn f (args.map (·.1)) sp
  | .join i a => .join i a

/-- The linked program is where the original program is. -/
def MEnds (dom : Nat → Nat → Nat → Bool) (P : Prog) (c : Config) (base src snk : Nat) (io : Io) (h0 : Trace) (k : Nat)
    (g : IGlob) (S : Multi (Nat × Nat → Prop)) (x : Option IMulti) : Prop :=
  ∃ M h', x = some M ∧ MRel dom P c.labelCap M S ∧ Evolves k g M.glob ∧ Link c base io src snk h0 M.glob M.T h'

theorem labelOf_writeInt (m : Mem) {a n v b : Nat} (ha : 0x700000008000 ≤ a) (hb : IsApp b) :
    labelOf (writeInt m a n v) b = labelOf m b := by
  obtain ⟨b1, b2⟩ := hb
  have eb := shadow_sum (show 0x700000000000 ≤ b by omega) (by omega)
  apply read32_congr
  intro x x1 x2
  simp only [writeInt]
  rw [if_neg (by omega)]

theorem spawn_rel {cap : Nat} (hP : ProgOk dom P) {f : Nat} {F : Func} (hF : P[f]? = some F) (hne : F.blocks ≠ [])
    {args : List (Nat × (Nat × Nat → Prop))} (ha : ∀ x ∈ args, ∀ b, ¬ x.2 b) (sp : Nat) {g : IGlob}
    {gs : Glob (Nat × Nat → Prop)} (hg : GRel cap g gs) :
    ThRel dom P g.L (ispawn F f (args.map (·.1)) sp g) (.live [newFrame (sets src) f args sp] sp) := by
  let g' : IGlob := { g with sp, argTls := fun _ => 0, retTls := 0 }
  obtain ⟨B, hB⟩ := enter_rel (src := src) (gs := { gs with sp }) (g := g') hP hF hne (args := args) hg.store rfl (fun i _ => by
    have : (args.getD i (0, fun _ => False)).2 = fun _ => False := by
      simp only [List.getD]
      cases e : args[i]? with
      | none => rfl
      | some x =>
        funext b
        simpa using ha x (List.mem_of_getElem? e) b
    rw [this]
    exact hg.store.den_zero)
  exact ⟨rfl, _, _, _, _, F, B, rfl, rfl, hB, .nil _⟩

theorem tmstep_sim (hP : ProgOk dom P) (hc : c.Ok base) (hsrc : src < 256) (hin : owner h0 io.fdIn = some src)
    (hout : owner h0 io.fdOut = some snk) {M : IMulti} {S S' : Multi (Nat × Nat → Prop)} {h : Trace}
    (hrel : MRel dom P c.labelCap M S) (hl : Link c base io src snk h0 M.glob M.T h)
    {a : Act (Nat × (Nat × Nat → Prop))} (ha : Kept S a) (hs : mstep (sets src) P inp S a = some S')
    (hpos : S'.glob.pos < 2 ^ 54) (hf : Fine S'.glob) :
    TGoes c (mcost P inp S a) M.glob.L (cfEvents h0).length (saidCount S'.glob.ev) (tmstep dom P inp io M (plain a))
      (MEnds dom P c base src snk io h0 (mcost P inp S a) M.glob S') := by
  cases a with
  | run i =>
    simp only [mstep] at hs
    simp only [mcost, plain, tmstep]
    split at hs
    case h_2 => cases hs
    rename_i ss sp e
    obtain ⟨x, hx, hxr⟩ := forall₂_get hrel.threads e
    cases x with
    | ended v l => exact hxr.elim
    | live is ar re sp' =>
      obtain ⟨rfl, hfr⟩ := hxr
      have hrel1 : Rel dom P c.labelCap ⟨is, { M.glob with argTls := ar, retTls := re, sp := sp' }⟩
          ⟨ss, { S.glob with sp := sp' }⟩ := ⟨hfr, grel_own hrel.glob ar re sp'⟩
      have hl1 := link_own hl ar re sp'
      rw [hx]
      dsimp only
      cases e1 : step (sets src) P inp ⟨ss, { S.glob with sp := sp' }⟩ with
      | stuck => rw [e1] at hs; cases hs
      | next s' =>
        rw [e1] at hs
        cases hs
        refine TGoes.bind (tstep_next hP hc hsrc hrel1 hl1 hin hout hpos e1 hf) ?_
        rintro x ⟨i', T', h', rfl, -, k1, k2, k3⟩
        refine .ok ⟨_, h', rfl, ⟨?_, k1.glob⟩, k2, k3⟩
        refine forall₂_set (hrel.threads.imp (fun a b hab => hab.grows hP hrel.glob.store k2.room.choose_spec)) ?_ i
        exact ⟨k1.glob.sp, k1.frames⟩
      | done v g =>
        rw [e1] at hs
        cases hs
        refine TGoes.bind (tstep_done hP hsrc hrel1 hl1 hpos e1 _ _) ?_
        rintro x ⟨l, g', T', h', rfl, k0, k1, k2, k3⟩
        refine .ok ⟨_, h', rfl, ⟨?_, k1⟩, k2, k3⟩
        exact forall₂_set (hrel.threads.imp (fun a b hab => hab.grows hP hrel.glob.store k2.room.choose_spec))
          ⟨rfl, k0⟩ i
  | spawn f args sp =>
    simp only [mstep] at hs
    simp only [mcost, plain, tmstep]
    split at hs
    case h_2 => cases hs
    rename_i F hF
    rw [hF]
    dsimp only
    split at hs
    · cases hs
    rename_i hne
    cases hs
    rw [if_neg hne]
    exact .ok ⟨_, h, rfl, ⟨List.rel_append hrel.threads (.cons (spawn_rel hP hF hne ha sp hrel.glob) .nil), hrel.glob⟩,
      .refl _, hl⟩
  | join i a =>
    simp only [mstep] at hs
    simp only [mcost, plain, tmstep]
    split at hs
    case h_2 => cases hs
    rename_i v e
    split at hs
    case isFalse => cases hs
    rename_i hacc
    cases hs
    obtain ⟨x, hx, hxr⟩ := forall₂_get hrel.threads e
    cases x with
    | live is ar re sp' => exact hxr.elim
    | ended w l =>
      obtain ⟨rfl, -⟩ := hxr
      rw [hx]
      dsimp only
      rw [if_pos hacc]
      have ht : putAll S.glob.tmem a 8 v.2 = S.glob.tmem := by
        funext x
        simp only [putAll]
        split
        · rename_i hx
          funext b
          have := ha v e (x - a) (by omega) b
          rw [show a + (x - a) = x by omega] at this
          exact propext this.symm
        · rfl
      refine .ok ⟨_, h, rfl, ⟨hrel.threads, ?_⟩, .quiet rfl rfl,
        ⟨hl.reach, hl.labels, hl.reg, hl.rd, hl.wr, hl.written, hl.cf, hl.fns, hl.given⟩⟩
      rw [ht]
      refine { hrel.glob with bytes := ?_, mem := ?_, lab := ?_ }
      · intro x
        simp only [writeInt]
        split
        · exact Nat.mod_lt _ (by decide)
        · exact hrel.glob.bytes x
      · intro b hb
        simp only [putInt, writeInt]
        rw [hrel.glob.mem b hb]
      · intro b hb
        rw [labelOf_writeInt _ hacc.1 hb]
        exact hrel.glob.lab b hb

theorem mstep_sub {τ : Type} {A : Alg τ} {P : Prog} {inp : World} {M M' : Multi τ} {a : Act (Nat × τ)}
    (h : mstep A P inp M a = some M') : Sub M.glob M'.glob := by
  cases a with
  | run i =>
    simp only [mstep] at h
    split at h
    case h_2 => cases h
    rename_i ss sp e
    cases e1 : step A P inp ⟨ss, { M.glob with sp }⟩ with
    | stuck => rw [e1] at h; cases h
    | next s' =>
      have := step_sub (g' := s'.glob) (A := A) (P := P) (inp := inp) (s := ⟨ss, { M.glob with sp }⟩) (by rw [e1]; rfl)
      rw [e1] at h; cases h
      exact ⟨this.pos, this.out, this.ev⟩
    | done v g =>
      have := step_sub (g' := g) (A := A) (P := P) (inp := inp) (s := ⟨ss, { M.glob with sp }⟩) (by rw [e1]; rfl)
      rw [e1] at h; cases h
      exact ⟨this.pos, this.out, this.ev⟩
  | spawn f args sp =>
    simp only [mstep] at h
    split at h
    case h_2 => cases h
    split at h
    · cases h
    · cases h; exact .refl _
  | join i a =>
    simp only [mstep] at h
    split at h
    case h_2 => cases h
    split at h
    · cases h; exact ⟨Nat.le_refl _, List.prefix_refl _, List.prefix_refl _⟩
    · cases h

theorem mrun_sub {τ : Type} {A : Alg τ} {P : Prog} {inp : World} : ∀ {as : List (Act (Nat × τ))} {M M' : Multi τ},
    mrun A P inp as M = some M' → Sub M.glob M'.glob
  | [], M, M', h => by cases h; exact .refl _
  | a :: as, M, M', h => by
    obtain ⟨M1, h1, h2⟩ := Option.bind_eq_some_iff.1 h
    exact (mstep_sub h1).trans (mrun_sub h2)

theorem tmrun_sim (hP : ProgOk dom P) (hc : c.Ok base) (hsrc : src < 256) (hin : owner h0 io.fdIn = some src)
    (hout : owner h0 io.fdOut = some snk) : ∀ (as : List (Act (Nat × (Nat × Nat → Prop)))) {M : IMulti}
    {S S' : Multi (Nat × Nat → Prop)} {h : Trace}, MRel dom P c.labelCap M S → Link c base io src snk h0 M.glob M.T h →
    KeptRun (sets src) P inp as S → mrun (sets src) P inp as S = some S' → S'.glob.pos < 2 ^ 54 → Fine S'.glob →
    TGoes c (mrunCost (sets src) P inp as S) M.glob.L (cfEvents h0).length (saidCount S'.glob.ev)
      (tmrun dom P inp io (as.map plain) M)
      (MEnds dom P c base src snk io h0 (mrunCost (sets src) P inp as S) M.glob S') := by
  intro as
  induction as with
  | nil =>
    intro M S S' h hrel hl _ hs _ _
    cases hs
    exact .ok ⟨M, h, rfl, hrel, .refl _, hl⟩
  | cons a as ih =>
    intro M S S' h hrel hl ha hs hpos hf
    obtain ⟨S1, h1, h2⟩ := Option.bind_eq_some_iff.1 hs
    have hsub := mrun_sub h2
    simp only [List.map_cons, tmrun, mrunCost, h1, Option.map_some, Option.getD_some]
    refine TGoes.bind ((tmstep_sim hP hc hsrc hin hout hrel hl ha.1 h1
      (Nat.lt_of_le_of_lt hsub.pos hpos) (hf.sub hsub)).weak (Nat.le_add_right _ _) hsub.ev.sublist.countP_le) ?_
    rintro x ⟨M', h', rfl, k1, k2, k3⟩
    refine (TGoes.from k2.room.choose_spec (ih k1 k3 (ha.2 S1 h1) h2 hpos hf)).mono ?_
    rintro x ⟨M2, h2, rfl, j1, j2, j3⟩
    exact ⟨M2, h2, rfl, j1, k2.trans j2, j3⟩

end Threads
end Verif
