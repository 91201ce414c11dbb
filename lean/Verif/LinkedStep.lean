import Verif.LinkedSim
/- Helper lemmas: one step of the linked program. -/
namespace Verif
namespace Linked
open Ir PassIr Spec Labels DfsanMem Tracker EndToEnd

/-- Neither input nor output nor a report. -/
def other : Instr → Bool
  | .getc => false
  | .putc _ => false
  | .read _ _ => false
  | .write _ _ => false
  | .hook _ _ => false
  | _ => true

/-- Input, output and reports are the same. -/
def Keeps (g g' : IGlob) : Prop := g'.out = g.out ∧ g'.ev = g.ev ∧ g'.pos = g.pos

theorem sexec_keeps {avoid : Bool} {fr fr' : IFrame} {g g' : IGlob} {i : SIns}
    (h : sexec avoid fr g i = .ok (fr', g')) : fr'.idx = fr.idx ∧ Keeps g g' := by
  cases i with
  | union n a b =>
    simp only [sexec, Res.bind_eq_ok] at h
    obtain ⟨x, -, h⟩ := h; cases h; exact ⟨rfl, rfl, rfl, rfl⟩
  | load n a size =>
    simp only [sexec, Res.bind_eq_ok] at h
    obtain ⟨x, -, h⟩ := h; cases h; exact ⟨rfl, rfl, rfl, rfl⟩
  | fill s d n =>
    simp only [sexec, Res.bind_eq_ok] at h
    obtain ⟨x, -, h⟩ := h; cases h; exact ⟨rfl, rfl, rfl, rfl⟩
  | copy move d s n =>
    simp only [sexec] at h
    split at h
    · obtain ⟨x, -, h⟩ := Res.bind_eq_ok.1 h
      cases h; exact ⟨rfl, rfl, rfl, rfl⟩
    · cases h; exact ⟨rfl, rfl, rfl, rfl⟩
  | store a size s => cases h; exact ⟨rfl, rfl, rfl, rfl⟩
  | sel n c a b => cases h; exact ⟨rfl, rfl, rfl, rfl⟩
  | getVar n k => cases h; exact ⟨rfl, rfl, rfl, rfl⟩
  | setVar k s => cases h; exact ⟨rfl, rfl, rfl, rfl⟩
  | setArg off s => cases h; exact ⟨rfl, rfl, rfl, rfl⟩
  | setRet s => cases h; exact ⟨rfl, rfl, rfl, rfl⟩

theorem sexecs_keeps {avoid : Bool} : ∀ {is : List SIns} {fr fr' : IFrame} {g g' : IGlob},
    sexecs avoid is fr g = .ok (fr', g') → fr'.idx = fr.idx ∧ Keeps g g'
  | [], fr, fr', g, g', h => by cases h; exact ⟨rfl, rfl, rfl, rfl⟩
  | i :: is, fr, fr', g, g', h => by
    simp only [sexecs, Res.bind_eq_ok] at h
    obtain ⟨⟨fr1, g1⟩, h1, h2⟩ := h
    obtain ⟨a, b1, b2, b3⟩ := sexec_keeps h1
    obtain ⟨a', b1', b2', b3'⟩ := sexecs_keeps h2
    exact ⟨a'.trans a, b1'.trans b1, b2'.trans b2, b3'.trans b3⟩

theorem istepInstr_keeps {P : Prog} {inp : World} {src : Nat} {an : Ann} {fr : IFrame}
    {rest : List IFrame} {g : IGlob} {I : Instr} (hI : other I = true) {i' : IState}
    (h : istepInstr P inp src an fr rest g I = .ok (.next i')) : i'.glob.L = g.L ∧ Keeps g i'.glob := by
  cases I with
  | getc => cases hI
  | putc v => cases hI
  | read a n => cases hI
  | write a n => cases hI
  | hook k v => cases hI
  | op f args => cases h; exact ⟨rfl, rfl, rfl, rfl⟩
  | untracked f args => cases h; exact ⟨rfl, rfl, rfl, rfl⟩
  | select c t e => cases h; exact ⟨rfl, rfl, rfl, rfl⟩
  | alloca n => cases h; exact ⟨rfl, rfl, rfl, rfl⟩
  | getVar k => cases h; exact ⟨rfl, rfl, rfl, rfl⟩
  | setVar k v => cases h; exact ⟨rfl, rfl, rfl, rfl⟩
  | load a n =>
    simp only [istepInstr] at h
    split at h
    · cases h; exact ⟨rfl, rfl, rfl, rfl⟩
    · split at h <;> cases h
      exact ⟨rfl, rfl, rfl, rfl⟩
  | store a v n =>
    simp only [istepInstr] at h
    split at h
    · cases h; exact ⟨rfl, rfl, rfl, rfl⟩
    · split at h <;> cases h
      exact ⟨rfl, rfl, rfl, rfl⟩
  | call void f args =>
    simp only [istepInstr] at h
    split at h
    · cases h
    · split at h <;> cases h
      exact ⟨rfl, rfl, rfl, rfl⟩
  | memset d c n =>
    simp only [istepInstr] at h
    split at h <;> cases h
    exact ⟨rfl, rfl, rfl, rfl⟩
  | rmw f a args n =>
    simp only [istepInstr] at h
    split at h <;> cases h
    exact ⟨rfl, rfl, rfl, rfl⟩
  | memcpy move d s n =>
    simp only [istepInstr] at h
    split at h
    · split at h
      · obtain ⟨x, -, h⟩ := Res.bind_eq_ok.1 h
        cases h; exact ⟨rfl, rfl, rfl, rfl⟩
      · cases h; exact ⟨rfl, rfl, rfl, rfl⟩
    · cases h

theorem istepInstr_src {P : Prog} {inp : World} (src : Nat) {an : Ann} {fr : IFrame}
    {rest : List IFrame} {g : IGlob} {I : Instr} (hI : other I = true) :
    istepInstr P inp 0 an fr rest g I = istepInstr P inp src an fr rest g I := by
  cases I <;> first | rfl | cases hI

theorem tstepInstr_other {io : Io} {P : Prog} {inp : World} (src : Nat) {an : Ann} {fr : IFrame}
    {rest : List IFrame} {g : IGlob} {T : Tracker} {I : Instr} (hI : other I = true) :
    tstepInstr io P inp an fr rest g T I = (istepInstr P inp src an fr rest g I >>= fun o => pure (o, T)) := by
  rw [← istepInstr_src src hI]
  cases I <;> first | rfl | cases hI

theorem istepInstr_not_done {P : Prog} {inp : World} {src : Nat} {an : Ann} {fr : IFrame}
    {rest : List IFrame} {g : IGlob} {I : Instr} (hI : other I = true) {v l : Nat} {g' : IGlob} :
    istepInstr P inp src an fr rest g I ≠ .ok (.done v l g') := by
  intro h
  cases I with
  | getc => cases hI
  | putc v => cases hI
  | read a n => cases hI
  | write a n => cases hI
  | hook k v => cases hI
  | op f args => cases h
  | untracked f args => cases h
  | select c t e => cases h
  | alloca n => cases h
  | getVar k => cases h
  | setVar k v => cases h
  | load a n => simp only [istepInstr] at h; split at h; cases h; split at h <;> cases h
  | store a v n => simp only [istepInstr] at h; split at h; cases h; split at h <;> cases h
  | call void f args => simp only [istepInstr] at h; split at h; cases h; split at h <;> cases h
  | memset d c n => simp only [istepInstr] at h; split at h <;> cases h
  | rmw f a args n => simp only [istepInstr] at h; split at h <;> cases h
  | memcpy move d s n =>
    simp only [istepInstr] at h
    split at h
    · split at h
      · obtain ⟨x, -, h⟩ := Res.bind_eq_ok.1 h
        cases h
      · cases h
    · cases h

theorem ijump_keeps {F : Func} {st : PSt} {fr : IFrame} {rest : List IFrame} {g : IGlob} {t : Nat} {i' : IState}
    (h : ijump F st fr rest g t = .next i') : i'.glob = g := by
  unfold ijump at h
  split at h
  · cases h
  · split at h <;> cases h
    rfl

theorem ijump_not_done {F : Func} {st : PSt} {fr : IFrame} {rest : List IFrame} {g : IGlob} {t : Nat} {v l : Nat}
    {g' : IGlob} : ijump F st fr rest g t ≠ .done v l g' := by
  unfold ijump
  split
  · simp
  · split <;> simp

theorem istepTerm_next {anns : Nat → Pt → Ann} {F : Func} {st : PSt} {fr : IFrame} {rest : List IFrame}
    {g : IGlob} {t : Term} {i' : IState} (h : istepTerm anns F st fr rest g t = .next i') :
    i'.glob.L = g.L ∧ Keeps g i'.glob := by
  have hret : ∀ sp x void, idoReturn anns g sp x void rest = .next i' → i'.glob.L = g.L ∧ Keeps g i'.glob := by
    intro sp x void h
    cases rest <;> simp only [idoReturn] at h <;> cases h
    exact ⟨rfl, rfl, rfl, rfl⟩
  cases t with
  | br c f ts =>
    simp only [istepTerm] at h
    split at h
    · cases h
    · rw [ijump_keeps h]; exact ⟨rfl, rfl, rfl, rfl⟩
  | ret o =>
    cases o with
    | none => simp only [istepTerm] at h; split at h; exact hret _ _ _ h; cases h
    | some v => simp only [istepTerm] at h; split at h; cases h; exact hret _ _ _ h
  | unreachable => cases h

theorem istepTerm_done {anns : Nat → Pt → Ann} {F : Func} {st : PSt} {fr : IFrame} {rest : List IFrame}
    {g : IGlob} {t : Term} {v l : Nat} {g' : IGlob} (h : istepTerm anns F st fr rest g t = .done v l g') :
    g'.L = g.L ∧ Keeps g g' := by
  have hret : ∀ sp x void, idoReturn anns g sp x void rest = .done v l g' → g'.L = g.L ∧ Keeps g g' := by
    intro sp x void h
    cases rest <;> simp only [idoReturn] at h <;> cases h
    exact ⟨rfl, rfl, rfl, rfl⟩
  cases t with
  | br c f ts =>
    simp only [istepTerm] at h
    split at h
    · cases h
    · exact absurd h ijump_not_done
  | ret o =>
    cases o with
    | none => simp only [istepTerm] at h; split at h; exact hret _ _ _ h; cases h
    | some v => simp only [istepTerm] at h; split at h; cases h; exact hret _ _ _ h
  | unreachable => cases h

/-- A report that may be logged. -/
def said : Hook → Bool
  | .noted => false
  | _ => true

/-- Number of reports that may be logged. -/
def saidCount {τ : Type} (ev : List (Hook × Nat × τ)) : Nat := ev.countP fun y => said y.1

theorem logged_le : ∀ (ev : List (Hook × Nat × Nat)), (ev.filterMap logged).length ≤ saidCount ev
  | [] => Nat.le_refl _
  | x :: ev => by
    have ih := logged_le ev
    simp only [saidCount, List.countP_cons, List.filterMap_cons] at ih ⊢
    cases hx : logged x with
    | none => simp only; omega
    | some e =>
      have : said x.1 = true := by
        obtain ⟨k, v, l⟩ := x
        cases k <;> first | rfl | (simp [logged] at hx)
      simp only [List.length_cons, this, if_true]
      omega

theorem reports_eq {τ : Type} {R : Hook × Nat × Nat → Hook × Nat × τ → Prop} (hR : ∀ x y, R x y → x.1 = y.1)
    {xs : List (Hook × Nat × Nat)} {ys : List (Hook × Nat × τ)} (h : List.Forall₂ R xs ys) :
    saidCount xs = saidCount ys := by
  induction h with
  | nil => rfl
  | cons h _ ih =>
    simp only [saidCount, List.countP_cons] at ih ⊢
    rw [ih, hR _ _ h]

/-- The computation ends well, in `Q`; or the label store has no room for `k` more labels; or the log, which
holds `n` events, has no room for `m` more. -/
def TGoes {α : Type} (c : Config) (k : Nat) (L : Labels) (n m : Nat) (r : Res α) (Q : α → Prop) : Prop :=
  (∃ x, r = .ok x ∧ Q x) ∨ ((r = .fatal ∨ r = .ub) ∧ c.labelCap < L.words.length + k) ∨
    (r = .fatal ∧ 0 < m ∧ c.logSize < 11 * (n + m))

/-- What the output and the reports of the program must satisfy: it outputs bytes, and function numbers
fit their type. -/
structure Fine {τ : Type} (gs : Glob τ) : Prop where
  bytes : ∀ y ∈ gs.out, y.1 < 256
  short : gs.out.length < 2 ^ 54
  fns : ∀ y ∈ gs.ev, ∀ f, y.1 = .enter f ∨ y.1 = .leave f ∨ y.1 = .taken f → f < 2 ^ 32

/-! ### What the program has done stays done -/

/-- The globals after some steps. -/
def globAfter {τ : Type} : Out τ → Option (Glob τ)
  | .next s => some s.glob
  | .done _ g => some g
  | .stuck => none

/-- Input read, output written and reports made are kept. -/
structure Sub {τ : Type} (g g' : Glob τ) : Prop where
  pos : g.pos ≤ g'.pos
  out : g.out <+: g'.out
  ev : g.ev <+: g'.ev

theorem Sub.refl {τ : Type} (g : Glob τ) : Sub g g := ⟨Nat.le_refl _, List.prefix_refl _, List.prefix_refl _⟩

theorem Sub.trans {τ : Type} {a b c : Glob τ} (h : Sub a b) (h' : Sub b c) : Sub a c :=
  ⟨Nat.le_trans h.pos h'.pos, h.out.trans h'.out, h.ev.trans h'.ev⟩

theorem Fine.sub {τ : Type} {g g' : Glob τ} (hf : Fine g') (h : Sub g g') : Fine g :=
  ⟨fun y hy => hf.bytes y (h.out.subset hy), Nat.lt_of_le_of_lt h.out.length_le hf.short,
    fun y hy => hf.fns y (h.ev.subset hy)⟩

theorem stepInstr_sub {τ : Type} {A : Alg τ} {P : Prog} {inp : World} {fr : Frame τ}
    {rest : List (Frame τ)} {g : Glob τ} {I : Instr} {s' : State τ}
    (h : stepInstr A P inp fr rest g I = .next s') : Sub g s'.glob := by
  cases I <;> simp only [stepInstr] at h <;> (repeat' split at h) <;> cases h <;>
    exact ⟨by simp, by simp, by simp⟩

theorem step_sub {τ : Type} {A : Alg τ} {P : Prog} {inp : World} {s : State τ} {g' : Glob τ}
    (h : globAfter (step A P inp s) = some g') : Sub s.glob g' := by
  unfold step at h
  split at h
  · cases h
  · rename_i fr rest hf
    split at h
    · cases h
    · rename_i F hF
      split at h
      · cases h
      · rename_i B hB
        split at h
        · rename_i I hI
          cases e : stepInstr A P inp fr rest s.glob I with
          | next s' => rw [e] at h; cases h; exact stepInstr_sub e
          | done v g => exact (stepInstr_not_done e).elim
          | stuck => rw [e] at h; cases h
        · cases hT : B.term with
          | unreachable => rw [hT] at h; cases h
          | br c f ts =>
            rw [hT] at h
            simp only [stepTerm] at h
            split at h
            · cases h
            · unfold jump at h
              split at h
              · cases h
              · split at h
                · cases h
                · cases h; exact .refl _
          | ret v =>
            rw [hT] at h
            cases v with
            | none =>
              simp only [stepTerm] at h
              split at h
              · cases rest <;> simp only [doReturn] at h <;> cases h <;> exact ⟨by simp, by simp, by simp⟩
              · cases h
            | some v =>
              simp only [stepTerm] at h
              split at h
              · cases h
              · cases rest <;> simp only [doReturn] at h <;> cases h <;> exact ⟨by simp, by simp, by simp⟩

variable {dom : Nat → Nat → Nat → Bool} {P : Prog} {c : Config} {base src snk : Nat} {inp : World} {io : Io}
  {h0 : Trace} {T : Tracker} {h : Trace}

theorem pre_nil {V : Pt → Prop} {st0 : PSt} {F : Func} {B : Block} {fn b j : Nat} {I : Instr}
    (hE : PassIr.Env (dom fn) F V (b, j + 1) st0 (instrument (dom fn) F).st)
    (hB : F.blocks[b]? = some B) (hI : B.body[j]? = some I) (ho : other I = false) :
    ((instrument (dom fn) F).st.ann (b, j + 1)).pre = [] := by
  rw [hE.ann, visitPt_ins hB hI]
  cases I with
  | getc => simp [visitInstr, PSt.close, PSt.setShadow, PSt.fresh, hE.em0]
  | putc v => simp [visitInstr, PSt.close, hE.em0]
  | read a n => simp [visitInstr, PSt.close, PSt.setShadow, PSt.fresh, hE.em0]
  | write a n => simp [visitInstr, PSt.close, PSt.setShadow, PSt.fresh, hE.em0]
  | hook k v => cases k <;> simp [visitInstr, PSt.close, PSt.setShadow, PSt.fresh, hE.em0]
  | _ => cases ho

theorem forall₂_left {α β : Type} {R : α → β → Prop} {xs : List α} {ys : List β} (h : List.Forall₂ R xs ys)
    {x : α} (hx : x ∈ xs) : ∃ y ∈ ys, R x y := by
  induction h with
  | nil => cases hx
  | @cons a b as bs hab _ ih =>
    rcases List.mem_cons.1 hx with rfl | hx
    · exact ⟨b, by simp, hab⟩
    · obtain ⟨y, h1, h2⟩ := ih hx
      exact ⟨y, by simp [h1], h2⟩

/-- The annotations of all functions. -/
def annsOf (dom : Nat → Nat → Nat → Bool) (P : Prog) (fn : Nat) (p : Pt) : Ann :=
  match P[fn]? with
  | some F => (instrument (dom fn) F).st.ann p
  | none => ⟨[], [], none⟩

/-- What follows the inserted code. -/
def iafter (dom : Nat → Nat → Nat → Bool) (P : Prog) (inp : World) (src : Nat) (F : Func) (B : Block)
    (an : Ann) (st : PSt) (rest : List IFrame) (x : IFrame × IGlob) : Res IOut :=
  match B.body[x.1.idx]? with
  | some I => istepInstr P inp src an x.1 rest x.2 I
  | none => pure (istepTerm (annsOf dom P) F st x.1 rest x.2 B.term)

def tafter (dom : Nat → Nat → Nat → Bool) (P : Prog) (inp : World) (io : Io) (F : Func) (B : Block)
    (an : Ann) (st : PSt) (rest : List IFrame) (T : Tracker) (x : IFrame × IGlob) : Res (IOut × Tracker) :=
  match B.body[x.1.idx]? with
  | some I => tstepInstr io P inp an x.1 rest x.2 { T with labels := x.2.L } I
  | none => pure (istepTerm (annsOf dom P) F st x.1 rest x.2 B.term, { T with labels := x.2.L })

theorem istep_eq {fr : IFrame} {F : Func} {B : Block} {rest : List IFrame} {g : IGlob}
    (hF : P[fr.fn]? = some F) (hB : F.blocks[fr.blk]? = some B) :
    istep dom P inp src ⟨fr :: rest, g⟩ = (sexecs (instrument (dom fr.fn) F).avoid
      ((instrument (dom fr.fn) F).st.ann (fr.blk, fr.idx + 1)).pre fr g >>=
        iafter dom P inp src F B ((instrument (dom fr.fn) F).st.ann (fr.blk, fr.idx + 1))
          (instrument (dom fr.fn) F).st rest) := by
  unfold istep
  simp only [hF, hB]
  rfl

theorem tstep_eq {fr : IFrame} {F : Func} {B : Block} {rest : List IFrame} {g : IGlob}
    (hF : P[fr.fn]? = some F) (hB : F.blocks[fr.blk]? = some B) (hl : T.labels = g.L) :
    tstep dom P inp io ⟨fr :: rest, g⟩ T = (sexecs (instrument (dom fr.fn) F).avoid
      ((instrument (dom fr.fn) F).st.ann (fr.blk, fr.idx + 1)).pre fr g >>=
        tafter dom P inp io F B ((instrument (dom fr.fn) F).st.ann (fr.blk, fr.idx + 1))
          (instrument (dom fr.fn) F).st rest T) := by
  unfold tstep
  simp only [hF, hB, hl]
  rfl

/-- The label store after a step. -/
def outLabels (T : Tracker) : IOut → Labels
  | .next i' => i'.glob.L
  | .done _ _ g' => g'.L
  | .stuck => T.labels

theorem tstep_quiet {fr : IFrame} {F : Func} {B : Block} {rest : List IFrame} {g : IGlob}
    (hF : P[fr.fn]? = some F) (hB : F.blocks[fr.blk]? = some B) (hl : T.labels = g.L)
    (hoth : ∀ I, B.body[fr.idx]? = some I → other I = true) :
    tstep dom P inp io ⟨fr :: rest, g⟩ T = (istep dom P inp src ⟨fr :: rest, g⟩ >>= fun o =>
      pure (o, { T with labels := outLabels T o })) ∨
    istep dom P inp src ⟨fr :: rest, g⟩ = .ok .stuck := by
  rw [istep_eq hF hB, tstep_eq hF hB hl]
  cases hx : sexecs (instrument (dom fr.fn) F).avoid
    ((instrument (dom fr.fn) F).st.ann (fr.blk, fr.idx + 1)).pre fr g with
  | fatal => exact Or.inl rfl
  | ub => exact Or.inl rfl
  | hang => exact Or.inl rfl
  | ok x =>
    obtain ⟨fr1, g1⟩ := x
    have hk := (sexecs_keeps hx).1
    simp only [Res.bind_ok, iafter, tafter, hk]
    cases hI : B.body[fr.idx]? with
    | none =>
      simp only [Res.pure_eq, Res.bind_ok]
      generalize hy : istepTerm _ F _ fr1 rest g1 B.term = o
      cases o with
      | stuck => exact Or.inr rfl
      | next i' => left; simp only [outLabels, (istepTerm_next hy).1]
      | done v l g' => left; simp only [outLabels, (istepTerm_done hy).1]
    | some I =>
      have ho := hoth I hI
      simp only [tstepInstr_other src ho]
      cases hy : istepInstr P inp src ((instrument (dom fr.fn) F).st.ann (fr.blk, fr.idx + 1)) fr1 rest g1 I with
      | fatal => exact Or.inl rfl
      | ub => exact Or.inl rfl
      | hang => exact Or.inl rfl
      | ok o =>
        cases o with
        | stuck => exact Or.inr rfl
        | next i' =>
          left
          simp only [Res.bind_ok, Res.pure_eq, outLabels, (istepInstr_keeps ho hy).1]
        | done v l g' => exact absurd hy (istepInstr_not_done ho)

theorem istep_keeps {fr : IFrame} {F : Func} {B : Block} {rest : List IFrame} {g : IGlob}
    (hF : P[fr.fn]? = some F) (hB : F.blocks[fr.blk]? = some B)
    (hoth : ∀ I, B.body[fr.idx]? = some I → other I = true) :
    (∀ i', istep dom P inp src ⟨fr :: rest, g⟩ = .ok (.next i') → Keeps g i'.glob) ∧
    ∀ v l g', istep dom P inp src ⟨fr :: rest, g⟩ = .ok (.done v l g') → Keeps g g' := by
  rw [istep_eq hF hB]
  constructor
  · intro i' ho
    obtain ⟨⟨fr1, g1⟩, hx, ho⟩ := Res.bind_eq_ok.1 ho
    obtain ⟨hk, k1, k2, k3⟩ := sexecs_keeps hx
    simp only [iafter, hk] at ho
    have : Keeps g1 i'.glob := by
      cases hI : B.body[fr.idx]? with
      | none =>
        rw [hI] at ho
        simp only [Res.pure_eq, Res.ok.injEq] at ho
        exact (istepTerm_next ho).2
      | some I => rw [hI] at ho; exact (istepInstr_keeps (hoth I hI) ho).2
    exact ⟨this.1.trans k1, this.2.1.trans k2, this.2.2.trans k3⟩
  · intro v l g' ho
    obtain ⟨⟨fr1, g1⟩, hx, ho⟩ := Res.bind_eq_ok.1 ho
    obtain ⟨hk, k1, k2, k3⟩ := sexecs_keeps hx
    simp only [iafter, hk] at ho
    have : Keeps g1 g' := by
      cases hI : B.body[fr.idx]? with
      | none =>
        rw [hI] at ho
        simp only [Res.pure_eq, Res.ok.injEq] at ho
        exact (istepTerm_done ho).2
      | some I => rw [hI] at ho; exact absurd ho (istepInstr_not_done (hoth I hI))
    exact ⟨this.1.trans k1, this.2.1.trans k2, this.2.2.trans k3⟩

/-- The claim for a step. -/
def Steps (dom : Nat → Nat → Nat → Bool) (P : Prog) (c : Config) (base src snk : Nat) (inp : World) (io : Io)
    (h0 : Trace) (k : Nat) (i : IState) (s' : State (Nat × Nat → Prop)) (x : IOut × Tracker) : Prop :=
  ∃ i' T' h', x = (.next i', T') ∧ istep dom P inp src i = .ok (.next i') ∧ Rel dom P c.labelCap i' s' ∧
    Evolves k i.glob i'.glob ∧ Link c base io src snk h0 i'.glob T' h'

theorem tstep_next (hP : ProgOk dom P) (hc : c.Ok base) (hsrc : src < 256) {i : IState}
    {s s' : State (Nat × Nat → Prop)} (hrel : Rel dom P c.labelCap i s)
    (hl : Link c base io src snk h0 i.glob T h) (hin : owner h0 io.fdIn = some src)
    (hout : owner h0 io.fdOut = some snk) (hpos : s'.glob.pos < 2 ^ 54)
    (hs : step (sets src) P inp s = .next s') (hf : Fine s'.glob) :
    TGoes c (s.cost P inp) i.glob.L (cfEvents h0).length (saidCount s'.glob.ev) (tstep dom P inp io i T)
      (Steps dom P c base src snk inp io h0 (s.cost P inp) i s') := by
  have hq := step_sim (inp := inp) hP hsrc hrel (by rw [hs]; exact Nat.le_of_lt hpos)
  rw [hs] at hq
  dsimp only at hq
  obtain ⟨fr, rest, sf, srest, F, B, e1, e2, hAt, hSt⟩ := hrel.frames
  obtain ⟨is, g⟩ := i
  obtain ⟨ss, gs⟩ := s
  simp only at e1 e2 hAt hSt hpos hl
  subst e1 e2
  have hG := hrel.glob
  simp only at hG
  obtain ⟨V, st0, hE⟩ := hAt.env hP hAt.reach
  -- the two steps
  have hist := istep_eq (src := src) (inp := inp) (g := g) (rest := rest) (dom := dom) hAt.func hAt.block
  have htst := tstep_eq (io := io) (inp := inp) (rest := rest) (dom := dom) hAt.func hAt.block hl.labels
  by_cases hoth : ∀ I, B.body[fr.idx]? = some I → other I = true
  · -- only labels are combined
    have hcom := tstep_quiet (dom := dom) (io := io) (src := src) (inp := inp) (rest := rest) hAt.func hAt.block hl.labels hoth
    rcases hq with ⟨o, ho, i', rfl, hrel', hev⟩ | ⟨hq, hq2⟩
    · rcases hcom with hcom | hcom
      · have hkeep := (istep_keeps hAt.func hAt.block hoth).1 i' ho
        obtain ⟨h', hl'⟩ := hl.quiet hev hkeep.2.1 hkeep.2.2 hkeep.1
        refine Or.inl ⟨_, ?_, i', _, h', rfl, ho, hrel', hev, hl'⟩
        rw [hcom, ho]
        rfl
      · rw [hcom] at ho; cases ho
    · right; left
      refine ⟨?_, hq2⟩
      rcases hcom with hcom | hcom
      · rw [hcom]
        rcases hq with hq | hq <;> rw [hq]
        · exact Or.inl rfl
        · exact Or.inr rfl
      · rw [hcom] at hq
        rcases hq with hq | hq <;> cases hq
  · -- input, output and reports
    obtain ⟨I, hI, ho⟩ : ∃ I, B.body[fr.idx]? = some I ∧ other I = false := by
      apply Classical.byContradiction
      intro hn
      apply hoth
      intro I hI
      cases e : other I with
      | true => rfl
      | false => exact absurd ⟨I, hI, e⟩ hn
    rw [pre_nil hE hAt.block hI ho] at hist htst
    simp only [sexecs, Res.pure_eq, Res.bind_ok, iafter, tafter, hI] at hist htst
    rw [show ({ T with labels := g.L } : Tracker) = T by rw [← hl.labels]] at htst
    rw [htst]
    generalize han : (instrument (dom fr.fn) F).st.ann (fr.blk, fr.idx + 1) = an at hist htst
    have hevlen : g.ev.length = gs.ev.length := hG.ev.length_eq
    have houtlen : g.out.length = gs.out.length := hG.out.length_eq
    have hsub : gs.pos ≤ s'.glob.pos := (step_sub (by rw [hs]; rfl)).pos
    cases I with
    | getc =>
      simp only [istepInstr] at hist
      simp only [tstepInstr]
      cases hch : inp.byte g.pos with
      | none =>
        rw [hch] at hist
        simp only [Res.pure_eq] at hist
        rcases hq with ⟨o, hok, i', rfl, hrel', hev⟩ | ⟨hq, -⟩
        · have hok' := hok
          rw [hist] at hok'
          cases hok'
          refine Or.inl ⟨_, ?_, _, T, h, rfl, hok, hrel', hev, hl⟩
          rw [called, getc_end (by rw [hrel'.glob.pos]; exact hpos)]
          simp only [Res.bind_ok, Res.pure_eq, hl.labels]
          rfl
        · rw [hist] at hq
          rcases hq with hq | hq <;> cases hq
      | some ch =>
        rw [hch] at hist
        simp only at hist
        rcases hl.getc hc hin (by rw [hG.pos]; omega) ch.val with
          ⟨L', r, T', h', k1, k2, k3, k4⟩ | ⟨k1, k2⟩
        · rw [k1] at hist
          simp only [Res.bind_ok, Res.pure_eq] at hist
          rcases hq with ⟨o, hok, i', rfl, hrel', hev⟩ | ⟨hq, -⟩
          · have hok' := hok
            rw [hist] at hok'
            cases hok'
            refine Or.inl ⟨_, ?_, _, T', h', rfl, hok, hrel', hev, k4⟩
            have : (((ch.val : Nat) : Int) % 2 ^ 32).toNat = ch.val := by have := ch.isLt; omega
            rw [called, k2]
            simp only [Res.bind_ok, Res.pure_eq, this, k3, Option.isSome_some, if_true]
          · rw [hist] at hq
            rcases hq with hq | hq <;> cases hq
        · rw [k1] at hist
          rw [called, k2]
          rcases hq with ⟨o, hok, -⟩ | ⟨-, hq⟩
          · rw [hist] at hok; cases hok
          · exact Or.inr (Or.inl ⟨Or.inr rfl, hq⟩)
    | read a n =>
      simp only [istepInstr] at hist
      simp only [tstepInstr]
      by_cases hcan : CanFill (fr.get a) (fr.get n)
      · simp only [hcan, if_true] at hist ⊢
        generalize hm : inp.got g.pos (fr.get n) = m at hist ⊢
        by_cases hm0 : m = 0
        · subst hm0
          simp only [if_true, Res.pure_eq] at hist
          rcases hq with ⟨o, hok, i', rfl, hrel', hev⟩ | ⟨hq, -⟩
          · have hok' := hok
            rw [hist] at hok'
            cases hok'
            refine Or.inl ⟨_, ?_, _, T, h, rfl, hok, hrel', hev, hl⟩
            rw [read_none (by rw [hrel'.glob.pos]; exact hpos), putBytes_zero]
            simp only [Res.bind_ok, Res.pure_eq, copyLabels, hl.labels]
            rfl
          · rw [hist] at hq
            rcases hq with hq | hq <;> cases hq
        · simp only [hm0, if_false] at hist
          have hpos' : g.pos + m ≤ 2 ^ 54 := by
            have hfr := hAt.rel
            simp only [step, ← hfr.fn, ← hfr.blk, ← hfr.idx, hAt.func, hAt.block, hI, stepInstr] at hs
            rw [← hfr.get src a, ← hfr.get src n, ← hG.pos, hm] at hs
            split at hs
            · cases hs; exact Nat.le_of_lt hpos
            · exact absurd hcan ‹_›
          rcases hl.read hc hin (Nat.pos_of_ne_zero hm0) hpos' (fr.get a) with
            ⟨L', r, T', h', k1, k2, k3, k4, k5⟩ | ⟨k1, k2⟩
          · rw [k1] at hist
            simp only [Res.bind_ok] at hist
            cases hlb : labelBytes (putBytes inp g.pos (fr.get a) m g.mem) (fr.get a) r.1 m with
            | ok mem =>
              rw [hlb] at hist
              simp only [Res.bind_ok, Res.pure_eq] at hist
              rcases hq with ⟨o, hok, i', rfl, hrel', hev⟩ | ⟨hq, -⟩
              · have hok' := hok
                rw [hist] at hok'
                cases hok'
                refine Or.inl ⟨_, ?_, _, T', h', rfl, hok, hrel', hev, k5 mem⟩
                rw [k2]
                simp only [Res.bind_ok, k4, hlb, Res.pure_eq, k3, Int.toNat_natCast]
              · rw [hist] at hq
                rcases hq with hq | hq <;> cases hq
            | fatal =>
              rw [hlb] at hist
              rcases hq with ⟨o, hok, -⟩ | ⟨-, hq⟩
              · rw [hist] at hok; cases hok
              · refine Or.inr (Or.inl ⟨Or.inl ?_, hq⟩)
                rw [k2]
                simp only [Res.bind_ok, k4, hlb]
                rfl
            | ub =>
              rw [hlb] at hist
              rcases hq with ⟨o, hok, -⟩ | ⟨-, hq⟩
              · rw [hist] at hok; cases hok
              · refine Or.inr (Or.inl ⟨Or.inr ?_, hq⟩)
                rw [k2]
                simp only [Res.bind_ok, k4, hlb]
                rfl
            | hang =>
              rw [hlb] at hist
              rcases hq with ⟨o, hok, -⟩ | ⟨hq, -⟩
              · rw [hist] at hok; cases hok
              · rw [hist] at hq
                rcases hq with hq | hq <;> cases hq
          · rw [k1] at hist
            rw [k2]
            rcases hq with ⟨o, hok, -⟩ | ⟨-, hq⟩
            · rw [hist] at hok; cases hok
            · exact Or.inr (Or.inl ⟨Or.inr rfl, hq⟩)
      · simp only [hcan, if_false, Res.pure_eq] at hist
        rcases hq with ⟨o, hok, i', rfl, -⟩ | ⟨hq, -⟩
        · rw [hist] at hok; cases hok
        · rw [hist] at hq
          rcases hq with hq | hq <;> cases hq
    | write a n =>
      simp only [istepInstr] at hist
      simp only [tstepInstr]
      by_cases hcan : CanAccess (fr.get a) (fr.get n)
      · simp only [hcan, if_true, Res.pure_eq] at hist ⊢
        generalize hm : inp.took g.out.length (fr.get n) = m at hist ⊢
        have hmn : m ≤ fr.get n := by rw [← hm]; exact inp.took_le _ _
        rcases hq with ⟨o, hok, i', rfl, hrel', hev⟩ | ⟨hq, -⟩
        · have hok' := hok
          rw [hist] at hok'
          cases hok'
          obtain ⟨T', h', k2, k3, k4⟩ := hl.write hc hout (a := fr.get a) (m := m)
            (by
              have := hf.short
              have h3 := hrel'.glob.out.length_eq
              simp only [List.length_append, List.length_map, List.length_range] at h3
              omega)
            (by
              intro i hi
              obtain ⟨c1, c2, -⟩ := hcan
              exact (hG.lab (fr.get a + i) ⟨by omega, by omega⟩).1)
          refine Or.inl ⟨_, ?_, _, T', h', rfl, hok, hrel', hev, k4⟩
          rw [k2]
          simp only [Res.bind_ok, k3, Int.toNat_natCast]
        · rw [hist] at hq
          rcases hq with hq | hq <;> cases hq
      · simp only [hcan, if_false, Res.pure_eq] at hist
        rcases hq with ⟨o, hok, i', rfl, -⟩ | ⟨hq, -⟩
        · rw [hist] at hok; cases hok
        · rw [hist] at hq
          rcases hq with hq | hq <;> cases hq
    | putc v =>
      simp only [istepInstr, Res.pure_eq] at hist
      simp only [tstepInstr]
      rcases hq with ⟨o, hok, i', rfl, hrel', hev⟩ | ⟨hq, -⟩
      · have hok' := hok
        rw [hist] at hok'
        cases hok'
        obtain ⟨y, hy, hy1, hy2⟩ := forall₂_left hrel'.glob.out (x := (fr.get v, fr.lab (an.xargs.headD .zero)))
          (by simp)
        obtain ⟨T', h', x, k2, k3, k4⟩ := hl.putc hc hout (ch := fr.get v) (l := fr.lab (an.xargs.headD .zero))
          (by
            have := hf.short
            have h3 := hrel'.glob.out.length_eq
            simp only [List.length_append, List.length_singleton] at h3
            omega)
          (by have := hf.bytes y hy; simp only at hy1; omega) hy2.1
        refine Or.inl ⟨_, ?_, _, T', h', rfl, hok, hrel', hev, k4⟩
        rw [k2]
        simp only [Res.bind_ok, Res.pure_eq, k3]
      · rw [hist] at hq
        rcases hq with hq | hq <;> cases hq
    | hook k v =>
      -- the events that are logged
      have logs : ∀ (fr' : IFrame) (e : CfEvent),
          istep dom P inp src ⟨fr :: rest, g⟩ = .ok (.next ⟨fr' :: rest,
            { g with ev := g.ev ++ [(k, fr.get v, fr.lab (an.xargs.headD .zero))] }⟩) →
          logged (k, fr.get v, fr.lab (an.xargs.headD .zero)) = some e →
          TGoes c (State.cost P inp ⟨sf :: srest, gs⟩) g.L (cfEvents h0).length (saidCount s'.glob.ev)
            (T.logCf e >>= fun T => pure (IOut.next ⟨fr' :: rest,
              { g with ev := g.ev ++ [(k, fr.get v, fr.lab (an.xargs.headD .zero))], L := T.labels }⟩, T))
            (Steps dom P c base src snk inp io h0 (State.cost P inp ⟨sf :: srest, gs⟩) ⟨fr :: rest, g⟩ s') := by
        intro fr' e hok he
        rcases hq with ⟨o, hok', i', rfl, hrel', hev⟩ | ⟨hq, -⟩
        · rw [hok] at hok'
          cases hok'
          obtain ⟨y, hy, hy1, -, hy2⟩ := forall₂_left hrel'.glob.ev
            (x := (k, fr.get v, fr.lab (an.xargs.headD .zero))) (by simp)
          have hl32 : fr.lab (an.xargs.headD .zero) < 2 ^ 32 := by
            have h1 := hy2.1
            have h2 := hG.store.good.wf.fits
            have h3 := hG.store.cap
            have h4 := hc.lab
            simp only at h1
            omega
          have hfits : e.fits := by
            have := hf.fns y hy
            simp only at hy1
            rw [← hy1] at this
            cases k with
            | enter f => cases he; exact this f (by simp)
            | leave f => cases he; exact this f (by simp)
            | taken f =>
              simp only [logged] at he
              split at he <;> cases he
              exact ⟨this f (by simp), hl32⟩
            | noted => cases he
          have hlen' := hrel'.glob.ev.length_eq
          simp only [List.length_append, List.length_singleton] at hlen'
          rcases hl.log hc hfits he with ⟨T', h', k1, k2, k3⟩ | ⟨k1, k2⟩
          · refine Or.inl ⟨_, ?_, _, T', h', rfl, hok, hrel', hev, k3⟩
            rw [k1]
            simp only [Res.bind_ok, Res.pure_eq, k2]
          · rw [k1]
            have h5 := logged_le (g.ev ++ [(k, fr.get v, fr.lab (an.xargs.headD .zero))])
            rw [reports_eq (fun x y h => h.1) hrel'.glob.ev] at h5
            simp only [List.filterMap_append, List.filterMap_cons, he, List.filterMap_nil, List.length_append,
              List.length_singleton] at h5
            exact Or.inr (Or.inr ⟨rfl, by omega, by omega⟩)
        · rw [hok] at hq
          rcases hq with hq | hq <;> cases hq
      -- the others
      have skips : ∀ (fr' : IFrame),
          istep dom P inp src ⟨fr :: rest, g⟩ = .ok (.next ⟨fr' :: rest,
            { g with ev := g.ev ++ [(k, fr.get v, fr.lab (an.xargs.headD .zero))] }⟩) →
          logged (k, fr.get v, fr.lab (an.xargs.headD .zero)) = none →
          TGoes c (State.cost P inp ⟨sf :: srest, gs⟩) g.L (cfEvents h0).length (saidCount s'.glob.ev)
            (.ok (IOut.next ⟨fr' :: rest,
              { g with ev := g.ev ++ [(k, fr.get v, fr.lab (an.xargs.headD .zero))], L := T.labels }⟩, T))
            (Steps dom P c base src snk inp io h0 (State.cost P inp ⟨sf :: srest, gs⟩) ⟨fr :: rest, g⟩ s') := by
        intro fr' hok he
        rcases hq with ⟨o, hok', i', rfl, hrel', hev⟩ | ⟨hq, -⟩
        · rw [hok] at hok'
          cases hok'
          refine Or.inl ⟨_, ?_, _, T, h, rfl, hok, hrel', hev, hl.skip he⟩
          rw [hl.labels]
        · rw [hok] at hq
          rcases hq with hq | hq <;> cases hq
      cases k with
      | enter f => exact logs _ _ hist rfl
      | leave f => exact logs _ _ hist rfl
      | taken f =>
        simp only [tstepInstr]
        by_cases hpl : 0 < fr.lab (an.xargs.headD .zero)
        · simp only [hpl, if_true]
          exact logs _ _ hist (by simp only [logged, hpl, if_true])
        · simp only [hpl, if_false, Res.pure_eq, Res.bind_ok]
          exact skips _ hist (by simp only [logged, hpl, if_false])
      | noted =>
        simp only [tstepInstr]
        simp only [istepInstr] at hist
        by_cases hpl : 0 < fr.lab (an.xargs.headD .zero)
        · simp only [hpl, if_true] at hist ⊢
          cases hm : g.L.affectsControlFlow (fr.lab (an.xargs.headD .zero)) with
          | ok L' =>
            rw [hm] at hist
            simp only [Res.bind_ok, Res.pure_eq] at hist
            rcases hq with ⟨o, hok, i', rfl, hrel', hev⟩ | ⟨hq, -⟩
            · have hok' := hok
              rw [hist] at hok'
              cases hok'
              have hlab : fr.lab (an.xargs.headD .zero) < g.L.words.length := by
                obtain ⟨ms, hgr⟩ := hev.room
                have h4 := hgr.2
                have hcost : State.cost P inp ⟨sf :: srest, gs⟩ = 0 := by
                  have hrel := hAt.rel
                  simp [State.cost, ← hrel.fn, ← hrel.blk, ← hrel.idx, hAt.func, hAt.block, hI, Instr.cost]
                rw [hcost] at h4
                obtain ⟨y, hy, -, -, hy2⟩ := forall₂_left hrel'.glob.ev
                  (x := (.noted, fr.get v, fr.lab (an.xargs.headD .zero))) (by simp)
                have h3 := hy2.1
                simp only at h3 h4
                omega
              obtain ⟨k1, k2⟩ := hl.mark hpl hlab hm
              refine Or.inl ⟨_, ?_, _, _, _, rfl, hok, hrel', hev, k2.skip rfl⟩
              rw [k1]
              rfl
            · rw [hist] at hq
              rcases hq with hq | hq <;> cases hq
          | fatal =>
            rw [hm] at hist
            have : T.affectsControlFlow (fr.lab (an.xargs.headD .zero)) = .fatal := by
              simp only [Tracker.affectsControlFlow, hl.labels, hm]; rfl
            rw [this]
            rcases hq with ⟨o, hok, -⟩ | ⟨-, hq⟩
            · rw [hist] at hok; cases hok
            · exact Or.inr (Or.inl ⟨Or.inl rfl, hq⟩)
          | ub =>
            rw [hm] at hist
            have : T.affectsControlFlow (fr.lab (an.xargs.headD .zero)) = .ub := by
              simp only [Tracker.affectsControlFlow, hl.labels, hm]; rfl
            rw [this]
            rcases hq with ⟨o, hok, -⟩ | ⟨-, hq⟩
            · rw [hist] at hok; cases hok
            · exact Or.inr (Or.inl ⟨Or.inr rfl, hq⟩)
          | hang =>
            rw [hm] at hist
            rcases hq with ⟨o, hok, -⟩ | ⟨hq, -⟩
            · rw [hist] at hok; cases hok
            · rw [hist] at hq
              rcases hq with hq | hq <;> cases hq
        · simp only [hpl, if_false, Res.pure_eq, Res.bind_ok] at hist ⊢
          exact skips _ hist rfl
    | _ => cases ho

end Linked
end Verif
