import Verif.Props.C47
import Verif.NonInterf
/-
C48: a value whose label does not contain an input byte does not depend on that byte, as long as the byte
decides no branch, no called function, no address written to and no range copied, and is not given to
untracked code.
-/
namespace Verif
namespace C48
open Ir PassIr Spec Labels DfsanMem

abbrev Taint := Nat × Nat → Prop

/-- The same value in two runs: if byte `b` is not in its taint it is equal in both. -/
def Indep (b : Nat × Nat) (x y : Nat × Taint) : Prop := (x.2 b ↔ y.2 b) ∧ (¬ x.2 b → x.1 = y.1)

structure FrameIndep (b : Nat × Nat) (f f' : Frame Taint) : Prop where
  fn : f.fn = f'.fn
  blk : f.blk = f'.blk
  idx : f.idx = f'.idx
  sp : f.sp = f'.sp
  env : ∀ r, Indep b (f.env r) (f'.env r)
  args : List.Forall₂ (Indep b) f.args f'.args
  vars : ∀ k, Indep b (f.vars k) (f'.vars k)

structure GlobIndep (b : Nat × Nat) (g g' : Glob Taint) : Prop where
  mem : ∀ a, Indep b (g.mem a, g.tmem a) (g'.mem a, g'.tmem a)
  sp : g.sp = g'.sp
  pos : g.pos = g'.pos
  out : List.Forall₂ (Indep b) g.out g'.out
  ev : List.Forall₂ (fun x y => x.1 = y.1 ∧ Indep b x.2 y.2) g.ev g'.ev

structure StateIndep (b : Nat × Nat) (s s' : State Taint) : Prop where
  frames : List.Forall₂ (FrameIndep b) s.frames s'.frames
  glob : GlobIndep b s.glob s'.glob

/-- Two contents of the input `src` that differ at most in the value of byte `b`. (If `b` is a byte of
another input, for example of the command line, they do not differ.) -/
structure Differ (src : Nat) (b : Nat × Nat) (w w' : World) : Prop where
  byte : ∀ o, (src, o) ≠ b → w.byte o = w'.byte o
  there : ∀ o, (w.byte o).isSome = (w'.byte o).isSome
  got : w.got = w'.got
  took : w.took = w'.took

/-- The instruction does not use `b` for control flow, for the place of a store or for the ranges of a
block instruction, and does not give it to code the analysis does not look at or to an atomic instruction. -/
def InstrClear (A : Alg Taint) (b : Nat × Nat) (fr : Frame Taint) (g : Glob Taint) : Instr → Prop
  | .store a _ _ => ¬ (fr.get A a).2 b
  | .call _ f _ => ¬ (fr.get A f).2 b
  | .untracked _ args => ∀ o ∈ args, ¬ (fr.get A o).2 b
  | .memset d _ n => ¬ (fr.get A d).2 b ∧ ¬ (fr.get A n).2 b
  | .memcpy _ d s n => ¬ (fr.get A d).2 b ∧ ¬ (fr.get A s).2 b ∧ ¬ (fr.get A n).2 b
  | .read a n => ¬ (fr.get A a).2 b ∧ ¬ (fr.get A n).2 b
  | .write a n => ¬ (fr.get A a).2 b ∧ ¬ (fr.get A n).2 b
  | .rmw _ a args n => ¬ (fr.get A a).2 b ∧ (∀ o ∈ args, ¬ (fr.get A o).2 b) ∧
      ∀ i, i < n → ¬ g.tmem ((fr.get A a).1 + i) b
  | .hook k v => k.seen = false → ¬ (fr.get A v).2 b
  | _ => True

def TermClear (A : Alg Taint) (b : Nat × Nat) (fr : Frame Taint) : Term → Prop
  | .br c _ _ => ¬ (fr.get A c).2 b
  | _ => True

/-- The next step. -/
def Clear (A : Alg Taint) (b : Nat × Nat) (P : Prog) (s : State Taint) : Prop :=
  ∀ fr rest F B, s.frames = fr :: rest → P[fr.fn]? = some F → F.blocks[fr.blk]? = some B →
    (∀ I, B.body[fr.idx]? = some I → InstrClear A b fr s.glob I) ∧
    (B.body[fr.idx]? = none → TermClear A b fr B.term)

/-- All of the first `n` steps. -/
def ClearRun (A : Alg Taint) (b : Nat × Nat) (P : Prog) (inp : World) (n : Nat) (s : State Taint) :
    Prop :=
  ∀ m t, m < n → run A P inp m s = .next t → Clear A b P t

variable {b : Nat × Nat}

theorem Indep.same (x : Nat × Taint) : Indep b x x := ⟨Iff.rfl, fun _ => rfl⟩

theorem Indep.tainted {x y : Nat × Taint} (h : x.2 b) (h' : y.2 b) : Indep b x y :=
  ⟨⟨fun _ => h', fun _ => h⟩, fun hn => absurd h hn⟩

theorem get_indep {src : Nat} {f f' : Frame Taint} (h : FrameIndep b f f') (o : Opd) :
    Indep b (f.get (sets src) o) (f'.get (sets src) o) := by
  cases o with
  | const v => exact .same _
  | reg r => exact h.env r
  | arg i =>
    have h1 := List.forall₂_iff_get.1 h.args
    simp only [Frame.get, List.getD]
    by_cases hi : i < f.args.length
    · have hi' : i < f'.args.length := by have := h1.1; omega
      rw [List.getElem?_eq_getElem hi, List.getElem?_eq_getElem hi']
      exact h1.2 i hi hi'
    · have hi' : ¬ i < f'.args.length := by have := h1.1; omega
      rw [List.getElem?_eq_none (by omega), List.getElem?_eq_none (by omega)]
      exact .same _

theorem set_indep {f f' : Frame Taint} (h : FrameIndep b f f') {x y : Nat × Taint} (hx : Indep b x y) :
    FrameIndep b (f.set x) (f'.set y) :=
  { fn := h.fn
    blk := h.blk
    idx := by simp only [Frame.set, h.idx]
    sp := h.sp
    env := fun r => by
      simp only [Frame.set, h.blk, h.idx]
      by_cases c : r = .ins f'.blk f'.idx
      · simp only [c, if_true]; exact hx
      · simp only [c, if_false]; exact h.env r
    args := h.args
    vars := h.vars }

theorem all_iff {src : Nat} (ts : List Taint) : (sets src).all ts b ↔ ∃ t ∈ ts, t b := by
  induction ts with
  | nil => simp [Alg.all, sets]
  | cons t ts ih =>
    have : (sets src).all (t :: ts) b ↔ t b ∨ (sets src).all ts b := Iff.rfl
    rw [this, ih]
    simp

theorem gets_indep {src : Nat} {f f' : Frame Taint} (h : FrameIndep b f f') (os : List Opd) :
    List.Forall₂ (Indep b) (os.map (f.get (sets src))) (os.map (f'.get (sets src))) := by
  induction os with
  | nil => exact .nil
  | cons o os ih => exact .cons (get_indep h o) ih

theorem fst_indep {xs ys : List (Nat × Taint)} (h : List.Forall₂ (Indep b) xs ys)
    (hn : ∀ x ∈ xs, ¬ x.2 b) : xs.map (·.1) = ys.map (·.1) := by
  induction h with
  | nil => rfl
  | cons h1 _ ih =>
    simp only [List.map_cons]
    rw [h1.2 (hn _ (by simp)), ih (fun x hx => hn x (by simp [hx]))]

theorem snd_indep {src : Nat} {xs ys : List (Nat × Taint)} (h : List.Forall₂ (Indep b) xs ys) :
    (sets src).all (xs.map (·.2)) b ↔ (sets src).all (ys.map (·.2)) b := by
  induction h with
  | nil => exact Iff.rfl
  | cons h1 _ ih =>
    simp only [List.map_cons]
    exact or_congr h1.1 ih

theorem readInt_indep {g g' : Glob Taint} (h : ∀ a, Indep b (g.mem a, g.tmem a) (g'.mem a, g'.tmem a)) :
    ∀ (n a : Nat), (∀ i, i < n → ¬ g.tmem (a + i) b) → readInt g.mem a n = readInt g'.mem a n := by
  intro n
  induction n with
  | zero => intro a _; rfl
  | succ n ih =>
    intro a hn
    unfold readInt
    have h1 := (h a).2 (hn 0 (by omega))
    simp only at h1
    rw [h1, ih (a + 1) (fun i hi => by
      have := hn (i + 1) (by omega)
      rwa [show a + (i + 1) = a + 1 + i by omega] at this)]

theorem newFrame_indep {src fn sp : Nat} {xs ys : List (Nat × Taint)} (h : List.Forall₂ (Indep b) xs ys) :
    FrameIndep b (newFrame (sets src) fn xs sp) (newFrame (sets src) fn ys sp) :=
  ⟨rfl, rfl, rfl, rfl, fun _ => .same _, h, fun _ => .same _⟩

/-- Two outcomes. The second run may have undefined behaviour: it may load from a tainted address. -/
def OutIndep (b : Nat × Nat) (o o' : Out Taint) : Prop :=
  match o with
  | .stuck => True
  | .next t => o' = .stuck ∨ ∃ t', o' = .next t' ∧ StateIndep b t t'
  | .done v g => o' = .stuck ∨ ∃ v' g', o' = .done v' g' ∧ Indep b v v' ∧ GlobIndep b g g'

variable {src : Nat} {P : Prog} {inp inp' : World}

theorem next_indep {f f' : Frame Taint} {rest rest' : List (Frame Taint)} {g g' : Glob Taint}
    (hf : FrameIndep b f f') (hr : List.Forall₂ (FrameIndep b) rest rest') (hg : GlobIndep b g g') :
    OutIndep b (.next ⟨f :: rest, g⟩) (.next ⟨f' :: rest', g'⟩) :=
  Or.inr ⟨_, rfl, .cons hf hr, hg⟩

theorem instr_indep (hi : Differ src b inp inp') {f f' : Frame Taint}
    {rest rest' : List (Frame Taint)} {g g' : Glob Taint} (hf : FrameIndep b f f')
    (hr : List.Forall₂ (FrameIndep b) rest rest') (hg : GlobIndep b g g') {I : Instr}
    (hc : InstrClear (sets src) b f g I) :
    OutIndep b (stepInstr (sets src) P inp f rest g I)
      (stepInstr (sets src) P inp' f' rest' g' I) := by
  cases I with
  | op fn args =>
    have h1 := gets_indep (src := src) hf args
    refine next_indep (set_indep hf ⟨snd_indep h1, fun hn => ?_⟩) hr hg
    simp only
    rw [fst_indep h1 (fun x hx hb => hn ((all_iff _).2 ⟨x.2, List.mem_map.2 ⟨x, hx, rfl⟩, hb⟩))]
  | untracked fn args =>
    have h1 := gets_indep (src := src) hf args
    refine next_indep (set_indep hf ⟨Iff.rfl, fun _ => ?_⟩) hr hg
    simp only
    rw [fst_indep h1 (fun x hx => by
      obtain ⟨o, ho, rfl⟩ := List.mem_map.1 hx
      exact hc o ho)]
  | load a n =>
    simp only [stepInstr]
    split
    · exact next_indep (set_indep hf (.same _)) hr hg
    · have h1 := get_indep (src := src) hf a
      by_cases c : CanAccess (f.get (sets src) a).1 n
      · rw [if_pos c]
        by_cases c' : CanAccess (f'.get (sets src) a).1 n
        · rw [if_pos c']
          refine next_indep (set_indep hf ?_) hr hg
          by_cases ht : (f.get (sets src) a).2 b
          · exact .tainted (Or.inr ht) (Or.inr (h1.1.1 ht))
          · have e := h1.2 ht
            rw [← e]
            refine ⟨or_congr ?_ h1.1, fun hn => ?_⟩
            · rw [all_iff, all_iff]
              simp only [List.mem_map, exists_exists_and_eq_and]
              exact exists_congr (fun i => and_congr Iff.rfl (hg.mem _).1)
            · refine readInt_indep hg.mem n _ (fun i hi hb => hn (Or.inl ?_))
              rw [all_iff]
              exact ⟨_, List.mem_map.2 ⟨i, List.mem_range.2 hi, rfl⟩, hb⟩
        · rw [if_neg c']
          exact Or.inl rfl
      · rw [if_neg c]
        trivial
  | store a v n =>
    simp only [stepInstr]
    split
    · exact next_indep (set_indep hf (.same _)) hr hg
    · have h1 := get_indep (src := src) hf a
      have e := h1.2 hc
      rw [← e]
      split
      · refine next_indep (set_indep hf (.same _)) hr ?_
        have h2 := get_indep (src := src) hf v
        refine ⟨fun x => ?_, hg.sp, hg.pos, hg.out, hg.ev⟩
        simp only [putInt, putAll]
        split
        · exact ⟨h2.1, fun hn => by simp only; rw [h2.2 hn]⟩
        · exact hg.mem x
      · trivial
  | select c t e =>
    refine next_indep (set_indep hf ?_) hr hg
    have h1 := get_indep (src := src) hf c
    by_cases ht : (f.get (sets src) c).2 b
    · exact .tainted (Or.inl ht) (Or.inl (h1.1.1 ht))
    · rw [← h1.2 ht]
      have h2 : Indep b (if (f.get (sets src) c).1 ≠ 0 then f.get (sets src) t else f.get (sets src) e)
          (if (f.get (sets src) c).1 ≠ 0 then f'.get (sets src) t else f'.get (sets src) e) := by
        split
        · exact get_indep hf t
        · exact get_indep hf e
      exact ⟨or_congr h1.1 h2.1, fun hn => h2.2 (fun h => hn (Or.inr h))⟩
  | call void fn args =>
    have h1 := get_indep (src := src) hf fn
    have e := h1.2 hc
    simp only [stepInstr, ← e]
    cases P[(f.get (sets src) fn).1]? with
    | none => trivial
    | some G =>
      dsimp only
      split
      · rw [hg.sp]
        exact Or.inr ⟨_, rfl, .cons (newFrame_indep (gets_indep hf args)) (.cons hf hr), hg⟩
      · trivial
  | alloca n =>
    simp only [stepInstr, hg.sp]
    exact next_indep (set_indep hf (.same _)) hr ⟨hg.mem, rfl, hg.pos, hg.out, hg.ev⟩
  | getVar i => exact next_indep (set_indep hf (hf.vars i)) hr hg
  | setVar i v =>
    refine next_indep { set_indep hf (.same _) with vars := fun j => ?_ } hr hg
    simp only
    split
    · exact get_indep hf v
    · exact hf.vars j
  | getc =>
    simp only [stepInstr, hg.pos]
    by_cases e : (src, g'.pos) = b
    · have ht := hi.there g'.pos
      cases h1 : inp.byte g'.pos with
      | none =>
        cases h2 : inp'.byte g'.pos with
        | none => exact next_indep (set_indep hf (.same _)) hr hg
        | some c => rw [h1, h2] at ht; cases ht
      | some c =>
        cases h2 : inp'.byte g'.pos with
        | none => rw [h1, h2] at ht; cases ht
        | some c' =>
          refine next_indep (set_indep hf (.tainted ?_ ?_)) hr ⟨hg.mem, hg.sp, rfl, hg.out, hg.ev⟩
          · show b = (src, g'.pos)
            exact e.symm
          · show b = (src, g'.pos)
            exact e.symm
    · rw [← hi.byte _ e]
      cases inp.byte g'.pos with
      | none => exact next_indep (set_indep hf (.same _)) hr hg
      | some c => exact next_indep (set_indep hf (.same _)) hr ⟨hg.mem, hg.sp, rfl, hg.out, hg.ev⟩
  | read a n =>
    simp only [stepInstr, hg.pos]
    rw [← (get_indep (src := src) hf a).2 hc.1, ← (get_indep (src := src) hf n).2 hc.2, ← hi.got]
    split
    · refine next_indep (set_indep hf (.same _)) hr ⟨fun x => ?_, hg.sp, rfl, hg.out, hg.ev⟩
      simp only
      split
      · by_cases e : (src, g'.pos + (x - (f.get (sets src) a).1)) = b
        · refine .tainted ?_ ?_
          · show b = (src, _)
            exact e.symm
          · show b = (src, _)
            exact e.symm
        · refine ⟨Iff.rfl, fun _ => ?_⟩
          simp only [World.at, hi.byte _ e]
      · exact hg.mem x
    · trivial
  | write a n =>
    simp only [stepInstr]
    rw [← (get_indep (src := src) hf a).2 hc.1, ← (get_indep (src := src) hf n).2 hc.2, ← hi.took,
      ← hg.out.length_eq]
    split
    · refine next_indep (set_indep hf (.same _)) hr ⟨hg.mem, hg.sp, hg.pos, List.rel_append hg.out ?_, hg.ev⟩
      rw [List.forall₂_map_left_iff, List.forall₂_map_right_iff, List.forall₂_same]
      exact fun i _ => hg.mem _
    · trivial
  | putc v =>
    refine next_indep (set_indep hf (.same _)) hr ⟨hg.mem, hg.sp, hg.pos, ?_, hg.ev⟩
    exact List.rel_append hg.out (.cons (get_indep hf v) .nil)
  | rmw fn a args n =>
    simp only [stepInstr]
    obtain ⟨c1, c2, c3⟩ := hc
    have hargs : (args.map (f'.get (sets src))).map (·.1) = (args.map (f.get (sets src))).map (·.1) := by
      simp only [List.map_map]
      exact List.map_congr_left (fun o ho => ((get_indep (src := src) hf o).2 (c2 o ho)).symm)
    rw [← (get_indep (src := src) hf a).2 c1, hargs,
      ← readInt_indep hg.mem n _ c3]
    split
    · refine next_indep (set_indep hf (.same _)) hr ⟨fun x => ?_, hg.sp, hg.pos, hg.out, hg.ev⟩
      simp only [putInt, putAll]
      split
      · exact ⟨Iff.rfl, fun _ => rfl⟩
      · exact hg.mem x
    · trivial
  | memset d c n =>
    simp only [stepInstr]
    rw [← (get_indep (src := src) hf d).2 hc.1, ← (get_indep (src := src) hf n).2 hc.2]
    split
    · refine next_indep (set_indep hf (.same _)) hr ⟨fun x => ?_, hg.sp, hg.pos, hg.out, hg.ev⟩
      have h2 := get_indep (src := src) hf c
      simp only [putAll]
      split
      · exact ⟨h2.1, fun hn => by simp only; rw [h2.2 hn]⟩
      · exact hg.mem x
    · trivial
  | memcpy move d s n =>
    simp only [stepInstr]
    rw [← (get_indep (src := src) hf d).2 hc.1, ← (get_indep (src := src) hf s).2 hc.2.1,
      ← (get_indep (src := src) hf n).2 hc.2.2]
    split
    · refine next_indep (set_indep hf (.same _)) hr ⟨fun x => ?_, hg.sp, hg.pos, hg.out, hg.ev⟩
      simp only [copyAll]
      split <;> exact hg.mem _
    · trivial
  | hook q v =>
    have h1 := get_indep (src := src) hf v
    refine next_indep (set_indep hf ?_) hr ⟨hg.mem, hg.sp, hg.pos, hg.out, ?_⟩
    · split
      · exact h1
      · exact .same _
    · refine List.rel_append hg.ev (.cons ⟨rfl, ?_⟩ .nil)
      cases hq : q.seen with
      | true => exact h1
      | false => exact ⟨Iff.rfl, fun _ => h1.2 (hc hq)⟩

theorem return_indep {rest rest' : List (Frame Taint)} {g g' : Glob Taint} {sp : Nat} {x y : Nat × Taint}
    (hr : List.Forall₂ (FrameIndep b) rest rest') (hg : GlobIndep b g g') (hx : Indep b x y) :
    OutIndep b (doReturn g sp x rest) (doReturn g' sp y rest') := by
  cases hr with
  | nil => exact Or.inr ⟨_, _, rfl, hx, hg.mem, rfl, hg.pos, hg.out, hg.ev⟩
  | cons h1 h2 => exact next_indep (set_indep h1 hx) h2 ⟨hg.mem, rfl, hg.pos, hg.out, hg.ev⟩

theorem term_indep {f f' : Frame Taint} {F : Func} {rest rest' : List (Frame Taint)} {g g' : Glob Taint}
    (hf : FrameIndep b f f') (hr : List.Forall₂ (FrameIndep b) rest rest') (hg : GlobIndep b g g')
    {T : Term} (hc : TermClear (sets src) b f T) :
    OutIndep b (stepTerm (sets src) F f rest g T) (stepTerm (sets src) F f' rest' g' T) := by
  cases T with
  | unreachable => trivial
  | br c fn ts =>
    have e := (get_indep (src := src) hf c).2 hc
    simp only [stepTerm, ← e]
    cases ts[fn (f.get (sets src) c).1]? with
    | none => trivial
    | some t =>
      dsimp only
      unfold jump
      rw [← hf.blk]
      cases F.blocks[t]? with
      | none => trivial
      | some T =>
        dsimp only
        cases phiOpds f.blk T.phis with
        | none => trivial
        | some os =>
          dsimp only
          refine next_indep ⟨hf.fn, rfl, rfl, hf.sp, ?_, hf.args, hf.vars⟩ hr hg
          intro r
          cases r with
          | ins b j => exact hf.env _
          | phi b' j =>
            dsimp only
            split
            · cases os[j]? with
              | none => exact hf.env _
              | some o => exact get_indep hf o
            · exact hf.env _
  | ret v =>
    cases v with
    | none =>
      simp only [stepTerm, ← hf.sp]
      split
      · exact return_indep hr hg (.same _)
      · trivial
    | some v =>
      simp only [stepTerm, ← hf.sp]
      split
      · trivial
      · exact return_indep hr hg (get_indep hf v)

theorem step_indep (hi : Differ src b inp inp') {s s' : State Taint}
    (h : StateIndep b s s') (hc : Clear (sets src) b P s) :
    OutIndep b (step (sets src) P inp s) (step (sets src) P inp' s') := by
  obtain ⟨fs, g⟩ := s
  obtain ⟨fs', g'⟩ := s'
  obtain ⟨h1, hg⟩ := h
  simp only at h1 hg
  cases h1 with
  | nil => trivial
  | @cons f f' rest rest' hf hr =>
    unfold step
    dsimp only
    rw [← hf.fn, ← hf.blk, ← hf.idx]
    cases hF : P[f.fn]? with
    | none => trivial
    | some F =>
      dsimp only
      cases hB : F.blocks[f.blk]? with
      | none => trivial
      | some B =>
        obtain ⟨c1, c2⟩ := hc f rest F B rfl hF hB
        dsimp only
        cases hI : B.body[f.idx]? with
        | some I => exact instr_indep hi hf hr hg (c1 I hI)
        | none => exact term_indep hf hr hg (c2 hI)

theorem run_indep (hi : Differ src b inp inp') : ∀ (n : Nat) {s s' : State Taint},
    StateIndep b s s' → ClearRun (sets src) b P inp n s →
    OutIndep b (run (sets src) P inp n s) (run (sets src) P inp' n s') := by
  intro n
  induction n with
  | zero => intro s s' h _; exact Or.inr ⟨s', rfl, h⟩
  | succ n ih =>
    intro s s' h hc
    have h1 := step_indep (inp := inp) hi h (hc 0 s (by omega) rfl)
    unfold run
    cases e : step (sets src) P inp s with
    | stuck => trivial
    | done v g =>
      rw [e] at h1
      rcases h1 with h1 | ⟨v', g', h1, h2⟩
      · rw [h1]; exact Or.inl rfl
      · rw [h1]; exact Or.inr ⟨v', g', rfl, h2⟩
    | next t =>
      rw [e] at h1
      rcases h1 with h1 | ⟨t', h1, h2⟩
      · rw [h1]
        dsimp only
        unfold OutIndep
        split
        · trivial
        · exact Or.inl rfl
        · exact Or.inl rfl
      · rw [h1]
        refine ih h2 (fun m u hm hu => hc (m + 1) u (by omega) ?_)
        unfold run
        rw [e]
        exact hu

theorem start_indep (fn : Nat) (args : List Nat) {mem mem' : Nat → Nat} {tm : Nat → Taint}
    (hm : ∀ a, ¬ tm a b → mem a = mem' a) (sp : Nat) :
    StateIndep b (start (sets src) fn args mem sp tm) (start (sets src) fn args mem' sp tm) := by
  refine ⟨.cons (newFrame_indep ?_) .nil, ⟨fun a => ⟨Iff.rfl, hm a⟩, rfl, rfl, .nil, .nil⟩⟩
  generalize (args.map fun v => (v, (sets src).zero)) = xs
  induction xs with
  | nil => exact .nil
  | cons x xs ih => exact .cons (.same _) ih

/-- C48 (output): run the program twice: on two inputs that differ only in byte `b`, from two memories that
differ only in bytes tainted by `b` (`b` may be a byte of the command line). If `b` decides no
branch, callee, store address or range of a block instruction, `read` or `write` and goes to no untracked code in the first run, and the program ends, then
in the second run it ends after as many steps with as many outputs, and every output that is not tainted
by `b` is the same; or the second run has undefined behaviour. -/
theorem C48_output (P : Prog) (inp inp' : World) (src : Nat) (b : Nat × Nat) (n : Nat) (hi : Differ src b inp inp')
    (fn : Nat) (args : List Nat) (mem mem' : Nat → Nat) (tm : Nat → Taint) (hm : ∀ a, ¬ tm a b → mem a = mem' a)
    (sp : Nat) (hc : ClearRun (sets src) b P inp n (start (sets src) fn args mem sp tm))
    (v : Nat × Taint) (g : Glob Taint)
    (h : run (sets src) P inp n (start (sets src) fn args mem sp tm) = .done v g) :
    run (sets src) P inp' n (start (sets src) fn args mem' sp tm) = .stuck ∨
    ∃ v' g', run (sets src) P inp' n (start (sets src) fn args mem' sp tm) = .done v' g' ∧
      (¬ v.2 b → v.1 = v'.1) ∧ g.out.length = g'.out.length ∧ g.pos = g'.pos ∧
      (∀ (j : Nat) x y, g.out[j]? = some x → g'.out[j]? = some y → ¬ x.2 b → x.1 = y.1) ∧
      ∀ a, ¬ g.tmem a b → g.mem a = g'.mem a := by
  have h1 := run_indep hi n (start_indep (src := src) fn args hm sp) hc
  rw [h] at h1
  rcases h1 with h1 | ⟨v', g', h1, h2, h3⟩
  · exact Or.inl h1
  · refine Or.inr ⟨v', g', h1, h2.2, h3.out.length_eq, h3.pos, ?_, fun a => (h3.mem a).2⟩
    intro j x y hx hy
    have := List.forall₂_iff_get.1 h3.out
    obtain ⟨k1, e1⟩ := List.getElem?_eq_some_iff.1 hx
    obtain ⟨k2, e2⟩ := List.getElem?_eq_some_iff.1 hy
    have h2 := this.2 j k1 k2
    simp only [List.get_eq_getElem, e1, e2] at h2
    exact h2.2

/-- Two contents of the input `src` that differ at most in the values of the bytes `X`. -/
structure DifferIn (src : Nat) (X : Nat × Nat → Prop) (w w' : World) : Prop where
  byte : ∀ o, ¬ X (src, o) → w.byte o = w'.byte o
  there : ∀ o, (w.byte o).isSome = (w'.byte o).isSome
  got : w.got = w'.got
  took : w.took = w'.took

theorem instr_clear {X : Nat × Nat → Prop} {fr : Frame Taint} {g : Glob Taint} {I : Instr}
    (h : ∀ b, X b → InstrClear (sets src) b fr g I) :
    NonInterf.InstrClear (NonInterf.hits X src) (fr.map fun t => ∃ b, X b ∧ t b) (g.map fun t => ∃ b, X b ∧ t b) I := by
  have hg : ∀ o, (Frame.get (NonInterf.hits X src) (fr.map fun t => ∃ b, X b ∧ t b) o).1 = (fr.get (sets src) o).1 :=
    fun o => by rw [get_map (NonInterf.hom_hits X src)]; rfl
  have hn : ∀ o, (∀ b, X b → ¬ (fr.get (sets src) o).2 b) →
      ¬ (Frame.get (NonInterf.hits X src) (fr.map fun t => ∃ b, X b ∧ t b) o).2 := by
    intro o ho
    rw [get_map (NonInterf.hom_hits X src)]
    rintro ⟨b, h1, h2⟩
    exact ho b h1 h2
  cases I with
  | store a v n => exact hn a h
  | call v f args => exact hn f h
  | untracked f args => exact fun o ho => hn o (fun b hb => h b hb o ho)
  | memset d c n => exact ⟨hn d fun b hb => (h b hb).1, hn n fun b hb => (h b hb).2⟩
  | memcpy m d s n =>
    exact ⟨hn d fun b hb => (h b hb).1, hn s fun b hb => (h b hb).2.1, hn n fun b hb => (h b hb).2.2⟩
  | read a n => exact ⟨hn a fun b hb => (h b hb).1, hn n fun b hb => (h b hb).2⟩
  | write a n => exact ⟨hn a fun b hb => (h b hb).1, hn n fun b hb => (h b hb).2⟩
  | rmw f a args n =>
    refine ⟨hn a fun b hb => (h b hb).1, fun o ho => hn o (fun b hb => (h b hb).2.1 o ho), fun i hi => ?_⟩
    rw [hg]
    rintro ⟨b, h1, h2⟩
    exact (h b h1).2.2 i hi h2
  | hook k v => exact fun hk => hn v fun b hb => h b hb hk
  | _ => trivial

theorem term_clear {X : Nat × Nat → Prop} {fr : Frame Taint} {T : Term} (h : ∀ b, X b → TermClear (sets src) b fr T) :
    NonInterf.TermClear (NonInterf.hits X src) (fr.map fun t => ∃ b, X b ∧ t b) T := by
  cases T with
  | br c f ts =>
    simp only [NonInterf.TermClear]
    rw [get_map (NonInterf.hom_hits X src)]
    rintro ⟨b, h1, h2⟩
    exact h b h1 h2
  | _ => trivial

/-- C48 (any bytes): run the program twice, on two inputs that differ in any of the bytes `X`. If in the first run
none of these bytes decides a branch, a callee, a store address or the range of a block instruction or goes to
untracked code or to an atomic instruction, and the program ends, then in the second run (of the program as it is,
without any taint) it ends after as many steps with as many outputs, and every output that depends on none of the
bytes `X` is the same; or the second run has undefined behaviour. -/
theorem C48_bytes (P : Prog) (inp inp' : World) (src : Nat) (X : Nat × Nat → Prop) (n : Nat)
    (hi : DifferIn src X inp inp') (fn : Nat) (args : List Nat) (mem : Nat → Nat) (tm : Nat → Taint) (sp : Nat)
    (hc : ∀ b, X b → ClearRun (sets src) b P inp n (start (sets src) fn args mem sp tm))
    (v : Nat × Taint) (g : Glob Taint)
    (h : run (sets src) P inp n (start (sets src) fn args mem sp tm) = .done v g) :
    run plain P inp' n (start plain fn args mem sp) = .stuck ∨
    ∃ v' g', run plain P inp' n (start plain fn args mem sp) = .done v' g' ∧
      ((∀ b, X b → ¬ v.2 b) → v.1 = v'.1) ∧ g.out.length = g'.out.length ∧ g.pos = g'.pos ∧
      ∀ (j : Nat) x y, g.out[j]? = some x → g'.out[j]? = some y → (∀ b, X b → ¬ x.2 b) → x.1 = y.1 := by
  let f : Taint → Prop := fun t => ∃ b, X b ∧ t b
  have hom : (sets src).Hom (NonInterf.hits X src) f := NonInterf.hom_hits X src
  have hd : NonInterf.Differ X src inp inp' := ⟨hi.byte, hi.there, hi.got, hi.took⟩
  have hcl : NonInterf.ClearRun (NonInterf.hits X src) P inp n
      (start (NonInterf.hits X src) fn args mem sp fun a => f (tm a)) := by
    intro m t hm ht
    rw [← start_map hom, run_map hom] at ht
    cases e : run (sets src) P inp m (start (sets src) fn args mem sp tm) with
    | stuck => rw [e] at ht; cases ht
    | done v g => rw [e] at ht; cases ht
    | next t0 =>
      rw [e] at ht
      cases ht
      intro fr rest F B h1 h2 h3
      obtain ⟨fs, g0⟩ := t0
      cases fs with
      | nil => cases h1
      | cons fr0 rest0 =>
        cases h1
        have k := fun b hb => hc b hb m _ hm e fr0 rest0 F B rfl h2 h3
        exact ⟨fun I hI => instr_clear fun b hb => (k b hb).1 I hI, fun hI => term_clear fun b hb => (k b hb).2 hI⟩
  have h1 := NonInterf.run_indep hd n (NonInterf.start_indep (X := X) (src := src) fn args (mem := mem) (mem' := mem)
    (tm := fun a => f (tm a)) (fun _ _ => rfl) sp) hcl
  have e1 : run (NonInterf.hits X src) P inp n (start (NonInterf.hits X src) fn args mem sp fun a => f (tm a)) =
      .done (pmap f v) (g.map f) := by
    rw [← start_map hom, run_map hom, h]
    rfl
  have e2 : run plain P inp' n (start plain fn args mem sp) = (run (NonInterf.hits X src) P inp' n
      (start (NonInterf.hits X src) fn args mem sp fun a => f (tm a))).map fun _ => () := by
    rw [← run_map (hom_plain _), start_plain]
  rw [e1] at h1
  rw [e2]
  rcases h1 with h1 | ⟨v', g', h1, h2, h3⟩
  · rw [h1]
    exact Or.inl rfl
  · rw [h1]
    refine Or.inr ⟨_, _, rfl, ?_, ?_, h3.pos, ?_⟩
    · intro hv
      exact h2.2 (by rintro ⟨b, k1, k2⟩; exact hv b k1 k2)
    · have := h3.out.length_eq
      simpa [Glob.map] using this
    · intro j x y hx hy hn
      have k := List.forall₂_iff_get.1 h3.out
      simp only [Glob.map, List.getElem?_map] at hy
      cases hy' : g'.out[j]? with
      | none => rw [hy'] at hy; cases hy
      | some y' =>
        rw [hy'] at hy
        cases hy
        obtain ⟨k1, q1⟩ := List.getElem?_eq_some_iff.1 hx
        obtain ⟨k2, q2⟩ := List.getElem?_eq_some_iff.1 hy'
        have k3 := k.2 j (by simpa [Glob.map] using k1) k2
        simp only [List.get_eq_getElem, Glob.map, List.getElem_map, q1, q2] at k3
        exact k3.2 (by rintro ⟨b, p1, p2⟩; exact hn b p1 p2)

/-- C48 (instrumented program): two runs of the instrumented program, both to the end, on inputs that differ
only in byte `b` and from memories that differ only in bytes with a label that denotes `b`. An output whose
label does not denote `b` is the same in both. -/
theorem C48_labels (cap : Nat) (h0 : 0 < cap) (hcap : cap ≤ 2 ^ 31) (es : List Event) (L : Labels)
    (hr : Labels.Reach cap es L) (dom : Nat → Nat → Nat → Bool) (P : Prog) (hP : C47.Accepted dom P)
    (src : Nat) (hsrc : src < 256) (inp inp' : World) (b : Nat × Nat) (hi : Differ src b inp inp')
    (fn : Nat) (F : Func) (hF : P[fn]? = some F)
    (hne : F.blocks ≠ []) (args : List Nat) (mem mem' : Mem) (hm : Spec.IsBytes mem) (hm' : Spec.IsBytes mem')
    {tm : Nat → Nat × Nat → Prop} (hz : TaintedBy L mem tm) (hz' : TaintedBy L mem' tm)
    (hd : ∀ a, ¬ tm a b → mem a = mem' a) (sp n : Nat)
    (hc : ClearRun (sets src) b P inp n (start (sets src) fn args mem sp tm))
    (w : Nat × Taint) (gw : Glob Taint)
    (hw : run (sets src) P inp n (start (sets src) fn args mem sp tm) = .done w gw) (hn : gw.pos < 2 ^ 54)
    (hw' : run (sets src) P inp' n (start (sets src) fn args mem' sp tm) ≠ .stuck)
    (v l v' l' : Nat) (g g' : IGlob)
    (h : irun dom P inp src n (istart F fn args mem sp L) = .ok (.done v l g))
    (h' : irun dom P inp' src n (istart F fn args mem' sp L) = .ok (.done v' l' g')) :
    g.out.length = g'.out.length ∧
    ∀ (j : Nat) x y, g.out[j]? = some x → g'.out[j]? = some y →
      ¬ Denotes g.L.graph x.2 b → x.1 = y.1 := by
  rcases C48_output P inp inp' src b n hi fn args mem mem' tm hd sp hc w gw hw with hx | ⟨w', gw', e, -, h1, hpos, h2, -⟩
  · exact absurd hx hw'
  · have t := C47.C47_finished cap h0 hcap es L hr dom P hP src hsrc inp fn F hF hne args mem hm hz sp n
      w gw hw hn
    have t' := C47.C47_finished cap h0 hcap es L hr dom P hP src hsrc inp' fn F hF hne args mem' hm' hz' sp n
      w' gw' e (by omega)
    rw [h] at t
    rw [h'] at t'
    rcases t with ⟨_, e1, l1, g1, rfl, t1, -⟩ | ⟨e1 | e1, -⟩
    · rcases t' with ⟨_, e2, l2, g2, rfl, t2, -⟩ | ⟨e2 | e2, -⟩
      · cases e1
        cases e2
        have q1 := t1.out
        have q2 := t2.out
        refine ⟨by omega, ?_⟩
        intro j x y hx hy hnd
        obtain ⟨k1, -⟩ := List.getElem?_eq_some_iff.1 hx
        obtain ⟨k2, -⟩ := List.getElem?_eq_some_iff.1 hy
        have a1 : gw.out[j]? = some (gw.out[j]'(by omega)) := List.getElem?_eq_getElem _
        have a2 : gw'.out[j]? = some (gw'.out[j]'(by omega)) := List.getElem?_eq_getElem _
        have b1 := t1.outs j x _ hx a1
        have b2 := t2.outs j y _ hy a2
        rw [b1.1, b2.1]
        exact h2 j _ _ a1 a2 (fun hb => hnd ((b1.2.2 _).2 hb))
      · cases e2
      · cases e2
    · cases e1
    · cases e1

/-! ### Example -/

/-- Reads two bytes and outputs the sum of the first with itself, and the second. -/
def exF : Func where
  nparams := 0
  void := false
  blocks := [⟨[], [.getc, .getc, .op (fun xs => xs.sum) [.reg (.ins 0 0), .reg (.ins 0 0)],
    .putc (.reg (.ins 0 2)), .putc (.reg (.ins 0 1))], .ret (some (.const 0))⟩]

/-- The inputs of the example. -/
example : Differ 0 (0, 0) (.file [3, 4]) (.file [9, 4]) := by
  refine ⟨fun o ho => ?_, fun o => ?_, rfl, rfl⟩ <;> cases o with
  | zero => first | exact absurd rfl ho | rfl
  | succ o => rfl

theorem exF_clear (b : Nat × Nat) :
    ClearRun (sets 0) b [exF] (.file [3, 4]) 10 (start (sets 0) 0 [] (fun _ => 0) 0) := by
  intro m t hm ht fr rest F B h1 h2 h3
  have key : ∀ (fr : Frame Taint) (g : Glob Taint), (∀ I ∈ (exF.blocks[0]).body, InstrClear (sets 0) b fr g I) ∧
      TermClear (sets 0) b fr (exF.blocks[0]).term := by
    intro fr g
    constructor
    · intro I hI
      simp only [exF, List.getElem_cons_zero, List.mem_cons, List.not_mem_nil, or_false] at hI
      rcases hI with rfl | rfl | rfl | rfl | rfl <;> trivial
    · trivial
  have hF : F = exF := by
    match e : fr.fn, h2 with
    | 0, h2 => exact (Option.some.inj h2).symm
    | n + 1, h2 => cases h2
  subst hF
  have hB : B = exF.blocks[0] := by
    match e : fr.blk, h3 with
    | 0, h3 => exact (Option.some.inj h3).symm
    | n + 1, h3 => cases h3
  subst hB
  exact ⟨fun I hI => (key fr t.glob).1 I (List.mem_of_getElem? hI), fun _ => (key fr t.glob).2⟩

/-- The hypotheses of `C48_output` are met: the second output is not tainted by byte 0. -/
example : ClearRun (sets 0) (0, 0) [exF] (.file [3, 4]) 10 (start (sets 0) 0 [] (fun _ => 0) 0) ∧
    ∃ v g, run (sets 0) [exF] (.file [3, 4]) 10 (start (sets 0) 0 [] (fun _ => 0) 0) = .done v g ∧
      g.out.map (·.1) = [6, 4] ∧ ∃ x, g.out[1]? = some x ∧ ¬ x.2 (0, 0) := by
  refine ⟨exF_clear _, _, _, rfl, rfl, _, rfl, ?_⟩
  intro h
  cases h

/-- The hypotheses of `C48_bytes` are met: of a file of four bytes, byte 0 and the bytes after the second are
changed; the second output depends on none of them. -/
example : DifferIn 0 (fun b => b.2 ≠ 1) (.file [3, 4, 5, 6]) (.file [9, 4, 8, 7]) ∧
    ∃ v g, run (sets 0) [exF] (.file [3, 4, 5, 6]) 10 (start (sets 0) 0 [] (fun _ => 0) 0) = .done v g ∧
      g.out.map (·.1) = [6, 4] ∧ ∃ x, g.out[1]? = some x ∧ ∀ b, b.2 ≠ 1 → ¬ x.2 b := by
  refine ⟨⟨fun o ho => ?_, fun o => ?_, rfl, rfl⟩, _, _, rfl, rfl, _, rfl, ?_⟩
  · match o, ho with
    | 1, _ => rfl
    | 0, ho => exact absurd (by simp) ho
    | n + 2, ho => exact absurd (by simp) ho
  · match o with
    | 0 => rfl
    | 1 => rfl
    | 2 => rfl
    | 3 => rfl
    | n + 4 => rfl
  · rintro b hb (h : b = (0, 1))
    exact hb (by rw [h])

/-- Outputs two bytes of memory: one of the command line, one other. -/
def argF : Func where
  nparams := 0
  void := false
  blocks := [⟨[], [.load (.const C47.a0) 1, .putc (.reg (.ins 0 0)), .load (.const (C47.a0 + 1)) 1,
    .putc (.reg (.ins 0 2))], .ret (some (.const 0))⟩]

/-- The memory of `argF`: byte 0 of source 3 with value `v`, and a 5. -/
def argMem (v : Nat) : Nat → Nat := fun a => if a = C47.a0 then v else if a = C47.a0 + 1 then 5 else 0

def argTaint : Nat → Taint := fun a b => a = C47.a0 ∧ b = (3, 0)

/-- The hypotheses of `C48_output` are met for a byte of the command line. -/
example : Differ 0 (3, 0) (.file []) (.file []) ∧ (∀ a, ¬ argTaint a (3, 0) → argMem 1 a = argMem 2 a) ∧
    ClearRun (sets 0) (3, 0) [argF] (.file []) 10 (start (sets 0) 0 [] (argMem 1) 0 argTaint) ∧
    ∃ v g, run (sets 0) [argF] (.file []) 10 (start (sets 0) 0 [] (argMem 1) 0 argTaint) = .done v g ∧
      g.out.map (·.1) = [1, 5] ∧ ∃ x, g.out[1]? = some x ∧ ¬ x.2 (3, 0) := by
  refine ⟨⟨fun _ _ => rfl, fun _ => rfl, rfl, rfl⟩, ?_, ?_, _, _, rfl, rfl, _, rfl, ?_⟩
  · intro a ha
    have : a ≠ C47.a0 := fun e => ha ⟨e, rfl⟩
    simp [argMem, this]
  · intro m t hm ht fr rest F B h1 h2 h3
    have key : ∀ (fr : Frame Taint) (g : Glob Taint), (∀ I ∈ (argF.blocks[0]).body, InstrClear (sets 0) (3, 0) fr g I) ∧
        TermClear (sets 0) (3, 0) fr (argF.blocks[0]).term := by
      intro fr g
      constructor
      · intro I hI
        simp only [argF, List.getElem_cons_zero, List.mem_cons, List.not_mem_nil, or_false] at hI
        rcases hI with rfl | rfl | rfl | rfl <;> trivial
      · trivial
    have hF : F = argF := by
      match e : fr.fn, h2 with
      | 0, h2 => exact (Option.some.inj h2).symm
      | n + 1, h2 => cases h2
    subst hF
    have hB : B = argF.blocks[0] := by
      match e : fr.blk, h3 with
      | 0, h3 => exact (Option.some.inj h3).symm
      | n + 1, h3 => cases h3
    subst hB
    exact ⟨fun I hI => (key fr t.glob).1 I (List.mem_of_getElem? hI), fun _ => (key fr t.glob).2⟩
  · simp [Frame.get, Frame.set, sets, Alg.all, newFrame, start, C47.a0, argTaint, List.range, List.range.loop]

/-! ### The conditions are needed -/

/-- Outputs 0 or 1 depending on the input byte, by a branch. -/
def branchF : Func where
  nparams := 0
  void := false
  blocks := [⟨[], [.getc], .br (.reg (.ins 0 0)) (fun v => if v = 0 then 0 else 1) [1, 2]⟩,
    ⟨[], [.putc (.const 0)], .ret (some (.const 0))⟩,
    ⟨[], [.putc (.const 1)], .ret (some (.const 0))⟩]

/-- C48 (refuted for branches): the output depends on the input byte but is not tainted. -/
theorem C48_branch_refuted :
    ∃ g g' : Glob Taint, ∃ v v',
      run (sets 0) [branchF] (.file [0]) 10 (start (sets 0) 0 [] (fun _ => 0) 0) = .done v g ∧
      run (sets 0) [branchF] (.file [1]) 10 (start (sets 0) 0 [] (fun _ => 0) 0) = .done v' g' ∧
      g.out = [(0, fun _ => False)] ∧ g'.out = [(1, fun _ => False)] :=
  ⟨_, _, _, _, rfl, rfl, rfl, rfl⟩

/-- Stores 1 to a place selected by the input byte, then outputs a fixed place. -/
def storeF : Func where
  nparams := 0
  void := false
  blocks := [⟨[], [.getc, .op (fun xs => C47.a0 + xs.sum) [.reg (.ins 0 0)],
    .store (.reg (.ins 0 1)) (.const 1) 1, .load (.const C47.a0) 1, .putc (.reg (.ins 0 3))],
    .ret (some (.const 0))⟩]

/-- C48 (refuted for store addresses): the label of the address is not given to the stored byte (default
of `-dfsan-combine-pointer-labels-on-store`), so the output is not tainted. -/
theorem C48_store_refuted :
    ∃ g g' : Glob Taint, ∃ v v',
      run (sets 0) [storeF] (.file [0]) 10 (start (sets 0) 0 [] (fun _ => 0) 0) = .done v g ∧
      run (sets 0) [storeF] (.file [1]) 10 (start (sets 0) 0 [] (fun _ => 0) 0) = .done v' g' ∧
      g.out.map (·.1) = [1] ∧ g'.out.map (·.1) = [0] ∧
      (∀ x ∈ g.out, ∀ b, ¬ x.2 b) ∧ ∀ x ∈ g'.out, ∀ b, ¬ x.2 b := by
  refine ⟨_, _, _, _, rfl, rfl, rfl, rfl, ?_, ?_⟩
  · intro x hx b
    rcases List.mem_singleton.1 hx with rfl
    simp [Frame.get, Frame.set, sets, Alg.all, newFrame, start, C47.a0, putAll, List.range, List.range.loop]
  · intro x hx b
    rcases List.mem_singleton.1 hx with rfl
    simp [Frame.get, Frame.set, sets, Alg.all, newFrame, start, C47.a0, putAll, List.range, List.range.loop]

/-- Copies a byte from a place selected by the input byte and outputs it. -/
def copyF : Func where
  nparams := 0
  void := false
  blocks := [⟨[], [.getc, .store (.const C47.a0) (.const 7) 1,
    .op (fun xs => C47.a0 + xs.sum) [.reg (.ins 0 0)],
    .memcpy false (.const (C47.a0 + 16)) (.reg (.ins 0 2)) (.const 1), .load (.const (C47.a0 + 16)) 1,
    .putc (.reg (.ins 0 4))], .ret (some (.const 0))⟩]

/-- C48 (refuted for the source of a block copy): a load from an address computed from the input is
tainted by the address, but `memcpy` from it followed by a load is not. -/
theorem C48_memcpy_refuted :
    ∃ g g' : Glob Taint, ∃ v v',
      run (sets 0) [copyF] (.file [0]) 10 (start (sets 0) 0 [] (fun _ => 0) 0) = .done v g ∧
      run (sets 0) [copyF] (.file [1]) 10 (start (sets 0) 0 [] (fun _ => 0) 0) = .done v' g' ∧
      g.out.map (·.1) = [7] ∧ g'.out.map (·.1) = [0] ∧
      (∀ x ∈ g.out, ∀ b, ¬ x.2 b) ∧ ∀ x ∈ g'.out, ∀ b, ¬ x.2 b := by
  refine ⟨_, _, _, _, rfl, rfl, rfl, rfl, ?_, ?_⟩
  · intro x hx b
    rcases List.mem_singleton.1 hx with rfl
    simp [Frame.get, Frame.set, sets, Alg.all, newFrame, start, C47.a0, putAll, copyAll, List.range, List.range.loop]
  · intro x hx b
    rcases List.mem_singleton.1 hx with rfl
    simp [Frame.get, Frame.set, sets, Alg.all, newFrame, start, C47.a0, putAll, copyAll, List.range, List.range.loop]

/-- Outputs a frozen copy of the input byte. -/
def freezeF : Func where
  nparams := 0
  void := false
  blocks := [⟨[], [.getc, .untracked (fun xs => xs.sum) [.reg (.ins 0 0)], .putc (.reg (.ins 0 1))],
    .ret (some (.const 0))⟩]

/-- C48 (refuted for instructions without a visitor): `freeze` loses the taint. -/
theorem C48_untracked_refuted :
    ∃ g g' : Glob Taint, ∃ v v',
      run (sets 0) [freezeF] (.file [0]) 10 (start (sets 0) 0 [] (fun _ => 0) 0) = .done v g ∧
      run (sets 0) [freezeF] (.file [1]) 10 (start (sets 0) 0 [] (fun _ => 0) 0) = .done v' g' ∧
      g.out = [(0, fun _ => False)] ∧ g'.out = [(1, fun _ => False)] :=
  ⟨_, _, _, _, rfl, rfl, rfl, rfl⟩

/-- Puts the input byte in memory, adds 5 to it there by an atomic instruction, and outputs what the instruction
returns (the byte as it was) and what is in memory afterwards. -/
def atomicF : Func where
  nparams := 0
  void := false
  blocks := [⟨[], [.getc, .store (.const C47.a0) (.reg (.ins 0 0)) 1,
    .rmw (fun old xs => (old + xs.sum, old)) (.const C47.a0) [.const 5] 1, .putc (.reg (.ins 0 2)),
    .load (.const C47.a0) 1, .putc (.reg (.ins 0 4))], .ret (some (.const 0))⟩]

/-- C48 (refuted for atomic instructions): neither what they return nor what they leave in memory is tainted. -/
theorem C48_atomic_refuted :
    ∃ g g' : Glob Taint, ∃ v v',
      run (sets 0) [atomicF] (.file [0]) 10 (start (sets 0) 0 [] (fun _ => 0) 0) = .done v g ∧
      run (sets 0) [atomicF] (.file [1]) 10 (start (sets 0) 0 [] (fun _ => 0) 0) = .done v' g' ∧
      g.out.map (·.1) = [0, 5] ∧ g'.out.map (·.1) = [1, 6] ∧
      (∀ x ∈ g.out, ∀ b, ¬ x.2 b) ∧ ∀ x ∈ g'.out, ∀ b, ¬ x.2 b := by
  refine ⟨_, _, _, _, rfl, rfl, rfl, rfl, ?_, ?_⟩ <;>
  · intro x hx b
    rcases List.mem_cons.1 hx with rfl | hx
    · simp [Frame.get, Frame.set, sets, newFrame]
    · rcases List.mem_singleton.1 hx with rfl
      simp [Frame.get, Frame.set, sets, Alg.all, newFrame, start, C47.a0, putAll, List.range, List.range.loop]

/-- Outputs how many bytes there are to read. -/
def lengthF : Func where
  nparams := 0
  void := false
  blocks := [⟨[], [.read (.const C47.a0) (.const 8), .putc (.reg (.ins 0 0))], .ret (some (.const 0))⟩]

/-- C48 (refuted for the length of the input): if byte 1 is not changed but taken away the output changes, and it
is not tainted. -/
theorem C48_length_refuted :
    ∃ g g' : Glob Taint, ∃ v v',
      run (sets 0) [lengthF] (.file [1, 2]) 10 (start (sets 0) 0 [] (fun _ => 0) 0) = .done v g ∧
      run (sets 0) [lengthF] (.file [1]) 10 (start (sets 0) 0 [] (fun _ => 0) 0) = .done v' g' ∧
      g.out = [(2, fun _ => False)] ∧ g'.out = [(1, fun _ => False)] :=
  ⟨_, _, _, _, rfl, rfl, rfl, rfl⟩

/-- What the instrumented version of a one-function program outputs on a file. -/
def output (F : Func) (l : List (Fin 256)) : Option (List (Nat × Nat)) :=
  match irun C47.dom0 [F] (.file l) 0 10
    (istart F 0 [] (fun _ => 0) 0x7ffe00000000 (Labels.init 100)) with
  | .ok (.done _ _ g) => some g.out
  | _ => none

/-- C48 (refuted, instrumented): the same for the code the pass makes of these programs: the values differ
and every label is 0. -/
theorem C48_instrumented_refuted :
    (output branchF [0] = some [(0, 0)] ∧ output branchF [1] = some [(1, 0)]) ∧
    (output storeF [0] = some [(1, 0)] ∧ output storeF [1] = some [(0, 0)]) ∧
    (output copyF [0] = some [(7, 0)] ∧ output copyF [1] = some [(0, 0)]) ∧
    (output freezeF [0] = some [(0, 0)] ∧ output freezeF [1] = some [(1, 0)]) ∧
    (output atomicF [0] = some [(0, 0), (5, 0)] ∧ output atomicF [1] = some [(1, 0), (6, 0)]) ∧
    (output lengthF [1, 2] = some [(2, 0)] ∧ output lengthF [1] = some [(1, 0)]) := by
  refine ⟨⟨?_, ?_⟩, ⟨?_, ?_⟩, ⟨?_, ?_⟩, ⟨?_, ?_⟩, ⟨?_, ?_⟩, ?_, ?_⟩ <;> decide +kernel

end C48
end Verif
