import Verif.IrMap
import Mathlib.Data.List.Forall2
/-
Helper lemmas: two runs of a program on inputs that differ only in the bytes `X`. The taint of a value says whether
it depends on one of the bytes of `X`. (C48 is about one byte.)
-/
namespace Verif
namespace NonInterf
open Ir

/-- Taint that says whether a value depends on one of the bytes `X`. -/
def hits (X : Nat × Nat → Prop) (src : Nat) : Alg Prop where
  zero := False
  join := fun x y => x ∨ y
  src := fun off => X (src, off)

theorem hom_hits (X : Nat × Nat → Prop) (src : Nat) : (sets src).Hom (hits X src) (fun t => ∃ b, X b ∧ t b) := by
  refine ⟨?_, fun x y => ?_, fun o => ?_⟩ <;> apply propext
  · simp [sets, hits]
  · simp only [sets, hits]
    constructor
    · rintro ⟨b, h1, h2 | h2⟩
      · exact Or.inl ⟨b, h1, h2⟩
      · exact Or.inr ⟨b, h1, h2⟩
    · rintro (⟨b, h1, h2⟩ | ⟨b, h1, h2⟩)
      · exact ⟨b, h1, Or.inl h2⟩
      · exact ⟨b, h1, Or.inr h2⟩
  · simp [sets, hits]


/-- The same value in two runs: if it is not tainted it is equal in both. -/
def Indep (x y : Nat × Prop) : Prop := (x.2 ↔ y.2) ∧ (¬ x.2 → x.1 = y.1)

structure FrameIndep (f f' : Frame Prop) : Prop where
  fn : f.fn = f'.fn
  blk : f.blk = f'.blk
  idx : f.idx = f'.idx
  sp : f.sp = f'.sp
  env : ∀ r, Indep (f.env r) (f'.env r)
  args : List.Forall₂ Indep f.args f'.args
  vars : ∀ k, Indep (f.vars k) (f'.vars k)

structure GlobIndep (g g' : Glob Prop) : Prop where
  mem : ∀ a, Indep (g.mem a, g.tmem a) (g'.mem a, g'.tmem a)
  sp : g.sp = g'.sp
  pos : g.pos = g'.pos
  out : List.Forall₂ Indep g.out g'.out
  ev : List.Forall₂ (fun x y => x.1 = y.1 ∧ Indep x.2 y.2) g.ev g'.ev

structure StateIndep (s s' : State Prop) : Prop where
  frames : List.Forall₂ FrameIndep s.frames s'.frames
  glob : GlobIndep s.glob s'.glob

/-- Two contents of the input `src` that differ at most in the values of the bytes `X`. -/
structure Differ (X : Nat × Nat → Prop) (src : Nat) (w w' : World) : Prop where
  byte : ∀ o, ¬ X (src, o) → w.byte o = w'.byte o
  there : ∀ o, (w.byte o).isSome = (w'.byte o).isSome
  got : w.got = w'.got
  took : w.took = w'.took

/-- The instruction does not use tainted values for control flow, for the place of a store or for the ranges of a
block instruction, and does not give them to code the analysis does not look at or to an atomic instruction. -/
def InstrClear (A : Alg Prop) (fr : Frame Prop) (g : Glob Prop) : Instr → Prop
  | .store a _ _ => ¬ (fr.get A a).2
  | .call _ f _ => ¬ (fr.get A f).2
  | .untracked _ args => ∀ o ∈ args, ¬ (fr.get A o).2
  | .memset d _ n => ¬ (fr.get A d).2 ∧ ¬ (fr.get A n).2
  | .memcpy _ d s n => ¬ (fr.get A d).2 ∧ ¬ (fr.get A s).2 ∧ ¬ (fr.get A n).2
  | .read a n => ¬ (fr.get A a).2 ∧ ¬ (fr.get A n).2
  | .write a n => ¬ (fr.get A a).2 ∧ ¬ (fr.get A n).2
  | .rmw _ a args n => ¬ (fr.get A a).2 ∧ (∀ o ∈ args, ¬ (fr.get A o).2) ∧
      ∀ i, i < n → ¬ g.tmem ((fr.get A a).1 + i)
  | .hook k v => k.seen = false → ¬ (fr.get A v).2
  | _ => True

def TermClear (A : Alg Prop) (fr : Frame Prop) : Term → Prop
  | .br c _ _ => ¬ (fr.get A c).2
  | _ => True

/-- The next step. -/
def Clear (A : Alg Prop) (P : Prog) (s : State Prop) : Prop :=
  ∀ fr rest F B, s.frames = fr :: rest → P[fr.fn]? = some F → F.blocks[fr.blk]? = some B →
    (∀ I, B.body[fr.idx]? = some I → InstrClear A fr s.glob I) ∧
    (B.body[fr.idx]? = none → TermClear A fr B.term)

/-- All of the first `n` steps. -/
def ClearRun (A : Alg Prop) (P : Prog) (inp : World) (n : Nat) (s : State Prop) :
    Prop :=
  ∀ m t, m < n → run A P inp m s = .next t → Clear A P t

variable {X : Nat × Nat → Prop}

theorem Indep.same (x : Nat × Prop) : Indep x x := ⟨Iff.rfl, fun _ => rfl⟩

theorem Indep.tainted {x y : Nat × Prop} (h : x.2) (h' : y.2) : Indep x y :=
  ⟨⟨fun _ => h', fun _ => h⟩, fun hn => absurd h hn⟩

theorem get_indep {src : Nat} {f f' : Frame Prop} (h : FrameIndep f f') (o : Opd) :
    Indep (f.get (hits X src) o) (f'.get (hits X src) o) := by
  cases o with
  | const v => exact .same _
  | reg r => exact h.env r
  | arg i =>
    have h1 := List.forall₂_iff_get.1 h.args
    simp only [Frame.get, List.getD]
    by_cases hi : i < f.args.length
    · have hi' : i < f'.args.length := by have := h1.1; omega
      rw [List.getElem?_eq_getElem hi, List.getElem?_eq_getElem hi']
      exact h1.2 i hi hi'
    · have hi' : ¬ i < f'.args.length := by have := h1.1; omega
      rw [List.getElem?_eq_none (by omega), List.getElem?_eq_none (by omega)]
      exact .same _

theorem set_indep {f f' : Frame Prop} (h : FrameIndep f f') {x y : Nat × Prop} (hx : Indep x y) :
    FrameIndep (f.set x) (f'.set y) :=
  { fn := h.fn
    blk := h.blk
    idx := by simp only [Frame.set, h.idx]
    sp := h.sp
    env := fun r => by
      simp only [Frame.set, h.blk, h.idx]
      by_cases c : r = .ins f'.blk f'.idx
      · simp only [c, if_true]; exact hx
      · simp only [c, if_false]; exact h.env r
    args := h.args
    vars := h.vars }

theorem all_iff {src : Nat} (ts : List Prop) : (hits X src).all ts ↔ ∃ t ∈ ts, t := by
  induction ts with
  | nil => simp [Alg.all, hits]
  | cons t ts ih =>
    have : (hits X src).all (t :: ts) ↔ t ∨ (hits X src).all ts := Iff.rfl
    rw [this, ih]
    constructor
    · rintro (h | ⟨u, h, h'⟩)
      · exact ⟨t, List.mem_cons_self, h⟩
      · exact ⟨u, List.mem_cons_of_mem _ h, h'⟩
    · rintro ⟨u, h, h'⟩
      rcases List.mem_cons.1 h with rfl | h
      · exact Or.inl h'
      · exact Or.inr ⟨u, h, h'⟩

theorem gets_indep {src : Nat} {f f' : Frame Prop} (h : FrameIndep f f') (os : List Opd) :
    List.Forall₂ Indep (os.map (f.get (hits X src))) (os.map (f'.get (hits X src))) := by
  induction os with
  | nil => exact .nil
  | cons o os ih => exact .cons (get_indep h o) ih

theorem fst_indep {xs ys : List (Nat × Prop)} (h : List.Forall₂ Indep xs ys)
    (hn : ∀ x ∈ xs, ¬ x.2) : xs.map (·.1) = ys.map (·.1) := by
  induction h with
  | nil => rfl
  | cons h1 _ ih =>
    simp only [List.map_cons]
    rw [h1.2 (hn _ (by simp)), ih (fun x hx => hn x (by simp [hx]))]

theorem snd_indep {src : Nat} {xs ys : List (Nat × Prop)} (h : List.Forall₂ Indep xs ys) :
    (hits X src).all (xs.map (·.2)) ↔ (hits X src).all (ys.map (·.2)) := by
  induction h with
  | nil => exact Iff.rfl
  | cons h1 _ ih =>
    simp only [List.map_cons]
    exact or_congr h1.1 ih

theorem readInt_indep {g g' : Glob Prop} (h : ∀ a, Indep (g.mem a, g.tmem a) (g'.mem a, g'.tmem a)) :
    ∀ (n a : Nat), (∀ i, i < n → ¬ g.tmem (a + i)) → readInt g.mem a n = readInt g'.mem a n := by
  intro n
  induction n with
  | zero => intro a _; rfl
  | succ n ih =>
    intro a hn
    unfold readInt
    have h1 := (h a).2 (hn 0 (by omega))
    simp only at h1
    rw [h1, ih (a + 1) (fun i hi => by
      have := hn (i + 1) (by omega)
      rwa [show a + (i + 1) = a + 1 + i by omega] at this)]

theorem newFrame_indep {src fn sp : Nat} {xs ys : List (Nat × Prop)} (h : List.Forall₂ Indep xs ys) :
    FrameIndep (newFrame (hits X src) fn xs sp) (newFrame (hits X src) fn ys sp) :=
  ⟨rfl, rfl, rfl, rfl, fun _ => .same _, h, fun _ => .same _⟩

/-- Two outcomes. The second run may have undefined behaviour: it may load from a tainted address. -/
def OutIndep (o o' : Out Prop) : Prop :=
  match o with
  | .stuck => True
  | .next t => o' = .stuck ∨ ∃ t', o' = .next t' ∧ StateIndep t t'
  | .done v g => o' = .stuck ∨ ∃ v' g', o' = .done v' g' ∧ Indep v v' ∧ GlobIndep g g'

variable {src : Nat} {P : Prog} {inp inp' : World}

theorem next_indep {f f' : Frame Prop} {rest rest' : List (Frame Prop)} {g g' : Glob Prop}
    (hf : FrameIndep f f') (hr : List.Forall₂ FrameIndep rest rest') (hg : GlobIndep g g') :
    OutIndep (.next ⟨f :: rest, g⟩) (.next ⟨f' :: rest', g'⟩) :=
  Or.inr ⟨_, rfl, .cons hf hr, hg⟩

theorem instr_indep (hi : Differ X src inp inp') {f f' : Frame Prop}
    {rest rest' : List (Frame Prop)} {g g' : Glob Prop} (hf : FrameIndep f f')
    (hr : List.Forall₂ FrameIndep rest rest') (hg : GlobIndep g g') {I : Instr}
    (hc : InstrClear (hits X src) f g I) :
    OutIndep (stepInstr (hits X src) P inp f rest g I)
      (stepInstr (hits X src) P inp' f' rest' g' I) := by
  cases I with
  | op fn args =>
    have h1 := gets_indep (X := X) (src := src) hf args
    refine next_indep (set_indep hf ⟨snd_indep h1, fun hn => ?_⟩) hr hg
    simp only
    rw [fst_indep h1 (fun x hx hb => hn ((all_iff _).2 ⟨x.2, List.mem_map.2 ⟨x, hx, rfl⟩, hb⟩))]
  | untracked fn args =>
    have h1 := gets_indep (X := X) (src := src) hf args
    refine next_indep (set_indep hf ⟨Iff.rfl, fun _ => ?_⟩) hr hg
    simp only
    rw [fst_indep h1 (fun x hx => by
      obtain ⟨o, ho, rfl⟩ := List.mem_map.1 hx
      exact hc o ho)]
  | load a n =>
    simp only [stepInstr]
    split
    · exact next_indep (set_indep hf (.same _)) hr hg
    · have h1 := get_indep (X := X) (src := src) hf a
      by_cases c : CanAccess (f.get (hits X src) a).1 n
      · rw [if_pos c]
        by_cases c' : CanAccess (f'.get (hits X src) a).1 n
        · rw [if_pos c']
          refine next_indep (set_indep hf ?_) hr hg
          by_cases ht : (f.get (hits X src) a).2
          · exact .tainted (Or.inr ht) (Or.inr (h1.1.1 ht))
          · have e := h1.2 ht
            rw [← e]
            refine ⟨or_congr ?_ h1.1, fun hn => ?_⟩
            · rw [all_iff, all_iff]
              simp only [List.mem_map, exists_exists_and_eq_and]
              exact exists_congr (fun i => and_congr Iff.rfl (hg.mem _).1)
            · refine readInt_indep hg.mem n _ (fun i hi hb => hn (Or.inl ?_))
              rw [all_iff]
              exact ⟨_, List.mem_map.2 ⟨i, List.mem_range.2 hi, rfl⟩, hb⟩
        · rw [if_neg c']
          exact Or.inl rfl
      · rw [if_neg c]
        trivial
  | store a v n =>
    simp only [stepInstr]
    split
    · exact next_indep (set_indep hf (.same _)) hr hg
    · have h1 := get_indep (X := X) (src := src) hf a
      have e := h1.2 hc
      rw [← e]
      split
      · refine next_indep (set_indep hf (.same _)) hr ?_
        have h2 := get_indep (X := X) (src := src) hf v
        refine ⟨fun x => ?_, hg.sp, hg.pos, hg.out, hg.ev⟩
        simp only [putInt, putAll]
        split
        · exact ⟨h2.1, fun hn => by simp only; rw [h2.2 hn]⟩
        · exact hg.mem x
      · trivial
  | select c t e =>
    refine next_indep (set_indep hf ?_) hr hg
    have h1 := get_indep (X := X) (src := src) hf c
    by_cases ht : (f.get (hits X src) c).2
    · exact .tainted (Or.inl ht) (Or.inl (h1.1.1 ht))
    · rw [← h1.2 ht]
      have h2 : Indep (if (f.get (hits X src) c).1 ≠ 0 then f.get (hits X src) t else f.get (hits X src) e)
          (if (f.get (hits X src) c).1 ≠ 0 then f'.get (hits X src) t else f'.get (hits X src) e) := by
        split
        · exact get_indep hf t
        · exact get_indep hf e
      exact ⟨or_congr h1.1 h2.1, fun hn => h2.2 (fun h => hn (Or.inr h))⟩
  | call void fn args =>
    have h1 := get_indep (X := X) (src := src) hf fn
    have e := h1.2 hc
    simp only [stepInstr, ← e]
    cases P[(f.get (hits X src) fn).1]? with
    | none => trivial
    | some G =>
      dsimp only
      split
      · rw [hg.sp]
        exact Or.inr ⟨_, rfl, .cons (newFrame_indep (gets_indep hf args)) (.cons hf hr), hg⟩
      · trivial
  | alloca n =>
    simp only [stepInstr, hg.sp]
    exact next_indep (set_indep hf (.same _)) hr ⟨hg.mem, rfl, hg.pos, hg.out, hg.ev⟩
  | getVar i => exact next_indep (set_indep hf (hf.vars i)) hr hg
  | setVar i v =>
    refine next_indep { set_indep hf (.same _) with vars := fun j => ?_ } hr hg
    simp only
    split
    · exact get_indep hf v
    · exact hf.vars j
  | getc =>
    simp only [stepInstr, hg.pos]
    by_cases e : X (src, g'.pos)
    · have ht := hi.there g'.pos
      cases h1 : inp.byte g'.pos with
      | none =>
        cases h2 : inp'.byte g'.pos with
        | none => exact next_indep (set_indep hf (.same _)) hr hg
        | some c => rw [h1, h2] at ht; cases ht
      | some c =>
        cases h2 : inp'.byte g'.pos with
        | none => rw [h1, h2] at ht; cases ht
        | some c' =>
          refine next_indep (set_indep hf (.tainted ?_ ?_)) hr ⟨hg.mem, hg.sp, rfl, hg.out, hg.ev⟩
          · exact e
          · exact e
    · rw [← hi.byte _ e]
      cases inp.byte g'.pos with
      | none => exact next_indep (set_indep hf (.same _)) hr hg
      | some c => exact next_indep (set_indep hf (.same _)) hr ⟨hg.mem, hg.sp, rfl, hg.out, hg.ev⟩
  | read a n =>
    simp only [stepInstr, hg.pos]
    rw [← (get_indep (X := X) (src := src) hf a).2 hc.1, ← (get_indep (X := X) (src := src) hf n).2 hc.2, ← hi.got]
    split
    · refine next_indep (set_indep hf (.same _)) hr ⟨fun x => ?_, hg.sp, rfl, hg.out, hg.ev⟩
      simp only
      split
      · by_cases e : X (src, g'.pos + (x - (f.get (hits X src) a).1))
        · refine .tainted ?_ ?_
          · exact e
          · exact e
        · refine ⟨Iff.rfl, fun _ => ?_⟩
          simp only [World.at, hi.byte _ e]
      · exact hg.mem x
    · trivial
  | write a n =>
    simp only [stepInstr]
    rw [← (get_indep (X := X) (src := src) hf a).2 hc.1, ← (get_indep (X := X) (src := src) hf n).2 hc.2, ← hi.took,
      ← hg.out.length_eq]
    split
    · refine next_indep (set_indep hf (.same _)) hr ⟨hg.mem, hg.sp, hg.pos, List.rel_append hg.out ?_, hg.ev⟩
      rw [List.forall₂_map_left_iff, List.forall₂_map_right_iff, List.forall₂_same]
      exact fun i _ => hg.mem _
    · trivial
  | putc v =>
    refine next_indep (set_indep hf (.same _)) hr ⟨hg.mem, hg.sp, hg.pos, ?_, hg.ev⟩
    exact List.rel_append hg.out (.cons (get_indep hf v) .nil)
  | rmw fn a args n =>
    simp only [stepInstr]
    obtain ⟨c1, c2, c3⟩ := hc
    have hargs : (args.map (f'.get (hits X src))).map (·.1) = (args.map (f.get (hits X src))).map (·.1) := by
      simp only [List.map_map]
      exact List.map_congr_left (fun o ho => ((get_indep (X := X) (src := src) hf o).2 (c2 o ho)).symm)
    rw [← (get_indep (X := X) (src := src) hf a).2 c1, hargs,
      ← readInt_indep hg.mem n _ c3]
    split
    · refine next_indep (set_indep hf (.same _)) hr ⟨fun x => ?_, hg.sp, hg.pos, hg.out, hg.ev⟩
      simp only [putInt, putAll]
      split
      · exact ⟨Iff.rfl, fun _ => rfl⟩
      · exact hg.mem x
    · trivial
  | memset d c n =>
    simp only [stepInstr]
    rw [← (get_indep (X := X) (src := src) hf d).2 hc.1, ← (get_indep (X := X) (src := src) hf n).2 hc.2]
    split
    · refine next_indep (set_indep hf (.same _)) hr ⟨fun x => ?_, hg.sp, hg.pos, hg.out, hg.ev⟩
      have h2 := get_indep (X := X) (src := src) hf c
      simp only [putAll]
      split
      · exact ⟨h2.1, fun hn => by simp only; rw [h2.2 hn]⟩
      · exact hg.mem x
    · trivial
  | memcpy move d s n =>
    simp only [stepInstr]
    rw [← (get_indep (X := X) (src := src) hf d).2 hc.1, ← (get_indep (X := X) (src := src) hf s).2 hc.2.1,
      ← (get_indep (X := X) (src := src) hf n).2 hc.2.2]
    split
    · refine next_indep (set_indep hf (.same _)) hr ⟨fun x => ?_, hg.sp, hg.pos, hg.out, hg.ev⟩
      simp only [copyAll]
      split <;> exact hg.mem _
    · trivial
  | hook q v =>
    have h1 := get_indep (X := X) (src := src) hf v
    refine next_indep (set_indep hf ?_) hr ⟨hg.mem, hg.sp, hg.pos, hg.out, ?_⟩
    · split
      · exact h1
      · exact .same _
    · refine List.rel_append hg.ev (.cons ⟨rfl, ?_⟩ .nil)
      cases hq : q.seen with
      | true => exact h1
      | false => exact ⟨Iff.rfl, fun _ => h1.2 (hc hq)⟩

theorem return_indep {rest rest' : List (Frame Prop)} {g g' : Glob Prop} {sp : Nat} {x y : Nat × Prop}
    (hr : List.Forall₂ FrameIndep rest rest') (hg : GlobIndep g g') (hx : Indep x y) :
    OutIndep (doReturn g sp x rest) (doReturn g' sp y rest') := by
  cases hr with
  | nil => exact Or.inr ⟨_, _, rfl, hx, hg.mem, rfl, hg.pos, hg.out, hg.ev⟩
  | cons h1 h2 => exact next_indep (set_indep h1 hx) h2 ⟨hg.mem, rfl, hg.pos, hg.out, hg.ev⟩

theorem term_indep {f f' : Frame Prop} {F : Func} {rest rest' : List (Frame Prop)} {g g' : Glob Prop}
    (hf : FrameIndep f f') (hr : List.Forall₂ FrameIndep rest rest') (hg : GlobIndep g g')
    {T : Term} (hc : TermClear (hits X src) f T) :
    OutIndep (stepTerm (hits X src) F f rest g T) (stepTerm (hits X src) F f' rest' g' T) := by
  cases T with
  | unreachable => trivial
  | br c fn ts =>
    have e := (get_indep (X := X) (src := src) hf c).2 hc
    simp only [stepTerm, ← e]
    cases ts[fn (f.get (hits X src) c).1]? with
    | none => trivial
    | some t =>
      dsimp only
      unfold jump
      rw [← hf.blk]
      cases F.blocks[t]? with
      | none => trivial
      | some T =>
        dsimp only
        cases phiOpds f.blk T.phis with
        | none => trivial
        | some os =>
          dsimp only
          refine next_indep ⟨hf.fn, rfl, rfl, hf.sp, ?_, hf.args, hf.vars⟩ hr hg
          intro r
          cases r with
          | ins b j => exact hf.env _
          | phi b' j =>
            dsimp only
            split
            · cases os[j]? with
              | none => exact hf.env _
              | some o => exact get_indep hf o
            · exact hf.env _
  | ret v =>
    cases v with
    | none =>
      simp only [stepTerm, ← hf.sp]
      split
      · exact return_indep hr hg (.same _)
      · trivial
    | some v =>
      simp only [stepTerm, ← hf.sp]
      split
      · trivial
      · exact return_indep hr hg (get_indep hf v)

theorem step_indep (hi : Differ X src inp inp') {s s' : State Prop}
    (h : StateIndep s s') (hc : Clear (hits X src) P s) :
    OutIndep (step (hits X src) P inp s) (step (hits X src) P inp' s') := by
  obtain ⟨fs, g⟩ := s
  obtain ⟨fs', g'⟩ := s'
  obtain ⟨h1, hg⟩ := h
  simp only at h1 hg
  cases h1 with
  | nil => trivial
  | @cons f f' rest rest' hf hr =>
    unfold step
    dsimp only
    rw [← hf.fn, ← hf.blk, ← hf.idx]
    cases hF : P[f.fn]? with
    | none => trivial
    | some F =>
      dsimp only
      cases hB : F.blocks[f.blk]? with
      | none => trivial
      | some B =>
        obtain ⟨c1, c2⟩ := hc f rest F B rfl hF hB
        dsimp only
        cases hI : B.body[f.idx]? with
        | some I => exact instr_indep hi hf hr hg (c1 I hI)
        | none => exact term_indep hf hr hg (c2 hI)

theorem run_indep (hi : Differ X src inp inp') : ∀ (n : Nat) {s s' : State Prop},
    StateIndep s s' → ClearRun (hits X src) P inp n s →
    OutIndep (run (hits X src) P inp n s) (run (hits X src) P inp' n s') := by
  intro n
  induction n with
  | zero => intro s s' h _; exact Or.inr ⟨s', rfl, h⟩
  | succ n ih =>
    intro s s' h hc
    have h1 := step_indep (inp := inp) hi h (hc 0 s (by omega) rfl)
    unfold run
    cases e : step (hits X src) P inp s with
    | stuck => trivial
    | done v g =>
      rw [e] at h1
      rcases h1 with h1 | ⟨v', g', h1, h2⟩
      · rw [h1]; exact Or.inl rfl
      · rw [h1]; exact Or.inr ⟨v', g', rfl, h2⟩
    | next t =>
      rw [e] at h1
      rcases h1 with h1 | ⟨t', h1, h2⟩
      · rw [h1]
        dsimp only
        unfold OutIndep
        split
        · trivial
        · exact Or.inl rfl
        · exact Or.inl rfl
      · rw [h1]
        refine ih h2 (fun m u hm hu => hc (m + 1) u (by omega) ?_)
        unfold run
        rw [e]
        exact hu

theorem start_indep (fn : Nat) (args : List Nat) {mem mem' : Nat → Nat} {tm : Nat → Prop}
    (hm : ∀ a, ¬ tm a → mem a = mem' a) (sp : Nat) :
    StateIndep (start (hits X src) fn args mem sp tm) (start (hits X src) fn args mem' sp tm) := by
  refine ⟨.cons (newFrame_indep ?_) .nil, ⟨fun a => ⟨Iff.rfl, hm a⟩, rfl, rfl, .nil, .nil⟩⟩
  generalize (args.map fun v => (v, (hits X src).zero)) = xs
  induction xs with
  | nil => exact .nil
  | cons x xs ih => exact .cons (.same _) ih

end NonInterf
end Verif
