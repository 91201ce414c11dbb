import Verif.Spec.Ir
/- Helper lemmas: changing the way taint is described. -/
namespace Verif
namespace Ir

variable {τ σ : Type}

/-- A translation between two ways of describing taint. -/
structure Alg.Hom (A : Alg τ) (B : Alg σ) (h : τ → σ) : Prop where
  zero : h A.zero = B.zero
  join : ∀ x y, h (A.join x y) = B.join (h x) (h y)
  src : ∀ o, h (A.src o) = B.src o

def pmap (h : τ → σ) (x : Nat × τ) : Nat × σ := (x.1, h x.2)

def Frame.map (h : τ → σ) (fr : Frame τ) : Frame σ :=
  { fn := fr.fn, blk := fr.blk, idx := fr.idx, env := fun r => pmap h (fr.env r),
    args := fr.args.map (pmap h), vars := fun k => pmap h (fr.vars k), sp := fr.sp }

def Glob.map (h : τ → σ) (g : Glob τ) : Glob σ :=
  { mem := g.mem, tmem := fun a => h (g.tmem a), sp := g.sp, pos := g.pos, out := g.out.map (pmap h),
    ev := g.ev.map (fun x => (x.1, pmap h x.2)) }

def State.map (h : τ → σ) (s : State τ) : State σ := ⟨s.frames.map (Frame.map h), s.glob.map h⟩

def Out.map (h : τ → σ) : Out τ → Out σ
  | .next s => .next (s.map h)
  | .done v g => .done (pmap h v) (g.map h)
  | .stuck => .stuck

variable {A : Alg τ} {B : Alg σ} {h : τ → σ}

theorem get_val {τ : Type} (A : Alg τ) (fr : Frame τ) (o : Opd) : (fr.get A o).1 = fr.val o := by
  cases o with
  | const v => rfl
  | arg i =>
    simp only [Frame.get, Frame.val, List.getD_eq_getElem?_getD]
    cases fr.args[i]? <;> rfl
  | reg r => rfl

theorem get_map (hh : A.Hom B h) (fr : Frame τ) (o : Opd) :
    (fr.map h).get B o = pmap h (fr.get A o) := by
  cases o with
  | const v => simp [Frame.get, pmap, hh.zero]
  | arg i =>
    simp only [Frame.get, Frame.map, List.getD, List.getElem?_map]
    cases fr.args[i]? with
    | none => simp [pmap, hh.zero]
    | some x => rfl
  | reg r => rfl

theorem set_map (fr : Frame τ) (x : Nat × τ) : (fr.set x).map h = (fr.map h).set (pmap h x) := by
  have e : (fun r => pmap h ((fr.set x).env r)) = ((fr.map h).set (pmap h x)).env := by
    funext r
    show pmap h (if r = .ins fr.blk fr.idx then x else fr.env r) =
      if r = .ins fr.blk fr.idx then pmap h x else pmap h (fr.env r)
    split <;> rfl
  unfold Frame.map
  rw [e]
  rfl

theorem all_map (hh : A.Hom B h) (ts : List τ) : h (A.all ts) = B.all (ts.map h) := by
  induction ts with
  | nil => exact hh.zero
  | cons t ts ih =>
    have : A.all (t :: ts) = A.join t (A.all ts) := rfl
    rw [this, hh.join, ih]
    rfl

theorem gets_map (hh : A.Hom B h) (fr : Frame τ) (os : List Opd) :
    os.map ((fr.map h).get B) = (os.map (fr.get A)).map (pmap h) := by
  rw [List.map_map]
  exact List.map_congr_left (fun o _ => get_map hh fr o)

theorem gets_map_fst (hh : A.Hom B h) (fr : Frame τ) (os : List Opd) :
    (os.map ((fr.map h).get B)).map (·.1) = (os.map (fr.get A)).map (·.1) := by
  rw [gets_map hh, List.map_map]
  rfl

theorem gets_map_snd (hh : A.Hom B h) (fr : Frame τ) (os : List Opd) :
    (os.map ((fr.map h).get B)).map (·.2) = ((os.map (fr.get A)).map (·.2)).map h := by
  rw [gets_map hh, List.map_map, List.map_map (l := List.map (fr.get A) os)]
  rfl

theorem newFrame_map (hh : A.Hom B h) (fn : Nat) (args : List (Nat × τ)) (sp : Nat) :
    (newFrame A fn args sp).map h = newFrame B fn (args.map (pmap h)) sp := by
  simp [newFrame, Frame.map, pmap, hh.zero]

theorem stepInstr_map (hh : A.Hom B h) (P : Prog) (inp : World) (fr : Frame τ) (rest : List (Frame τ))
    (g : Glob τ) (I : Instr) :
    stepInstr B P inp (fr.map h) (rest.map (Frame.map h)) (g.map h) I =
      (stepInstr A P inp fr rest g I).map h := by
  cases I with
  | op f args =>
    simp only [stepInstr, gets_map_fst hh, gets_map_snd hh, Out.map, State.map, List.map_cons, set_map,
      pmap, all_map hh]
  | untracked f args =>
    simp only [stepInstr, gets_map_fst hh, Out.map, State.map, List.map_cons, set_map, pmap, hh.zero]
  | load a n =>
    simp only [stepInstr, get_map hh]
    split
    · simp only [Out.map, State.map, List.map_cons, set_map, pmap, hh.zero]
    · by_cases c : CanAccess (fr.get A a).1 n
      · rw [if_pos c, if_pos (show CanAccess (pmap h (fr.get A a)).1 n from c)]
        simp only [Out.map, State.map, List.map_cons, set_map, pmap, hh.join, all_map hh, List.map_map]
        rfl
      · rw [if_neg c, if_neg (show ¬CanAccess (pmap h (fr.get A a)).1 n from c)]
        rfl
  | store a v n =>
    simp only [stepInstr, get_map hh]
    split
    · simp only [Out.map, State.map, List.map_cons, set_map, pmap, hh.zero]
    · by_cases c : CanAccess (fr.get A a).1 n
      · rw [if_pos c, if_pos (show CanAccess (pmap h (fr.get A a)).1 n from c)]
        simp only [Out.map, State.map, List.map_cons, set_map, pmap, hh.zero, Glob.map, putAll]
        congr 3
        funext x
        show (if (fr.get A a).1 ≤ x ∧ x < (fr.get A a).1 + n then h (fr.get A v).2 else h (g.tmem x)) = _
        split <;> rfl
      · rw [if_neg c, if_neg (show ¬CanAccess (pmap h (fr.get A a)).1 n from c)]
        rfl
  | select c t e =>
    simp only [stepInstr, get_map hh, Out.map, State.map, List.map_cons, set_map]
    by_cases c0 : (fr.get A c).1 = 0 <;> simp [pmap, c0, hh.join]
  | call void f args =>
    simp only [stepInstr, get_map hh, pmap]
    cases P[(fr.get A f).1]? with
    | none => rfl
    | some F =>
      dsimp only
      split
      · simp only [Out.map, State.map, List.map_cons, newFrame_map hh, gets_map hh]
        rfl
      · rfl
  | alloca n =>
    simp only [stepInstr, Out.map, State.map, List.map_cons, set_map, pmap, hh.zero]
    rfl
  | getVar k =>
    simp only [stepInstr, Out.map, State.map, List.map_cons, set_map]
    rfl
  | setVar k v =>
    simp only [stepInstr, Out.map, State.map, List.map_cons, get_map hh]
    have := set_map (h := h) fr (0, A.zero)
    simp only [pmap, hh.zero] at this
    rw [← this]
    simp only [Frame.map]
    congr 4
    funext i
    split <;> rfl
  | getc =>
    simp only [stepInstr]
    rw [show (g.map h).pos = g.pos from rfl]
    cases inp.byte g.pos with
    | some c =>
      simp only [Out.map, State.map, List.map_cons, set_map, pmap, hh.src]
      rfl
    | none => simp only [Out.map, State.map, List.map_cons, set_map, pmap, hh.zero]
  | read a n =>
    simp only [stepInstr, get_map hh]
    by_cases c0 : CanFill (fr.get A a).1 (fr.get A n).1
    · rw [if_pos c0, if_pos (show CanFill (pmap h (fr.get A a)).1 (pmap h (fr.get A n)).1 from c0)]
      simp only [Out.map, State.map, List.map_cons, set_map, pmap, hh.zero, Glob.map]
      congr 3
      funext x
      by_cases hx : (fr.get A a).1 ≤ x ∧ x < (fr.get A a).1 + inp.got g.pos (fr.get A n).1
      · exact (if_pos hx).trans ((hh.src _).symm.trans (congrArg h (if_pos hx).symm))
      · exact (if_neg hx).trans (congrArg h (if_neg hx).symm)
    · rw [if_neg c0, if_neg (show ¬CanFill (pmap h (fr.get A a)).1 (pmap h (fr.get A n)).1 from c0)]
      rfl
  | write a n =>
    simp only [stepInstr, get_map hh]
    by_cases c0 : CanAccess (fr.get A a).1 (fr.get A n).1
    · rw [if_pos c0, if_pos (show CanAccess (pmap h (fr.get A a)).1 (pmap h (fr.get A n)).1 from c0)]
      simp [Out.map, State.map, set_map, pmap, hh.zero, Glob.map]
    · rw [if_neg c0, if_neg (show ¬CanAccess (pmap h (fr.get A a)).1 (pmap h (fr.get A n)).1 from c0)]
      rfl
  | putc v =>
    simp only [stepInstr, Out.map, State.map, List.map_cons, set_map, pmap, hh.zero, get_map hh]
    simp [Glob.map, pmap]
  | rmw f a args n =>
    simp only [stepInstr, gets_map_fst hh, get_map hh]
    by_cases c0 : 0 < n ∧ CanAccess (fr.get A a).1 n
    · rw [if_pos c0, if_pos (show 0 < n ∧ CanAccess (pmap h (fr.get A a)).1 n from c0)]
      simp only [Out.map, State.map, List.map_cons, set_map, pmap, hh.zero, Glob.map, putAll]
      congr 3
      funext x
      show (if (fr.get A a).1 ≤ x ∧ x < (fr.get A a).1 + n then B.zero else h (g.tmem x)) = _
      split
      · exact hh.zero.symm
      · rfl
    · rw [if_neg c0, if_neg (show ¬(0 < n ∧ CanAccess (pmap h (fr.get A a)).1 n) from c0)]
      rfl
  | memset d c n =>
    simp only [stepInstr, get_map hh]
    by_cases c0 : CanFill (fr.get A d).1 (fr.get A n).1
    · rw [if_pos c0, if_pos (show CanFill (pmap h (fr.get A d)).1 (pmap h (fr.get A n)).1 from c0)]
      simp only [Out.map, State.map, List.map_cons, set_map, pmap, hh.zero, Glob.map, putAll]
      congr 3
      funext x
      show (if (fr.get A d).1 ≤ x ∧ x < (fr.get A d).1 + (fr.get A n).1 then h (fr.get A c).2 else h (g.tmem x)) = _
      split <;> rfl
    · rw [if_neg c0, if_neg (show ¬CanFill (pmap h (fr.get A d)).1 (pmap h (fr.get A n)).1 from c0)]
      rfl
  | memcpy move d s n =>
    simp only [stepInstr, get_map hh]
    by_cases c0 : CanCopy move (fr.get A d).1 (fr.get A s).1 (fr.get A n).1
    · rw [if_pos c0, if_pos (show CanCopy move (pmap h (fr.get A d)).1 (pmap h (fr.get A s)).1
        (pmap h (fr.get A n)).1 from c0)]
      simp only [Out.map, State.map, List.map_cons, set_map, pmap, hh.zero, Glob.map, copyAll]
      congr 3
      funext x
      show (if (fr.get A d).1 ≤ x ∧ x < (fr.get A d).1 + (fr.get A n).1 then
        h (g.tmem ((fr.get A s).1 + (x - (fr.get A d).1))) else h (g.tmem x)) = _
      split <;> rfl
    · rw [if_neg c0, if_neg (show ¬CanCopy move (pmap h (fr.get A d)).1 (pmap h (fr.get A s)).1
        (pmap h (fr.get A n)).1 from c0)]
      rfl
  | hook k v =>
    simp only [stepInstr, Out.map, State.map, List.map_cons, set_map, get_map hh]
    cases k <;> simp [Hook.gives, Hook.seen, Glob.map, pmap, hh.zero]

theorem jump_map (hh : A.Hom B h) (F : Func) (fr : Frame τ) (rest : List (Frame τ)) (g : Glob τ) (t : Nat) :
    jump B F (fr.map h) (rest.map (Frame.map h)) (g.map h) t = (jump A F fr rest g t).map h := by
  unfold jump
  cases F.blocks[t]? with
  | none => rfl
  | some T =>
    dsimp only
    rw [show (fr.map h).blk = fr.blk from rfl]
    cases phiOpds fr.blk T.phis with
    | none => rfl
    | some os =>
      simp only [Out.map, State.map, List.map_cons, get_map hh]
      congr 4
      simp only [Frame.map]
      funext r
      cases r with
      | ins b j => rfl
      | phi b k =>
        dsimp only
        split
        · cases os[k]? <;> rfl
        · rfl

theorem doReturn_map (g : Glob τ) (sp : Nat) (x : Nat × τ) (rest : List (Frame τ)) :
    doReturn (g.map h) sp (pmap h x) (rest.map (Frame.map h)) = (doReturn g sp x rest).map h := by
  cases rest with
  | nil => rfl
  | cons c rest =>
    simp only [doReturn, List.map_cons, Out.map, State.map, set_map]
    rfl

theorem stepTerm_map (hh : A.Hom B h) (F : Func) (fr : Frame τ) (rest : List (Frame τ)) (g : Glob τ)
    (T : Term) :
    stepTerm B F (fr.map h) (rest.map (Frame.map h)) (g.map h) T = (stepTerm A F fr rest g T).map h := by
  cases T with
  | br c f ts =>
    simp only [stepTerm, get_map hh, pmap]
    cases ts[f (fr.get A c).1]? with
    | none => rfl
    | some t => exact jump_map hh F fr rest g t
  | ret v =>
    cases v with
    | none =>
      simp only [stepTerm]
      split
      · have := doReturn_map (h := h) g fr.sp (0, A.zero) rest
        simp only [pmap, hh.zero] at this
        exact this
      · rfl
    | some v =>
      simp only [stepTerm, get_map hh]
      split
      · rfl
      · exact doReturn_map g fr.sp _ rest
  | unreachable => rfl

theorem step_map (hh : A.Hom B h) (P : Prog) (inp : World) (s : State τ) :
    step B P inp (s.map h) = (step A P inp s).map h := by
  obtain ⟨frames, g⟩ := s
  cases frames with
  | nil => rfl
  | cons fr rest =>
    unfold step
    simp only [State.map, List.map_cons]
    rw [show (fr.map h).fn = fr.fn from rfl, show (fr.map h).blk = fr.blk from rfl,
      show (fr.map h).idx = fr.idx from rfl]
    cases P[fr.fn]? with
    | none => rfl
    | some F =>
      dsimp only
      cases F.blocks[fr.blk]? with
      | none => rfl
      | some B' =>
        dsimp only
        cases B'.body[fr.idx]? with
        | some I => exact stepInstr_map hh P inp fr rest g I
        | none => exact stepTerm_map hh F fr rest g B'.term

/-- Runs do not depend on how taint is described. -/
theorem run_map (hh : A.Hom B h) (P : Prog) (inp : World) : ∀ (n : Nat) (s : State τ),
    run B P inp n (s.map h) = (run A P inp n s).map h := by
  intro n
  induction n with
  | zero => intro s; rfl
  | succ n ih =>
    intro s
    unfold run
    rw [step_map hh]
    cases step A P inp s with
    | next s' => exact ih s'
    | done v g => rfl
    | stuck => rfl

theorem start_map (hh : A.Hom B h) (fn : Nat) (args : List Nat) (mem : Nat → Nat) (sp : Nat) (tm : Nat → τ) :
    (start A fn args mem sp tm).map h = start B fn args mem sp (fun a => h (tm a)) := by
  simp only [start, State.map, List.map_cons, List.map_nil, newFrame_map hh, List.map_map, Glob.map]
  congr 3
  refine List.map_congr_left (fun v _ => ?_)
  simp [pmap, hh.zero]

theorem hom_plain (A : Alg τ) : A.Hom plain (fun _ => ()) := ⟨rfl, fun _ _ => rfl, fun _ => rfl⟩

theorem start_plain {A : Alg τ} (fn : Nat) (args : List Nat) (mem : Nat → Nat) (sp : Nat) (tm : Nat → τ) :
    (start A fn args mem sp tm).map (fun _ => ()) = start plain fn args mem sp :=
  start_map (hom_plain A) fn args mem sp tm

end Ir
end Verif
