import Verif.Lifetime
/- C67: the tracker is used only while it exists. -/
namespace Verif
namespace C67
open Spec Lifetime

theorem snoc_split {α : Type} {l a b : List α} {x e : α} (h : l ++ [x] = a ++ e :: b) :
    (∃ b', l = a ++ e :: b') ∨ (a = l ∧ e = x) := by
  rcases List.eq_nil_or_concat b with rfl | ⟨b', y, rfl⟩
  · have := List.append_inj' h rfl
    exact Or.inr ⟨this.1.symm, by simpa using this.2.symm⟩
  · refine Or.inl ⟨b', ?_⟩
    have h' : l ++ [x] = (a ++ e :: b') ++ [y] := by simpa using h
    exact (List.append_inj' h' rfl).1

/-- The tracker exists: all went well, it was constructed and not destroyed. -/
structure Alive (l : List LifeEv) : Prop where
  proper : ProperLife l
  keeps : KeepsValues l
  made : .construct ∈ l
  still : .destroy ∉ l

theorem Alive.use {l : List LifeEv} (h : Alive l) : Alive (l ++ [.use]) := by
  refine ⟨⟨?_, ?_, ?_⟩, ?_, by simp [h.made], by simp [h.still]⟩
  · intro a b e
    rcases snoc_split e with ⟨b', e⟩ | ⟨rfl, -⟩
    · exact h.proper.use a b' e
    · exact ⟨h.made, h.still⟩
  · intro a b e
    rcases snoc_split e with ⟨b', e⟩ | ⟨-, e⟩
    · exact h.proper.construct a b' e
    · cases e
  · intro a b e
    rcases snoc_split e with ⟨b', e⟩ | ⟨-, e⟩
    · exact h.proper.destroy a b' e
    · cases e
  · intro v r hv
    simp only [List.mem_append, List.mem_singleton, reduceCtorEq, or_false] at hv
    exact h.keeps v r hv

theorem Alive.value {l : List LifeEv} (h : Alive l) (v : Nat) : Alive (l ++ [.value v v]) := by
  refine ⟨⟨?_, ?_, ?_⟩, ?_, by simp [h.made], by simp [h.still]⟩
  · intro a b e
    rcases snoc_split e with ⟨b', e⟩ | ⟨-, e⟩
    · exact h.proper.use a b' e
    · cases e
  · intro a b e
    rcases snoc_split e with ⟨b', e⟩ | ⟨-, e⟩
    · exact h.proper.construct a b' e
    · cases e
  · intro a b e
    rcases snoc_split e with ⟨b', e⟩ | ⟨-, e⟩
    · exact h.proper.destroy a b' e
    · cases e
  · intro w r hv
    simp only [List.mem_append, List.mem_singleton, LifeEv.value.injEq] at hv
    rcases hv with hv | ⟨rfl, rfl⟩
    · exact h.keeps w r hv
    · rfl

theorem Alive.uses {l : List LifeEv} (h : Alive l) : ∀ n, Alive (l ++ List.replicate n .use)
  | 0 => by simpa using h
  | n + 1 => by
    have := (h.uses n).use
    rwa [List.append_assoc, ← List.replicate_succ'] at this

theorem alive_start (n : Nat) : Alive (.construct :: List.replicate n .use) := by
  have h : Alive [.construct] := by
    refine ⟨⟨?_, ?_, ?_⟩, ?_, by simp, by simp⟩
    · intro a b e
      rcases snoc_split (l := []) e with ⟨b', e⟩ | ⟨-, e⟩
      · simp at e
      · cases e
    · intro a b e
      rcases snoc_split (l := []) e with ⟨b', e⟩ | ⟨rfl, -⟩
      · simp at e
      · simp
    · intro a b e
      rcases snoc_split (l := []) e with ⟨b', e⟩ | ⟨-, e⟩
      · simp at e
      · cases e
    · intro v r hv; simp at hv
  exact h.uses n

/-- Destruction. -/
theorem Alive.destroy {l : List LifeEv} (h : Alive l) : ProperLife (l ++ [.destroy]) ∧ KeepsValues (l ++ [.destroy]) := by
  refine ⟨⟨?_, ?_, ?_⟩, ?_⟩
  · intro a b e
    rcases snoc_split e with ⟨b', e⟩ | ⟨-, e⟩
    · exact h.proper.use a b' e
    · cases e
  · intro a b e
    rcases snoc_split e with ⟨b', e⟩ | ⟨-, e⟩
    · exact h.proper.construct a b' e
    · cases e
  · intro a b e
    rcases snoc_split e with ⟨b', e⟩ | ⟨rfl, -⟩
    · exact h.proper.destroy a b' e
    · exact ⟨h.made, h.still⟩
  · intro v r hv
    simp only [List.mem_append, List.mem_singleton, reduceCtorEq, or_false] at hv
    exact h.keeps v r hv

/-- A program that does not itself call `__taint_start`. -/
structure NoStart (P : Prog) : Prop where
  ctors : ∀ c ∈ P.ctors, .start ∉ c.2
  main : .start ∉ P.main
  body : ∀ f, .start ∉ P.body f

/-- Running: the tracker exists, and `polytracker_end` was registered before everything else. -/
structure Live (s : PState) : Prop where
  alive : Alive s.log
  flag : s.flag = true
  last : ∃ us : List Nat, s.handlers = us.map .user ++ [.ours]

theorem Live.hook {s : PState} (h : Live s) (k : Hook) (l v : Nat) : Live (hook s k l v) := by
  have hu : ∀ p, Live (s.useIf p) := by
    intro p
    unfold PState.useIf
    split
    · exact ⟨h.alive.use, h.flag, h.last⟩
    · exact h
  cases k <;> simp only [Lifetime.hook]
  case taintedCf =>
    rw [h.flag]
    have := hu (decide (0 < l))
    exact ⟨this.alive.value v, this.flag, this.last⟩
  case wrapper => exact ⟨h.alive.use, h.flag, h.last⟩
  all_goals exact hu _

theorem Live.run {E : Setup} : ∀ {as : List Act} {s : PState}, .start ∉ as → Live s → Live (runActs E as s).1
  | [], _, _, h => h
  | .hook k l v :: as, s, hn, h => by
    simp only [runActs]
    exact Live.run (fun hx => hn (by simp [hx])) (h.hook k l v)
  | .atexit f :: as, s, hn, h => by
    simp only [runActs]
    refine Live.run (fun hx => hn (by simp [hx])) ⟨h.alive, h.flag, ?_⟩
    obtain ⟨us, hus⟩ := h.last
    exact ⟨f :: us, by simp [hus]⟩
  | .start :: as, _, hn, _ => by simp at hn
  | .exit :: as, s, _, h => h

theorem Live.runAll {E : Setup} : ∀ {cs : List (List Act)} {s : PState}, (∀ c ∈ cs, .start ∉ c) → Live s →
    Live (runAll E cs s).1
  | [], _, _, h => h
  | c :: cs, s, hn, h => by
    have h1 : Live (runActs E c s).1 := Live.run (hn c (by simp)) h
    simp only [Lifetime.runAll]
    split
    · rename_i s' e
      rw [e] at h1
      exact Live.runAll (fun c hc => hn c (by simp [hc])) h1
    · rename_i s' e
      rw [e] at h1
      exact h1

/-- The tracker is gone and nothing is left to call. -/
structure Over (s : PState) : Prop where
  proper : ProperLife s.log
  keeps : KeepsValues s.log
  gone : ∃ l, s.log = l ++ [.destroy]
  none : s.handlers = []

theorem Over.stay {E : Setup} {P : Prog} {s : PState} (h : Over s) : ∀ n, handlers E P n s = (s, true)
  | 0 => by simp [handlers, h.none]
  | n + 1 => by simp [handlers, h.none]

theorem handlers_run {E : Setup} {P : Prog} (hP : NoStart P) : ∀ (n : Nat) {s : PState}, Live s →
    ((handlers E P n s).2 = false ∧ Live (handlers E P n s).1) ∨
    ((handlers E P n s).2 = true ∧ Over (handlers E P n s).1)
  | 0, s, h => by
    obtain ⟨us, hus⟩ := h.last
    refine Or.inl ⟨?_, h⟩
    simp [handlers, hus]
  | n + 1, s, h => by
    obtain ⟨us, hus⟩ := h.last
    cases us with
    | nil =>
      simp only [List.map_nil, List.nil_append] at hus
      simp only [handlers, hus]
      have ho : Over (end_ E.closed { s with handlers := [] }) := by
        have := (h.alive.uses E.closed).destroy
        rw [List.append_assoc] at this
        exact ⟨this.1, this.2, ⟨s.log ++ List.replicate E.closed .use, by simp [end_]⟩, rfl⟩
      rw [ho.stay n]
      exact Or.inr ⟨rfl, ho⟩
    | cons f us =>
      simp only [List.map_cons, List.cons_append] at hus
      simp only [handlers, hus]
      exact handlers_run hP n (Live.run (hP.body f) ⟨h.alive, h.flag, us, rfl⟩)

theorem insertCtor_mem {c d : Nat × List Act} : ∀ {l : List (Nat × List Act)}, d ∈ insertCtor c l → d = c ∨ d ∈ l
  | [], h => by simpa [insertCtor] using h
  | e :: l, h => by
    simp only [insertCtor] at h
    split at h
    · simpa using h
    · simp only [List.mem_cons] at h ⊢
      rcases h with h | h
      · exact Or.inr (Or.inl h)
      · rcases insertCtor_mem h with h | h
        · exact Or.inl h
        · exact Or.inr (Or.inr h)

/-- The start of the tracker comes first. -/
theorem order_start {a : List Act} : ∀ {l : List (Nat × List Act)}, (∀ c ∈ l, 0 < c.1) →
    ∃ l', ctorOrder (l ++ [(0, a)]) = (0, a) :: l' ∧ ∀ c ∈ l', c ∈ l
  | [], _ => ⟨[], rfl, by simp⟩
  | c :: l, h => by
    obtain ⟨l', h1, h2⟩ := order_start (a := a) (fun c hc => h c (by simp [hc]) : ∀ c ∈ l, 0 < c.1)
    have hc := h c (by simp)
    refine ⟨insertCtor c l', ?_, ?_⟩
    · simp only [List.cons_append, ctorOrder, h1, insertCtor]
      rw [if_neg (by omega)]
    · intro d hd
      rcases insertCtor_mem hd with rfl | hd
      · simp
      · simp [h2 d hd]

theorem live_run {E : Setup} {P : Prog} (hP : NoStart P) (hc : ∀ c ∈ P.ctors, 0 < c.1) :
    Live (runAll E ((ctorOrder (instrument P).ctors).map (·.2) ++ [(instrument P).main]) .init).1 := by
  obtain ⟨l', h1, h2⟩ := order_start (a := [Act.start]) hc
  simp only [instrument, h1, List.map_cons, List.cons_append, Lifetime.runAll, runActs]
  refine Live.runAll ?_ ⟨?_, rfl, [], rfl⟩
  · intro c h
    simp only [List.mem_append, List.mem_map, List.mem_singleton] at h
    rcases h with ⟨d, hd, rfl⟩ | rfl
    · exact hP.ctors d (h2 d hd)
    · simp [hP.main]
  · exact alive_start E.opened

theorem fini_quiet {E : Setup} : ∀ {cs : List (List Act)} {s : PState},
    (∀ c ∈ cs, ∀ a ∈ c, (∃ f, a = .atexit f) ∨ a = .exit) → (fini E cs s).log = s.log
  | [], _, _ => rfl
  | c :: cs, s, h => by
    have h1 : ∀ {as : List Act} {s : PState}, (∀ a ∈ as, (∃ f, a = .atexit f) ∨ a = .exit) →
        (runActs E as s).1.log = s.log := by
      intro as
      induction as with
      | nil => intro s _; rfl
      | cons a as ih =>
        intro s hs
        rcases hs a (by simp) with ⟨f, rfl⟩ | rfl
        · simp only [runActs]; rw [ih fun a ha => hs a (by simp [ha])]
        · rfl
    simp only [fini]
    rw [fini_quiet fun c hc => h c (by simp [hc]), h1 (h c (by simp))]

/-- C67 (partial: the constructors of the program come after the start of the tracker, and its destructor functions
do not use the runtime): at every moment of the process, the tracker has only been used between its construction
and its destruction, has been constructed and destroyed at most once, and every reported decision was returned
unchanged. When the process has come to its end, the destruction was the last thing that happened to the
tracker. -/
theorem C67_life_partial (E : Setup) (P : Prog) (hP : NoStart P) (hc : ∀ c ∈ P.ctors, 0 < c.1)
    (hf : ∀ c ∈ P.fini, ∀ a ∈ c, (∃ f, a = .atexit f) ∨ a = .exit) (n : Nat) :
    ProperLife (process E (instrument P) n).1.log ∧ KeepsValues (process E (instrument P) n).1.log ∧
    .construct ∈ (process E (instrument P) n).1.log ∧
    ((process E (instrument P) n).2 = true → ∃ l, (process E (instrument P) n).1.log = l ++ [.destroy]) := by
  have hl := live_run (E := E) hP hc
  have hP' : NoStart { P with main := Act.hook .taintArgv 0 0 :: P.main } :=
    ⟨hP.ctors, by simp [hP.main], hP.body⟩
  have hb : ∀ (Q Q' : Prog), Q.body = Q'.body → ∀ n s, handlers E Q n s = handlers E Q' n s := by
    intro Q Q' hq n
    induction n with
    | zero => intro s; rfl
    | succ n ih => intro s; simp only [handlers, hq, ih]
  unfold process
  simp only
  rw [hb (instrument P) P rfl]
  rcases handlers_run (E := E) hP n hl with ⟨h1, h2⟩ | ⟨h1, h2⟩
  · generalize handlers E P n _ = r at h1 h2
    obtain ⟨r, b⟩ := r
    cases h1
    exact ⟨h2.alive.proper, h2.alive.keeps, h2.alive.made, by simp⟩
  · generalize handlers E P n _ = r at h1 h2
    obtain ⟨r, b⟩ := r
    cases h1
    simp only
    have hlog : (fini E (instrument P).fini r).log = r.log := fini_quiet hf
    rw [hlog]
    refine ⟨h2.proper, h2.keeps, ?_, fun _ => h2.gone⟩
    obtain ⟨l, hl⟩ := h2.gone
    exact (h2.proper.destroy l [] hl).1 |> fun h => by rw [hl]; simp [h]

/-- A program whose constructor reads input and whose handler decides on it. -/
def exProg : Prog where
  ctors := [(65535, [.hook .wrapper 0 0, .atexit 7])]
  main := [.hook .taintedCf 3 1, .atexit 8, .exit, .hook .wrapper 0 0]
  body := fun f => if f = 7 then [.hook .taintedCf 4 9, .hook .unionTable 0 0] else if f = 8 then [.hook .condBranch 2 0] else []
  fini := [[.atexit 7]]

/-- The hypotheses are met, and the whole life of the tracker is seen. -/
example : NoStart exProg ∧ (∀ c ∈ exProg.ctors, 0 < c.1) ∧
    (∀ c ∈ exProg.fini, ∀ a ∈ c, (∃ f, a = .atexit f) ∨ a = .exit) ∧
    (process ⟨true, 1, 1⟩ (instrument exProg) 10).1.log =
      [.construct, .use, .use, .use, .use, .value 1 1, .use, .use, .value 9 9, .use, .use, .destroy] ∧
    (process ⟨true, 1, 1⟩ (instrument exProg) 10).2 = true := by
  refine ⟨⟨by decide, by decide, ?_⟩, by decide, ?_, by decide, by decide⟩
  · intro f
    simp only [exProg]
    split
    · decide
    · split <;> decide
  · intro c hc a ha
    simp only [exProg, List.mem_singleton] at hc
    subst hc
    simp only [List.mem_singleton] at ha
    exact Or.inl ⟨7, ha⟩

/-- C67 is false without the first restriction: a constructor of the program with priority 0 runs before the
start of the tracker. A decision in it is replaced by 0, so the program does something else. -/
theorem C67_value_refuted : ∃ (E : Setup) (P : Prog) (n : Nat), NoStart P ∧ P.fini = [] ∧
    ¬ KeepsValues (process E (instrument P) n).1.log := by
  refine ⟨⟨false, 0, 0⟩, ⟨[(0, [.hook .taintedCf 0 1])], [], fun _ => [], []⟩, 5,
    ⟨by decide, by decide, fun _ => by simp⟩, rfl, ?_⟩
  intro h
  exact absurd (h 1 0 (by decide)) (by decide)

/-- Such a constructor that reads a file, or registers a function that does, uses a tracker that is not yet or no
longer there. -/
theorem C67_ctor_refuted : ∃ (E : Setup) (P Q : Prog) (n : Nat), NoStart P ∧ P.fini = [] ∧ NoStart Q ∧ Q.fini = [] ∧
    (∃ b, (process E (instrument P) n).1.log = .use :: .construct :: b) ∧
    ∃ a, (process E (instrument Q) n).1.log = a ++ [.destroy, .use] := by
  refine ⟨⟨false, 0, 0⟩, ⟨[(0, [.hook .wrapper 0 0])], [], fun _ => [], []⟩,
    ⟨[(0, [.atexit 1])], [], fun _ => [.hook .wrapper 0 0], []⟩, 5,
    ⟨by decide, by decide, fun _ => by simp⟩, rfl, ⟨by decide, by decide, fun _ => by simp⟩, rfl, ?_, ?_⟩
  · exact ⟨[.destroy], by decide⟩
  · exact ⟨[.construct], by decide⟩

/-- C67 is false without the second restriction: a destructor function runs after the destruction of the tracker,
and the flag that says that it exists is still set. -/
theorem C67_fini_refuted : ∃ (E : Setup) (P : Prog) (n : Nat), NoStart P ∧ P.ctors = [] ∧
    ¬ ProperLife (process E (instrument P) n).1.log ∧ (process E (instrument P) n).1.flag = true := by
  refine ⟨⟨false, 0, 0⟩, ⟨[], [], fun _ => [], [[.hook .unionTable 0 0]]⟩, 5,
    ⟨by decide, by decide, fun _ => by simp⟩, rfl, ?_, by decide⟩
  intro h
  have := h.use [.construct, .destroy] [] (by decide)
  exact this.2 (by simp)

end C67
end Verif
