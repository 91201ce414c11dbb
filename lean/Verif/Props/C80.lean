import Verif.ForeignSim
import Verif.Props.C79
/-
C80: memory written by code that the pass does not see: library functions, the places of variable arguments,
`va_start`. What Python computes from the trace is exactly the dependences if such a byte is taken to depend on what
the byte there before depended on. Hence it is exact if that is true, and false otherwise: the taint of a variable
argument is lost, and a value may have the taint of what was on the stack before.
-/
namespace Verif
namespace C80
open Ir PassIr CfPass Spec Labels DfsanMem Tracker EndToEnd Linked Unwind Foreign Py File
open C79 (Does Noted toLog Events)

/-- What is claimed of the linked program, with actions `as`, when the original program ends in `o` with memory and
streams `gs` after at most `k` combinations of taints. -/
def Exact (c : Config) (base : Nat) (h : Trace) (src snk : Nat) (T : Tracker) (k : Nat) (o : Out (Nat × Nat → Prop))
    (gs : Glob (Nat × Nat → Prop)) (r : Res (IOut × Tracker)) : Prop :=
  Does c k (cfEvents h).length (toLog gs.ev) T r
    (fun x => ∃ g, Stands o x.1 g ∧ g.out.map (·.1) = gs.out.map (·.1) ∧
      (x.2.labels.words.length + 64 ≤ c.indexCap → ∀ pads, ∃ G N d es, parse (closed pads c base x.2) = some G ∧
        (∃ m, (∀ fuel, N ≤ fuel → mapping G fuel = some m) ∧
          ∀ p o q r, Maps m (p, ((o : Nat) : Int)) (q, r) ↔
            C52.Before h p o q r ∨ C52.Depends h snk gs.out p o q r) ∧
        (Events (Denotes x.2.labels.graph) gs.ev es ∧ G.cfItems = some (replay (cfEvents h ++ es) [])) ∧
        (∀ fuel, N ≤ fuel → fileCavities G fuel = some d) ∧
        (∀ p, (∃ rs, d.get p = some rs) ↔ ∃ i e, C52.InUse h (C52.HasRead h src gs.pos) p i e) ∧
        ∀ p rs, d.get p = some rs → MaximalRuns rs (C52.Idle h (C52.HasRead h src gs.pos)
          (C52.Mattered h (Noted gs.ev) gs.out) p)))

/-- C80 (what labels mean after foreign code): in the situation of C79, let code that the pass does not see also write
any bytes to memory at any moments. Unless there is no room for the labels or the log, the linked program does what
the original program does with the same writes and exceptions, and what Python computes from its trace (mapping,
log, cavities) is exactly right if each byte that foreign code writes is taken to depend on what the byte it is
written over depended on. -/
theorem C80_blind (c : Config) (base : Nat) (hc : c.Ok base) (h : Trace) (T : Tracker)
    (hr : Tracker.Reach c base h T) (hu : ∀ n ∈ names h, utf8 n = true)
    (dom : Nat → Nat → Nat → Bool) (P : Prog) (hP : C47.Accepted dom P) (lands : Lands) (hL : LandsOk P lands)
    (io : Io) (src snk : Nat) (hS : Streams h io src snk) (inp : World) (fn : Nat) (F : Func)
    (hF : P[fn]? = some F) (hne : F.blocks ≠ []) (args : List Nat) (mem : Mem) (hm : Spec.IsBytes mem)
    (tm : Nat → Nat × Nat → Prop) (hz : TaintedBy T.labels mem tm) (sp : Nat) (as : List Deed)
    (o : Out (Nat × Nat → Prop)) (gs : Glob (Nat × Nat → Prop))
    (hs : wrun (sets src) P lands inp (as.map Deed.blind) (start (sets src) fn args mem sp tm) = o)
    (ho : globAfter o = some gs) (hpos : gs.pos < 2 ^ 54) (hbytes : ∀ y ∈ gs.out, y.1 < 256)
    (hlen : gs.out.length < 2 ^ 54)
    (hfns : ∀ y ∈ gs.ev, ∀ f, y.1 = .enter f ∨ y.1 = .leave f ∨ y.1 = .taken f → f < 2 ^ 32)
    (hlog : (Spec.written h).length + gs.out.length ≤ c.sinkCap) :
    Exact c base h src snk T
      (wcost (sets src) P lands inp (as.map Deed.blind) (start (sets src) fn args mem sp tm)) o gs
      (twrun dom P lands inp io as (istart F fn args mem sp T.labels) T) := by
  have hsim := hr.sim hc
  have hst : Store c.labelCap T.labels := ⟨hsim.lab.reach.good hc.lab0 hc.lab, hsim.lab.reach.cap hc.lab0 hc.lab⟩
  have hsrc : src < 256 := owner_256 hc hr hS.input
  have hrel := start_rel (src := src) hP hst hF hne args hm hz sp
  have hq := twrun_sim (inp := inp) hP hL hc hsrc hS.input hS.output (as.map Deed.blind) (by
      intro b hb
      obtain ⟨b', -, rfl⟩ := List.mem_map.1 hb
      cases b' <;> rfl) hrel
    (start_link hr hS F fn args mem sp) (by rw [hs]; exact ho) hpos ⟨hbytes, hlen, hfns⟩
  rw [hs, twrun_blind] at hq
  unfold Exact
  rw [C79.toLog_eq]
  refine hq.mono ?_
  intro x hx
  obtain ⟨g, h', k1, k2, k3, k4⟩ : ∃ g h', Stands o x.1 g ∧ GRel c.labelCap g gs ∧
      Evolves (wcost (sets src) P lands inp (as.map Deed.blind) (start (sets src) fn args mem sp tm))
        (istart F fn args mem sp T.labels).glob g ∧ Link c base io src snk h g x.2 h' := by
    cases o with
    | stuck => cases ho
    | next s =>
      cases ho
      obtain ⟨i, T', h', rfl, k1, k2, k3⟩ := hx
      exact ⟨i.glob, h', rfl, k1.glob, k2, k3⟩
    | done v g =>
      cases ho
      obtain ⟨l, g', T', h', rfl, k0, k1, k2, k3⟩ := hx
      exact ⟨g', h', ⟨rfl, rfl, k0.2⟩, k1, k2, k3⟩
  refine ⟨g, k1, ?_, ?_⟩
  · have := k2.out
    generalize gs.out = ys at this
    generalize g.out = xs at this
    induction this with
    | nil => rfl
    | cons a _ ih => simp only [List.map_cons, a.1, ih]
  intro hroom pads
  obtain ⟨G, N, m, a1, a2, a3⟩ := C52.mapping_read hc hr hu
    (g0 := (istart F fn args mem sp T.labels).glob) rfl k2 k3 k4 hlog hroom pads
  have hflag : ∀ b, C51.FlaggedByte g.L b ↔ Influenced (labelEvents h) b ∨ Noted gs.ev b := fun b =>
    C51.flags hc.lab0 hc.lab (g := (istart F fn args mem sp T.labels).glob) hsim.lab.reach rfl k3 k2 b
  obtain ⟨G', N', d, b1, b2, b3, b4, -⟩ := C52.cavities_any hc hr hu
    (g0 := (istart F fn args mem sp T.labels).glob) rfl k2 k3 k4 hflag hlog hroom pads
  obtain rfl : G = G' := by rw [a1] at b1; cases b1; rfl
  obtain ⟨G', hG', -, hrec⟩ := shows_reach c base hc h' x.2 k4.reach hroom (by rw [k4.names]; exact hu) pads
  obtain rfl : G = G' := by rw [a1] at hG'; cases hG'; rfl
  refine ⟨G, max N N', d, g.ev.filterMap logged, a1, ⟨m, fun fuel hf => a2 fuel (by omega), a3⟩, ⟨?_, ?_⟩,
    fun fuel hf => b2 fuel (by omega), b3, b4⟩
  · rw [k4.labels]; exact C79.events k2.store k2.ev
  · rw [hrec.cf, k4.cf]

/-- C80 (partial: whatever foreign code writes must depend on exactly what the byte there before depended on, for
instance both on nothing; otherwise it is false, see below): what Python computes from the trace is exactly
right. -/
theorem C80_foreign_partial (c : Config) (base : Nat) (hc : c.Ok base) (h : Trace) (T : Tracker)
    (hr : Tracker.Reach c base h T) (hu : ∀ n ∈ names h, utf8 n = true)
    (dom : Nat → Nat → Nat → Bool) (P : Prog) (hP : C47.Accepted dom P) (lands : Lands) (hL : LandsOk P lands)
    (io : Io) (src snk : Nat) (hS : Streams h io src snk) (inp : World) (fn : Nat) (F : Func)
    (hF : P[fn]? = some F) (hne : F.blocks ≠ []) (args : List Nat) (mem : Mem) (hm : Spec.IsBytes mem)
    (tm : Nat → Nat × Nat → Prop) (hz : TaintedBy T.labels mem tm) (sp : Nat) (as : List Deed)
    (hag : Agree (sets src) P lands inp as (start (sets src) fn args mem sp tm))
    (o : Out (Nat × Nat → Prop)) (gs : Glob (Nat × Nat → Prop))
    (hs : wrun (sets src) P lands inp as (start (sets src) fn args mem sp tm) = o)
    (ho : globAfter o = some gs) (hpos : gs.pos < 2 ^ 54) (hbytes : ∀ y ∈ gs.out, y.1 < 256)
    (hlen : gs.out.length < 2 ^ 54)
    (hfns : ∀ y ∈ gs.ev, ∀ f, y.1 = .enter f ∨ y.1 = .leave f ∨ y.1 = .taken f → f < 2 ^ 32)
    (hlog : (Spec.written h).length + gs.out.length ≤ c.sinkCap) :
    Exact c base h src snk T (wcost (sets src) P lands inp as (start (sets src) fn args mem sp tm)) o gs
      (twrun dom P lands inp io as (istart F fn args mem sp T.labels) T) := by
  obtain ⟨h1, h2⟩ := wrun_blind as hag
  rw [← h2]
  exact C80_blind c base hc h T hr hu dom P hP lands hL io src snk hS inp fn F hF hne args mem hm tm hz sp as o gs
    (by rw [h1]; exact hs) ho hpos hbytes hlen hfns hlog

/-- One write in a run. -/
theorem agree_one {A : Alg (Nat × Nat → Prop)} {P : Prog} {lands : Lands} {inp : World} {post : List Deed} {a x : Nat}
    {o : Origin} (hpost : ∀ b ∈ post, b = .go) : ∀ {pre : List Deed} {s s1 : State (Nat × Nat → Prop)},
    (∀ b ∈ pre, b = .go) → wrun A P lands inp pre s = .next s1 → o.taint A s1 = s1.glob.tmem a →
    Agree A P lands inp (pre ++ .writes a x o :: post) s
  | [], s, s1, _, h, ht => by
    cases h
    refine ⟨(by intro a x o e; cases e; exact ht), fun s' e => ?_⟩
    clear ht e
    induction post generalizing s' with
    | nil => trivial
    | cons b bs ih =>
      refine ⟨(by intro a x o e; rw [hpost b (by simp)] at e; cases e), fun s2 _ => ?_⟩
      exact ih (fun b hb => hpost b (by simp [hb])) s2
  | b :: bs, s, s1, hp, h, ht => by
    refine ⟨(by intro a x o e; rw [hp b (by simp)] at e; cases e), fun s2 e => ?_⟩
    rw [wrun, e] at h
    exact agree_one hpost (fun b hb => hp b (by simp [hb])) h ht

/-! ### A variadic function -/

/-- Keeps its argument on its stack and returns. -/
def used : Func where
  nparams := 1
  void := true
  blocks := [⟨[], [.alloca 8, .store (.reg (.ins 0 0)) (.arg 0) 1], .ret none⟩]

/-- `int v(...) { va_arg }`: outputs the byte where it finds its variable argument. -/
def variadic : Func where
  nparams := 1
  void := true
  blocks := [⟨[], [.load (.arg 0) 1, .putc (.reg (.ins 0 0))], .ret none⟩]

/-- Reads two bytes, calls `used` with the first, then `variadic` with the second: its place is on the stack. -/
def mainF : Func where
  nparams := 0
  void := true
  blocks := [⟨[], [.getc, .getc, .call true (.const 1) [.reg (.ins 0 0)], .alloca 8,
    .call true (.const 2) [.reg (.ins 0 3)]], .ret none⟩]

/-- Reads a byte and calls `variadic` with it. -/
def direct : Func where
  nparams := 0
  void := true
  blocks := [⟨[], [.getc, .alloca 8, .call true (.const 1) [.reg (.ins 0 1)]], .ret none⟩]

def prog : Prog := [mainF, used, variadic]

/-- The stack pointer at the start; the stack is application memory. -/
def sp0 : Nat := C47.a0 + 8

/-- The calling convention puts the variable argument (`o`, value `x`) on the stack before the second call. -/
def acts (x : Nat) (o : Origin) : List Deed :=
  [.go, .go, .go, .go, .go, .go, .go, .writes C47.a0 x o, .go, .go, .go]

/-- What Python computes. -/
def answer (P : Prog) (F : Func) (as : List Deed) : Option (List ((List Nat × Int) × List (List Nat × Int))) :=
  (Tracker.run exCfg 4096 C52.opens).bind fun p =>
    match twrun C47.dom0 P (fun _ _ => none) (.file [7, 8, 9]) C52.exIo as
      (istart F 0 [] (fun _ => 0) sp0 p.1.labels) p.1 with
    | .ok (_, T) => (parse (closed zeroPads exCfg 4096 T)).bind fun F => mapping F 20
    | _ => none

theorem prog_accepted : C47.Accepted C47.dom0 prog := by
  intro fn F hF
  match fn, hF with
  | 0, hF => cases hF; exact ⟨(Func.check_valid (by decide)).1, by decide, C47.dom0_sound 0 _⟩
  | 1, hF => cases hF; exact ⟨(Func.check_valid (by decide)).1, by decide, C47.dom0_sound 1 _⟩
  | 2, hF => cases hF; exact ⟨(Func.check_valid (by decide)).1, by decide, C47.dom0_sound 2 _⟩
  | n + 3, hF => cases hF

/-- The taint of variable arguments is lost, and stale taint is found in its place: the second input byte is passed
as variable argument and written to the output; the output depends on input byte 1. Python reports that it depends
on byte 0, which another function had at the same place of the stack before. -/
theorem C80_variadic_refuted : ∃ as : List Deed,
    (∃ s t, wrun (sets 0) prog (fun _ _ => none) (.file [7, 8, 9]) as (start (sets 0) 0 [] (fun _ => 0) sp0) = .next s ∧
      s.glob.out = [(8, t)] ∧ ∀ b, t b ↔ b = (0, 1)) ∧
    answer prog mainF as = some [(([97], 0), [([98], 0)])] := by
  refine ⟨acts 8 (.opd (.reg (.ins 0 1))), ⟨_, _, rfl, rfl, ?_⟩, by decide +kernel⟩
  intro b
  constructor
  · rintro ((h | h) | h)
    · exact h
    · exact h.elim
    · exact h.elim
  · exact fun h => Or.inl (Or.inl h)

/-- Lost without stale taint: the function that used the place before is not called. -/
theorem C80_lost_refuted : ∃ (P : Prog) (F : Func) (as : List Deed), C47.Accepted C47.dom0 P ∧ P[0]? = some F ∧
    (∃ s t, wrun (sets 0) P (fun _ _ => none) (.file [7, 8, 9]) as (start (sets 0) 0 [] (fun _ => 0) sp0) = .next s ∧
      s.glob.out = [(7, t)] ∧ ∀ b, t b ↔ b = (0, 0)) ∧
    answer P F as = some [] := by
  refine ⟨[direct, variadic], direct, [.go, .go, .writes C47.a0 7 (.opd (.reg (.ins 0 0))), .go, .go, .go], ?_, rfl,
    ⟨_, _, rfl, rfl, ?_⟩, by decide +kernel⟩
  · intro fn F hF
    match fn, hF with
    | 0, hF => cases hF; exact ⟨(Func.check_valid (by decide)).1, by decide, C47.dom0_sound 0 _⟩
    | 1, hF => cases hF; exact ⟨(Func.check_valid (by decide)).1, by decide, C47.dom0_sound 1 _⟩
    | n + 2, hF => cases hF
  · intro b
    constructor
    · rintro ((h | h) | h)
      · exact h
      · exact h.elim
      · exact h.elim
    · exact fun h => Or.inl (Or.inl h)

/-- The hypotheses are met: the same program, where the variable argument is the byte that was on the stack before;
then the answer is right. -/
example : ∃ (h : Trace) (T : Tracker), exCfg.Ok 4096 ∧ Tracker.Reach exCfg 4096 h T ∧
    (∀ n ∈ names h, utf8 n = true) ∧ C47.Accepted C47.dom0 prog ∧ LandsOk prog (fun _ _ => none) ∧
    Streams h C52.exIo 0 1 ∧
    Agree (sets 0) prog (fun _ _ => none) (.file [7, 8, 9]) (acts 7 (.opd (.reg (.ins 0 0))))
      (start (sets 0) 0 [] (fun _ => 0) sp0) ∧
    ∃ s, wrun (sets 0) prog (fun _ _ => none) (.file [7, 8, 9]) (acts 7 (.opd (.reg (.ins 0 0))))
        (start (sets 0) 0 [] (fun _ => 0) sp0) = .next s ∧
      globAfter (.next s) = some s.glob ∧ s.glob.pos < 2 ^ 54 ∧ (∀ y ∈ s.glob.out, y.1 < 256) ∧
      s.glob.out.length < 2 ^ 54 ∧
      (∀ y ∈ s.glob.ev, ∀ f, y.1 = .enter f ∨ y.1 = .leave f ∨ y.1 = .taken f → f < 2 ^ 32) ∧
      (Spec.written h).length + s.glob.out.length ≤ exCfg.sinkCap ∧
      answer prog mainF (acts 7 (.opd (.reg (.ins 0 0)))) = some [(([97], 0), [([98], 0)])] := by
  have hrun : (Tracker.run exCfg 4096 C52.opens).isSome = true := by decide +kernel
  obtain ⟨⟨T, h⟩, hx⟩ := Option.isSome_iff_exists.1 hrun
  have key : (match Tracker.run exCfg 4096 C52.opens with
      | none => false
      | some (T, h) => decide ((∀ n ∈ names h, utf8 n = true) ∧ owner h 3 = some 0 ∧
        owner h 4 = some 1 ∧ writePos h 1 = 0 ∧ Spec.written h = [])) = true := by decide +kernel
  rw [hx] at key
  simp only [decide_eq_true_eq] at key
  obtain ⟨k1, k3, k4, k5, k7⟩ := key
  obtain ⟨s, h1, h2, h3, h4⟩ : ∃ s, wrun (sets 0) prog (fun _ _ => none) (.file [7, 8, 9])
      (acts 7 (.opd (.reg (.ins 0 0)))) (start (sets 0) 0 [] (fun _ => 0) sp0) = .next s ∧ s.glob.pos = 2 ∧
      s.glob.out.map (·.1) = [7] ∧ s.glob.ev = [] := ⟨_, rfl, rfl, rfl, rfl⟩
  have h5 : s.glob.out.length = 1 := by simpa using congrArg List.length h3
  refine ⟨h, T, exCfg_ok, run_reach hx, k1, prog_accepted, fun fn F b B t _ _ h => (by cases h),
    ⟨k3, k4, (by intro h; cases h), fun _ => k5⟩, ?_, s, h1, rfl, by omega, ?_, by omega, ?_, by rw [k7, h5]; decide,
    by decide +kernel⟩
  · exact agree_one (pre := [.go, .go, .go, .go, .go, .go, .go]) (post := [.go, .go, .go]) (by decide) (by decide) rfl rfl
  · intro y hy
    have : y.1 ∈ s.glob.out.map (·.1) := List.mem_map.2 ⟨y, hy, rfl⟩
    rw [h3, List.mem_singleton] at this
    omega
  · rw [h4]
    intro y hy
    cases hy

end C80
end Verif
