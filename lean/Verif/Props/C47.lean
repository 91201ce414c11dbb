import Verif.PassIrMain
import Verif.IrCheck
/-
C47: an instrumented program computes the values of the original program, and all its labels are exact.
-/
namespace Verif
namespace C47
open Ir PassIr Spec Labels DfsanMem

/-- What is compared: `g` is the state of the instrumented program, `gs` the state of the original
program with, for each value, the exact set of input bytes it is to be labelled with. -/
structure Tracks (g : IGlob) (gs : Glob (Nat × Nat → Prop)) : Prop where
  /-- the bytes of application memory -/
  mem : ∀ a, IsApp a → g.mem a = gs.mem a
  /-- the label of a byte of application memory denotes the taint of the byte -/
  label : ∀ a, IsApp a → ∀ b, Denotes g.L.graph (labelOf g.mem a) b ↔ gs.tmem a b
  /-- label 0 is given exactly to what is not tainted -/
  untainted : ∀ a, IsApp a → (labelOf g.mem a = 0 ↔ ∀ b, ¬ gs.tmem a b)
  /-- what was output, and with which labels -/
  out : g.out.length = gs.out.length
  outs : ∀ (k : Nat) x y, g.out[k]? = some x → gs.out[k]? = some y →
    x.1 = y.1 ∧ (x.2 = 0 ↔ ∀ b, ¬ y.2 b) ∧ ∀ b, Denotes g.L.graph x.2 b ↔ y.2 b
  /-- the calls of the reporting functions, the values and labels given to them -/
  ev : g.ev.length = gs.ev.length
  evs : ∀ (k : Nat) x y, g.ev[k]? = some x → gs.ev[k]? = some y →
    x.1 = y.1 ∧ x.2.1 = y.2.1 ∧ (x.2.2 = 0 ↔ ∀ b, ¬ y.2.2 b) ∧ ∀ b, Denotes g.L.graph x.2.2 b ↔ y.2.2 b
  /-- how much input was read -/
  pos : g.pos = gs.pos

theorem den_zero_iff {cap : Nat} {L : Labels} (hs : Store cap L) {l : Nat} {T : Nat × Nat → Prop}
    (h : Den L l T) : l = 0 ↔ ∀ b, ¬ T b := by
  constructor
  · rintro rfl b hb
    exact denotes_zero hs.good b ((h.2 b).2 hb)
  · intro hT
    rcases Nat.eq_zero_or_pos l with h0 | h0
    · exact h0
    · obtain ⟨b, hb⟩ := hs.good.nonempty_denotes l h0 h.1
      exact absurd ((h.2 b).1 hb) (hT b)

theorem tracks_of_rel {cap : Nat} {g : IGlob} {gs : Glob (Nat × Nat → Prop)} (h : GRel cap g gs) :
    Tracks g gs where
  mem := h.mem
  label := fun a ha => (h.lab a ha).2
  untainted := fun a ha => den_zero_iff h.store (h.lab a ha)
  out := h.out.length_eq
  outs := fun k x y hx hy => by
    have := List.forall₂_iff_get.1 h.out
    obtain ⟨k1, e1⟩ := List.getElem?_eq_some_iff.1 hx
    obtain ⟨k2, e2⟩ := List.getElem?_eq_some_iff.1 hy
    have h2 := this.2 k k1 k2
    simp only [List.get_eq_getElem, e1, e2] at h2
    exact ⟨h2.1, den_zero_iff h.store h2.2, h2.2.2⟩
  ev := h.ev.length_eq
  evs := fun k x y hx hy => by
    have := List.forall₂_iff_get.1 h.ev
    obtain ⟨k1, e1⟩ := List.getElem?_eq_some_iff.1 hx
    obtain ⟨k2, e2⟩ := List.getElem?_eq_some_iff.1 hy
    have h2 := this.2 k k1 k2
    simp only [List.get_eq_getElem, e1, e2] at h2
    exact ⟨h2.1, h2.2.1, den_zero_iff h.store h2.2.2, h2.2.2.2⟩
  pos := h.pos

/-- What is assumed of a program: every function passes the LLVM verifier, has at most 200 parameters,
and the dominator tree the pass is given claims nothing wrong. -/
def Accepted (dom : Nat → Nat → Nat → Bool) (P : Prog) : Prop :=
  ∀ fn F, P[fn]? = some F →
    F.Valid ∧ F.nparams ≤ 200 ∧ ∀ a b, dom fn a b = true → a = b ∨ ¬ F.BAvoid a b

/-- The instrumented program, started on a label store `L`, does what `Q` says, or it is stopped and the
store has no room for `k` more labels. -/
def Does (cap k : Nat) (L : Labels) (r : Res IOut) (Q : IOut → Prop) : Prop :=
  (∃ o, r = .ok o ∧ Q o) ∨ ((r = .fatal ∨ r = .ub) ∧ cap < L.words.length + k)

/-- C47 (running): take any accepted program, any input, any number `n` of steps. Unless the program has
undefined behaviour in these steps (or has read 2^54 bytes), its instrumented version gets as far, with the same values in memory
and output and with labels that denote exactly the taint of the reference semantics. It can only be
stopped if the store has no room for one label per combination executed. -/
theorem C47_running (cap : Nat) (h0 : 0 < cap) (hcap : cap ≤ 2 ^ 31) (es : List Event) (L : Labels)
    (hr : Labels.Reach cap es L) (dom : Nat → Nat → Nat → Bool) (P : Prog) (hP : Accepted dom P)
    (src : Nat) (hsrc : src < 256) (inp : World) (fn : Nat) (F : Func) (hF : P[fn]? = some F)
    (hne : F.blocks ≠ []) (args : List Nat) (mem : Mem) (hm : Spec.IsBytes mem)
    {tm : Nat → Nat × Nat → Prop} (hz : TaintedBy L mem tm) (sp n : Nat)
    (s : State (Nat × Nat → Prop)) (hs : run (sets src) P inp n (start (sets src) fn args mem sp tm) = .next s)
    (hn : s.glob.pos < 2 ^ 54) :
    Does cap (runCost plain P inp n (start plain fn args mem sp)) L
      (irun dom P inp src n (istart F fn args mem sp L))
      (fun o => ∃ i, o = .next i ∧ Tracks i.glob s.glob) := by
  have hL : Store cap L := ⟨hr.good h0 hcap, hr.cap h0 hcap⟩
  have := run_sim (inp := inp) hP hsrc n (start_rel (src := src) hP hL hF hne args hm hz sp)
    (by rw [hs]; exact hn)
  rw [hs] at this
  rw [← start_plain (A := sets src) _ _ _ _ tm, runCost_map (hom_plain (sets src))]
  refine Goes.mono this ?_
  rintro o ⟨i, rfl, h1, _⟩
  exact ⟨i, rfl, tracks_of_rel h1.glob⟩

/-- C47 (finished): the same for a program that ends. Its result has the right value and label. -/
theorem C47_finished (cap : Nat) (h0 : 0 < cap) (hcap : cap ≤ 2 ^ 31) (es : List Event) (L : Labels)
    (hr : Labels.Reach cap es L) (dom : Nat → Nat → Nat → Bool) (P : Prog) (hP : Accepted dom P)
    (src : Nat) (hsrc : src < 256) (inp : World) (fn : Nat) (F : Func) (hF : P[fn]? = some F)
    (hne : F.blocks ≠ []) (args : List Nat) (mem : Mem) (hm : Spec.IsBytes mem)
    {tm : Nat → Nat × Nat → Prop} (hz : TaintedBy L mem tm) (sp n : Nat)
    (v : Nat × (Nat × Nat → Prop)) (gs : Glob (Nat × Nat → Prop))
    (hs : run (sets src) P inp n (start (sets src) fn args mem sp tm) = .done v gs) (hn : gs.pos < 2 ^ 54) :
    Does cap (runCost plain P inp n (start plain fn args mem sp)) L
      (irun dom P inp src n (istart F fn args mem sp L))
      (fun o => ∃ l g, o = .done v.1 l g ∧ Tracks g gs ∧ ∀ b, Denotes g.L.graph l b ↔ v.2 b) := by
  have hL : Store cap L := ⟨hr.good h0 hcap, hr.cap h0 hcap⟩
  have := run_sim (inp := inp) hP hsrc n (start_rel (src := src) hP hL hF hne args hm hz sp)
    (by rw [hs]; exact hn)
  rw [hs] at this
  rw [← start_plain (A := sets src) _ _ _ _ tm, runCost_map (hom_plain (sets src))]
  refine Goes.mono this ?_
  rintro o ⟨l, g, rfl, h1, h2, _⟩
  exact ⟨l, g, rfl, tracks_of_rel h2, h1.2⟩

/-- C47 (values): instrumentation does not change what a program computes. If the original program ends
with value `v` (here `plain`: no taint anywhere) then the instrumented program ends with the same value,
memory, output and input position, or runs out of labels. -/
theorem C47_values (cap : Nat) (h0 : 0 < cap) (hcap : cap ≤ 2 ^ 31) (es : List Event) (L : Labels)
    (hr : Labels.Reach cap es L) (dom : Nat → Nat → Nat → Bool) (P : Prog) (hP : Accepted dom P)
    (src : Nat) (hsrc : src < 256) (inp : World) (fn : Nat) (F : Func) (hF : P[fn]? = some F)
    (hne : F.blocks ≠ []) (args : List Nat) (mem : Mem) (hm : Spec.IsBytes mem)
    {tm : Nat → Nat × Nat → Prop} (hz : TaintedBy L mem tm) (sp n : Nat)
    (v : Nat × Unit) (gs : Glob Unit)
    (hs : run plain P inp n (start plain fn args mem sp) = .done v gs) (hn : gs.pos < 2 ^ 54) :
    Does cap (runCost plain P inp n (start plain fn args mem sp)) L
      (irun dom P inp src n (istart F fn args mem sp L))
      (fun o => ∃ l g, o = .done v.1 l g ∧ (∀ a, IsApp a → g.mem a = gs.mem a) ∧
        g.out.map (·.1) = gs.out.map (·.1) ∧ g.pos = gs.pos) := by
  have hh := hom_plain (sets src)
  have e := run_map hh P inp n (start (sets src) fn args mem sp tm)
  rw [start_plain, hs] at e
  cases hs2 : run (sets src) P inp n (start (sets src) fn args mem sp tm) with
  | next s => rw [hs2] at e; cases e
  | stuck => rw [hs2] at e; cases e
  | done w gw =>
    rw [hs2] at e
    simp only [Out.map, Out.done.injEq] at e
    obtain ⟨rfl, rfl⟩ := e
    refine Goes.mono (C47_finished cap h0 hcap es L hr dom P hP src hsrc inp fn F hF hne args mem hm hz sp n
      w gw hs2 hn) ?_
    rintro o ⟨l, g, rfl, h1, -⟩
    refine ⟨l, g, rfl, h1.mem, ?_, h1.pos⟩
    refine List.ext_getElem? (fun k => ?_)
    simp only [List.getElem?_map, Glob.map]
    have hl := h1.out
    cases ex : g.out[k]? with
    | none =>
      have := List.getElem?_eq_none_iff.1 ex
      rw [List.getElem?_eq_none (by omega)]
      rfl
    | some x =>
      obtain ⟨hk, -⟩ := List.getElem?_eq_some_iff.1 ex
      have hk2 : k < gw.out.length := by omega
      rw [List.getElem?_eq_getElem hk2]
      have := (h1.outs k x _ ex (List.getElem?_eq_getElem hk2)).1
      simp only [Option.map_some, Option.some.injEq, pmap]
      exact this

/-! ### An example: a loop, a call, memory, a select -/

def a0 : Nat := 0x7fff00000000

/-- `twice x y`: returns `x + y` if `x` is not zero, `y` otherwise. -/
def twice : Func where
  nparams := 2
  void := false
  blocks := [
    ⟨[], [], .br (.arg 0) (fun v => if v = 0 then 1 else 0) [1, 2]⟩,
    ⟨[], [.op (fun xs => xs.sum) [.arg 0, .arg 1]], .br (.const 0) (fun _ => 0) [2]⟩,
    ⟨[[(0, .arg 1), (1, .reg (.ins 1 0))]], [], .ret (some (.reg (.phi 2 0)))⟩]

/-- Reads a byte into memory, reads another, calls `twice` and outputs the result. -/
def mainF : Func where
  nparams := 0
  void := false
  blocks := [
    ⟨[], [.getc, .store (.const a0) (.reg (.ins 0 0)) 1, .getc, .load (.const a0) 1,
      .call false (.const 1) [.reg (.ins 0 3), .reg (.ins 0 2)], .putc (.reg (.ins 0 4))],
      .ret (some (.const 0))⟩]

def prog : Prog := [mainF, twice]

def dom0 : Nat → Nat → Nat → Bool := fun _ a b => a == b || a == 0

theorem dom0_sound (fn : Nat) (F : Func) (a b : Nat) (h : dom0 fn a b = true) : a = b ∨ ¬ F.BAvoid a b := by
  simp only [dom0, Bool.or_eq_true, beq_iff_eq] at h
  rcases h with h | rfl
  · exact Or.inl h
  · refine Or.inr (fun hb => ?_)
    induction hb with
    | entry h => exact h rfl
    | step _ _ _ _ ih => exact ih

theorem prog_accepted : Accepted dom0 prog := by
  intro fn F hF
  match fn, hF with
  | 0, hF => cases hF; exact ⟨(Func.check_valid (by decide)).1, by decide, dom0_sound 0 _⟩
  | 1, hF => cases hF; exact ⟨(Func.check_valid (by decide)).1, by decide, dom0_sound 1 _⟩
  | n + 2, hF => cases hF

/-- The hypotheses are met by this program on the input `5, 7`: it ends, and outputs 12 with the taint of
both bytes. -/
example : Accepted dom0 prog ∧ prog[0]? = some mainF ∧
    ∃ gs, run (sets 0) prog (.file [5, 7]) 20 (start (sets 0) 0 [] (fun _ => 0) 0) =
      .done (0, fun _ => False) gs ∧ (gs.out.map (·.1) = [12]) ∧
      ∀ x ∈ gs.out, ∀ b, x.2 b ↔ b = (0, 0) ∨ b = (0, 1) := by
  refine ⟨prog_accepted, rfl, _, rfl, rfl, ?_⟩
  intro x hx b
  rcases List.mem_singleton.1 hx with rfl
  simp [Frame.get, Frame.set, sets, Alg.all, newFrame, start, a0, putAll, List.range, List.range.loop]

/-- Reads up to 8 bytes into memory, then one more byte, adds up the first byte and the third, writes the number
of bytes read and what is in memory. -/
def blockF : Func where
  nparams := 0
  void := false
  blocks := [
    ⟨[], [.read (.const a0) (.const 8), .getc, .load (.const a0) 1, .load (.const (a0 + 2)) 1,
      .op (fun xs => xs.sum) [.reg (.ins 0 2), .reg (.ins 0 3)],
      .store (.const (a0 + 1)) (.reg (.ins 0 4)) 1, .putc (.reg (.ins 0 0)), .putc (.reg (.ins 0 1)),
      .write (.const a0) (.reg (.ins 0 0))],
      .ret (some (.const 0))⟩]

theorem block_accepted : Accepted dom0 [blockF] := by
  intro fn F hF
  match fn, hF with
  | 0, hF => cases hF; exact ⟨(Func.check_valid (by decide)).1, by decide, dom0_sound 0 _⟩
  | n + 1, hF => cases hF

/-- The hypotheses are met by this program on a file of three bytes: three bytes are read at once, then the end
is found; the second byte written depends on the first and the third byte of the file. -/
example : Accepted dom0 [blockF] ∧
    (∃ gs, run plain [blockF] (.file [5, 6, 7]) 20 (start plain 0 [] (fun _ => 0) 0) = .done (0, ()) gs ∧
      gs.out.map (·.1) = [3, eof, 5, 12, 7] ∧ gs.pos = 3) ∧
    runCost plain [blockF] (.file [5, 6, 7]) 20 (start plain 0 [] (fun _ => 0) 0) = 7 ∧
    ∃ gs, run (sets 0) [blockF] (.file [5, 6, 7]) 20 (start (sets 0) 0 [] (fun _ => 0) 0) =
      .done (0, fun _ => False) gs ∧ ∀ x, gs.out[3]? = some x → ∀ b, x.2 b ↔ b = (0, 0) ∨ b = (0, 2) := by
  refine ⟨block_accepted, ⟨_, rfl, rfl, rfl⟩, rfl, _, rfl, ?_⟩
  intro x hx b
  cases hx
  simp [Frame.get, Frame.set, sets, Alg.all, newFrame, start, a0, putAll, List.range, List.range.loop,
    World.file]

end C47
end Verif
