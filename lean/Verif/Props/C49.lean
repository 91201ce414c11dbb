import Verif.CfPassStep
/-
C49: a program with inserted reports behaves like the original program and reports exactly its decisions,
calls and returns, in the order in which they happen.
-/
namespace Verif
namespace C49
open Ir CfPass

variable {τ : Type}

/-- What is assumed of a program: no function jumps back to its entry (the LLVM verifier checks this). -/
def Accepted (P : Prog) : Prop :=
  ∀ (f : Nat) F, P[f]? = some F → ∀ (b : Nat) (B : Block), F.blocks[b]? = some B → 0 ∉ B.succs

theorem start_rel {A : Alg τ} {C : Nat → Marks} {P : Prog} (S : Both C P) {inp : World} {fn : Nat} {F : Func}
    (hF : P[fn]? = some F) (hne : F.blocks ≠ []) (args : List Nat) (mem : Nat → Nat) (tm : Nat → τ) (sp : Nat) :
    ∃ k s', run A (pass C P) inp k (start A fn args mem sp tm) = .next s' ∧
      tally S A inp k (start A fn args mem sp tm) = (0, []) ∧
      SRel C P (start A fn args mem sp tm) s' (plainReport A (C fn).enter) := by
  obtain ⟨k, fr', h1, h3, h2⟩ := enter_run (A := A) (S := S) (inp := inp) hF hne
    (args.map (fun v => (v, A.zero))) sp [] (start A fn args mem sp tm).glob
  exact ⟨k, _, h1, h3, _, [], fr', [], rfl, rfl, h2, .nil⟩

/-- While the program runs; `S` says what else is compared. -/
theorem both_running {A : Alg τ} {C : Nat → Marks} {P : Prog} (S : Both C P) (hP : Accepted P) {inp : World}
    {fn : Nat} {F : Func} (hF : P[fn]? = some F) (hne : F.blocks ≠ []) {args : List Nat} {mem : Nat → Nat}
    {tm : Nat → τ} {sp n : Nat} {s : State τ} (hs : run A P inp n (start A fn args mem sp tm) = .next s) :
    ∃ k s', n ≤ k ∧ run A (pass C P) inp k (start A fn args mem sp tm) = .next s' ∧
      s'.glob = { s.glob with ev := observeFrom A C P inp fn n (start A fn args mem sp tm) } ∧
      s'.frames.map (·.fn) = s.frames.map (·.fn) ∧
      tally S A inp k (start A fn args mem sp tm) = total S A inp n (start A fn args mem sp tm) := by
  obtain ⟨k, s1, h1, c1, h2⟩ := start_rel (A := A) S (inp := inp) hF hne args mem tm sp
  have h3 := run_sim (A := A) (inp := inp) S hP n h2
  rw [hs] at h3
  obtain ⟨l, s', hl, h4, c2, fr, rest, fr', rest', h5, rfl, ⟨_, _, _, _, _, h6, _⟩, h7⟩ := h3
  refine ⟨k + l, _, by omega, by rw [run_next h1, h4], rfl, ?_, by rw [tally_next h1, c1, c2, zero_plus]⟩
  rw [h5]
  simp only [List.map_cons, h6.fn]
  congr 1
  clear h5 h4
  induction h7 with
  | nil => rfl
  | cons h _ ih =>
    obtain ⟨_, _, _, _, _, h, _⟩ := h
    simp only [List.map_cons, h.fn, ih]

/-- When the program has ended. -/
theorem both_finished {A : Alg τ} {C : Nat → Marks} {P : Prog} (S : Both C P) (hP : Accepted P) {inp : World}
    {fn : Nat} {F : Func} (hF : P[fn]? = some F) (hne : F.blocks ≠ []) {args : List Nat} {mem : Nat → Nat}
    {tm : Nat → τ} {sp n : Nat} {v : Nat × τ} {g : Glob τ} (hs : run A P inp n (start A fn args mem sp tm) = .done v g) :
    ∃ k, run A (pass C P) inp k (start A fn args mem sp tm) =
      .done v { g with ev := observeFrom A C P inp fn n (start A fn args mem sp tm) } ∧
      tally S A inp k (start A fn args mem sp tm) = total S A inp n (start A fn args mem sp tm) := by
  obtain ⟨k, s1, h1, c1, h2⟩ := start_rel (A := A) S (inp := inp) hF hne args mem tm sp
  have h3 := run_sim (A := A) (inp := inp) S hP n h2
  rw [hs] at h3
  obtain ⟨l, h4, c2⟩ := h3
  exact ⟨k + l, by rw [run_next h1, h4]; rfl, by rw [tally_next h1, c1, c2, zero_plus]⟩

/-- C49 (running): whatever taint is (any `A`), whatever is reported (any `C`): when the original program
has run `n` steps, the program with reports has, after some number of steps that is at least `n`, the same
memory, taint of memory, output, input position and stack of calls, and has reported exactly what was to be
reported in these steps. It has combined taint as often (inserting reports needs no more labels). -/
theorem C49_running (A : Alg τ) (C : Nat → Marks) (P : Prog) (hP : Accepted P) (inp : World) (fn : Nat)
    (F : Func) (hF : P[fn]? = some F) (hne : F.blocks ≠ []) (args : List Nat) (mem : Nat → Nat) (tm : Nat → τ) (sp n : Nat)
    (s : State τ) (hs : run A P inp n (start A fn args mem sp tm) = .next s) :
    ∃ k s', n ≤ k ∧ run A (pass C P) inp k (start A fn args mem sp tm) = .next s' ∧
      s'.glob = { s.glob with ev := observeFrom A C P inp fn n (start A fn args mem sp tm) } ∧
      s'.frames.map (·.fn) = s.frames.map (·.fn) ∧
      runCost A (pass C P) inp k (start A fn args mem sp tm) = runCost A P inp n (start A fn args mem sp tm) := by
  obtain ⟨k, s', h1, h2, h3, h4, h5⟩ := both_running (nothing C P) hP hF hne hs
  exact ⟨k, s', h1, h2, h3, h4, congrArg (·.1) h5⟩

/-- C49 (finished): when the original program ends, so does the program with reports, with the same result
and the same effects, and its reports are exactly those of the whole run. -/
theorem C49_finished (A : Alg τ) (C : Nat → Marks) (P : Prog) (hP : Accepted P) (inp : World) (fn : Nat)
    (F : Func) (hF : P[fn]? = some F) (hne : F.blocks ≠ []) (args : List Nat) (mem : Nat → Nat) (tm : Nat → τ) (sp n : Nat)
    (v : Nat × τ) (g : Glob τ) (hs : run A P inp n (start A fn args mem sp tm) = .done v g) :
    ∃ k, run A (pass C P) inp k (start A fn args mem sp tm) =
      .done v { g with ev := observeFrom A C P inp fn n (start A fn args mem sp tm) } ∧
      runCost A (pass C P) inp k (start A fn args mem sp tm) = runCost A P inp n (start A fn args mem sp tm) := by
  obtain ⟨k, h1, h2⟩ := both_finished (nothing C P) hP hF hne hs
  exact ⟨k, h1, congrArg (·.1) h2⟩

/-- C49 (stuck): the pass does not hide undefined behaviour. -/
theorem C49_stuck (A : Alg τ) (C : Nat → Marks) (P : Prog) (hP : Accepted P) (inp : World) (fn : Nat)
    (F : Func) (hF : P[fn]? = some F) (hne : F.blocks ≠ []) (args : List Nat) (mem : Nat → Nat) (tm : Nat → τ) (sp n : Nat)
    (hs : run A P inp n (start A fn args mem sp tm) = .stuck) :
    ∃ k, run A (pass C P) inp k (start A fn args mem sp tm) = .stuck := by
  obtain ⟨k, s1, h1, c1, h2⟩ := start_rel (A := A) (nothing C P) (inp := inp) hF hne args mem tm sp
  have h3 := run_sim (A := A) (inp := inp) (nothing C P) hP n h2
  rw [hs] at h3
  obtain ⟨l, h4, -⟩ := h3
  exact ⟨k + l, by rw [run_next h1, h4]⟩

theorem run_stays {A : Alg τ} {P : Prog} {inp : World} {a b : Nat} {s : State τ} (h : a ≤ b)
    (hs : ∀ t, run A P inp a s ≠ .next t) : run A P inp b s = run A P inp a s := by
  obtain ⟨c, rfl⟩ := Nat.exists_eq_add_of_le h
  rw [run_add]
  cases e : run A P inp a s with
  | next t => exact absurd e (hs t)
  | done v g => rfl
  | stuck => rfl

theorem run_same {A : Alg τ} {P : Prog} {inp : World} {a b : Nat} {s : State τ}
    (ha : ∀ t, run A P inp a s ≠ .next t) (hb : ∀ t, run A P inp b s ≠ .next t) :
    run A P inp a s = run A P inp b s := by
  rcases Nat.le_total a b with h | h
  · exact (run_stays h ha).symm
  · exact run_stays h hb

/-- C49 (nothing added): every way the program with reports can end is a way the original program ends. -/
theorem C49_nothing_added (A : Alg τ) (C : Nat → Marks) (P : Prog) (hP : Accepted P) (inp : World)
    (fn : Nat) (F : Func) (hF : P[fn]? = some F) (hne : F.blocks ≠ []) (args : List Nat) (mem : Nat → Nat)
    (tm : Nat → τ) (sp k : Nat) :
    (∀ v g', run A (pass C P) inp k (start A fn args mem sp tm) = .done v g' →
      ∃ n g, run A P inp n (start A fn args mem sp tm) = .done v g ∧
        g' = { g with ev := observeFrom A C P inp fn n (start A fn args mem sp tm) }) ∧
    (run A (pass C P) inp k (start A fn args mem sp tm) = .stuck →
      ∃ n, run A P inp n (start A fn args mem sp tm) = .stuck) := by
  have key : ∀ o, run A (pass C P) inp k (start A fn args mem sp tm) = o → (∀ t, o ≠ .next t) →
      ∀ t, run A P inp k (start A fn args mem sp tm) ≠ .next t := by
    intro o ho hn t ht
    obtain ⟨l, s', hl, h1, -⟩ := C49_running A C P hP inp fn F hF hne args mem tm sp k t ht
    rw [run_stays hl (by rw [ho]; exact hn), ho] at h1
    exact hn _ h1
  refine ⟨fun v g' h => ?_, fun h => ?_⟩
  · have h0 := key _ h (by simp)
    cases hs : run A P inp k (start A fn args mem sp tm) with
    | next t => exact absurd hs (h0 t)
    | stuck =>
      obtain ⟨l, h1⟩ := C49_stuck A C P hP inp fn F hF hne args mem tm sp k hs
      have := run_same (A := A) (P := pass C P) (inp := inp) (a := k) (b := l)
        (s := start A fn args mem sp tm) (by rw [h]; simp) (by rw [h1]; simp)
      rw [h, h1] at this
      cases this
    | done w g =>
      obtain ⟨l, h1, -⟩ := C49_finished A C P hP inp fn F hF hne args mem tm sp k w g hs
      have := run_same (A := A) (P := pass C P) (inp := inp) (a := k) (b := l)
        (s := start A fn args mem sp tm) (by rw [h]; simp) (by rw [h1]; simp)
      rw [h, h1] at this
      injection this with e1 e2
      exact ⟨k, g, by rw [e1, hs], e2⟩
  · have h0 := key _ h (by simp)
    cases hs : run A P inp k (start A fn args mem sp tm) with
    | next t => exact absurd hs (h0 t)
    | stuck => exact ⟨k, hs⟩
    | done w g =>
      obtain ⟨l, h1, -⟩ := C49_finished A C P hP inp fn F hF hne args mem tm sp k w g hs
      have := run_same (A := A) (P := pass C P) (inp := inp) (a := k) (b := l)
        (s := start A fn args mem sp tm) (by rw [h]; simp) (by rw [h1]; simp)
      rw [h, h1] at this
      cases this

/-! ### Call stacks -/

theorem follow_append (ks ks' : List Hook) : ∀ st, follow (ks ++ ks') st = (follow ks st).bind (follow ks') := by
  induction ks with
  | nil => intro st; rfl
  | cons k ks ih =>
    intro st
    cases k with
    | enter f => exact ih _
    | leave f =>
      cases st with
      | nil => rfl
      | cons g st =>
        simp only [List.cons_append, follow]
        split
        · exact ih _
        · rfl
    | taken f =>
      simp only [List.cons_append, follow]
      split
      · exact ih _
      · rfl
    | noted => exact ih _

/-- The program does not itself call the reporting functions. -/
def NoHooks (P : Prog) : Prop :=
  ∀ (f : Nat) F (b : Nat) (B : Block) (j : Nat) k v, P[f]? = some F → F.blocks[b]? = some B →
    B.body[j]? ≠ some (.hook k v)

theorem follow_taken (A : Alg τ) (fr : Frame τ) (f : Nat) (st : List Nat) : ∀ os : List Opd,
    follow ((os.map (fr.report A (.taken f))).map (·.1)) (f :: st) = some (f :: st)
  | [] => rfl
  | o :: os => by
    simp only [List.map_cons, Frame.report, follow, List.head?_cons, if_true]
    exact follow_taken A fr f st os

theorem doReturn_fns {g : Glob τ} {sp : Nat} {x : Nat × τ} {rest : List (Frame τ)} :
    match doReturn g sp x rest with
    | .next t => t.frames.map (·.fn) = rest.map (·.fn)
    | .done _ _ => rest = []
    | .stuck => False := by
  cases rest with
  | nil => rfl
  | cons c r => rfl

theorem follow_step (A : Alg τ) (C : Nat → Marks)
    (hC : ∀ f, ∃ lg cd, C f = controlFlow f lg cd) (P : Prog) (hN : NoHooks P) (inp : World) (s : State τ) :
    match step A P inp s with
    | .next t => follow ((observe A C P s).map (·.1)) (s.frames.map (·.fn)) = some (t.frames.map (·.fn))
    | .done _ _ => follow ((observe A C P s).map (·.1)) (s.frames.map (·.fn)) = some []
    | .stuck => True := by
  obtain ⟨frs, g⟩ := s
  cases frs with
  | nil => trivial
  | cons fr rest =>
    obtain ⟨lg, cd, hc⟩ := hC fr.fn
    simp only [step, observe, List.map_cons]
    cases hF : P[fr.fn]? with
    | none => trivial
    | some F =>
      simp only
      cases hB : F.blocks[fr.blk]? with
      | none => trivial
      | some B =>
        simp only
        cases hI : B.body[fr.idx]? with
        | some I =>
          simp only
          cases I with
          | op f args =>
            simp only [stepInstr, hc, controlFlow]
            exact follow_taken A fr fr.fn _ _
          | select c t e =>
            simp only [stepInstr, hc, controlFlow]
            split
            · exact follow_taken A fr fr.fn _ [c]
            · rfl
          | call void f args =>
            simp only [stepInstr]
            cases hG : P[(fr.get A f).1]? with
            | none => trivial
            | some G =>
              simp only
              obtain ⟨lg', cd', hc'⟩ := hC (fr.get A f).1
              by_cases c : G.nparams = args.length ∧ G.void = void ∧ G.blocks ≠ []
              · rw [if_pos c, hc']
                rfl
              · rw [if_neg c]
                trivial
          | hook k v => exact absurd hI (hN _ _ _ _ _ _ _ hF hB)
          | load a n =>
            simp only [stepInstr]
            by_cases c : n = 0
            · simp only [c, if_true]; rfl
            · by_cases d : CanAccess (fr.get A a).1 n
              · simp only [c, d, if_false, if_true]; rfl
              · simp only [c, d, if_false]
          | store a v n =>
            simp only [stepInstr]
            by_cases c : n = 0
            · simp only [c, if_true]; rfl
            · by_cases d : CanAccess (fr.get A a).1 n
              · simp only [c, d, if_false, if_true]; rfl
              · simp only [c, d, if_false]
          | rmw f a args n =>
            simp only [stepInstr]
            by_cases d : 0 < n ∧ CanAccess (fr.get A a).1 n
            · simp only [d, and_self, if_true]; rfl
            · simp only [d, if_false]
          | memset d c n =>
            simp only [stepInstr]
            by_cases d : CanFill (fr.get A d).1 (fr.get A n).1
            · simp only [d, if_true]; rfl
            · simp only [d, if_false]
          | getc =>
            simp only [stepInstr]
            cases inp.byte g.pos <;> rfl
          | read a n =>
            simp only [stepInstr]
            by_cases d : CanFill (fr.get A a).1 (fr.get A n).1
            · simp only [d, if_true]; rfl
            · simp only [d, if_false]
          | write a n =>
            simp only [stepInstr]
            by_cases d : CanAccess (fr.get A a).1 (fr.get A n).1
            · simp only [d, if_true]; rfl
            · simp only [d, if_false]
          | memcpy move d s n =>
            simp only [stepInstr]
            by_cases d : CanCopy move (fr.get A d).1 (fr.get A s).1 (fr.get A n).1
            · simp only [d, if_true]; rfl
            · simp only [d, if_false]
          | _ => rfl
        | none =>
          simp only
          cases ht : B.term with
          | br c f ts =>
            simp only [stepTerm]
            have hf : follow (List.map (fun x => x.1)
                (if (C fr.fn).cond fr.blk = true then [fr.report A (C fr.fn).hk c] else []))
                (fr.fn :: rest.map (·.fn)) = some (fr.fn :: rest.map (·.fn)) := by
              by_cases d : (C fr.fn).cond fr.blk = true
              · rw [if_pos d, hc]; exact follow_taken A fr fr.fn _ [c]
              · rw [if_neg d]; rfl
            cases ts[f (fr.get A c).1]? with
            | none => trivial
            | some t =>
              simp only [jump]
              cases F.blocks[t]? with
              | none => trivial
              | some T =>
                simp only
                cases phiOpds fr.blk T.phis with
                | none => trivial
                | some os => exact hf
          | ret v =>
            have hf : follow ((plainReport A (C fr.fn).leave).map (·.1)) (fr.fn :: rest.map (·.fn)) =
                some (rest.map (·.fn)) := by
              rw [hc]
              simp [controlFlow, plainReport, follow]
            have hd : ∀ x, match doReturn g fr.sp x rest with
                | .next t => follow ((plainReport A (C fr.fn).leave).map (·.1)) (fr.fn :: rest.map (·.fn)) =
                    some (t.frames.map (·.fn))
                | .done _ _ => follow ((plainReport A (C fr.fn).leave).map (·.1))
                    (fr.fn :: rest.map (·.fn)) = some []
                | .stuck => True := by
              intro x
              have := doReturn_fns (g := g) (sp := fr.sp) (x := x) (rest := rest)
              cases hr : doReturn g fr.sp x rest with
              | next t => rw [hr] at this; simp only at this ⊢; rw [hf, this]
              | done v g => rw [hr] at this; simp only at this ⊢; rw [hf, this]; rfl
              | stuck => trivial
            cases v with
            | none =>
              simp only [stepTerm]
              cases F.void with
              | true => exact hd _
              | false => trivial
            | some v =>
              simp only [stepTerm]
              cases F.void with
              | true => trivial
              | false => exact hd _
          | unreachable => trivial

theorem follow_run (A : Alg τ) (C : Nat → Marks)
    (hC : ∀ f, ∃ lg cd, C f = controlFlow f lg cd) (P : Prog) (hN : NoHooks P) (inp : World) :
    ∀ (n : Nat) (s : State τ), match run A P inp n s with
    | .next t => follow ((observeRun A C P inp n s).map (·.1)) (s.frames.map (·.fn)) = some (t.frames.map (·.fn))
    | .done _ _ => follow ((observeRun A C P inp n s).map (·.1)) (s.frames.map (·.fn)) = some []
    | .stuck => True
  | 0, s => rfl
  | n + 1, s => by
    have h1 := follow_step A C hC P hN inp s
    simp only [run, observeRun]
    cases hs : step A P inp s with
    | done v g => rw [hs] at h1; simpa using h1
    | stuck => trivial
    | next t =>
      rw [hs] at h1
      have h2 := follow_run A C hC P hN inp n t
      simp only
      cases hr : run A P inp n t with
      | next u => rw [hr] at h2; simp only [List.map_append, follow_append] at h1 h2 ⊢; rw [h1]; exact h2
      | done v g => rw [hr] at h2; simp only [List.map_append, follow_append] at h1 h2 ⊢; rw [h1]; exact h2
      | stuck => trivial

/-- C49 (stacks): with the reports of the control-flow pass, following the reports with a stack gives, at
every moment, the functions really being executed, innermost first: every leave is of the innermost
function, and every decision is reported for the function that takes it. -/
theorem C49_stack (A : Alg τ) (C : Nat → Marks) (hC : ∀ f, ∃ lg cd, C f = controlFlow f lg cd) (P : Prog)
    (hN : NoHooks P) (inp : World) (fn : Nat) (args : List Nat) (mem : Nat → Nat) (tm : Nat → τ) (sp n : Nat) :
    (∀ s, run A P inp n (start A fn args mem sp tm) = .next s →
      follow ((observeFrom A C P inp fn n (start A fn args mem sp tm)).map (·.1)) [] =
        some (s.frames.map (·.fn))) ∧
    (∀ v g, run A P inp n (start A fn args mem sp tm) = .done v g →
      follow ((observeFrom A C P inp fn n (start A fn args mem sp tm)).map (·.1)) [] = some []) := by
  have h := follow_run A C hC P hN inp n (start A fn args mem sp tm)
  obtain ⟨lg, cd, hc⟩ := hC fn
  refine ⟨fun s hs => ?_, fun v g hs => ?_⟩ <;>
  · rw [hs] at h
    simp only [observeFrom, List.map_append, follow_append, hc, controlFlow, plainReport]
    exact h

/-! ### An example -/

/-- Reads a byte, stores it at an index given by a second byte, branches on the first byte and calls
function 1 in one of the branches. -/
def mainF : Func where
  nparams := 0
  void := false
  blocks := [
    ⟨[], [.getc, .getc, .op (fun xs => xs.sum) [.const 0x7fff00000000, .reg (.ins 0 1)],
      .store (.reg (.ins 0 2)) (.reg (.ins 0 0)) 1], .br (.reg (.ins 0 0)) (fun v => v) [2, 1]⟩,
    ⟨[], [.call false (.const 1) [.reg (.ins 0 1)]], .br (.const 0) (fun _ => 0) [2]⟩,
    ⟨[[(0, .reg (.ins 0 1)), (1, .reg (.ins 1 0))]], [.putc (.reg (.phi 2 0))], .ret (some (.const 0))⟩]

/-- `if x then 3 else x`. -/
def pick : Func where
  nparams := 1
  void := false
  blocks := [⟨[], [.select (.arg 0) (.const 3) (.arg 0)], .ret (some (.reg (.ins 0 0)))⟩]

def prog : Prog := [mainF, pick]

/-- The index of the address computation and the condition of the select are decisions, block 0 of `main`
ends with a conditional branch. -/
def marks : Nat → Marks
  | 0 => controlFlow 0 (fun b j i => b == 0 && j == 2 && i == 1) (· == 0)
  | f => controlFlow f (fun b j i => b == 0 && j == 0 && i == 0) (fun _ => false)

theorem prog_accepted : Accepted prog := by
  intro f F hF b B hB
  match f, hF with
  | 0, hF =>
    cases hF
    match b, hB with
    | 0, hB => cases hB; decide
    | 1, hB => cases hB; decide
    | 2, hB => cases hB; decide
    | n + 3, hB => cases hB
  | 1, hF =>
    cases hF
    match b, hB with
    | 0, hB => cases hB; decide
    | n + 1, hB => cases hB
  | n + 2, hF => cases hF

theorem prog_noHooks : NoHooks prog := by
  intro f F b B j k v hF hB h
  have hm := List.mem_of_getElem? h
  match f, hF with
  | 0, hF =>
    cases hF
    match b, hB with
    | 0, hB => cases hB; simp at hm
    | 1, hB => cases hB; simp at hm
    | 2, hB => cases hB; simp at hm
    | n + 3, hB => cases hB
  | 1, hF =>
    cases hF
    match b, hB with
    | 0, hB => cases hB; simp at hm
    | n + 1, hB => cases hB
  | n + 2, hF => cases hF

theorem marks_ok (f : Nat) : ∃ lg cd, marks f = controlFlow f lg cd := by
  cases f with
  | zero => exact ⟨_, _, rfl⟩
  | succ f => exact ⟨_, _, rfl⟩

/-- The hypotheses are met by this program. On the input `1, 1` it ends; the reports and the program after
the pass are as expected. -/
example : Accepted prog ∧ NoHooks prog ∧ (∀ f, ∃ lg cd, marks f = controlFlow f lg cd) ∧
    (∃ g, run plain prog (.file [1, 1]) 20 (start plain 0 [] (fun _ => 0) 0) = .done (0, ()) g) ∧
    observeFrom plain marks prog (.file [1, 1]) 0 20 (start plain 0 [] (fun _ => 0) 0) =
      [(.enter 0, 0, ()), (.taken 0, 1, ()), (.taken 0, 1, ()), (.enter 1, 0, ()), (.taken 1, 1, ()),
       (.leave 1, 0, ()), (.leave 0, 0, ())] ∧
    (pass marks prog).map (fun F => F.blocks.map (fun B => B.body.length)) = [[7, 1, 2], [4]] := by
  refine ⟨prog_accepted, prog_noHooks, marks_ok, ⟨_, rfl⟩, ?_, by decide⟩
  decide +kernel

end C49
end Verif
