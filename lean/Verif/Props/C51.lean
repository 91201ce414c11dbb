import Verif.EndToEnd
import Verif.Props.C09
/-
C51: after a run of an instrumented program, the input bytes flagged as affecting control flow in the TDAG are
exactly the bytes on which some decision of the original program depended.
-/
namespace Verif
namespace C51
open Ir PassIr CfPass Spec Labels DfsanMem EndToEnd

/-- The source label of byte `b` is flagged in the store. -/
def FlaggedByte (L : Labels) (b : Nat × Nat) : Prop := ∃ l, L.graph l = some (.source true b.1 b.2)

theorem marks_lt {L L' : Labels} {es : List Event} (h : Runs L es L') (hg : Good L) :
    ∀ m, Event.mark m ∈ es → m < L'.words.length := by
  induction h with
  | nil => intro m h; cases h
  | @snoc es L1 op L2 e hr ha he ih =>
    intro m hm
    have hs := step_of_exec (hr.good hg) ha he
    rcases List.mem_append.1 hm with hm | hm
    · exact Nat.lt_of_lt_of_le (ih m hm) hs.len
    · rw [List.mem_singleton] at hm
      subst hm
      refine Nat.lt_of_lt_of_le ?_ hs.len
      cases op <;> simp [exec] at he
      · obtain ⟨_, _, h⟩ := Res.bind_eq_ok.1 he; cases h
      · obtain ⟨_, _, h⟩ := Res.bind_eq_ok.1 he; cases h
      · obtain ⟨_, _, h⟩ := Res.bind_eq_ok.1 he; cases h; exact ha.2

theorem influenced_iff {cap : Nat} (h0 : 0 < cap) (hcap : cap ≤ 2 ^ 31) {es : List Event} {L : Labels}
    (hr : Reach cap es L) (b : Nat × Nat) :
    Influenced es b ↔ ∃ m, Event.mark m ∈ es ∧ Denotes L.graph m b := by
  unfold Reach at hr
  generalize hi : init cap = L0 at hr
  induction hr with
  | nil =>
    constructor
    · rintro ⟨bf, l, rest, h, -⟩
      simp at h
    · rintro ⟨m, h, -⟩
      cases h
  | @snoc es L1 op L2 e hr ha he ih =>
    have hreach : Reach cap es L1 := by unfold Reach; rw [hi]; exact hr
    have hg := hreach.good h0 hcap
    have hs := step_of_exec hg ha he
    have hlt := marks_lt hr (hi ▸ init_good h0 hcap)
    have hreach2 : Reach cap (es ++ [e]) L2 := by unfold Reach; rw [hi]; exact .snoc hr ha he
    have hlt2 := marks_lt (.snoc hr ha he) (hi ▸ init_good h0 hcap)
    constructor
    · rintro ⟨bf, l, rest, h, hm⟩
      rcases List.eq_nil_or_concat rest with rfl | ⟨r1, x, rfl⟩
      · obtain ⟨h1, h2⟩ := List.append_inj' h rfl
        subst h1
        cases h2
        have hd := (hreach.meaning h0 hcap l b).2 hm
        have hl : l < L1.words.length := by
          apply Decidable.byContradiction
          intro hc
          exact denotes_of_ge (by omega) b hd
        exact ⟨l, by simp, (hs.old l b hl).2 hd⟩
      · have h' : es ++ [e] = (bf ++ Event.mark l :: r1) ++ [x] := by simpa using h
        obtain ⟨m, h1, h2⟩ := ih.1 ⟨bf, l, r1, (List.append_inj' h' rfl).1, hm⟩
        exact ⟨m, by simp [h1], (hs.old m b (hlt m h1)).2 h2⟩
    · rintro ⟨m, h1, h2⟩
      rcases List.mem_append.1 h1 with h1 | h1
      · obtain ⟨bf, l, rest, rfl, hm⟩ := ih.2 ⟨m, h1, (hs.old m b (hlt m h1)).1 h2⟩
        exact ⟨bf, l, rest ++ [e], by simp, hm⟩
      · rw [List.mem_singleton] at h1
        subst h1
        refine ⟨es, m, [], by simp, (hreach.meaning h0 hcap m b).1 ?_⟩
        simpa [after] using (hs.meaning m b).1 h2

theorem flags {cap : Nat} (h0 : 0 < cap) (hcap : cap ≤ 2 ^ 31) {es : List Event} {k : Nat} {g g' : IGlob}
    (hr : Reach cap es g.L) (hev : g.ev = []) (he : Evolves k g g') {gs : Glob (Nat × Nat → Prop)}
    (hg : GRel cap g' gs) (b : Nat × Nat) :
    FlaggedByte g'.L b ↔ Influenced es b ∨ ∃ y ∈ gs.ev, y.1 = .noted ∧ y.2.2 b := by
  obtain ⟨new, ms, h1, hms, -, ⟨es', h2, hk⟩, -⟩ := he
  have h3 : es'.filterMap markOf = new.filterMap notedOf := by
    rw [← hms, ← hk, List.filterMap_filterMap]
    refine List.filterMap_congr (fun e _ => ?_)
    cases e <;> rfl
  rw [hev, List.nil_append] at h1
  have hr' : Reach cap (es ++ es') g'.L := Runs.trans hr h2
  have hold := h2.old (hr.good h0 hcap)
  unfold FlaggedByte
  rw [C09_influenced cap h0 hcap _ _ hr', influenced_iff h0 hcap hr', influenced_iff h0 hcap hr]
  have hmem : ∀ m, Event.mark m ∈ es' ↔ ∃ x ∈ g'.ev, x.1 = .noted ∧ 0 < x.2.2 ∧ x.2.2 = m := by
    intro m
    have : Event.mark m ∈ es' ↔ m ∈ es'.filterMap markOf := by
      rw [List.mem_filterMap]
      constructor
      · intro h; exact ⟨_, h, rfl⟩
      · rintro ⟨e, h, e1⟩
        cases e <;> simp [markOf] at e1
        rwa [e1] at h
    rw [this, h3, ← h1, List.mem_filterMap]
    constructor
    · rintro ⟨x, hx, e1⟩
      simp only [notedOf] at e1
      split at e1
      · rename_i c
        cases e1
        exact ⟨x, hx, c.1, c.2, rfl⟩
      · cases e1
    · rintro ⟨x, hx, c1, c2, rfl⟩
      exact ⟨x, hx, by simp [notedOf, c1, c2]⟩
  have hpair := List.forall₂_iff_get.1 hg.ev
  have hev2 : (∃ x ∈ g'.ev, x.1 = .noted ∧ 0 < x.2.2 ∧ Denotes g'.L.graph x.2.2 b) ↔
      ∃ y ∈ gs.ev, y.1 = .noted ∧ y.2.2 b := by
    constructor
    · rintro ⟨x, hx, c1, -, c3⟩
      obtain ⟨i, hi, rfl⟩ := List.mem_iff_getElem.1 hx
      have hi' : i < gs.ev.length := by rw [← hpair.1]; exact hi
      have := hpair.2 i hi hi'
      simp only [List.get_eq_getElem] at this
      exact ⟨_, List.getElem_mem hi', by rw [← this.1]; exact c1, (this.2.2.2 b).1 c3⟩
    · rintro ⟨y, hy, c1, c2⟩
      obtain ⟨i, hi, rfl⟩ := List.mem_iff_getElem.1 hy
      have hi' : i < g'.ev.length := by rw [hpair.1]; exact hi
      have := hpair.2 i hi' hi
      simp only [List.get_eq_getElem] at this
      have hd := (this.2.2.2 b).2 c2
      refine ⟨_, List.getElem_mem hi', by rw [this.1]; exact c1, ?_, hd⟩
      refine Nat.pos_of_ne_zero (fun e => ?_)
      rw [e] at hd
      exact denotes_zero hg.store.good b hd
  rw [← hev2]
  constructor
  · rintro ⟨m, hm, hd⟩
    rcases List.mem_append.1 hm with hm | hm
    · exact Or.inl ⟨m, hm, (hold.2.2 m b (marks_lt hr (init_good h0 hcap) m hm)).1 hd⟩
    · obtain ⟨x, hx, c1, c2, rfl⟩ := (hmem m).1 hm
      exact Or.inr ⟨x, hx, c1, c2, hd⟩
  · rintro (⟨m, hm, hd⟩ | ⟨x, hx, c1, c2, hd⟩)
    · exact ⟨m, by simp [hm], (hold.2.2 m b (marks_lt hr (init_good h0 hcap) m hm)).2 hd⟩
    · exact ⟨x.2.2, List.mem_append.2 (Or.inr ((hmem _).2 ⟨x, hx, c1, c2, rfl⟩)), hd⟩

theorem observe_noted {τ : Type} {A : Alg τ} {C : Nat → Marks} {P : Prog}
    (hC : ∀ f, ∃ lg cd, C f = taintTracking lg cd) (hN : C49.NoHooks P) {s : State τ} {x : Hook × Nat × τ}
    (hx : x ∈ observe A C P s) : x.1 = .noted := by
  obtain ⟨frs, g⟩ := s
  cases frs with
  | nil => simp [observe] at hx
  | cons fr rest =>
    obtain ⟨lg, cd, hc⟩ := hC fr.fn
    simp only [observe] at hx
    cases hF : P[fr.fn]? with
    | none => rw [hF] at hx; simp at hx
    | some F =>
      rw [hF] at hx
      simp only at hx
      cases hB : F.blocks[fr.blk]? with
      | none => rw [hB] at hx; simp at hx
      | some B =>
        rw [hB] at hx
        simp only at hx
        have hk : x.1 = (C fr.fn).hk → x.1 = .noted := by
          intro e
          rw [e, hc]
          rfl
        cases hI : B.body[fr.idx]? with
        | some I =>
          rw [hI] at hx
          cases I with
          | op g args => exact hk (mem_decisions hx)
          | select c t e =>
            simp only at hx
            split at hx
            · rw [List.mem_singleton.1 hx] at hk ⊢; exact hk rfl
            · simp at hx
          | call void g args =>
            simp only at hx
            obtain ⟨lg', cd', hc'⟩ := hC (fr.get A g).1
            rw [hc'] at hx
            simp [taintTracking, plainReport] at hx
          | hook k v => exact absurd hI (hN _ _ _ _ _ _ _ hF hB)
          | _ => simp at hx
        | none =>
          rw [hI] at hx
          simp only at hx
          cases ht : B.term with
          | br c g ts =>
            rw [ht] at hx
            simp only at hx
            split at hx
            · rw [List.mem_singleton.1 hx] at hk ⊢; exact hk rfl
            · simp at hx
          | ret v =>
            rw [ht, hc] at hx
            simp [taintTracking, plainReport] at hx
          | unreachable => rw [ht] at hx; simp at hx

theorem observeRun_noted {τ : Type} {A : Alg τ} {C : Nat → Marks} {P : Prog} {inp : World}
    (hC : ∀ f, ∃ lg cd, C f = taintTracking lg cd) (hN : C49.NoHooks P) : ∀ (n : Nat) {s : State τ}
    {x : Hook × Nat × τ} (_ : x ∈ observeRun A C P inp n s), x.1 = .noted
  | 0, _, _, hx => by simp [observeRun] at hx
  | n + 1, s, x, hx => by
    simp only [observeRun, List.mem_append] at hx
    rcases hx with hx | hx
    · exact observe_noted hC hN hx
    · split at hx
      · exact observeRun_noted hC hN n hx
      · simp at hx

theorem observeFrom_noted {τ : Type} {A : Alg τ} {C : Nat → Marks} {P : Prog} {inp : World}
    (hC : ∀ f, ∃ lg cd, C f = taintTracking lg cd) {fn n : Nat} {s : State τ} :
    observeFrom A C P inp fn n s = observeRun A C P inp n s := by
  obtain ⟨lg, cd, hc⟩ := hC fn
  simp [observeFrom, hc, taintTracking, plainReport]

/-- Byte `b` influenced a decision in the first `n` steps of the run from `s`: at one of these steps a
decision was taken on a value that depended on `b`. -/
def Decided (C : Nat → Marks) (P : Prog) (inp : World) (src n : Nat) (s : State (Nat × Nat → Prop))
    (b : Nat × Nat) : Prop :=
  ∃ k t, k < n ∧ run (sets src) P inp k s = .next t ∧ ∃ y ∈ observe (sets src) C P t, y.2.2 b

theorem decided_iff {C : Nat → Marks} {P : Prog} {inp : World} {src : Nat} {b : Nat × Nat} :
    ∀ (n : Nat) {s : State (Nat × Nat → Prop)},
    (∃ y ∈ observeRun (sets src) C P inp n s, y.2.2 b) ↔ Decided C P inp src n s b
  | 0, s => by
    constructor
    · rintro ⟨y, hy, -⟩; simp [observeRun] at hy
    · rintro ⟨k, t, h, -⟩; omega
  | n + 1, s => by
    simp only [observeRun, List.mem_append]
    constructor
    · rintro ⟨y, hy | hy, hb⟩
      · exact ⟨0, s, by omega, rfl, y, hy, hb⟩
      · cases e : step (sets src) P inp s with
        | next s' =>
          rw [e] at hy
          obtain ⟨k, t, h1, h2, h3⟩ := (decided_iff n).1 ⟨y, hy, hb⟩
          exact ⟨k + 1, t, by omega, by simp only [run, e]; exact h2, h3⟩
        | done v g => rw [e] at hy; simp at hy
        | stuck => rw [e] at hy; simp at hy
    · rintro ⟨k, t, h1, h2, y, hy, hb⟩
      cases k with
      | zero =>
        simp only [run, Out.next.injEq] at h2
        subst h2
        exact ⟨y, Or.inl hy, hb⟩
      | succ k =>
        simp only [run] at h2
        cases e : step (sets src) P inp s with
        | next s' =>
          rw [e] at h2
          obtain ⟨z, hz, hc⟩ := (decided_iff n).2 ⟨k, t, by omega, h2, y, hy, hb⟩
          exact ⟨z, Or.inr hz, hc⟩
        | done v g => rw [e] at h2; simp at h2
        | stuck => rw [e] at h2; simp at h2

theorem flags_pass {cap : Nat} (h0 : 0 < cap) (hcap : cap ≤ 2 ^ 31) {es : List Event} {k : Nat} {g g' : IGlob}
    (hr : Reach cap es g.L) (hev : g.ev = []) (he : Evolves k g g') {gs : Glob (Nat × Nat → Prop)}
    {C : Nat → Marks} (hC : ∀ f, ∃ lg cd, C f = taintTracking lg cd) {P : Prog} (hN : C49.NoHooks P)
    {inp : World} {src fn n : Nat} {s : State (Nat × Nat → Prop)}
    (hg : GRel cap g' { gs with ev := observeFrom (sets src) C P inp fn n s }) (b : Nat × Nat) :
    FlaggedByte g'.L b ↔ Influenced es b ∨ Decided C P inp src n s b := by
  rw [flags h0 hcap hr hev he hg b, ← decided_iff n]
  simp only [observeFrom_noted hC]
  constructor
  · rintro (h | ⟨y, h1, -, h3⟩)
    · exact Or.inl h
    · exact Or.inr ⟨y, h1, h3⟩
  · rintro (h | ⟨y, h1, h3⟩)
    · exact Or.inl h
    · exact Or.inr ⟨y, h1, observeRun_noted hC hN n h1, h3⟩

/-- C51 (finished): insert the reports of the taint-tracking pass (any choice `C` of decisions) into a program,
instrument it and run it, on any input, in a tracker with any history `es`. When the original program ends, so
does the result, with the same effects and value (unless there is no room for the labels), and a byte is
flagged exactly if it was flagged before or a decision of the original program depended on it. -/
theorem C51_finished (cap : Nat) (h0 : 0 < cap) (hcap : cap ≤ 2 ^ 31) (es : List Event) (L : Labels)
    (hr : Labels.Reach cap es L) (dom : Nat → Nat → Nat → Bool) (P : Prog) (hP : C47.Accepted dom P)
    (hP2 : C49.Accepted P) (hN : C49.NoHooks P) (C : Nat → Marks)
    (hC : ∀ f, ∃ lg cd, C f = taintTracking lg cd)
    (src : Nat) (hsrc : src < 256) (inp : World) (fn : Nat) (F : Func) (hF : P[fn]? = some F)
    (hne : F.blocks ≠ []) (args : List Nat) (mem : Mem) (hm : Spec.IsBytes mem)
    {tm : Nat → Nat × Nat → Prop} (hz : TaintedBy L mem tm) (sp n : Nat)
    (v : Nat × (Nat × Nat → Prop)) (gs : Glob (Nat × Nat → Prop))
    (hs : run (sets src) P inp n (start (sets src) fn args mem sp tm) = .done v gs) (hn : gs.pos < 2 ^ 54) :
    ∃ k, C47.Does cap (runCost plain P inp n (start plain fn args mem sp)) L
      (irun dom (pass C P) inp src k (istart (passFunc (C fn) F) fn args mem sp L))
      (fun o => ∃ l g, o = .done v.1 l g ∧ (∀ b, Denotes g.L.graph l b ↔ v.2 b) ∧
        C47.Tracks g { gs with
          ev := observeFrom (sets src) C P inp fn n (start (sets src) fn args mem sp tm) } ∧
        ∀ b, FlaggedByte g.L b ↔
          Influenced es b ∨ Decided C P inp src n (start (sets src) fn args mem sp tm) b) := by
  have hL : Store cap L := ⟨hr.good h0 hcap, hr.cap h0 hcap⟩
  obtain ⟨k, hk⟩ := finished (C := C) hP hP2 hsrc hL hF hne hm hz hs hn
  refine ⟨k, Goes.mono hk ?_⟩
  rintro o ⟨l, g, rfl, h1, h2, h3⟩
  exact ⟨l, g, rfl, h1.2, C47.tracks_of_rel h2, flags_pass h0 hcap hr rfl h3 hC hN h2⟩

/-- C51 (running): the same at any moment of a run. -/
theorem C51_running (cap : Nat) (h0 : 0 < cap) (hcap : cap ≤ 2 ^ 31) (es : List Event) (L : Labels)
    (hr : Labels.Reach cap es L) (dom : Nat → Nat → Nat → Bool) (P : Prog) (hP : C47.Accepted dom P)
    (hP2 : C49.Accepted P) (hN : C49.NoHooks P) (C : Nat → Marks)
    (hC : ∀ f, ∃ lg cd, C f = taintTracking lg cd)
    (src : Nat) (hsrc : src < 256) (inp : World) (fn : Nat) (F : Func) (hF : P[fn]? = some F)
    (hne : F.blocks ≠ []) (args : List Nat) (mem : Mem) (hm : Spec.IsBytes mem)
    {tm : Nat → Nat × Nat → Prop} (hz : TaintedBy L mem tm) (sp n : Nat) (s : State (Nat × Nat → Prop))
    (hs : run (sets src) P inp n (start (sets src) fn args mem sp tm) = .next s) (hn : s.glob.pos < 2 ^ 54) :
    ∃ k, C47.Does cap (runCost plain P inp n (start plain fn args mem sp)) L
      (irun dom (pass C P) inp src k (istart (passFunc (C fn) F) fn args mem sp L))
      (fun o => ∃ i, o = .next i ∧
        C47.Tracks i.glob { s.glob with
          ev := observeFrom (sets src) C P inp fn n (start (sets src) fn args mem sp tm) } ∧
        ∀ b, FlaggedByte i.glob.L b ↔
          Influenced es b ∨ Decided C P inp src n (start (sets src) fn args mem sp tm) b) := by
  have hL : Store cap L := ⟨hr.good h0 hcap, hr.cap h0 hcap⟩
  obtain ⟨k, hk⟩ := running (C := C) hP hP2 hsrc hL hF hne hm hz hs hn
  refine ⟨k, Goes.mono hk ?_⟩
  rintro o ⟨i, rfl, h2, h3⟩
  exact ⟨i, rfl, C47.tracks_of_rel h2, flags_pass h0 hcap hr rfl h3 hC hN h2⟩

/-! ### An example -/

/-- Reads three bytes, branches on the sum of the first two, and outputs the third. -/
def mainF : Func where
  nparams := 0
  void := false
  blocks := [
    ⟨[], [.getc, .getc, .getc, .op (fun xs => xs.sum) [.reg (.ins 0 0), .reg (.ins 0 1)]],
      .br (.reg (.ins 0 3)) (fun v => v % 2) [1, 2]⟩,
    ⟨[], [.putc (.reg (.ins 0 2))], .br (.const 0) (fun _ => 0) [2]⟩,
    ⟨[], [], .ret (some (.const 0))⟩]

def prog : Prog := [mainF]

def marks (_ : Nat) : Marks := taintTracking (fun _ _ _ => false) (· == 0)

/-- The words of the label store after the instrumented program has run. -/
def final : List Nat :=
  match irun C47.dom0 (pass marks prog) (.file [1, 1, 1, 1, 1, 1]) 0 30
      (istart (passFunc (marks 0) mainF) 0 [] (fun _ => 0) 0 (Labels.init 64)) with
  | .ok (.done _ _ g) => g.L.words
  | _ => []

theorem prog_accepted : C47.Accepted C47.dom0 prog := by
  intro fn F hF
  match fn, hF with
  | 0, hF => cases hF; exact ⟨(Func.check_valid (by decide)).1, by decide, C47.dom0_sound 0 _⟩
  | n + 1, hF => cases hF

theorem prog_ok : C49.Accepted prog ∧ C49.NoHooks prog := by
  constructor
  · intro f F hF b B hB
    match f, hF with
    | 0, hF =>
      cases hF
      match b, hB with
      | 0, hB => cases hB; decide
      | 1, hB => cases hB; decide
      | 2, hB => cases hB; decide
      | n + 3, hB => cases hB
    | n + 1, hF => cases hF
  · intro f F b B j k v hF hB h
    have hm := List.mem_of_getElem? h
    match f, hF with
    | 0, hF =>
      cases hF
      match b, hB with
      | 0, hB => cases hB; simp at hm
      | 1, hB => cases hB; simp at hm
      | 2, hB => cases hB; simp at hm
      | n + 3, hB => cases hB
    | n + 1, hF => cases hF

/-- The hypotheses are met by this program on the input `1, 1, 1`; bytes 0 and 1 (labels 1 and 2) are flagged
in the end, byte 2 (label 3) is not. -/
example : C47.Accepted C47.dom0 prog ∧ C49.Accepted prog ∧ C49.NoHooks prog ∧
    (∀ f, ∃ lg cd, marks f = taintTracking lg cd) ∧ Labels.Reach 64 [] (Labels.init 64) ∧
    (∃ v g, run (sets 0) prog (.file [1, 1, 1, 1, 1, 1]) 20 (start (sets 0) 0 [] (fun _ => 0) 0) = .done v g ∧
      g.pos = 3) ∧
    (final[1]?.map decode = some (.ok (.source true 0 0)) ∧
      final[2]?.map decode = some (.ok (.source true 0 1)) ∧
      final[3]?.map decode = some (.ok (.source false 0 2))) := by
  refine ⟨prog_accepted, prog_ok.1, prog_ok.2, fun _ => ⟨_, _, rfl⟩, .nil _, ⟨_, _, rfl, rfl⟩, ?_⟩
  decide +kernel

end C51
end Verif
