import Verif.LabelsTsoView
/- Helper lemmas: the label graphs that threads see. -/
namespace Verif
open Spec

namespace CSys
open Labels

/-- Words that have or had the right value give the right taint values up to the flag. -/
theorem wordGraph_stale {V : Labels} (hwf : V.WF) {n l : Nat} {f : Nat → Nat} (hl : l < V.words.length) (hn : l < n)
    (hs : Stale V l (f l)) : SameTaint V.graph (wordGraph n f) l ∧ (Flagged (wordGraph n f) l → Flagged V.graph l) := by
  by_cases h0 : l = 0
  · subst h0
    have hf : f 0 = 0 := by
      rcases hs with h | h
      · rw [hwf.zero, Option.some.injEq] at h; exact h.symm
      · rw [hwf.zero, Option.some.injEq] at h
        have h1 : f 0 ≤ addCf (f 0) := Nat.left_le_or
        omega
    have hw : wordGraph n f 0 = none := by
      unfold wordGraph; rw [if_pos hn, hf]; rfl
    refine ⟨by unfold SameTaint; rw [hw, hwf.graph.none 0 (Or.inl rfl)], ?_⟩
    rintro ⟨t, ht, -⟩; rw [hw] at ht; cases ht
  · obtain ⟨ty, u, h1, h2, h3, h4, -⟩ := hs.taint hwf ⟨by omega, hl⟩
    have hw : wordGraph n f l = some ty := by unfold wordGraph; rw [if_pos hn, h1]
    refine ⟨by unfold SameTaint; rw [hw, h2]; simp [h3], ?_⟩
    rintro ⟨t, ht, hf⟩
    rw [hw] at ht; cases ht
    exact ⟨u, h2, h4 hf⟩

theorem no_owed {S : CSys} (hq : ∀ t, root (S.threads t) = none) (t : Nat) : owed (S.threads t) = [] := by
  have := hq t
  cases hpc : S.threads t with
  | mChild | mSrcLoad | mSrcStore | mPop | mEnc | mSetLoad | mSetStore => rw [hpc] at this; cases this
  | _ => rfl

/-- With no marking in progress the flags are complete. -/
theorem Inv.complete {S : CSys} {V : Labels} {tail : List Nat} (h : Inv S V tail)
    (hq : ∀ t, root (S.threads t) = none) (l : Nat) :
    Flagged V.graph l ↔ ∃ x, .mark x ∈ S.log ∧ BuiltFrom V.graph x l := by
  constructor
  · intro hf
    obtain ⟨x, hx, -, hb⟩ := h.asked l hf
    rcases hx with hx | ⟨t, ht⟩
    · exact ⟨x, hx, hb⟩
    · rw [hq t] at ht; cases ht
  · rintro ⟨x, hx, hb⟩
    have hf := h.marked x hx
    clear hx
    induction hb with
    | refl => exact hf
    | step hgl hr _ ih =>
      obtain ⟨t0, ht0, hf0⟩ := hf
      rw [hgl] at ht0; cases ht0
      rcases h.closed _ _ _ hgl hf0 hr with h' | ⟨u, hu⟩
      · exact ih h'
      · rw [no_owed hq u] at hu; cases hu

end CSys

namespace TSys
open Labels CSys

/-- A thread sees every label up to one it can have at a value it has or had. -/
theorem Rel.upto {T : TSys} {S : WSys} {P : Nat} (R : Rel T S P) {V : Labels} {tail : List Nat}
    (hi : WSys.Inv S V tail) {t l k : Nat} (hk : T.KnownTo t l) (hkl : k ≤ l) :
    k < V.words.length ∧ k < T.sizeFor t ∧ S.Has k (T.load t k) := by
  obtain ⟨h1, h2⟩ := R.knownTo hk
  have hV : k < V.words.length := Nat.lt_of_le_of_lt hkl (hi.sys.known l h1).2
  have hn : V.words.length ≤ S.sys.mem.length := by rw [hi.sys.mem, List.length_append]; omega
  by_cases hcs : InCS (T.threads t)
  · have hl : T.lock = some t := R.lock t ((hi.sys.holder t).1 (by rw [R.threads]; exact hcs))
    have hloc := hi.sys.loc t
    rw [R.threads] at hloc
    cases R.owner t hl with
    | outside _ _ h => exact absurd hcs h
    | inside _ h4 h5 h6 _ =>
      have hP : P = V.words.length := by
        cases hpc : T.threads t with
        | uWrite l r e idx => rw [hpc] at h4 hloc; cases h4; exact hloc.2.2.2.1
        | uUnlock l r idx => rw [hpc] at h4 hloc; cases h4; exact hloc.2.2.1
        | sWrite src off n first j => rw [hpc] at h4 hloc; cases h4; exact hloc.2.1
        | _ => rw [hpc] at h4; cases h4
      refine ⟨hV, by unfold sizeFor; rw [h5]; omega, ?_⟩
      unfold TSys.load
      rw [h6.low T.mem (by omega)]
      exact (R.low k (by omega)).1
  · obtain ⟨h3, h4⟩ := R.load hcs (fun h => Nat.lt_of_le_of_lt hkl (h2 h)) (Nat.lt_of_lt_of_le hV hn)
    exact ⟨hV, h4, h3⟩

theorem Rel.sees {T : TSys} {S : WSys} {P : Nat} (R : Rel T S P) {V : Labels} {tail : List Nat}
    (hi : WSys.Inv S V tail) {t l k : Nat} (hk : T.KnownTo t l) (hkl : k ≤ l) :
    k < V.words.length ∧ k < T.sizeFor t ∧ Stale V k (T.load t k) := by
  obtain ⟨h1, h2, h3⟩ := R.upto hi hk hkl
  exact ⟨h1, h2, hi.has h3 h1⟩

theorem Rel.has {T : TSys} {S : WSys} {P : Nat} (R : Rel T S P) {V : Labels} {tail : List Nat}
    (hi : WSys.Inv S V tail) {t l : Nat} (hk : T.KnownTo t l) : S.Has l (T.load t l) :=
  (R.upto hi hk (Nat.le_refl l)).2.2

/-- With all buffers empty and the mutex free, memory holds the latest values. -/
theorem Rel.settled {T : TSys} {S : WSys} {P : Nat} (R : Rel T S P) {V : Labels} {tail : List Nat}
    (hi : WSys.Inv S V tail) (hl : T.lock = none) (hb : ∀ t, T.buf t = []) : T.graph = V.graph := by
  obtain ⟨hP, hsz⟩ := R.free hl
  have hfull := R.full hi.sys (fun t h => by rw [hl] at h; cases h)
  have htail : tail = [] := by
    have := congrArg List.length hi.sys.mem
    rw [List.length_append, hfull] at this
    exact List.length_eq_zero_iff.1 (by omega)
  have hmem : S.sys.mem = V.words := by rw [hi.sys.mem, htail, List.append_nil]
  funext l
  unfold TSys.graph wordGraph
  by_cases h : l < T.size
  · rw [if_pos h]
    have h1 : V.words[l]? = some (T.mem l) := by
      rcases (R.low l (by omega)).2 with h2 | ⟨u, w, -, h3⟩
      · rw [← hmem]; exact h2
      · rw [hb u] at h3; cases h3
    cases hd : decode (T.mem l) with
    | ok ty => rw [graph_of_word h1 hd]
    | _ =>
      cases hg : V.graph l with
      | none => rfl
      | some ty =>
        obtain ⟨w, hw, hd'⟩ := graph_eq_some.1 hg
        rw [h1] at hw; cases hw
        rw [hd] at hd'; cases hd'
  · rw [if_neg h, graph_none_of_ge (by omega)]

/-- Something a scheduler can do: let a thread step, or let its oldest store reach memory. -/
inductive Act where
  | step (t : Nat)
  | commit (t : Nat)

/-- Do what can be done of a schedule. -/
def go (T : TSys) : List Act → TSys
  | [] => T
  | .step t :: as =>
    match T.step t with
    | some (.ok T') => T'.go as
    | _ => T.go as
  | .commit t :: as => ((T.commit t).getD T).go as

theorem Reach.go {cap : Nat} {T : TSys} (h : Reach cap T) (as : List Act) : Reach cap (T.go as) := by
  induction as generalizing T with
  | nil => exact h
  | cons a as ih =>
    cases a with
    | step t =>
      unfold TSys.go
      split
      · rename_i T' hs; exact ih (.step h hs)
      · exact ih h
    | commit t =>
      unfold TSys.go
      cases hc : T.commit t with
      | none => exact ih h
      | some T' => exact ih (.commit h hc)

/-- Threads from 2 on have done nothing. -/
def Two (T : TSys) : Prop := ∀ t, 2 ≤ t → T.threads t = .idle ∧ T.buf t = []

theorem Two.push {T : TSys} (h : T.Two) {t : Nat} (ht : t < 2) (is : List Item) (pc : PC) (es : List Event) :
    (T.push t is pc es).Two := by
  intro u hu
  have hne : u ≠ t := by omega
  have := h u hu
  exact ⟨by show (if u = t then _ else _) = _; rw [if_neg hne]; exact this.1,
    by show (if u = t then _ else _) = _; rw [if_neg hne]; exact this.2⟩

theorem Two.lock {T : TSys} (h : T.Two) (l : Option Nat) : ({ T with lock := l } : TSys).Two := h

theorem Two.call {T : TSys} (h : T.Two) {t : Nat} (ht : t < 2) :
    (∀ l r, (T.callUnion t l r).Two) ∧ (∀ s o n, (T.callSource t s o n).Two) ∧ ∀ x, (T.callMark t x).Two := by
  refine ⟨fun l r => ?_, fun _ _ _ => h.push ht _ _ _, fun _ => h.push ht _ _ _⟩
  unfold callUnion; split <;> exact h.push ht _ _ _

theorem Two.commit {T T' : TSys} (h : T.Two) {t : Nat} (hc : T.commit t = some T') : T'.Two := by
  unfold TSys.commit at hc
  split at hc
  · cases hc
  · rename_i i b hb
    have ht : t < 2 := by
      by_cases h2 : 2 ≤ t
      · rw [(h t h2).2] at hb; cases hb
      · omega
    cases hc
    intro u hu
    have hne : u ≠ t := by omega
    have := h u hu
    cases i <;> exact ⟨this.1, by show (if u = t then _ else _) = _; rw [if_neg hne]; exact this.2⟩

theorem step_two {T T' : TSys} {t : Nat} (hs : T.step t = some (.ok T')) (h : T.Two) : T'.Two := by
  have ht : t < 2 := by
    by_cases h2 : 2 ≤ t
    · unfold TSys.step at hs; rw [(h t h2).1] at hs; cases hs
    · omega
  have hp : ∀ l is pc es, (({ T with lock := l } : TSys).push t is pc es).Two := fun l is pc es => (h.lock l).push ht is pc es
  have hq : ∀ is pc es, (T.push t is pc es).Two := fun is pc es => h.push ht is pc es
  unfold TSys.step at hs
  split at hs
  · rename_i a _
    split at hs
    · cases hr : react (T.threads t) (T.load t a) with
      | ok p => rw [hr] at hs; cases hs; exact hq _ _ _
      | _ => rw [hr] at hs; cases hs
    · cases hs
  · split at hs
    all_goals (try cases hs)
    all_goals (try exact hq _ _ _)
    all_goals (try (split at hs <;> (try cases hs)))
    all_goals (try exact hq _ _ _)
    all_goals (try exact hp _ _ _ _)
    all_goals (try (split at hs <;> (try cases hs)))
    all_goals (try exact hq _ _ _)
    all_goals (try exact hp _ _ _ _)
    · rename_i q _ _
      cases hr : LabelDeq.popFront queueSlots q with
      | ok p => rw [hr] at hs; cases hs; exact hq _ _ _
      | _ => rw [hr] at hs; cases hs
    · rename_i encoded _ _ _
      cases hr : decode encoded with
      | ok p => rw [hr] at hs; cases hs; exact hq _ _ _
      | _ => rw [hr] at hs; cases hs

theorem Two.go {T : TSys} (h : T.Two) (as : List Act) : (T.go as).Two := by
  induction as generalizing T with
  | nil => exact h
  | cons a as ih =>
    cases a with
    | step t =>
      unfold TSys.go
      split
      · rename_i T' hs; exact ih (step_two hs h)
      · exact ih h
    | commit t =>
      unfold TSys.go
      cases hc : T.commit t with
      | none => exact ih h
      | some T' => exact ih (h.commit hc)

/-- Thread 0 has read bytes 10..14 of source 3 into labels 1..5; its stores are in memory. -/
def exT1 : TSys := ((init 32).callSource 0 3 10 5).go (List.replicate 7 (.step 0) ++ List.replicate 8 (.commit 0))

/-- Thread 1 has combined labels 1 and 3 and got label 6; none of its stores is in memory. -/
def exT2 : TSys := (exT1.callUnion 1 1 3).go (List.replicate 3 (.step 1) ++ [.commit 1] ++ List.replicate 7 (.step 1))

/-- The stores are in memory; thread 1 has marked label 6, and the flags are still in its buffer. -/
def exT3 : TSys := ((exT2.go (List.replicate 4 (.commit 1))).callMark 1 6).go (List.replicate 12 (.step 1))

/-- The flags are in memory. -/
def exT4 : TSys := exT3.go (List.replicate 4 (.commit 1))

theorem exT1_reach : Reach 32 exT1 := (Reach.source .init rfl (by decide) (by decide) (by decide)).go _

theorem exT2_reach : Reach 32 exT2 := by
  refine (Reach.union exT1_reach (by decide +kernel) ?_ ?_).go _
  all_goals exact ⟨.source 3 10 5 1, Or.inl (by decide +kernel), by simp [Returned]⟩

theorem exT3_reach : Reach 32 exT3 :=
  (Reach.mark (exT2_reach.go _) (by decide +kernel) ⟨.union 1 3 6, Or.inl (by decide +kernel), rfl⟩).go _

theorem exT4_reach : Reach 32 exT4 := exT3_reach.go _

theorem exT3_two : exT3.Two := by
  have h0 : (init 32).Two := fun t _ => ⟨rfl, rfl⟩
  have h1 : exT1.Two := ((h0.call (t := 0) (by omega)).2.1 _ _ _).go _
  have h2 : exT2.Two := ((h1.call (t := 1) (by omega)).1 _ _).go _
  exact (((h2.go _).call (t := 1) (by omega)).2.2 _).go _

theorem exT3_idle (t : Nat) (h0 : t ≠ 0) (h1 : t ≠ 1) : exT3.threads t = .idle := (exT3_two t (by omega)).1

theorem exT4_buf (t : Nat) (h0 : t ≠ 0) (h1 : t ≠ 1) : exT4.buf t = [] := (exT3_two.go _ t (by omega)).2

end TSys
end Verif
