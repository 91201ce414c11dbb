import Verif.HistoryLemmas
import Verif.Examples.Store
/- C09: control-flow flags are downward closed. -/
namespace Verif
open Spec Labels

/-- In every reachable store a flagged label refers only to flagged labels. -/
theorem C09_closed (cap : Nat) (h0 : 0 < cap) (hcap : cap ≤ 2 ^ 31) (es : List Event)
    (L : Labels) (hr : Reach cap es L) : FlagsClosed L.graph :=
  (hr.good h0 hcap).closed

/-- Hence everything a flagged label is built from, down to its source bytes, is flagged. -/
theorem C09_builtFrom (cap : Nat) (h0 : 0 < cap) (hcap : cap ≤ 2 ^ 31) (es : List Event)
    (L : Labels) (hr : Reach cap es L) (l k : Nat) (hf : Flagged L.graph l)
    (hb : BuiltFrom L.graph l k) : Flagged L.graph k :=
  flagged_builtFrom (hr.good h0 hcap).closed (sameTaint_refl _) hb hf

theorem builtFrom_denotes {g : Graph} {l k : Nat} (hb : BuiltFrom g l k) {b : Nat × Nat}
    (hd : Denotes g k b) : Denotes g l b := by
  induction hb with
  | refl => exact hd
  | @step l t m k hg hr hb ih =>
    rw [denotes_iff hg]
    cases t with
    | source => exact hr.elim
    | range c f e => exact ⟨m, hr.1, hr.2, ih hd⟩
    | union c lo hi => rcases hr with rfl | rfl
                       · exact Or.inl (ih hd)
                       · exact Or.inr (ih hd)

theorem denotes_builtFrom {g : Graph} {l : Nat} {b : Nat × Nat} (hd : Denotes g l b) :
    ∃ k cf, BuiltFrom g l k ∧ g k = some (.source cf b.1 b.2) := by
  induction hd with
  | source h => exact ⟨_, _, .refl _, h⟩
  | range h h1 h2 _ ih => obtain ⟨k, cf, hb, hk⟩ := ih; exact ⟨k, cf, .step h ⟨h1, h2⟩ hb, hk⟩
  | lower h _ ih => obtain ⟨k, cf, hb, hk⟩ := ih; exact ⟨k, cf, .step h (Or.inl rfl) hb, hk⟩
  | higher h _ ih => obtain ⟨k, cf, hb, hk⟩ := ih; exact ⟨k, cf, .step h (Or.inr rfl) hb, hk⟩

/-- End to end: an input byte has a flagged source label exactly when the history marked a label
that denoted this byte. -/
theorem C09_influenced (cap : Nat) (h0 : 0 < cap) (hcap : cap ≤ 2 ^ 31) (es : List Event)
    (L : Labels) (hr : Reach cap es L) (b : Nat × Nat) :
    (∃ l, L.graph l = some (.source true b.1 b.2)) ↔ Influenced es b := by
  unfold Reach at hr
  generalize hi : init cap = L0 at hr
  induction hr with
  | nil =>
    subst hi
    constructor
    · rintro ⟨l, hl⟩
      exact absurd (Denotes.source hl) (init_no_denotes h0 hcap l _)
    · rintro ⟨bf, l, rest, h, -⟩
      simp at h
  | @snoc es L1 op L2 e hr ha he ih =>

    have hreach : Reach cap es L1 := by unfold Reach; rw [hi]; exact hr
    have hg := hreach.good h0 hcap
    have hs := step_of_exec hg ha he
    have hinf : Influenced (es ++ [e]) b ↔
        Influenced es b ∨ ∃ m, e = .mark m ∧ Denotes L1.graph m b := by
      constructor
      · rintro ⟨bf, l, rest, h, hm⟩
        rcases List.eq_nil_or_concat rest with rfl | ⟨r1, x, rfl⟩
        · have := List.append_inj' h rfl
          obtain ⟨h1, h2⟩ := this
          subst h1; cases h2
          exact Or.inr ⟨l, rfl, (hreach.meaning h0 hcap l b).2 hm⟩
        · left
          refine ⟨bf, l, r1, ?_, hm⟩
          have h' : es ++ [e] = (bf ++ Event.mark l :: r1) ++ [x] := by simpa using h
          exact (List.append_inj' h' rfl).1
      · rintro (⟨bf, l, rest, rfl, hm⟩ | ⟨m, rfl, hm⟩)
        · exact ⟨bf, l, rest ++ [e], by simp, hm⟩
        · exact ⟨es, m, [], by simp, (hreach.meaning h0 hcap m b).1 hm⟩
    rw [hinf, ← ih]
    constructor
    · rintro ⟨l, hl⟩
      have hfl : Flagged L2.graph l := ⟨_, hl, rfl⟩
      rcases (hs.flags l).1 hfl with hf | ⟨m, hm, hb⟩
      · left
        have hd : Denotes L1.graph l b := (hs.old l b (flagged_lt hf)).1 (Denotes.source hl)
        obtain ⟨k, cf, hbk, hk⟩ := denotes_builtFrom hd
        have hfk := flagged_builtFrom hg.closed (sameTaint_refl _) hbk hf
        obtain ⟨t, ht, hft⟩ := hfk
        rw [hk] at ht; cases ht
        cases (hft : cf = true)
        exact ⟨k, hk⟩
      · right
        refine ⟨m, hm, builtFrom_denotes hb ?_⟩
        have hlt : l < L1.words.length := by
          clear hl hfl
          subst hm
          have hm' : m < L1.words.length := by
            cases op <;> simp [exec] at he
            · obtain ⟨_, _, h⟩ := Res.bind_eq_ok.1 he; cases h
            · obtain ⟨_, _, h⟩ := Res.bind_eq_ok.1 he; cases h
            · obtain ⟨_, _, h⟩ := Res.bind_eq_ok.1 he; cases h; exact ha.2
          have := builtFrom_le hg.wf hb
          omega
        exact (hs.old l b hlt).1 (Denotes.source hl)
    · rintro (⟨l, hl⟩ | ⟨m, hm, hd⟩)
      · have hfl : Flagged L2.graph l := (hs.flags l).2 (Or.inl ⟨_, hl, rfl⟩)
        have hd : Denotes L2.graph l b := (hs.old l b (flagged_lt ⟨_, hl, rfl⟩)).2 (.source hl)
        obtain ⟨k, cf, hbk, hk⟩ := denotes_builtFrom hd
        obtain ⟨t, ht, hft⟩ := flagged_builtFrom hs.good.closed (sameTaint_refl _) hbk hfl
        rw [hk] at ht; cases ht
        cases (hft : cf = true)
        exact ⟨k, hk⟩
      · obtain ⟨k, cf, hbk, hk⟩ := denotes_builtFrom hd
        have hfl : Flagged L2.graph k := (hs.flags k).2 (Or.inr ⟨m, hm, hbk⟩)
        have hkl : k < L1.words.length := (hg.wf.refs hk).2.1
        have hd2 : Denotes L2.graph k b := (hs.old k b hkl).2 (.source hk)
        obtain ⟨k', cf', hbk', hk'⟩ := denotes_builtFrom hd2
        obtain ⟨t, ht, hft⟩ := flagged_builtFrom hs.good.closed (sameTaint_refl _) hbk' hfl
        rw [hk'] at ht; cases ht
        cases (hft : cf' = true)
        exact ⟨k', hk'⟩

/-- A reachable store with flagged and unflagged bytes. -/
example : Reach 64 exEvents exStore ∧ (∃ l, exStore.graph l = some (.source true 3 12)) ∧
    ∃ l, exStore.graph l = some (.source false 3 13) := by
  exact ⟨exReach, ⟨3, by decide +kernel⟩, ⟨4, by decide⟩⟩

end Verif
