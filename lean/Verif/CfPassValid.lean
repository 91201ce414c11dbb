import Verif.CfPassSim
import Verif.IrGraph
/- Helper lemmas: inserting reports keeps a program valid. -/
namespace Verif
namespace CfPass
open Ir

variable {m : Marks} {F : Func}

theorem startAt_lt {b : Nat} {B : Block} {i j : Nat} (h : i < j) : startAt m b B i < startAt m b B j :=
  Nat.lt_of_le_of_lt (startAt_le_posOf ..) (posOf_lt_startAt h)

theorem startAt_le {b : Nat} {B : Block} {i j : Nat} (h : i ≤ j) : startAt m b B i ≤ startAt m b B j := by
  rcases Nat.lt_or_eq_of_le h with h | rfl
  · exact Nat.le_of_lt (startAt_lt h)
  · exact Nat.le_refl _

theorem passFunc_some {b : Nat} {B' : Block} (h : (passFunc m F).blocks[b]? = some B') :
    ∃ B, F.blocks[b]? = some B ∧ B' = passBlock m F b B := by
  simp only [passFunc, List.getElem?_mapIdx, Option.map_eq_some_iff] at h
  obtain ⟨B, h1, h2⟩ := h
  exact ⟨B, h1, h2.symm⟩

theorem succs_pass (m : Marks) (F : Func) (b : Nat) (B : Block) :
    (passBlock m F b B).succs = B.succs := by
  simp only [Block.succs, passBlock]
  cases B.term with
  | br c f ts => by_cases cl : m.cond b = true <;> simp [visitTerm, cl]
  | ret v => rfl
  | unreachable => rfl

theorem body_len (m : Marks) (F : Func) (b : Nat) (B : Block) :
    (passBlock m F b B).body.length = posOf m b B B.body.length := by
  have h := body_end m F b B
  have h1 := congrArg List.length h
  rw [List.length_drop, visitTerm_len (j := B.body.length)] at h1
  have h2 : posOf m b B B.body.length = startAt m b B B.body.length +
      extra m b B.body.length B.term none := by
    rw [posOf, List.getElem?_eq_none (Nat.le_refl _)]
  by_cases c : startAt m b B B.body.length ≤ (passBlock m F b B).body.length
  · omega
  · exfalso
    -- the body is long enough for everything that comes before the end
    have h3 : ∀ j, j ≤ B.body.length → startAt m b B j ≤ (passBlock m F b B).body.length := by
      intro j
      induction j with
      | zero => intro _; rw [← prefix_len m b B]; simp [passBlock]
      | succ j ih =>
        intro hj
        have h4 := ih (by omega)
        have hI : B.body[j]? = some (B.body[j]'(by omega)) := List.getElem?_eq_getElem _
        obtain ⟨R, hR⟩ := body_at (m := m) (F := F) (b := b) hI
        have h5 := congrArg List.length hR
        rw [List.length_drop, List.length_append, visit_len (t := B.term), ← hI, List.length_cons] at h5
        rw [startAt_succ]
        unfold posOf
        omega
    exact c (h3 _ (Nat.le_refl _))

/-! ### Places -/

/-- Place `p'` after the pass belongs to place `p` before it. -/
def Proj (m : Marks) (F : Func) (p' p : Pt) : Prop :=
  p'.1 = p.1 ∧ ∀ B, F.blocks[p.1]? = some B →
    p.2 ≤ B.body.length + 1 ∧ p'.2 ≤ startAt m p.1 B p.2 ∧ (p.2 = 0 ∨ startAt m p.1 B (p.2 - 1) < p'.2)

theorem proj_unique {p' : Pt} {b k l : Nat} {B : Block} (hB : F.blocks[b]? = some B)
    (h1 : Proj m F p' (b, k)) (h2 : Proj m F p' (b, l)) : k = l := by
  obtain ⟨-, h1⟩ := h1
  obtain ⟨-, h2⟩ := h2
  obtain ⟨-, a1, a2⟩ := h1 B hB
  obtain ⟨-, b1, b2⟩ := h2 B hB
  simp only at a1 a2 b1 b2
  rcases Nat.lt_trichotomy k l with c | c | c
  · have := startAt_le (m := m) (b := b) (B := B) (show k ≤ l - 1 by omega)
    omega
  · exact c
  · have := startAt_le (m := m) (b := b) (B := B) (show l ≤ k - 1 by omega)
    omega

theorem proj_entry : Proj m F (0, 0) (0, 0) :=
  ⟨rfl, fun _ _ => ⟨Nat.zero_le _, Nat.zero_le _, Or.inl rfl⟩⟩

/-- Going on after the pass is staying at the same place, or going on, before it. In the second case one
comes from the end of what belongs to the place. -/
theorem proj_edge {p' q' p : Pt} (hp : Proj m F p' p) (he : (passFunc m F).Edge p' q') :
    Proj m F q' p ∨ ∃ q, Proj m F q' q ∧ F.Edge p q ∧
      ∃ B, F.blocks[p.1]? = some B ∧ p' = (p.1, startAt m p.1 B p.2) := by
  obtain ⟨b, k⟩ := p
  cases he with
  | @seq b' B' k' hb hk =>
    obtain ⟨B, hB, rfl⟩ := passFunc_some hb
    rw [body_len] at hk
    obtain ⟨e, h⟩ := hp
    simp only at e
    subst e
    obtain ⟨h1, h2, h3⟩ := h B hB
    simp only at h1 h2 h3
    by_cases c : k' < startAt m b' B k
    · refine Or.inl ⟨rfl, fun B2 hB2 => ?_⟩
      simp only at hB2 ⊢
      rw [hB, Option.some.injEq] at hB2
      subst hB2
      exact ⟨h1, by omega, by omega⟩
    · have e : k' = startAt m b' B k := by omega
      have hN : startAt m b' B (B.body.length + 1) = posOf m b' B B.body.length + 1 := rfl
      have hk2 : k ≤ B.body.length := by
        apply Decidable.byContradiction
        intro hc
        rw [show k = B.body.length + 1 by omega] at e
        omega
      refine Or.inr ⟨(b', k + 1), ⟨rfl, fun B2 hB2 => ?_⟩, .seq hB hk2, B, hB, by rw [e]⟩
      simp only at hB2 ⊢
      rw [hB, Option.some.injEq] at hB2
      subst hB2
      have := startAt_lt (m := m) (b := b') (B := B) (show k < k + 1 by omega)
      exact ⟨by omega, by omega, by right; rw [Nat.add_sub_cancel]; omega⟩
  | @jump b' B' t hb ht =>
    obtain ⟨B, hB, rfl⟩ := passFunc_some hb
    rw [succs_pass] at ht
    rw [body_len] at hp
    obtain ⟨e, h⟩ := hp
    simp only at e
    subst e
    obtain ⟨h1, h2, h3⟩ := h B hB
    simp only at h1 h2 h3
    have hN : startAt m b' B (B.body.length + 1) = posOf m b' B B.body.length + 1 := rfl
    have hk : k = B.body.length + 1 := by
      apply Decidable.byContradiction
      intro hc
      have := startAt_lt (m := m) (b := b') (B := B) (show k < B.body.length + 1 by omega)
      omega
    subst hk
    refine Or.inr ⟨(t, 0), ⟨rfl, fun _ _ => ⟨Nat.zero_le _, Nat.zero_le _, Or.inl rfl⟩⟩, .jump hB ht, B, hB, ?_⟩
    rw [body_len, hN]

theorem avoid_proj {a c : Nat} {D : Block} (hD : F.blocks[a]? = some D) {p' : Pt}
    (h : (passFunc m F).Avoid (a, startAt m a D c) p') :
    ∃ p, Proj m F p' p ∧ F.Avoid (a, c) p := by
  induction h with
  | entry => exact ⟨(0, 0), proj_entry, .entry⟩
  | step _ hne he ih =>
    obtain ⟨p, h1, h2⟩ := ih
    rcases proj_edge h1 he with h | ⟨q, h3, h4, B, hB, h5⟩
    · exact ⟨p, h, h2⟩
    · refine ⟨q, h3, .step h2 (fun e => hne ?_) h4⟩
      subst e
      rw [h5]
      simp only at hB ⊢
      rw [hD, Option.some.injEq] at hB
      rw [hB]

theorem reach_proj {p' : Pt} (h : (passFunc m F).Reach p') : ∃ p, Proj m F p' p ∧ F.Reach p := by
  induction h with
  | entry => exact ⟨(0, 0), proj_entry, .entry⟩
  | step _ he ih =>
    obtain ⟨p, h1, h2⟩ := ih
    rcases proj_edge h1 he with h | ⟨q, h3, h4, -⟩
    · exact ⟨p, h, h2⟩
    · exact ⟨q, h3, .step h2 h4⟩

/-- A renamed operand can be used where the operand can be used. -/
theorem usable_ren (hv : F.Valid) {p' : Pt} {b k : Nat} {B : Block} (hB : F.blocks[b]? = some B)
    (hp : Proj m F p' (b, k)) {o : Opd} (h : F.Usable (b, k) o) :
    (passFunc m F).Usable p' (renOpd m F o) := by
  cases o with
  | const v => trivial
  | arg i => exact h
  | reg r =>
    obtain ⟨h1, h2⟩ := h
    have key : ∀ (a c : Nat) (D : Block), F.blocks[a]? = some D → F.Avail (a, c) (b, k) →
        (passFunc m F).Avail (a, startAt m a D c) p' := by
      intro a c D hD hav ha
      obtain ⟨⟨b2, l⟩, h3, h4⟩ := avoid_proj hD ha
      have e : b2 = b := h3.1.symm.trans hp.1
      subst e
      have := proj_unique hB hp h3
      subst this
      exact hav h4
    cases r with
    | phi a c =>
      obtain ⟨D, hD, hc⟩ := h1
      refine ⟨⟨_, passFunc_get hD, by simpa [passBlock] using hc⟩, ?_⟩
      have h0 : startAt m a D 0 = 0 := by
        have : a ≠ 0 := by
          intro e
          subst e
          rw [hv.entry D hD] at hc
          exact absurd hc (Nat.not_lt_zero _)
        simp [startAt, this]
      have := key a 0 D hD h2
      rw [h0] at this
      exact this
    | ins a j =>
      obtain ⟨D, hD, hj⟩ := h1
      simp only [renOpd, renReg, hD]
      refine ⟨⟨_, passFunc_get hD, ?_⟩, ?_⟩
      · rw [body_len]; exact posOf_lt hj
      · exact key a (j + 1) D hD h2

/-! ### Operands of the inserted code -/

theorem tap_opds (b : Nat) (lg : Nat → Bool) : ∀ (os : List Opd) (k i : Nat),
    (∀ h ∈ (tap m F b lg k i os).1, ∃ o ∈ os, h = .hook m.hk (renOpd m F o)) ∧
    (∀ o' ∈ (tap m F b lg k i os).2, (∃ o ∈ os, o' = renOpd m F o) ∨
      ∃ y, y < (tap m F b lg k i os).1.length ∧ o' = .reg (.ins b (k + y)))
  | [], _, _ => by simp [tap]
  | o :: os, k, i => by
    by_cases c : lg i = true
    · obtain ⟨h1, h2⟩ := tap_opds b lg os (k + 1) (i + 1)
      simp only [tap, c, if_true]
      refine ⟨fun h hh => ?_, fun o' ho => ?_⟩
      · rcases List.mem_cons.1 hh with rfl | hh
        · exact ⟨o, by simp, rfl⟩
        · obtain ⟨o2, h3, h4⟩ := h1 h hh
          exact ⟨o2, by simp [h3], h4⟩
      · rcases List.mem_cons.1 ho with rfl | ho
        · unfold instead
          split
          · exact Or.inr ⟨0, by simp, rfl⟩
          · exact Or.inl ⟨o, by simp, rfl⟩
        · rcases h2 o' ho with ⟨o2, h3, h4⟩ | ⟨y, h3, h4⟩
          · exact Or.inl ⟨o2, by simp [h3], h4⟩
          · exact Or.inr ⟨y + 1, by simp [h3], by rw [h4]; congr 2; omega⟩
    · obtain ⟨h1, h2⟩ := tap_opds b lg os k (i + 1)
      simp only [tap, c, Bool.false_eq_true, if_false]
      refine ⟨fun h hh => ?_, fun o' ho => ?_⟩
      · obtain ⟨o2, h3, h4⟩ := h1 h hh
        exact ⟨o2, by simp [h3], h4⟩
      · rcases List.mem_cons.1 ho with rfl | ho
        · exact Or.inl ⟨o, by simp, rfl⟩
        · rcases h2 o' ho with ⟨o2, h3, h4⟩ | ⟨y, h3, h4⟩
          · exact Or.inl ⟨o2, by simp [h3], h4⟩
          · exact Or.inr ⟨y, h3, h4⟩

theorem renInstr_opds (ρ : Opd → Opd) (I : Instr) : (renInstr ρ I).opds = I.opds.map ρ := by
  cases I <;> simp [renInstr, Instr.opds]

theorem visit_opds (b j k : Nat) (I : Instr) :
    (∀ h ∈ (visit m F b j k I).1, ∃ o ∈ I.opds, h = .hook m.hk (renOpd m F o)) ∧
    (∀ o' ∈ (visit m F b j k I).2.opds, (∃ o ∈ I.opds, o' = renOpd m F o) ∨
      ∃ y, y < (visit m F b j k I).1.length ∧ o' = .reg (.ins b (k + y))) := by
  cases I with
  | op f args => exact tap_opds b (m.logged b j) args k 0
  | select c t e =>
    by_cases cl : m.logged b j 0 = true
    · simp only [visit, cl, if_true, Instr.opds]
      refine ⟨fun h hh => ?_, fun o' ho => ?_⟩
      · rw [List.mem_singleton] at hh
        exact ⟨c, by simp, hh⟩
      · rcases List.mem_cons.1 ho with rfl | ho
        · unfold instead
          split
          · exact Or.inr ⟨0, by simp, rfl⟩
          · exact Or.inl ⟨c, by simp, rfl⟩
        · simp only [List.mem_cons, List.not_mem_nil, or_false] at ho
          rcases ho with rfl | rfl
          · exact Or.inl ⟨t, by simp, rfl⟩
          · exact Or.inl ⟨e, by simp, rfl⟩
    · simp only [visit, cl, Bool.false_eq_true, if_false, Instr.opds]
      refine ⟨by simp, fun o' ho => Or.inl ?_⟩
      simp only [List.mem_cons, List.not_mem_nil, or_false] at ho
      rcases ho with rfl | rfl | rfl
      · exact ⟨c, by simp, rfl⟩
      · exact ⟨t, by simp, rfl⟩
      · exact ⟨e, by simp, rfl⟩
  | _ =>
    refine ⟨by simp [visit], fun o' ho => Or.inl ?_⟩
    simp only [visit, renInstr_opds, List.mem_map] at ho
    obtain ⟨o, h1, rfl⟩ := ho
    exact ⟨o, h1, rfl⟩

theorem visitTerm_opds (b k : Nat) (t : Term) :
    (∀ h ∈ (visitTerm m F b k t).1, (∃ o ∈ t.opds, h = .hook m.hk (renOpd m F o)) ∨
      ∃ x, h = .hook x (.const 0)) ∧
    (∀ o' ∈ (visitTerm m F b k t).2.opds, (∃ o ∈ t.opds, o' = renOpd m F o) ∨
      ∃ y, y < (visitTerm m F b k t).1.length ∧ o' = .reg (.ins b (k + y))) := by
  cases t with
  | br c f ts =>
    by_cases cl : m.cond b = true
    · simp only [visitTerm, cl, if_true, Term.opds, List.mem_singleton, forall_eq, exists_eq_left]
      refine ⟨Or.inl trivial, ?_⟩
      unfold instead
      split
      · exact Or.inr ⟨0, by simp, rfl⟩
      · exact Or.inl rfl
    · simp only [visitTerm, cl, Bool.false_eq_true, if_false, Term.opds, List.mem_singleton, forall_eq,
        exists_eq_left]
      exact ⟨by simp, Or.inl trivial⟩
  | ret v =>
    refine ⟨fun h hh => Or.inr ?_, fun o' ho => Or.inl ?_⟩
    · simp only [visitTerm] at hh
      cases hl : m.leave with
      | none => rw [hl] at hh; cases hh
      | some x => rw [hl] at hh; rw [List.mem_singleton] at hh; exact ⟨x, hh⟩
    · cases v with
      | none => cases ho
      | some v =>
        simp only [visitTerm, Option.map_some, Term.opds, List.mem_singleton] at ho
        exact ⟨v, by simp [Term.opds], ho⟩
  | unreachable => exact ⟨by simp [visitTerm], by simp [visitTerm, Term.opds]⟩

/-- The result of an inserted call can be used further down in the block. -/
theorem usable_tap {b k i : Nat} {B : Block} (hB : F.blocks[b]? = some B) (h : i + 1 < k)
    (hk : i < (passBlock m F b B).body.length) :
    (passFunc m F).Usable (b, k) (.reg (.ins b i)) :=
  ⟨⟨_, passFunc_get hB, hk⟩, Func.avail_same (passFunc_get hB) (by omega) h⟩

theorem pass_valid (hv : F.Valid) : (passFunc m F).Valid where
  target := by
    intro b B' t hb ht
    obtain ⟨B, hB, rfl⟩ := passFunc_some hb
    rw [succs_pass] at ht
    simpa [passFunc] using hv.target b B t hB ht
  entry := by
    intro B' hb
    obtain ⟨B, hB, rfl⟩ := passFunc_some hb
    simp [passBlock, hv.entry B hB]
  ins := by
    intro b B' i I' hb hI hr
    obtain ⟨B, hB, rfl⟩ := passFunc_some hb
    obtain ⟨⟨b2, k⟩, hp, hr2⟩ := reach_proj hr
    obtain ⟨e, h⟩ := id hp
    simp only at e
    subst e
    obtain ⟨h1, h2, h3⟩ := h B hB
    simp only at h1 h2 h3
    have hi : i < (passBlock m F b B).body.length := (List.getElem?_eq_some_iff.1 hI).1
    match k with
    | 0 =>
      have hlt : i < (prefixOf m b).length := by rw [prefix_len m b B]; omega
      simp only [passBlock] at hI
      rw [List.getElem?_append_left hlt] at hI
      have hmem := List.mem_of_getElem? hI
      simp only [prefixOf] at hmem
      intro o ho
      cases he : m.enter with
      | none => rw [he] at hmem; cases hmem
      | some x =>
        rw [he] at hmem
        simp only at hmem
        split at hmem
        · rw [List.mem_singleton] at hmem
          subst hmem
          simp only [Instr.opds, List.mem_singleton] at ho
          subst ho
          trivial
        · cases hmem
    | j + 1 =>
      have h3 : startAt m b B j < i + 1 := by
        rcases h3 with h3 | h3
        · omega
        · exact h3
      rw [startAt_succ] at h2
      have hget : ((passBlock m F b B).body.drop (startAt m b B j))[i - startAt m b B j]? = some I' := by
        rw [List.getElem?_drop, show startAt m b B j + (i - startAt m b B j) = i by omega]
        exact hI
      by_cases hj : j < B.body.length
      · have hJ : B.body[j]? = some (B.body[j]'hj) := List.getElem?_eq_getElem _
        have hu : ∀ o ∈ (B.body[j]'hj).opds, (passFunc m F).Usable (b, i + 1) (renOpd m F o) :=
          fun o ho => usable_ren hv hB hp (hv.ins b B j _ hB hJ hr2 o ho)
        obtain ⟨v1, v2⟩ := visit_opds (m := m) (F := F) b j (startAt m b B j) (B.body[j]'hj)
        obtain ⟨R, hR⟩ := body_at (m := m) (F := F) (b := b) hJ
        have hlen := visit_len m F b j (startAt m b B j) B.term (B.body[j]'hj)
        rw [← hJ] at hlen
        have hpos : posOf m b B j = startAt m b B j +
          (visit m F b j (startAt m b B j) (B.body[j]'hj)).1.length := by rw [hlen]; rfl
        rw [hR] at hget
        by_cases hx : i - startAt m b B j < (visit m F b j (startAt m b B j) (B.body[j]'hj)).1.length
        · rw [List.getElem?_append_left hx] at hget
          obtain ⟨o, ho, e⟩ := v1 _ (List.mem_of_getElem? hget)
          subst e
          intro o' ho'
          simp only [Instr.opds, List.mem_singleton] at ho'
          subst ho'
          exact hu o ho
        · rw [List.getElem?_append_right (by omega),
            show i - startAt m b B j - (visit m F b j (startAt m b B j) (B.body[j]'hj)).1.length = 0 by omega] at hget
          simp only [List.getElem?_cons_zero, Option.some.injEq] at hget
          subst hget
          intro o' ho'
          rcases v2 o' ho' with ⟨o, ho, rfl⟩ | ⟨y, hy, rfl⟩
          · exact hu o ho
          · exact usable_tap hB (by omega) (by omega)
      · have hj : j = B.body.length := by omega
        subst hj
        have hu : ∀ o ∈ B.term.opds, (passFunc m F).Usable (b, i + 1) (renOpd m F o) :=
          fun o ho => usable_ren hv hB hp (hv.term b B hB hr2 o ho)
        obtain ⟨v1, -⟩ := visitTerm_opds (m := m) (F := F) b (startAt m b B B.body.length) B.term
        rw [body_end] at hget
        intro o' ho'
        rcases v1 _ (List.mem_of_getElem? hget) with ⟨o, ho, e⟩ | ⟨x, e⟩
        · subst e
          simp only [Instr.opds, List.mem_singleton] at ho'
          subst ho'
          exact hu o ho
        · subst e
          simp only [Instr.opds, List.mem_singleton] at ho'
          subst ho'
          trivial
  term := by
    intro b B' hb hr
    obtain ⟨B, hB, rfl⟩ := passFunc_some hb
    have hb2 := body_len m F b B
    have hpt : Proj m F (b, (passBlock m F b B).body.length + 1) (b, B.body.length + 1) := by
      refine ⟨rfl, fun B2 hB2 => ?_⟩
      simp only at hB2 ⊢
      rw [hB, Option.some.injEq] at hB2
      subst hB2
      refine ⟨Nat.le_refl _, by rw [hb2, startAt_succ]; exact Nat.le_refl _, Or.inr ?_⟩
      rw [Nat.add_sub_cancel, hb2]
      have := startAt_le_posOf m b B B.body.length
      omega
    have hr2 : F.Reach (b, B.body.length + 1) := by
      obtain ⟨⟨b2, k⟩, hp, hr2⟩ := reach_proj hr
      have e : b = b2 := hp.1
      subst e
      rw [proj_unique hB hpt hp]
      exact hr2
    obtain ⟨-, v2⟩ := visitTerm_opds (m := m) (F := F) b (startAt m b B B.body.length) B.term
    have hlen := visitTerm_len m F b B.body.length (startAt m b B B.body.length) B.term
    have hpos : posOf m b B B.body.length = startAt m b B B.body.length +
        (visitTerm m F b (startAt m b B B.body.length) B.term).1.length := by
      rw [hlen, posOf, List.getElem?_eq_none (Nat.le_refl _)]
    intro o' ho'
    rcases v2 o' ho' with ⟨o, ho, rfl⟩ | ⟨y, hy, rfl⟩
    · exact usable_ren hv hB hpt (hv.term b B hB hr2 o ho)
    · exact usable_tap hB (by omega) (by omega)
  phi := by
    intro b B' t T' inc' o' hb ht hT hr hinc hlook
    obtain ⟨B, hB, rfl⟩ := passFunc_some hb
    obtain ⟨T, hT2, rfl⟩ := passFunc_some hT
    rw [succs_pass] at ht
    have hb2 := body_len m F b B
    have hpt : Proj m F (b, (passBlock m F b B).body.length + 1) (b, B.body.length + 1) := by
      refine ⟨rfl, fun B2 hB2 => ?_⟩
      simp only at hB2 ⊢
      rw [hB, Option.some.injEq] at hB2
      subst hB2
      refine ⟨Nat.le_refl _, by rw [hb2, startAt_succ]; exact Nat.le_refl _, Or.inr ?_⟩
      rw [Nat.add_sub_cancel, hb2]
      have := startAt_le_posOf m b B B.body.length
      omega
    have hr2 : F.Reach (b, B.body.length + 1) := by
      obtain ⟨⟨b2, k⟩, hp, hr2⟩ := reach_proj hr
      have e : b = b2 := hp.1
      subst e
      rw [proj_unique hB hpt hp]
      exact hr2
    simp only [passBlock, List.mem_map] at hinc
    obtain ⟨inc, hin, rfl⟩ := hinc
    have hl : ∀ inc : List (Nat × Opd), (inc.map (fun x => (x.1, renOpd m F x.2))).lookup b =
        (inc.lookup b).map (renOpd m F) := by
      intro inc
      induction inc with
      | nil => rfl
      | cons x inc ih =>
        obtain ⟨i, o⟩ := x
        simp only [List.map_cons, List.lookup_cons]
        cases b == i <;> simp [ih]
    rw [hl, Option.map_eq_some_iff] at hlook
    obtain ⟨o, h1, rfl⟩ := hlook
    exact usable_ren hv hB hpt (hv.phi b B t T inc o hB ht hT2 hr2 hin h1)

theorem bavoid_pass {a b : Nat} (h : (passFunc m F).BAvoid a b) : F.BAvoid a b := by
  induction h with
  | entry h => exact .entry h
  | step _ hb ht hne ih =>
    obtain ⟨B, hB, rfl⟩ := passFunc_some hb
    rw [succs_pass] at ht
    exact .step ih hB ht hne

theorem pass_some {C : Nat → Marks} {P : Prog} {f : Nat} {F' : Func} (h : (pass C P)[f]? = some F') :
    ∃ F, P[f]? = some F ∧ F' = passFunc (C f) F := by
  simp only [pass, List.getElem?_mapIdx, Option.map_eq_some_iff] at h
  obtain ⟨F, h1, h2⟩ := h
  exact ⟨F, h1, h2.symm⟩

end CfPass
end Verif
