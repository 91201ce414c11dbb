import Verif.LabelsTsoStep
/- Helper lemmas: every reachable state of the store-buffer machine corresponds to a reachable state of
the machine with old values. -/
namespace Verif
open Spec

namespace TSys
open Labels CSys

/-- With nobody inside, everything is published. -/
theorem Rel.full {T : TSys} {S : WSys} {P : Nat} (R : Rel T S P) {V : Labels} {tail : List Nat}
    (hi : CSys.Inv S.sys V tail) (h : ∀ t, T.lock = some t → ¬ InCS (T.threads t)) :
    V.words.length = S.sys.mem.length := by
  have : S.sys.lock = none := by
    cases hl : S.sys.lock with
    | none => rfl
    | some t =>
      have := (hi.holder t).2 hl
      rw [R.threads] at this
      exact absurd this (h t (R.lock t hl))
  rw [hi.mem, hi.free this, List.append_nil]

theorem Rel.only {T : TSys} {S : WSys} {P : Nat} (_ : Rel T S P) {t : Nat} (hl : T.lock = some t)
    (h : ¬ InCS (T.threads t)) : ∀ u, T.lock = some u → ¬ InCS (T.threads u) := by
  intro u hu; rw [hl] at hu; cases hu; exact h

/-- A thread outside the critical section sees a word it may use at a value the word has or had. -/
theorem Rel.load {T : TSys} {S : WSys} {P : Nat} (R : Rel T S P) {t a : Nat} (hcs : ¬ InCS (T.threads t))
    (h1 : T.lock ≠ some t → a < P) (h2 : a < S.sys.mem.length) : S.Has a (T.load t a) ∧ a < T.sizeFor t := by
  by_cases hl : T.lock = some t
  · cases R.owner t hl with
    | inside h _ _ _ _ => exact absurd h hcs
    | outside pre post _ h4 h5 h6 h7 h8 =>
      constructor
      · unfold TSys.load
        rw [h4, after_append]
        show S.Has a (after (after T.mem pre) post a)
        refine h7.has ?_
        by_cases hP : a < P
        · rw [h6.low T.mem hP]; exact (R.low a hP).1
        · exact (h8 a (by omega) h2).1
      · unfold sizeFor
        rw [h4, sizeAfter_append]
        show a < sizeAfter (sizeAfter T.size pre) post
        rw [h7.sizeAfter, h5]; exact h2
  · have ha := h1 hl
    have hL := R.others t hl
    exact ⟨hL.has (R.low a ha).1, by unfold sizeFor; rw [hL.sizeAfter]; have := R.sizeP; omega⟩

/-- Inside the critical section the write position is the one of the whole section. -/
theorem Rel.insize {T : TSys} {S : WSys} {P : Nat} (R : Rel T S P) {t : Nat} (hl : T.lock = some t)
    (hcs : InCS (T.threads t)) : T.sizeFor t = S.sys.mem.length ∧ base (T.threads t) = some P := by
  cases R.owner t hl with
  | inside _ h2 h3 _ _ => exact ⟨h3, h2⟩
  | outside _ _ h => exact absurd hcs h

theorem stale_word {S : CSys} {V : Labels} {tail : List Nat} (h : Inv S V tail) {c w : Nat} (hc : V.Lab c)
    (hs : Stale V c w) : ∃ v, S.mem[c]? = some v ∧ addCf w = addCf v := by
  refine ⟨V.words[c]'hc.2, ?_, ?_⟩
  · rw [h.mem, List.getElem?_append_left hc.2, List.getElem?_eq_getElem]
  · have := List.getElem?_eq_getElem hc.2
    rcases hs with hs | hs <;> rw [this, Option.some.injEq] at hs
    · rw [hs]
    · rw [hs, C02_addCf_idem]

/-- Outcome of a step of the store-buffer machine. -/
theorem Rel.step {T : TSys} {S : WSys} {P cap : Nat} (R : Rel T S P) (h0 : 0 < cap) (hcap : cap ≤ 2 ^ 31)
    (hr : WSys.Reach cap S) {t : Nat} {X : Res TSys} (hs : T.step t = some X) :
    (∃ T' S', X = .ok T' ∧ WSys.Reach cap S' ∧ Rel T' S' P) ∨
    (X = .fatal ∧ (∃ l r e, T.threads t = .uAlloc l r e) ∧ T.size = cap) ∨
    (X = .ub ∧ ∃ src off n, T.threads t = .sAlloc src off n ∧ cap < T.size + n) := by
  obtain ⟨V, tail, hi, hc⟩ := hr.inv h0 hcap
  have hloc := hi.sys.loc t
  have hth := congrFun R.threads t
  have hfits := hi.sys.fits
  cases hld : loads (T.threads t) with
  | some a =>
    have hld' : loads (S.sys.threads t) = some a := by rw [hth]; exact hld
    have hcs : ¬ InCS (T.threads t) := by
      intro h
      cases hpc : T.threads t <;> rw [hpc] at h hld <;> first | exact absurd h id | (cases hld; done)
    have h1 : T.lock ≠ some t → a < P := fun h => loads_below hi.sys (by rw [hth]; exact R.pcs t h) hld'
    have hV : a < V.words.length := (hi.sys.react (w := (V.words[a]?).getD 0) hld' (fun hlt => Or.inl (by
      rw [List.getElem?_eq_getElem hlt]; rfl))).1
    have h2 : a < S.sys.mem.length := by rw [hi.sys.mem, List.length_append]; omega
    obtain ⟨h3, h4⟩ := R.load hcs h1 h2
    obtain ⟨-, p, hp, hp'⟩ := hi.sys.react hld' (fun hlt => hi.has h3 hlt)
    have hp2 : react (T.threads t) (T.load t a) = .ok p := by rw [← hth]; exact hp
    unfold TSys.step at hs
    rw [hld] at hs
    simp only [h4, if_true, hp2, Res.bind_ok, Res.pure_eq, Option.some.injEq] at hs
    subst hs
    refine Or.inl ⟨_, _, rfl, .step hr (t := t) ?_, R.quiet (es := p.2) hcs ?_ ?_ ?_⟩
    · have := WSys.Step.load (S := S) (t := t) hld' h3
      rw [hp] at this
      exact this
    · intro h
      have hS : (S.sys.become t p).lock = some t := (hp'.holder t).1 (by simp [become, goto]; exact h)
      have hS' : S.sys.lock = some t := hS
      exact hcs (by rw [← hth]; exact (hi.sys.holder t).2 hS')
    · intro h
      refine (react_below (R.pcs t h) ?_ hp2).1
      intro l r e i n he
      rw [hth, he] at hloc
      have := hloc.1.1; have := hloc.2.2.2.1; omega
    · intro h
      refine (react_below (R.pcs t h) ?_ hp2).2
      intro l r e i n he
      rw [hth, he] at hloc
      have := hloc.1.1; have := hloc.2.2.2.1; omega
  | none =>
    have hld' : loads (S.sys.threads t) = none := by rw [hth]; exact hld
    have other : ∀ S1, S.sys.step t = some (.ok S1) → WSys.Reach cap ⟨S1, S.past t⟩ := by
      intro S1 h
      exact .step hr (WSys.Step.other (R := .ok S1) hld' h)
    have hpast : stores (T.threads t) = none → S.past t = S.old := by
      intro h; funext a; unfold WSys.past; rw [hth, h]; simp
    unfold TSys.step at hs
    rw [hld] at hs
    cases hpc : T.threads t with
    | idle => rw [hpc] at hs; cases hs
    | uLeft => rw [hpc] at hld; cases hld
    | uRight => rw [hpc] at hld; cases hld
    | uSize l r e =>
      rw [hpc] at hs
      simp only at hs
      split at hs
      · rename_i hfree
        simp only [Option.some.injEq] at hs
        subst hs
        obtain ⟨hP, hsz⟩ := R.free hfree.1
        have hlock : S.sys.lock = none := by
          cases h : S.sys.lock with
          | none => rfl
          | some u => have := R.lock u h; rw [hfree.1] at this; cases this
        have hst := other (S.sys.goto t (.uScan l r e S.sys.mem.length
          (if S.sys.mem.length - max l r ≥ redundantLabelRange then redundantLabelRange else S.sys.mem.length - max l r))) (by
          unfold CSys.step; rw [hth, hpc]; simp only [hlock, if_true])
        rw [← hsz] at hst
        exact Or.inl ⟨_, _, rfl, hst, R.peek hfree.1 hfree.2 (fun h => absurd h id) (by rw [hth, hpc]; rfl)⟩
      · cases hs
    | uScan l r e i n =>
      cases n with
      | succ n => rw [hpc] at hld; cases hld
      | zero =>
        rw [hpc] at hs
        simp only [Option.some.injEq] at hs
        subst hs
        have hst := other (S.sys.goto t (.uAlloc l r e)) (by unfold CSys.step; rw [hth, hpc])
        rw [hpast (by rw [hpc]; rfl)] at hst
        have hq := R.quiet (t := t) (pc' := .uAlloc l r e) (es := []) (by rw [hpc]; exact id) id
          (fun h => ⟨fun k hk => (R.pcs t h).ops k (by rw [hpc]; exact hk), by simp [CSys.root], by simp⟩) (by simp)
        have hbe : S.sys.become t (.uAlloc l r e, []) = S.sys.goto t (.uAlloc l r e) := by
          show ({ (S.sys.goto t (.uAlloc l r e)) with log := S.sys.log ++ [] } : CSys) = _
          rw [List.append_nil]; rfl
        rw [hbe] at hq
        exact Or.inl ⟨_, _, rfl, hst, hq⟩
    | uAlloc l r e =>
      rw [hpc] at hs
      simp only at hs
      split at hs
      · rename_i hfree
        obtain ⟨hP, hsz⟩ := R.free hfree.1
        have hlock : S.sys.lock = none := by
          cases h : S.sys.lock with
          | none => rfl
          | some u => have := R.lock u h; rw [hfree.1] at this; cases this
        split at hs
        · rename_i hle
          simp only [Option.some.injEq] at hs
          subst hs
          have hst := other ({ S.sys with mem := S.sys.mem ++ [0], lock := some t }.goto t (.uWrite l r e S.sys.mem.length)) (by
            unfold CSys.step; rw [hth, hpc]; simp only [hlock, if_true]
            rw [if_pos (by rw [R.cap]; omega)])
          have hq := R.alloc (k := 1) (pc' := .uWrite l r e T.size) hfree.1 hfree.2 trivial rfl (by rw [hth, hpc]; rfl)
          rw [← hsz] at hst
          exact Or.inl ⟨_, _, rfl, hst, hq⟩
        · rename_i hle
          simp only [Option.some.injEq] at hs
          refine Or.inr (Or.inl ⟨hs.symm, ⟨l, r, e, rfl⟩, ?_⟩)
          have := R.cap
          omega
      · cases hs
    | uWrite l r e idx =>
      have hcs : InCS (T.threads t) := by rw [hpc]; trivial
      have hl : T.lock = some t := R.lock t ((hi.sys.holder t).1 (by rw [hth]; exact hcs))
      obtain ⟨h1, h2⟩ := R.insize hl hcs
      rw [hpc] at hs h2
      rw [hth, hpc] at hloc
      have hidx : idx = V.words.length := hloc.2.2.2.1
      have htl : tail.length = 1 := hloc.2.2.2.2
      have hlen : S.sys.mem.length = idx + 1 := by rw [hi.sys.mem, List.length_append]; omega
      cases h2
      simp only [h1] at hs
      rw [if_pos (by omega)] at hs
      simp only [Option.some.injEq] at hs
      subst hs
      have hst := other ({ S.sys with mem := S.sys.mem.set P e }.goto t (.uUnlock l r P)) (by
        unfold CSys.step; rw [hth, hpc]; simp only; rw [if_pos (by omega)])
      exact Or.inl ⟨_, _, rfl, hst, R.write hcs hl trivial (by rw [hpc]; rfl) (Nat.le_refl _) (by omega) (by rw [hth, hpc]; rfl)⟩
    | uUnlock l r idx =>
      have hcs : InCS (T.threads t) := by rw [hpc]; trivial
      have hl : T.lock = some t := R.lock t ((hi.sys.holder t).1 (by rw [hth]; exact hcs))
      rw [hpc] at hs
      simp only [Option.some.injEq] at hs
      subst hs
      have hst := other ({ S.sys with lock := none }.finish t (.union l r idx)) (by unfold CSys.step; rw [hth, hpc])
      exact Or.inl ⟨_, _, rfl, hst, R.unlock hcs hl (by rw [hth, hpc]; rfl)⟩
    | sAlloc src off n =>
      rw [hpc] at hs
      simp only at hs
      split at hs
      · rename_i hfree
        obtain ⟨hP, hsz⟩ := R.free hfree.1
        have hlock : S.sys.lock = none := by
          cases h : S.sys.lock with
          | none => rfl
          | some u => have := R.lock u h; rw [hfree.1] at this; cases this
        split at hs
        · rename_i hle
          simp only [Option.some.injEq] at hs
          subst hs
          have hst := other ({ S.sys with mem := S.sys.mem ++ List.replicate n 0, lock := some t }.goto t (.sWrite src off n S.sys.mem.length 0)) (by
            unfold CSys.step; rw [hth, hpc]; simp only [hlock, if_true]
            rw [if_pos (by rw [R.cap]; omega)])
          have hq := R.alloc (k := n) (pc' := .sWrite src off n T.size 0) hfree.1 hfree.2 trivial rfl (by rw [hth, hpc]; rfl)
          rw [← hsz] at hst
          exact Or.inl ⟨_, _, rfl, hst, hq⟩
        · rename_i hle
          simp only [Option.some.injEq] at hs
          refine Or.inr (Or.inr ⟨hs.symm, src, off, n, rfl, ?_⟩)
          have := R.cap
          omega
      · cases hs
    | sWrite src off n first k =>
      have hcs : InCS (T.threads t) := by rw [hpc]; trivial
      have hl : T.lock = some t := R.lock t ((hi.sys.holder t).1 (by rw [hth]; exact hcs))
      obtain ⟨h1, h2⟩ := R.insize hl hcs
      rw [hpc] at hs h2
      rw [hth, hpc] at hloc
      have hidx : first = V.words.length := hloc.2.1
      have htl : tail.length = n := hloc.2.2.1
      have hlen : S.sys.mem.length = first + n := by rw [hi.sys.mem, List.length_append]; omega
      cases h2
      simp only [h1] at hs
      split at hs
      · rename_i hkn
        rw [if_pos (by omega)] at hs
        simp only [Option.some.injEq] at hs
        subst hs
        have hst := other ({ S.sys with mem := S.sys.mem.set (P + k) (encode (.source false src (off + k))) }.goto t (.sWrite src off n P (k + 1))) (by
          unfold CSys.step; rw [hth, hpc]; simp only; rw [if_pos hkn, if_pos (by omega)])
        exact Or.inl ⟨_, _, rfl, hst, R.write hcs hl trivial (by rw [hpc]; rfl) (by omega) (by omega) (by rw [hth, hpc]; rfl)⟩
      · rename_i hkn
        simp only [Option.some.injEq] at hs
        subst hs
        have hst := other ({ S.sys with lock := none }.finish t (.source src off n P)) (by
          unfold CSys.step; rw [hth, hpc]; simp only; rw [if_neg hkn])
        exact Or.inl ⟨_, _, rfl, hst, R.unlock hcs hl (by rw [hth, hpc]; rfl)⟩
    | mChild => rw [hpc] at hld; cases hld
    | mSrcLoad => rw [hpc] at hld; cases hld
    | mEnc => rw [hpc] at hld; cases hld
    | mSetLoad => rw [hpc] at hld; cases hld
    | mSrcStore x q c rest w =>
      have hcs : ¬ InCS (T.threads t) := by rw [hpc]; exact id
      rw [hpc] at hs
      rw [hth, hpc] at hloc
      obtain ⟨⟨hq, hx, hwork, hrt⟩, -, hstale⟩ := hloc
      have hcl := hwork c (by simp [owed])
      have hP : T.lock ≠ some t → c < P := fun h =>
        Nat.lt_of_le_of_lt (builtFrom_le hi.sys.wf hcl.2) ((R.pcs t h).root x (by rw [hpc]; rfl))
      have hclt : c < S.sys.mem.length := by rw [hi.sys.mem, List.length_append]; have := hcl.1.2; omega
      obtain ⟨v, hv, hwv⟩ := stale_word hi.sys hcl.1 hstale
      simp only at hs
      rw [if_pos (R.load hcs hP hclt).2] at hs
      simp only [Option.some.injEq] at hs
      subst hs
      have hst := other ({ S.sys with mem := S.sys.mem.set c (addCf w) }.goto t (next x q rest)) (by
        unfold CSys.step; rw [hth, hpc]; simp only; rw [if_pos hclt])
      refine Or.inl ⟨_, _, rfl, hst, R.flag hcs (not_incs_next _ _ _) (fun h => ?_) (by rw [hth, hpc]; rfl) hv hwv hP⟩
      refine ⟨by simp [operands_next], fun y hy => ?_, fun l r e i n he => ?_⟩
      · rw [root_next] at hy; cases hy; exact (R.pcs t h).root x (by rw [hpc]; rfl)
      · cases rest <;> cases he
    | mPop x q =>
      have hcs : ¬ InCS (T.threads t) := by rw [hpc]; exact id
      rw [hpc] at hs
      simp only [Option.some.injEq] at hs
      split at hs
      · rename_i hem
        subst hs
        have hst := other (S.sys.finish t (.mark x)) (by
          unfold CSys.step; rw [hth, hpc]; simp only; rw [if_pos hem])
        rw [hpast (by rw [hpc]; rfl)] at hst
        exact Or.inl ⟨_, _, rfl, hst, R.quiet (pc' := .idle) (es := [.mark x]) hcs id
          (fun h => ⟨by simp [operands], by simp [CSys.root], by simp⟩)
          (fun _ e he l hl => by simp only [List.mem_singleton] at he; subst he; exact absurd hl id)⟩
      · rename_i hem
        rw [hth, hpc] at hloc
        obtain ⟨hq, hx, hwork, hrt⟩ := (hloc : Marking V x q (.mPop x q))
        have hemp := LabelDeq.isEmpty_holds hq
        cases hcont : content q with
        | nil => rw [hcont] at hemp; exact absurd (by rw [hemp]; rfl) hem
        | cons l ls =>
          have hq2 := hq
          unfold ValidQ at hq2
          rw [hcont] at hq2
          obtain ⟨q', hpop, -⟩ := LabelDeq.popFront_holds hq2
          rw [hpop] at hs
          simp only [Res.bind_ok, Res.pure_eq] at hs
          subst hs
          have hst := other (S.sys.goto t (.mEnc x q' l)) (by
            unfold CSys.step; rw [hth, hpc]; simp only; rw [if_neg hem, hpop]; rfl)
          rw [hpast (by rw [hpc]; rfl)] at hst
          have hqq := R.quiet (t := t) (pc' := .mEnc x q' l) (es := []) hcs id
            (fun h => ⟨by simp [operands], fun y hy => by cases hy; exact (R.pcs t h).root x (by rw [hpc]; rfl), by simp⟩) (by simp)
          have hbe : S.sys.become t (.mEnc x q' l, []) = S.sys.goto t (.mEnc x q' l) := by
            show ({ (S.sys.goto t (.mEnc x q' l)) with log := S.sys.log ++ [] } : CSys) = _
            rw [List.append_nil]; rfl
          rw [hbe] at hqq
          exact Or.inl ⟨_, _, rfl, hst, hqq⟩
    | mSetStore x q l e w =>
      have hcs : ¬ InCS (T.threads t) := by rw [hpc]; exact id
      rw [hpc] at hs
      rw [hth, hpc] at hloc
      obtain ⟨⟨hq, hx, hwork, hrt⟩, ⟨ty, u, hd, hg, hsame⟩, hstale⟩ := hloc
      have hcl := hwork l (by simp [owed])
      have hP : T.lock ≠ some t → l < P := fun h =>
        Nat.lt_of_le_of_lt (builtFrom_le hi.sys.wf hcl.2) ((R.pcs t h).root x (by rw [hpc]; rfl))
      have hclt : l < S.sys.mem.length := by rw [hi.sys.mem, List.length_append]; have := hcl.1.2; omega
      obtain ⟨v, hv, hwv⟩ := stale_word hi.sys hcl.1 hstale
      simp only at hs
      rw [if_pos (R.load hcs hP hclt).2, hd] at hs
      simp only [Res.bind_ok, Res.pure_eq, Option.some.injEq] at hs
      subst hs
      have hst := other ({ S.sys with mem := S.sys.mem.set l (addCf w) }.goto t (next x q (childList ty))) (by
        unfold CSys.step; rw [hth, hpc]; simp only; rw [if_pos hclt, hd]; rfl)
      refine Or.inl ⟨_, _, rfl, hst, R.flag hcs (not_incs_next _ _ _) (fun h => ?_) (by rw [hth, hpc]; rfl) hv hwv hP⟩
      refine ⟨by simp [operands_next], fun y hy => ?_, fun a b c i n he => ?_⟩
      · rw [root_next] at hy; cases hy; exact (R.pcs t h).root x (by rw [hpc]; rfl)
      · cases h : childList ty <;> rw [h] at he <;> cases he

end TSys
end Verif
