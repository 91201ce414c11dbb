import Verif.LabelsWeak
/- Helper lemmas: loads of old values keep the invariant of the label section. -/
namespace Verif
open Spec

namespace CSys
open Labels

theorem Stale.taint {V : Labels} (hwf : V.WF) {l w : Nat} (hl : V.Lab l) (hs : Stale V l w) :
    ∃ ty u, decode w = .ok ty ∧ V.graph l = some u ∧ withFlag false u = withFlag false ty ∧
      (flagOf ty = true → flagOf u = true) ∧ w < 2 ^ 64 := by
  obtain ⟨u, hu, -, -⟩ := hwf.read hl.1 hl.2
  obtain ⟨v, hv, hd⟩ := graph_eq_some.1 hu
  have hvlt := hwf.word v (List.mem_of_getElem? hv)
  rcases hs with h | h
  · rw [hv] at h; cases h
    exact ⟨u, u, hd, hu, rfl, id, hvlt⟩
  · rw [hv] at h; cases h
    have hlt : w < 2 ^ 64 := Nat.lt_of_le_of_lt (Nat.left_le_or) hvlt
    cases hw : decode w with
    | ok ty =>
      have := (C02_addCf w hlt).2.2.1 ty hw
      rw [hd] at this; cases this
      exact ⟨ty, _, rfl, hu, withFlag_withFlag _ _ _, fun _ => by cases ty <;> rfl, hlt⟩
    | fatal =>
      have := (C02_addCf w hlt).2.2.2.1 hw
      rw [hd] at this; cases this
    | ub => rw [decode_eq] at hw; repeat' split at hw
            all_goals cases hw
    | hang => rw [decode_eq] at hw; repeat' split at hw
              all_goals cases hw

theorem ready_of_compute' {V : Labels} (hwf : V.WF) {l r : Nat} (hne : l ≠ r) (hl : V.Lab l) (hr : V.Lab r)
    {ul ur lv rv : Taint} (hgl : V.graph l = some ul) (hs : withFlag false ul = withFlag false lv)
    (hgr : V.graph r = some ur) (hs' : withFlag false ur = withFlag false rv) :
    (∀ u, compute l lv r rv = .label u → V.Lab u ∧
      ∀ b, Denotes V.graph u b ↔ Denotes V.graph l b ∨ Denotes V.graph r b) ∧
    (∀ ty, compute l lv r rv = .taint ty → V.UnionReady l r (encode ty)) := by
  obtain ⟨-, -, Ll, rl⟩ := hwf.refs hgl
  obtain ⟨-, -, Lr, rr⟩ := hwf.refs hgr
  have e := withFlag_eq_cases hs
  have e' := withFlag_eq_cases hs'
  have Ll' : LegalTaint lv := by rw [e, LegalTaint_withFlag]; exact Ll
  have rl' : ∀ k, Ref lv k → 0 < k ∧ k < l := fun k hk => rl k ((Ref_congr_flag hs k).2 hk)
  have Lr' : LegalTaint rv := by rw [e', LegalTaint_withFlag]; exact Lr
  have rr' : ∀ k, Ref rv k → 0 < k ∧ k < r := fun k hk => rr k ((Ref_congr_flag hs' k).2 hk)
  have good := compute_good (D := Denotes V.graph) (left := l) (right := r) (l := lv) (r := rv)
    (fun b => (denotes_iff hgl b).trans (DenT_congr_flag _ hs b))
    (fun b => (denotes_iff hgr b).trans (DenT_congr_flag _ hs' b)) Ll' Lr'
  have hcap := Nat.le_trans hwf.fits hwf.cap
  have := hl.2; have := hr.2
  have ok := compute_ok (n := max l r + 1) hne hl.1 hr.1 (by omega) (by omega) (by omega) Ll' Lr' rl' rr'
  constructor
  · intro u hu
    rw [hu] at good
    refine ⟨?_, good.2⟩
    rcases good.1 with h | h <;> rw [h] <;> assumption
  · intro ty hty
    rw [hty] at good ok
    exact ⟨ty, rfl, ok, good⟩

/-- A hit in the scan, seen through an old value. -/
theorem dup_hit' {V : Labels} (hwf : V.WF) {l r e d w : Nat} (hr : V.UnionReady l r e) (hd : V.Lab d)
    (hw : Stale V d w) (heq : equalIgnoreCf w e = true) :
    ∀ b, Denotes V.graph d b ↔ Denotes V.graph l b ∨ Denotes V.graph r b := by
  obtain ⟨ty, rfl, hok, hden⟩ := hr
  obtain ⟨v, u, hdw, hu, hsame, -, hwlt⟩ := hw.taint hwf hd
  have hrt := C01_decode_encode ty (legal_representable hok.1)
  have hflag := (C02_equalIgnoreCf w (encode ty) hwlt hrt.2 v ty hdw hrt.1).1 heq
  intro b
  rw [denotes_iff hu, DenT_congr_flag _ (hsame.trans hflag)]
  exact hden b

/-- A thread that loads the last or an earlier value of a word gets on, and the invariant stays. -/
theorem Inv.react {S : CSys} {V : Labels} {tail : List Nat} (h : Inv S V tail) {t a w : Nat}
    (ha : loads (S.threads t) = some a) (hw : a < V.words.length → Stale V a w) :
    a < V.words.length ∧ ∃ p, CSys.react (S.threads t) w = .ok p ∧ Inv (S.become t p) V tail := by
  have hloc := h.loc t
  have hops := h.ops t
  have hgoto : ∀ pc', Inv (S.goto t pc') V tail → Inv (S.become t (pc', [])) V tail := by
    intro pc' hi
    have : S.become t (pc', []) = S.goto t pc' := by
      show ({ (S.goto t pc') with log := S.log ++ [] } : CSys) = S.goto t pc'
      rw [List.append_nil]; rfl
    rw [this]; exact hi
  cases hpc : S.threads t with
  | uLeft l r =>
    rw [hpc] at ha hloc
    simp only [loads, Option.some.injEq] at ha; subst ha
    obtain ⟨ty, u, h2, h3, h4, -⟩ := (hw hloc.2.1.2).taint h.wf hloc.2.1
    refine ⟨hloc.2.1.2, (.uRight l r ty, []), by simp [CSys.react, h2], hgoto _ (h.goto ?_
      ⟨hloc.1, hloc.2.1, hloc.2.2, u, h3, h4⟩ ?_ ?_ ?_)⟩
    all_goals rw [hpc]
    · exact Iff.rfl
    · exact fun l hl => Or.inl hl
    · simp [owed]
    · simp [root]
  | uRight l r lv =>
    rw [hpc] at ha hloc hops
    simp only [loads, Option.some.injEq] at ha; subst ha
    obtain ⟨ty, u', h2, h3, h4, -⟩ := (hw hloc.2.2.1.2).taint h.wf hloc.2.2.1
    obtain ⟨u, hu, hsame⟩ := hloc.2.2.2
    obtain ⟨ra, rb⟩ := ready_of_compute' h.wf hloc.1 hloc.2.1 hloc.2.2.1 hu hsame h3 h4
    cases hc : compute l lv r ty with
    | label d =>
      obtain ⟨hd1, hd2⟩ := ra d hc
      refine ⟨hloc.2.2.1.2, (.idle, [.union l r d]), by simp [CSys.react, h2, hc],
        h.finish_union ?_ (hops l (by simp [operands])) (hops r (by simp [operands])) hd1 hd2 ?_ ?_⟩
      all_goals rw [hpc]
      · exact id
      · rfl
      · rfl
    | taint ty' =>
      refine ⟨hloc.2.2.1.2, (.uSize l r (encode ty'), []), by simp [CSys.react, h2, hc],
        hgoto _ (h.goto ?_ ⟨hloc.2.1, hloc.2.2.1, rb ty' hc⟩ ?_ ?_ ?_)⟩
      all_goals rw [hpc]
      · exact Iff.rfl
      · exact fun l hl => Or.inl hl
      · simp [owed]
      · simp [root]
  | uScan l r e i n =>
    rw [hpc] at ha hloc hops
    obtain ⟨hl, hr, hready, hin, hi⟩ := hloc
    cases n with
    | zero => cases ha
    | succ n =>
      simp only [loads, Option.some.injEq] at ha; subst ha
      have hlab : V.Lab (i - 1) := by have := hl.1; exact ⟨by omega, by omega⟩
      have hs := hw hlab.2
      refine ⟨hlab.2, ?_⟩
      by_cases heq : equalIgnoreCf w e = true
      · refine ⟨(.idle, [.union l r (i - 1)]), by simp [CSys.react, heq],
          h.finish_union ?_ (hops l (by simp [operands])) (hops r (by simp [operands])) hlab
          (dup_hit' h.wf hready hlab hs heq) ?_ ?_⟩
        all_goals rw [hpc]
        · exact id
        · rfl
        · rfl
      · refine ⟨(.uScan l r e (i - 1) n, []), by simp [CSys.react, heq],
          hgoto _ (h.goto ?_ ⟨hl, hr, hready, by omega, by omega⟩ ?_ ?_ ?_)⟩
        all_goals rw [hpc]
        · exact Iff.rfl
        · exact fun l hl => Or.inl hl
        · simp [owed]
        · simp [root]
  | mChild x q c rest =>
    rw [hpc] at ha hloc
    simp only [loads, Option.some.injEq] at ha; subst ha
    obtain ⟨hq, hx, hwork, hrt⟩ := (hloc : Marking V x q (.mChild x q c rest))
    have hc := hwork c (by simp [owed])
    have hmem : ∀ k, k ∈ owed (.mChild x q c rest) ↔ k = c ∨ k ∈ content q ∨ k ∈ rest := by
      intro k; simp only [owed, List.mem_append, List.mem_cons]; grind
    obtain ⟨ty, u, h2, h3, h4, h5, -⟩ := (hw hc.1.2).taint h.wf hc.1
    refine ⟨hc.1.2, ?_⟩
    by_cases hcf : checkCf w = true
    · refine ⟨(next x q rest, []), by simp [CSys.react, hcf], hgoto _ (h.goto ?_
        (local_next hq hx (fun l hl => hwork l ((hmem l).2 (Or.inr hl))) ?_) ?_ ?_ ?_)⟩
      all_goals rw [C02_checkCf w ty h2] at hcf
      · rw [hpc]; exact ⟨fun h' => absurd h' (not_incs_next _ _ _), fun h' => absurd h' id⟩
      · rcases hrt with h' | h'
        · exact Or.inl h'
        · rcases (hmem x).1 h' with rfl | h''
          · exact Or.inl ⟨u, h3, h5 hcf⟩
          · exact Or.inr h''
      · simp [operands_next]
      · rw [hpc]
        intro k hk
        rcases (hmem k).1 hk with rfl | h''
        · exact Or.inl ⟨u, h3, h5 hcf⟩
        · exact Or.inr ((owed_next ..).2 h'')
      · rw [hpc]; intro y hy; rw [root_next]; exact hy
    · by_cases hsrc : isSourceTaint w = true
      · refine ⟨(.mSrcLoad x q c rest, []), by simp [CSys.react, hcf, hsrc], hgoto _ (h.goto ?_
          ⟨⟨hq, hx, hwork, hrt⟩, ?_⟩ ?_ ?_ ?_)⟩
        · rw [hpc]; exact Iff.rfl
        · obtain ⟨cf, i, o, rfl⟩ := (C02_isSource w ty h2).1 hsrc
          cases u with
          | source cf' i' o' => exact ⟨cf', i', o', h3⟩
          | range => simp [withFlag] at h4
          | union => simp [withFlag] at h4
        all_goals rw [hpc]
        · simp [operands]
        · exact fun k hk => Or.inr hk
        · exact fun y hy => hy
      · obtain ⟨q', hq', hh⟩ := LabelDeq.pushBack_holds hq c
        obtain ⟨hv, hcont⟩ := holds_content hh
        have hmem' : ∀ k, k ∈ owed (.mChild x q c rest) ↔ k ∈ content q' ∨ k ∈ rest := by
          intro k; rw [hmem, hcont, List.mem_append, List.mem_singleton]; grind
        refine ⟨(next x q' rest, []), by simp [CSys.react, hcf, hsrc, hq'], hgoto _ (h.goto ?_
          (local_next hv hx (fun l hl => hwork l ((hmem' l).2 hl)) (hrt.imp id fun h' => (hmem' x).1 h')) ?_ ?_ ?_)⟩
        · rw [hpc]; exact ⟨fun h' => absurd h' (not_incs_next _ _ _), fun h' => absurd h' id⟩
        · simp [operands_next]
        · rw [hpc]
          exact fun k hk => Or.inr ((owed_next ..).2 ((hmem' k).1 hk))
        · rw [hpc]; intro y hy; rw [root_next]; exact hy
  | mSrcLoad x q c rest =>
    rw [hpc] at ha hloc
    simp only [loads, Option.some.injEq] at ha; subst ha
    obtain ⟨hm, hsrc⟩ := hloc
    have hc := (hm.2.2.1 c (by simp [owed])).1
    refine ⟨hc.2, (.mSrcStore x q c rest w, []), rfl, hgoto _ (h.goto ?_ ⟨hm, hsrc, hw hc.2⟩ ?_ ?_ ?_)⟩
    all_goals rw [hpc]
    · exact Iff.rfl
    · simp [operands]
    · exact fun k hk => Or.inr hk
    · exact fun y hy => hy
  | mEnc x q l =>
    rw [hpc] at ha hloc
    simp only [loads, Option.some.injEq] at ha; subst ha
    obtain ⟨hq, hx, hwork, hrt⟩ := (hloc : Marking V x q (.mEnc x q l))
    have hl := (hwork l (by simp [owed])).1
    obtain ⟨ty, u, h2, h3, h4, -⟩ := (hw hl.2).taint h.wf hl
    refine ⟨hl.2, (.mSetLoad x q l w, []), rfl, hgoto _ (h.goto ?_ ⟨⟨hq, hx, hwork, hrt⟩, ty, u, h2, h3, h4⟩ ?_ ?_ ?_)⟩
    all_goals rw [hpc]
    · exact Iff.rfl
    · simp [operands]
    · exact fun k hk => Or.inr hk
    · exact fun y hy => hy
  | mSetLoad x q l e =>
    rw [hpc] at ha hloc
    simp only [loads, Option.some.injEq] at ha; subst ha
    obtain ⟨hm, hsame⟩ := hloc
    have hl := (hm.2.2.1 l (by simp [owed])).1
    refine ⟨hl.2, (.mSetStore x q l e w, []), rfl, hgoto _ (h.goto ?_ ⟨hm, hsame, hw hl.2⟩ ?_ ?_ ?_)⟩
    all_goals rw [hpc]
    · exact Iff.rfl
    · simp [operands]
    · exact fun k hk => Or.inr hk
    · exact fun y hy => hy
  | _ => rw [hpc] at ha; cases ha

end CSys

namespace WSys
open CSys Labels

/-- Invariant of the machine with old values. -/
structure Inv (S : WSys) (V : Labels) (tail : List Nat) : Prop where
  sys : CSys.Inv S.sys V tail
  old : ∀ a w, w ∈ S.old a → a < V.words.length ∧ Stale V a w

theorem Inv.has {S : WSys} {V : Labels} {tail : List Nat} (h : Inv S V tail) {a w : Nat} (hw : S.Has a w)
    (ha : a < V.words.length) : Stale V a w := by
  rcases hw with hw | hw
  · rw [h.sys.mem, List.getElem?_append_left ha] at hw; exact Or.inl hw
  · exact (h.old a w hw).2

/-- The label stored to is one in use. -/
theorem Inv.stores {S : WSys} {V : Labels} {tail : List Nat} (h : Inv S V tail) {t a : Nat}
    (ha : CSys.stores (S.sys.threads t) = some a) : a < V.words.length := by
  have hloc := h.sys.loc t
  cases hpc : S.sys.threads t with
  | mSrcStore x q c rest w =>
    rw [hpc] at ha hloc; cases ha
    exact (hloc.1.2.2.1 _ (by simp [owed])).1.2
  | mSetStore x q l e w =>
    rw [hpc] at ha hloc; cases ha
    exact (hloc.1.2.2.1 _ (by simp [owed])).1.2
  | _ => rw [hpc] at ha; cases ha

/-- Outcome of a step. -/
theorem Inv.step {S : WSys} {V : Labels} {tail : List Nat} (h : Inv S V tail) {t : Nat} {R : Res WSys}
    (hs : Step S t R) :
    (∃ S' V' tail', R = .ok S' ∧ Inv S' V' tail' ∧ Grows V V' ∧ S'.sys.cap = S.sys.cap) ∨
    (R = .fatal ∧ (∃ l r e, S.sys.threads t = .uAlloc l r e) ∧ S.sys.mem.length = S.sys.cap) ∨
    (R = .ub ∧ ∃ src off n, S.sys.threads t = .sAlloc src off n ∧ S.sys.cap < S.sys.mem.length + n) := by
  cases hs with
  | load ha hw =>
    obtain ⟨-, p, hp, hi⟩ := h.sys.react ha (fun hlt => h.has hw hlt)
    rw [hp]
    exact Or.inl ⟨_, V, tail, rfl, ⟨hi, h.old⟩, Grows.refl V, rfl⟩
  | wild ha hle =>
    obtain ⟨hlt, -⟩ := h.sys.react (w := (V.words[_]?).getD 0) ha (fun hlt => Or.inl (by
      rw [List.getElem?_eq_getElem hlt]; rfl))
    have := h.sys.mem
    rw [this, List.length_append] at hle
    omega
  | @other R hl hst =>
    rcases h.sys.step hst with ⟨S', V', tail', he, hi, hg⟩ | ⟨he, hp, -, hc⟩ | ⟨he, src, off, n, hp, -, hc⟩
    · subst he
      refine Or.inl ⟨_, V', tail', rfl, ⟨hi, ?_⟩, hg, by show S'.cap = _; rw [← hi.cap, hg.cap, h.sys.cap]⟩
      intro a w hw
      have hw' : w ∈ S.past t a := hw
      unfold past at hw'
      split at hw'
      · rename_i hsa
        have hlt := h.stores hsa
        have hst : Stale V a w := by
          rcases List.mem_append.1 hw' with h1 | h1
          · refine h.has (Or.inl ?_) hlt
            cases hm : S.sys.mem[a]? with
            | none => rw [hm] at h1; cases h1
            | some v => rw [hm] at h1; simp at h1; rw [h1]
          · exact (h.old a w h1).2
        exact ⟨Nat.lt_of_lt_of_le hlt hg.len, hst.mono hg⟩
      · have := h.old a w hw'
        exact ⟨Nat.lt_of_lt_of_le this.1 hg.len, this.2.mono hg⟩
    · subst he; exact Or.inr (Or.inl ⟨rfl, hp, hc⟩)
    · subst he; exact Or.inr (Or.inr ⟨rfl, src, off, n, hp, hc⟩)

theorem Reach.inv {cap : Nat} (h0 : 0 < cap) (h2 : cap ≤ 2 ^ 31) {S : WSys} (h : Reach cap S) :
    ∃ V tail, Inv S V tail ∧ S.sys.cap = cap := by
  induction h with
  | init => exact ⟨_, _, ⟨CSys.Inv.init h0 h2, fun a w hw => by cases hw⟩, rfl⟩
  | step _ hs ih =>
    obtain ⟨V, tail, hi, hc⟩ := ih
    rcases hi.step hs with ⟨S1, V', tail', he, hi', -, hc'⟩ | ⟨he, -⟩ | ⟨he, -⟩
    · cases he; exact ⟨V', tail', hi', hc'.trans hc⟩
    · cases he
    · cases he
  | union _ hid hl hr ih =>
    obtain ⟨V, tail, hi, hc⟩ := ih
    have := hi.sys.callUnion hid hl hr
    exact ⟨V, tail, ⟨this, hi.old⟩, by rw [← this.cap, hi.sys.cap, hc]⟩
  | source _ hid h1 h2' h3 ih =>
    obtain ⟨V, tail, hi, hc⟩ := ih
    exact ⟨V, tail, ⟨hi.sys.callSource hid h1 h2' h3, hi.old⟩, hc⟩
  | mark _ hid hx ih =>
    obtain ⟨V, tail, hi, hc⟩ := ih
    exact ⟨V, tail, ⟨hi.sys.callMark hid hx, hi.old⟩, hc⟩

end WSys
end Verif
