import Verif.LabelsConcLemmas
/- Helper lemmas: every step of every thread keeps the invariant. -/
namespace Verif
open Spec
namespace CSys
open Labels

/-- Reading a word of a label in use. -/
theorem Inv.read {S : CSys} {V : Labels} {tail : List Nat} (h : Inv S V tail) {l : Nat} (hl : V.Lab l) :
    ∃ w ty, getRes S.mem l = .ok w ∧ V.words[l]? = some w ∧ decode w = .ok ty ∧ V.graph l = some ty ∧
      LegalTaint ty ∧ ∀ k, Ref ty k → 0 < k ∧ k < l := by
  obtain ⟨ty, hg, hL, hr⟩ := h.wf.read hl.1 hl.2
  obtain ⟨w, hw, hd⟩ := graph_eq_some.1 hg
  refine ⟨w, ty, ?_, hw, hd, hg, hL, hr⟩
  rw [getRes, h.mem, List.getElem?_append_left hl.2, hw]

theorem not_incs_next (x : Nat) (q : LabelDeq) (rest : List Nat) : ¬ InCS (next x q rest) := by
  cases rest <;> exact id

theorem root_next (x : Nat) (q : LabelDeq) (rest : List Nat) : root (next x q rest) = some x := by
  cases rest <;> rfl

theorem operands_next (x : Nat) (q : LabelDeq) (rest : List Nat) : operands (next x q rest) = [] := by
  cases rest <;> rfl

theorem owed_next (x : Nat) (q : LabelDeq) (rest : List Nat) (k : Nat) :
    k ∈ owed (next x q rest) ↔ k ∈ content q ∨ k ∈ rest := by
  cases rest <;> simp [next, owed]

theorem local_next {V : Labels} {tail : List Nat} {x : Nat} {q : LabelDeq} {rest : List Nat}
    (hq : ValidQ q) (hx : V.Lab x) (hw : ∀ l, l ∈ content q ∨ l ∈ rest → V.Lab l ∧ BuiltFrom V.graph x l)
    (hr : Flagged V.graph x ∨ x ∈ content q ∨ x ∈ rest) : Local V tail (next x q rest) := by
  have hm : Marking V x q (next x q rest) :=
    ⟨hq, hx, fun l hl => hw l ((owed_next ..).1 hl), hr.imp id (fun h => (owed_next ..).2 h)⟩
  cases rest <;> exact hm

/-- Storing the flag on a label. -/
theorem set_flag {V : Labels} (hwf : V.WF) {c w : Nat} {ty : Taint} (hg : V.graph c = some ty)
    (hs : Stale V c w) : ∃ V' : Labels, V.words.set c (addCf w) = V'.words ∧ V'.WF ∧ FlagOnly V V' ∧
      V'.graph c = some (withFlag true ty) ∧ ∀ k, k ≠ c → V'.graph k = V.graph k := by
  obtain ⟨v, hv, -⟩ := graph_eq_some.1 hg
  obtain ⟨V', he, h1, h2, h3, h4⟩ := setCf_spec hwf hg
  refine ⟨V', ?_, h1, h2, h3, h4⟩
  have : addCf w = addCf v := by
    rcases hs with h | h
    · rw [hv] at h; cases h; rfl
    · rw [hv] at h; cases h; rw [C02_addCf_idem]
  rw [setCf, hv] at he
  rw [this]
  cases he; rfl

/-- A step that stores the flag on `c`, where the children of `c` are owed afterwards. -/
theorem Inv.flag {S : CSys} {V : Labels} {tail : List Nat} (h : Inv S V tail) {t x c w : Nat} {ty : Taint}
    {q : LabelDeq} {rest : List Nat} (hg : V.graph c = some ty) (hs : Stale V c w)
    (hroot : root (S.threads t) = some x) (hcs : ¬ InCS (S.threads t))
    (hq : ValidQ q) (hx : V.Lab x) (hbc : BuiltFrom V.graph x c)
    (hw : ∀ l, l ∈ content q ∨ l ∈ rest → V.Lab l ∧ BuiltFrom V.graph x l)
    (howed : ∀ k ∈ owed (S.threads t), k = c ∨ k ∈ content q ∨ k ∈ rest)
    (hxo : Flagged V.graph x ∨ x ∈ owed (S.threads t))
    (hch : ∀ k, Ref ty k → k ∈ rest) :
    ∃ V', Inv ({ S with mem := S.mem.set c (addCf w) }.goto t (next x q rest)) V' tail ∧ FlagOnly V V' := by
  obtain ⟨V', he, hwf', hfo, hgc, hgk⟩ := set_flag h.wf hg hs
  have hlab := (lab_graph h.wf).2 ⟨ty, hg⟩
  have hgr := hfo.grows
  have hfc : Flagged V'.graph c := ⟨_, hgc, by cases ty <;> rfl⟩
  refine ⟨V', ?_, hfo⟩
  refine Moves.inv h (t := t) (pc' := next x q rest) (es := []) ⟨rfl, by simp [CSys.goto], rfl, ?_, ?_, hgr, hwf', h.free,
    ?_, fun _ _ => Iff.rfl, fun _ _ _ => ⟨hfo.len, rfl⟩, ?_, by simp [operands_next], by simp,
    h.meaning_grows hgr hwf' rfl, by simp, ?_, ?_, ?_, ?_, by simp⟩
  · show S.mem.set c (addCf w) = _
    rw [h.mem, List.set_append_left _ _ hlab.2, he]
  · show (S.mem.set c (addCf w)).length ≤ S.cap
    rw [List.length_set]; exact h.fits
  · exact ⟨fun h' => absurd h' (not_incs_next _ _ _), fun h' => absurd ((h.holder t).2 h') hcs⟩
  · refine local_next hq (hgr.lab hx) (fun l hl => ⟨hgr.lab (hw l hl).1, hgr.built h.wf hwf' hx.2 (hw l hl).2⟩) ?_
    rcases hxo with h' | h'
    · exact Or.inl (hgr.flagged h.wf h')
    · rcases howed x h' with rfl | h''
      · exact Or.inl hfc
      · exact Or.inr h''
  · intro k hk
    rcases howed k hk with rfl | h'
    · exact Or.inl hfc
    · exact Or.inr ((owed_next ..).2 h')
  · intro l hl
    by_cases hlc : l = c
    · subst hlc
      exact Or.inr ⟨x, hroot, hgr.lab hx, hgr.built h.wf hwf' hx.2 hbc⟩
    · left
      obtain ⟨t', ht', hf'⟩ := hl
      rw [hgk l hlc] at ht'
      exact ⟨t', ht', hf'⟩
  · intro l ty' k hgl hf hn hr
    by_cases hlc : l = c
    · subst hlc
      rw [hgc] at hgl; cases hgl
      exact (owed_next ..).2 (Or.inr (hch k ((Ref_withFlag true ty k).1 hr)))
    · rw [hgk l hlc] at hgl
      exact absurd ⟨ty', hgl, hf⟩ hn
  · intro x' hx'
    rw [hroot] at hx'; cases hx'
    exact Or.inl (root_next ..)

/-- Unlocking after writing unflagged words. -/
theorem Inv.unlock {S : CSys} {V : Labels} {tail : List Nat} (h : Inv S V tail) {t : Nat} {e : Event}
    (hcs : S.lock = some t)
    (hws : ∀ (i : Nat) w, tail[i]? = some w → w < 2 ^ 64 ∧ ∃ ty, decode w = .ok ty ∧ LegalTaint ty ∧ flagOf ty = false ∧
      ∀ k, Ref ty k → 0 < k ∧ k < V.words.length + i)
    (hown : owed (S.threads t) = []) (hroot : root (S.threads t) = none) (hnm : ∀ x, e ≠ .mark x)
    (hret : ∀ l, Returned e l → V.words.length ≤ l ∧ l < V.words.length + tail.length)
    (hmean : ({ V with words := V.words ++ tail } : Labels).WF → Grows V { V with words := V.words ++ tail } →
      ∀ l, ({ S with lock := none }.finish t e).Known l → ∀ b,
        Denotes ({ V with words := V.words ++ tail } : Labels).graph l b ↔ Meaning ({ S with lock := none }.finish t e).log l b)
    (hans : ({ V with words := V.words ++ tail } : Labels).WF → Grows V { V with words := V.words ++ tail } →
      Answered { V with words := V.words ++ tail } e) :
    Inv ({ S with lock := none }.finish t e) { V with words := V.words ++ tail } [] := by
  have hfit : V.words.length + tail.length ≤ V.cap := by
    have := h.fits; rw [h.mem, List.length_append] at this; rw [h.cap]; exact this
  have hwf' : ({ V with words := V.words ++ tail } : Labels).WF := by
    refine wf_append h.wf tail hfit ?_
    intro i w hw
    obtain ⟨a, ty, b, c, -, d⟩ := hws i w hw
    exact ⟨a, ty, b, c, d⟩
  have hgr := Grows.append V tail
  have hnf : ∀ l, V.words.length ≤ l → ¬ Flagged ({ V with words := V.words ++ tail } : Labels).graph l := by
    rintro l hl ⟨ty, hg, hf⟩
    obtain ⟨w, hw, hd⟩ := graph_eq_some.1 hg
    have hw' : tail[l - V.words.length]? = some w := by
      rw [← List.getElem?_append_right hl]; exact hw
    obtain ⟨-, ty', hd', -, hf', -⟩ := hws _ _ hw'
    rw [hd] at hd'; cases hd'
    rw [hf] at hf'; cases hf'
  have hfl : ∀ l, Flagged ({ V with words := V.words ++ tail } : Labels).graph l → Flagged V.graph l := by
    intro l hl
    by_cases hlt : l < V.words.length
    · unfold Flagged at hl ⊢; rw [graph_append_lt hlt] at hl; exact hl
    · exact absurd hl (hnf l (by omega))
  refine Moves.inv h (t := t) (pc' := .idle) (es := [e]) ⟨rfl, rfl, rfl, ?_, h.fits, hgr, hwf', fun _ => rfl, ?_, ?_, ?_, trivial,
    by simp [operands], ?_, hmean hwf' hgr, ?_, by simp [hown], fun l hl => Or.inl (hfl l hl), ?_, by simp [hroot], ?_⟩
  · show S.mem = V.words ++ tail ++ []
    rw [List.append_nil]; exact h.mem
  · exact ⟨fun h' => absurd h' id, fun h' => by cases h'⟩
  · intro u hu
    constructor
    · intro h'; cases h'
    · intro h'; rw [hcs] at h'; cases h'; exact absurd rfl hu
  · intro u hu h'; rw [hcs] at h'; cases h'; exact absurd rfl hu
  · intro e' he l hl
    simp only [List.mem_singleton] at he
    subst he
    have := hret l hl
    have h0 := h.wf.nonempty
    refine ⟨by omega, ?_⟩
    show l < (V.words ++ tail).length
    rw [List.length_append]; exact this.2
  · intro e' he
    simp only [List.mem_singleton] at he
    subst he
    exact hans hwf' hgr
  · intro l ty k hg hf hn _
    exact absurd (hfl l ⟨ty, hg, hf⟩) hn
  · intro x hx
    simp only [List.mem_singleton] at hx
    exact absurd hx.symm (hnm x)

/-- Acquiring the mutex and reserving space. -/
theorem Inv.alloc {S : CSys} {V : Labels} (h : Inv S V []) {t n : Nat} {pc' : PC} (hl : S.lock = none)
    (hfit : S.mem.length + n ≤ S.cap) (hcs : InCS pc') (hloc : Local V (List.replicate n 0) pc')
    (hops : ∀ l ∈ operands pc', l ∈ operands (S.threads t)) (hown : owed (S.threads t) = [])
    (hroot : root (S.threads t) = none) :
    Inv ({ S with mem := S.mem ++ List.replicate n 0, lock := some t }.goto t pc') V (List.replicate n 0) := by
  refine Moves.inv h (t := t) (pc' := pc') (es := []) ⟨rfl, by simp [CSys.goto], rfl, ?_, ?_, Grows.refl V, h.wf, ?_, ?_, ?_, ?_,
    hloc, fun l hl => Or.inl (hops l hl), by simp, h.meaning_grows (Grows.refl V) h.wf rfl, by simp, by simp [hown],
    fun l hl => Or.inl hl, fun l ty k hg hf hn _ => absurd ⟨ty, hg, hf⟩ hn, by simp [hroot], by simp⟩
  · show S.mem ++ _ = _
    rw [h.mem, List.append_nil]
  · show (S.mem ++ _).length ≤ S.cap
    simpa using hfit
  · intro h'; cases h'
  · exact ⟨fun _ => rfl, fun _ => hcs⟩
  · intro u hu
    constructor
    · intro h'; cases h'; exact absurd rfl hu
    · intro h'; rw [hl] at h'; cases h'
  · intro u hu h'; rw [hl] at h'; cases h'

/-- Writing into the reserved part. -/
theorem Inv.write {S : CSys} {V : Labels} {tail : List Nat} (h : Inv S V tail) {t i w : Nat} {pc' : PC}
    (hl : S.lock = some t) (hcs : InCS pc') (hloc : Local V (tail.set i w) pc')
    (hops : ∀ l ∈ operands pc', l ∈ operands (S.threads t)) (hown : owed (S.threads t) = [])
    (hroot : root (S.threads t) = none) :
    Inv ({ S with mem := S.mem.set (V.words.length + i) w }.goto t pc') V (tail.set i w) := by
  refine Moves.inv h (t := t) (pc' := pc') (es := []) ⟨rfl, by simp [CSys.goto], rfl, ?_, ?_, Grows.refl V, h.wf, ?_, ?_, fun _ _ => Iff.rfl,
    ?_, hloc, fun l hl => Or.inl (hops l hl), by simp, h.meaning_grows (Grows.refl V) h.wf rfl, by simp, by simp [hown],
    fun l hl => Or.inl hl, fun l ty k hg hf hn _ => absurd ⟨ty, hg, hf⟩ hn, by simp [hroot], by simp⟩
  · show S.mem.set _ w = _
    rw [h.mem, List.set_append_right _ _ (by omega)]
    simp
  · show (S.mem.set _ w).length ≤ S.cap
    rw [List.length_set]; exact h.fits
  · intro h'
    have : S.lock = none := h'
    rw [hl] at this; cases this
  · exact ⟨fun _ => hl, fun _ => hcs⟩
  · intro u hu h'; rw [hl] at h'; cases h'; exact absurd rfl hu

/-- Outcome of a step. -/
def Good (S : CSys) (t : Nat) (V : Labels) (R : Res CSys) : Prop :=
  (∃ S' V' tail', R = .ok S' ∧ Inv S' V' tail' ∧ Grows V V') ∨
  (R = .fatal ∧ (∃ l r e, S.threads t = .uAlloc l r e) ∧ S.lock = none ∧ S.mem.length = S.cap) ∨
  (R = .ub ∧ ∃ src off n, S.threads t = .sAlloc src off n ∧ S.lock = none ∧ S.cap < S.mem.length + n)

theorem ready_of_compute {V : Labels} (hwf : V.WF) {l r : Nat} (hne : l ≠ r) (hl : V.Lab l) (hr : V.Lab r)
    {ul lv rv : Taint} (hgl : V.graph l = some ul) (hs : withFlag false ul = withFlag false lv)
    (hgr : V.graph r = some rv) :
    (∀ u, compute l lv r rv = .label u → V.Lab u ∧
      ∀ b, Denotes V.graph u b ↔ Denotes V.graph l b ∨ Denotes V.graph r b) ∧
    (∀ ty, compute l lv r rv = .taint ty → V.UnionReady l r (encode ty)) := by
  obtain ⟨-, -, Ll, rl⟩ := hwf.refs hgl
  obtain ⟨-, -, Lr, rr⟩ := hwf.refs hgr
  have e := withFlag_eq_cases hs
  have Ll' : LegalTaint lv := by rw [e, LegalTaint_withFlag]; exact Ll
  have rl' : ∀ k, Ref lv k → 0 < k ∧ k < l := fun k hk => rl k ((Ref_congr_flag hs k).2 hk)
  have good := compute_good (D := Denotes V.graph) (left := l) (right := r) (l := lv) (r := rv)
    (fun b => (denotes_iff hgl b).trans (DenT_congr_flag _ hs b)) (denotes_iff hgr) Ll' Lr
  have hcap := Nat.le_trans hwf.fits hwf.cap
  have := hl.2; have := hr.2
  have ok := compute_ok (n := max l r + 1) hne hl.1 hr.1 (by omega) (by omega) (by omega) Ll' Lr rl' rr
  constructor
  · intro u hu
    rw [hu] at good
    refine ⟨?_, good.2⟩
    rcases good.1 with h | h <;> rw [h] <;> assumption
  · intro ty hty
    rw [hty] at good ok
    exact ⟨ty, rfl, ok, good⟩

theorem dup_hit {V : Labels} (hwf : V.WF) {l r e d w : Nat} (hr : V.UnionReady l r e) (hd : V.Lab d)
    (hw : V.words[d]? = some w) (heq : equalIgnoreCf w e = true) :
    ∀ b, Denotes V.graph d b ↔ Denotes V.graph l b ∨ Denotes V.graph r b := by
  obtain ⟨ty, rfl, hok, hden⟩ := hr
  obtain ⟨u, hu, -, -⟩ := hwf.read hd.1 hd.2
  obtain ⟨w', hw', hdw⟩ := graph_eq_some.1 hu
  rw [hw] at hw'; cases hw'
  have hrt := C01_decode_encode ty (legal_representable hok.1)
  have hwlt : w < 2 ^ 64 := hwf.word w (List.mem_of_getElem? hw)
  have hflag := (C02_equalIgnoreCf w (encode ty) hwlt hrt.2 u ty hdw hrt.1).1 heq
  intro b
  rw [denotes_iff hu, DenT_congr_flag _ hflag]
  exact hden b

theorem Inv.step {S : CSys} {V : Labels} {tail : List Nat} (h : Inv S V tail) {t : Nat} {R : Res CSys}
    (hs : S.step t = some R) : Good S t V R := by
  have hloc := h.loc t
  have hops := h.ops t
  unfold CSys.step at hs
  cases hpc : S.threads t with
  | idle => rw [hpc] at hs; cases hs
  | uLeft l r =>
    rw [hpc] at hs hloc
    obtain ⟨w, ty, h1, -, h2, h3, -⟩ := h.read hloc.2.1
    simp only [h1, Res.bind_ok, h2, Option.some.injEq] at hs
    subst hs
    refine Or.inl ⟨_, V, tail, rfl, h.goto ?_ ⟨hloc.1, hloc.2.1, hloc.2.2, ty, h3, rfl⟩ ?_ ?_ ?_, Grows.refl V⟩
    all_goals rw [hpc]
    · exact Iff.rfl
    · exact fun l hl => Or.inl hl
    · simp [owed]
    · simp [root]
  | uRight l r lv =>
    rw [hpc] at hs hloc hops
    obtain ⟨w, ty, h1, -, h2, h3, -⟩ := h.read hloc.2.2.1
    simp only [h1, Res.bind_ok, h2, Option.some.injEq] at hs
    obtain ⟨u, hu, hsame⟩ := hloc.2.2.2
    obtain ⟨ra, rb⟩ := ready_of_compute h.wf hloc.1 hloc.2.1 hloc.2.2.1 hu hsame h3
    cases hc : compute l lv r ty with
    | label d =>
      rw [hc] at hs
      subst hs
      obtain ⟨hd1, hd2⟩ := ra d hc
      refine Or.inl ⟨_, V, tail, rfl, h.finish_union ?_ (hops l (by simp [operands])) (hops r (by simp [operands])) hd1 hd2 ?_ ?_, Grows.refl V⟩
      all_goals rw [hpc]
      · exact id
      · rfl
      · rfl
    | taint ty' =>
      rw [hc] at hs
      subst hs
      refine Or.inl ⟨_, V, tail, rfl, h.goto ?_ ⟨hloc.2.1, hloc.2.2.1, rb ty' hc⟩ ?_ ?_ ?_, Grows.refl V⟩
      all_goals rw [hpc]
      · exact Iff.rfl
      · exact fun l hl => Or.inl hl
      · simp [owed]
      · simp [root]
  | uSize l r e =>
    rw [hpc] at hs hloc
    simp only at hs
    split at hs
    · rename_i hlock
      simp only [Option.some.injEq] at hs
      subst hs
      have htail := h.free hlock
      have hlen : S.mem.length = V.words.length := by rw [h.mem, htail, List.append_nil]
      refine Or.inl ⟨_, V, tail, rfl, h.goto ?_ ⟨hloc.1, hloc.2.1, hloc.2.2, ?_, ?_⟩ ?_ ?_ ?_, Grows.refl V⟩
      · rw [hpc]; exact Iff.rfl
      · have := hloc.1.2; have := hloc.2.1.2
        rw [hlen]
        split <;> omega
      · omega
      all_goals rw [hpc]
      · exact fun l hl => Or.inl hl
      · simp [owed]
      · simp [root]
    · cases hs
  | uScan l r e i n =>
    rw [hpc] at hs hloc hops
    obtain ⟨hl, hr, hready, hin, hi⟩ := hloc
    cases n with
    | zero =>
      simp only [Option.some.injEq] at hs
      subst hs
      refine Or.inl ⟨_, V, tail, rfl, h.goto ?_ ⟨hl, hr, hready⟩ ?_ ?_ ?_, Grows.refl V⟩
      all_goals rw [hpc]
      · exact Iff.rfl
      · exact fun l hl => Or.inl hl
      · simp [owed]
      · simp [root]
    | succ n =>
      have hlab : V.Lab (i - 1) := by have := hl.1; exact ⟨by omega, by omega⟩
      obtain ⟨w, ty, h1, hw, h2, h3, -⟩ := h.read hlab
      simp only [h1, Res.bind_ok, Option.some.injEq] at hs
      split at hs
      · rename_i heq
        subst hs
        refine Or.inl ⟨_, V, tail, rfl, h.finish_union ?_ (hops l (by simp [operands])) (hops r (by simp [operands])) hlab
          (dup_hit h.wf hready hlab hw heq) ?_ ?_, Grows.refl V⟩
        all_goals rw [hpc]
        · exact id
        · rfl
        · rfl
      · subst hs
        refine Or.inl ⟨_, V, tail, rfl, h.goto ?_ ⟨hl, hr, hready, by omega, by omega⟩ ?_ ?_ ?_, Grows.refl V⟩
        all_goals rw [hpc]
        · exact Iff.rfl
        · exact fun l hl => Or.inl hl
        · simp [owed]
        · simp [root]
  | uAlloc l r e =>
    rw [hpc] at hs hloc
    simp only at hs
    split at hs
    · rename_i hlock
      have htail := h.free hlock
      subst htail
      have hlen : S.mem.length = V.words.length := by rw [h.mem, List.append_nil]
      split at hs
      · rename_i hcap
        simp only [Option.some.injEq] at hs
        subst hs
        refine Or.inl ⟨_, V, [0], rfl, h.alloc (n := 1) hlock hcap trivial ?_ ?_ ?_ ?_, Grows.refl V⟩
        · exact ⟨hloc.1, hloc.2.1, hloc.2.2, hlen, rfl⟩
        all_goals rw [hpc]
        · exact fun l hl => hl
        · rfl
        · rfl
      · rename_i hcap
        simp only [Option.some.injEq] at hs
        have := h.fits
        exact Or.inr (Or.inl ⟨hs.symm, ⟨l, r, e, hpc⟩, hlock, by omega⟩)
    · cases hs
  | uWrite l r e idx =>
    rw [hpc] at hs hloc
    obtain ⟨hl, hr, hready, hidx, htail⟩ := hloc
    have hlock := (h.holder t).1 (by rw [hpc]; trivial)
    simp only at hs
    rw [if_pos (by rw [h.mem, List.length_append]; omega)] at hs
    simp only [Option.some.injEq] at hs
    subst hs
    have hset : tail.set 0 e = [e] := by
      cases tail with
      | nil => simp at htail
      | cons a b => cases b with
        | nil => rfl
        | cons => simp at htail
    have := h.write (t := t) (i := 0) (w := e) (pc' := .uUnlock l r idx) hlock trivial
      ⟨hl, hr, hidx, e, hready, hset⟩ (by rw [hpc]; exact fun l hl => hl) (by rw [hpc]; rfl) (by rw [hpc]; rfl)
    rw [Nat.add_zero, ← hidx] at this
    exact Or.inl ⟨_, V, _, rfl, this, Grows.refl V⟩
  | uUnlock l r idx =>
    rw [hpc] at hs hloc hops
    obtain ⟨hl, hr, hidx, e, hready, htail⟩ := hloc
    have hlock := (h.holder t).1 (by rw [hpc]; trivial)
    simp only [Option.some.injEq] at hs
    subst hs
    obtain ⟨ty, rfl, hok, hden⟩ := hready
    have hrt := C01_decode_encode ty (legal_representable hok.1)
    have hkl := hops l (by simp [operands])
    have hkr := hops r (by simp [operands])
    have hD : ({ V with words := V.words ++ tail } : Labels).WF → Grows V { V with words := V.words ++ tail } →
        ∀ b, Denotes ({ V with words := V.words ++ tail } : Labels).graph idx b ↔ Denotes V.graph l b ∨ Denotes V.graph r b := by
      intro hwf' hgr b
      have hg : ({ V with words := V.words ++ tail } : Labels).graph idx = some ty := by
        refine graph_of_word (w := encode ty) ?_ hrt.1
        show (V.words ++ tail)[idx]? = _
        rw [hidx, htail]; simp
      rw [denotes_iff hg, ← hden b]
      apply DenT_mono
      intro k hk
      have := (hok.2.1 k hk).2
      have := hl.2; have := hr.2
      exact hgr.denotes h.wf hwf' (by omega) b
    refine Or.inl ⟨_, _, _, rfl, h.unlock hlock ?_ ?_ ?_ ?_ ?_ (fun hwf' hgr => h.meaning_union hgr hwf' rfl hkl hkr (hD hwf' hgr)) (fun hwf' hgr => ⟨hgr.lab hl, hgr.lab hr, ?_, fun b => ?_⟩), Grows.append V tail⟩
    · intro i w hw
      rw [htail] at hw
      cases i with
      | zero =>
        simp only [List.getElem?_cons_zero, Option.some.injEq] at hw
        subst hw
        refine ⟨hrt.2, ty, hrt.1, hok.1, hok.2.2, fun k hk => ?_⟩
        have := hok.2.1 k hk
        have := hl.2; have := hr.2
        omega
      | succ i => simp at hw
    · rw [hpc]; rfl
    · rw [hpc]; rfl
    · intro x; simp
    · intro x hx
      cases (hx : x = idx)
      rw [htail]; simp; omega
    · have h0 := hl.1
      have h1 := hl.2
      exact ⟨by omega, by show idx < (V.words ++ tail).length; rw [htail]; simp; omega⟩
    · rw [hD hwf' hgr b, hgr.denotes h.wf hwf' hl.2, hgr.denotes h.wf hwf' hr.2]
  | sAlloc src off n =>
    rw [hpc] at hs hloc
    simp only at hs
    split at hs
    · rename_i hlock
      have htail := h.free hlock
      subst htail
      have hlen : S.mem.length = V.words.length := by rw [h.mem, List.append_nil]
      split at hs
      · rename_i hcap
        simp only [Option.some.injEq] at hs
        subst hs
        refine Or.inl ⟨_, V, List.replicate n 0, rfl, h.alloc (n := n) hlock hcap trivial ?_ ?_ ?_ ?_, Grows.refl V⟩
        · exact ⟨hloc, hlen, by simp, by omega, by simp⟩
        all_goals rw [hpc]
        · exact fun l hl => hl
        · rfl
        · rfl
      · rename_i hcap
        simp only [Option.some.injEq] at hs
        exact Or.inr (Or.inr ⟨hs.symm, src, off, n, hpc, hlock, by omega⟩)
    · cases hs
  | sWrite src off n first k =>
    rw [hpc] at hs hloc
    obtain ⟨⟨hsrc, hn, hoff⟩, hfirst, htail, hk, hw⟩ := hloc
    have hlock := (h.holder t).1 (by rw [hpc]; trivial)
    simp only at hs
    split at hs
    · rename_i hkn
      rw [if_pos (by rw [h.mem, List.length_append]; omega)] at hs
      simp only [Option.some.injEq] at hs
      subst hs
      have := h.write (t := t) (i := k) (w := encode (.source false src (off + k))) (pc' := .sWrite src off n first (k + 1))
        hlock trivial
        ⟨⟨hsrc, hn, hoff⟩, hfirst, by simpa using htail, by omega, by
          intro j hj
          by_cases hjk : j = k
          · subst hjk; rw [List.getElem?_set_self (by omega)]
          · rw [List.getElem?_set_ne (Ne.symm hjk)]; exact hw j (by omega)⟩
        (by rw [hpc]; exact fun l hl => hl) (by rw [hpc]; rfl) (by rw [hpc]; rfl)
      rw [← hfirst] at this
      exact Or.inl ⟨_, V, _, rfl, this, Grows.refl V⟩
    · rename_i hkn
      simp only [Option.some.injEq] at hs
      subst hs
      have hkn' : k = n := by omega
      subst hkn'
      have hleg : ∀ j, j < k → Representable (.source false src (off + j)) := fun j hj => ⟨hsrc, by omega⟩
      have hD : ∀ j, j < k → ({ V with words := V.words ++ tail } : Labels).graph (first + j) =
          some (.source false src (off + j)) := by
        intro j hj
        refine graph_of_word (w := encode (.source false src (off + j))) ?_ (C01_decode_encode _ (hleg j hj)).1
        show (V.words ++ tail)[first + j]? = _
        rw [List.getElem?_append_right (by omega), hfirst, Nat.add_sub_cancel_left]
        exact hw j hj
      refine Or.inl ⟨_, _, _, rfl, h.unlock hlock ?_ ?_ ?_ ?_ ?_ (fun hwf' hgr => h.meaning_source hgr hwf' rfl hD) (fun _ _ j hj => ⟨false, hD j hj⟩), Grows.append V tail⟩
      · intro i w hiw
        have hi : i < k := by have := (List.getElem?_eq_some_iff.1 hiw).1; omega
        rw [hw i hi] at hiw
        simp only [Option.some.injEq] at hiw
        subst hiw
        have hrt := C01_decode_encode _ (hleg i hi)
        exact ⟨hrt.2, _, hrt.1, ⟨hsrc, by omega⟩, rfl, fun k hk => absurd hk id⟩
      · rw [hpc]; rfl
      · rw [hpc]; rfl
      · intro x; simp
      · intro l hl
        have : first ≤ l ∧ l < first + k := hl
        omega
  | mChild x q c rest =>
    rw [hpc] at hs hloc
    obtain ⟨hq, hx, hwork, hrt⟩ := (hloc : Marking V x q (.mChild x q c rest))
    have hc := hwork c (by simp [owed])
    have hmem : ∀ k, k ∈ owed (.mChild x q c rest) ↔ k = c ∨ k ∈ content q ∨ k ∈ rest := by
      intro k; simp only [owed, List.mem_append, List.mem_cons]; grind
    obtain ⟨w, ty, h1, -, h2, h3, -⟩ := h.read hc.1
    simp only [h1, Res.bind_ok, Option.some.injEq] at hs
    split at hs
    · rename_i hcf
      rw [C02_checkCf w ty h2] at hcf
      subst hs
      refine Or.inl ⟨_, V, tail, rfl, h.goto ?_ (local_next hq hx (fun l hl => hwork l ((hmem l).2 (Or.inr hl))) ?_) ?_ ?_ ?_, Grows.refl V⟩
      · rw [hpc]; exact ⟨fun h' => absurd h' (not_incs_next _ _ _), fun h' => absurd h' id⟩
      · rcases hrt with h' | h'
        · exact Or.inl h'
        · rcases (hmem x).1 h' with rfl | h''
          · exact Or.inl ⟨ty, h3, hcf⟩
          · exact Or.inr h''
      · simp [operands_next]
      · rw [hpc]
        intro k hk
        rcases (hmem k).1 hk with rfl | h''
        · exact Or.inl ⟨ty, h3, hcf⟩
        · exact Or.inr ((owed_next ..).2 h'')
      · rw [hpc]; intro y hy; rw [root_next]; exact hy
    · split at hs
      · rename_i hsrc
        rw [C02_isSource w ty h2] at hsrc
        subst hs
        refine Or.inl ⟨_, V, tail, rfl, h.goto ?_ ⟨⟨hq, hx, hwork, hrt⟩, ?_⟩ ?_ ?_ ?_, Grows.refl V⟩
        · rw [hpc]; exact Iff.rfl
        · cases ty with
          | source cf i o => exact ⟨cf, i, o, h3⟩
          | range => simp at hsrc
          | union => simp at hsrc
        all_goals rw [hpc]
        · simp [operands]
        · exact fun k hk => Or.inr hk
        · exact fun y hy => hy
      · obtain ⟨q', hq', hh⟩ := LabelDeq.pushBack_holds hq c
        obtain ⟨hv, hcont⟩ := holds_content hh
        rw [hq'] at hs
        simp only [Res.bind_ok] at hs
        subst hs
        have hmem' : ∀ k, k ∈ owed (.mChild x q c rest) ↔ k ∈ content q' ∨ k ∈ rest := by
          intro k; rw [hmem, hcont, List.mem_append, List.mem_singleton]; grind
        refine Or.inl ⟨_, V, tail, rfl, h.goto ?_ (local_next hv hx (fun l hl => hwork l ((hmem' l).2 hl)) (hrt.imp id fun h' => (hmem' x).1 h')) ?_ ?_ ?_, Grows.refl V⟩
        · rw [hpc]; exact ⟨fun h' => absurd h' (not_incs_next _ _ _), fun h' => absurd h' id⟩
        · simp [operands_next]
        · rw [hpc]
          exact fun k hk => Or.inr ((owed_next ..).2 ((hmem' k).1 hk))
        · rw [hpc]; intro y hy; rw [root_next]; exact hy
  | mSrcLoad x q c rest =>
    rw [hpc] at hs hloc
    obtain ⟨hm, hsrc⟩ := hloc
    obtain ⟨w, ty, h1, hw, h2, h3, -⟩ := h.read (hm.2.2.1 c (by simp [owed])).1
    simp only [h1, Res.bind_ok, Option.some.injEq] at hs
    subst hs
    refine Or.inl ⟨_, V, tail, rfl, h.goto ?_ ⟨hm, hsrc, Or.inl hw⟩ ?_ ?_ ?_, Grows.refl V⟩
    all_goals rw [hpc]
    · exact Iff.rfl
    · simp [operands]
    · exact fun k hk => Or.inr hk
    · exact fun y hy => hy
  | mSrcStore x q c rest w =>
    rw [hpc] at hs hloc
    obtain ⟨⟨hq, hx, hwork, hrt⟩, ⟨cf, i, o, hg⟩, hst⟩ := hloc
    have hc := hwork c (by simp [owed])
    have hmem : ∀ k, k ∈ owed (.mSrcStore x q c rest w) ↔ k = c ∨ k ∈ content q ∨ k ∈ rest := by
      intro k; simp only [owed, List.mem_append, List.mem_cons]; grind
    simp only at hs
    rw [if_pos (by rw [h.mem, List.length_append]; have := hc.1.2; omega)] at hs
    simp only [Option.some.injEq] at hs
    subst hs
    obtain ⟨V', hi, hfo⟩ := h.flag (t := t) (x := x) (q := q) (rest := rest) hg hst (by rw [hpc]; rfl)
      (by rw [hpc]; exact id) hq hx hc.2 (fun l hl => hwork l ((hmem l).2 (Or.inr hl)))
      (by rw [hpc]; exact fun k hk => (hmem k).1 hk) (by rw [hpc]; exact hrt) (fun k hk => absurd hk id)
    exact Or.inl ⟨_, V', tail, rfl, hi, hfo.grows⟩
  | mPop x q =>
    rw [hpc] at hs hloc
    obtain ⟨hq, hx, hwork, hrt⟩ := (hloc : Marking V x q (.mPop x q))
    simp only [Option.some.injEq] at hs
    have hem := LabelDeq.isEmpty_holds hq
    cases hcont : content q with
    | nil =>
      rw [hcont] at hem
      rw [if_pos (by rw [hem]; rfl)] at hs
      subst hs
      have hfx : Flagged V.graph x := by
        rcases hrt with h' | h'
        · exact h'
        · rw [owed, hcont] at h'; cases h'
      refine Or.inl ⟨_, V, tail, rfl, ?_, Grows.refl V⟩
      refine Moves.inv h (t := t) (pc' := .idle) (es := [.mark x]) ⟨rfl, rfl, rfl, h.mem, h.fits, Grows.refl V, h.wf,
        h.free, ?_, fun _ _ => Iff.rfl, fun _ _ _ => ⟨rfl, rfl⟩, trivial, by simp [operands], ?_,
        h.meaning_mark (Grows.refl V) h.wf rfl, by simp [Answered], ?_, fun l hl => Or.inl hl,
        fun l ty k hg hf hn _ => absurd ⟨ty, hg, hf⟩ hn, ?_, ?_⟩
      · refine ⟨fun h' => absurd h' id, fun h' => ?_⟩
        have := (h.holder t).2 h'
        rw [hpc] at this; exact absurd this id
      · intro e he l hl
        simp only [List.mem_singleton] at he
        subst he; exact absurd hl id
      · rw [hpc, owed, hcont]; simp
      · rw [hpc]; intro y hy; cases hy; right; simp
      · intro y hy
        simp only [List.mem_singleton, Event.mark.injEq] at hy
        subst hy; exact hfx
    | cons l ls =>
      rw [hcont] at hem
      rw [if_neg (by rw [hem]; simp)] at hs
      have hq2 := hq
      unfold ValidQ at hq2
      rw [hcont] at hq2
      obtain ⟨q', hpop, hh⟩ := LabelDeq.popFront_holds hq2
      obtain ⟨hv, hc'⟩ := holds_content hh
      rw [hpop] at hs
      simp only [Res.bind_ok] at hs
      subst hs
      have hmem : ∀ k, k ∈ owed (.mEnc x q' l) ↔ k ∈ owed (.mPop x q) := by
        intro k; simp only [owed]; rw [hcont, hc']
      refine Or.inl ⟨_, V, tail, rfl, h.goto ?_ ⟨hv, hx, fun k hk => hwork k ((hmem k).1 hk), hrt.imp id fun h' => (hmem x).2 h'⟩ ?_ ?_ ?_, Grows.refl V⟩
      all_goals rw [hpc]
      · exact Iff.rfl
      · simp [operands]
      · exact fun k hk => Or.inr ((hmem k).2 hk)
      · exact fun y hy => hy
  | mEnc x q l =>
    rw [hpc] at hs hloc
    obtain ⟨hq, hx, hwork, hrt⟩ := (hloc : Marking V x q (.mEnc x q l))
    obtain ⟨w, ty, h1, hw, h2, h3, -⟩ := h.read (hwork l (by simp [owed])).1
    simp only [h1, Res.bind_ok, Option.some.injEq] at hs
    subst hs
    refine Or.inl ⟨_, V, tail, rfl, h.goto ?_ ⟨⟨hq, hx, hwork, hrt⟩, ty, ty, h2, h3, rfl⟩ ?_ ?_ ?_, Grows.refl V⟩
    all_goals rw [hpc]
    · exact Iff.rfl
    · simp [operands]
    · exact fun k hk => Or.inr hk
    · exact fun y hy => hy
  | mSetLoad x q l e =>
    rw [hpc] at hs hloc
    obtain ⟨hm, hsame⟩ := hloc
    obtain ⟨w, ty, h1, hw, h2, h3, -⟩ := h.read (hm.2.2.1 l (by simp [owed])).1
    simp only [h1, Res.bind_ok, Option.some.injEq] at hs
    subst hs
    refine Or.inl ⟨_, V, tail, rfl, h.goto ?_ ⟨hm, hsame, Or.inl hw⟩ ?_ ?_ ?_, Grows.refl V⟩
    all_goals rw [hpc]
    · exact Iff.rfl
    · simp [operands]
    · exact fun k hk => Or.inr hk
    · exact fun y hy => hy
  | mSetStore x q l e w =>
    rw [hpc] at hs hloc
    obtain ⟨⟨hq, hx, hwork, hrt⟩, ⟨ty, u, hd, hg, hsame⟩, hst⟩ := hloc
    have hl := hwork l (by simp [owed])
    simp only at hs
    rw [if_pos (by rw [h.mem, List.length_append]; have := hl.1.2; omega)] at hs
    simp only [hd, Res.bind_ok, Option.some.injEq] at hs
    subst hs
    have hkids : ∀ k, k ∈ childList ty → V.Lab k ∧ BuiltFrom V.graph x k := by
      intro k hk
      have hr : Ref u k := (Ref_congr_flag hsame k).2 (mem_childList.1 hk)
      have := (h.wf.refs hg).2.2.2 k hr
      have hlt := hl.1.2
      exact ⟨⟨this.1, by omega⟩, builtFrom_trans hl.2 (builtFrom_single hg hr)⟩
    obtain ⟨V', hi, hfo⟩ := h.flag (t := t) (x := x) (q := q) (rest := childList ty) hg hst (by rw [hpc]; rfl)
      (by rw [hpc]; exact id) hq hx hl.2
      (fun k hk => hk.elim (fun h' => hwork k (by simp [owed, h'])) (fun h' => hkids k h'))
      (by rw [hpc]; intro k hk; simp only [owed, List.mem_cons] at hk; exact hk.imp id Or.inl)
      (by rw [hpc]; exact hrt) (fun k hk => mem_childList.2 ((Ref_congr_flag hsame k).1 hk))
    exact Or.inl ⟨_, V', tail, rfl, hi, hfo.grows⟩

theorem Inv.init {cap : Nat} (h0 : 0 < cap) (h2 : cap ≤ 2 ^ 31) : Inv (init cap) (Labels.init cap) [] := by
  obtain ⟨hw, hc⟩ := init_words h0
  have hg : ∀ l t, (Labels.init cap).graph l ≠ some t := by
    intro l t hgl
    have := (init_wf h0 h2).refs hgl
    rw [hw] at this
    simp at this; omega
  refine ⟨by rw [hw]; rfl, hc, h0, init_wf h0 h2, fun _ => rfl, fun t => ?_, fun t => trivial, ?_, ?_, ?_, by simp [CSys.init], ?_, ?_, ?_⟩
  · exact ⟨fun h => absurd h id, fun h => by cases h⟩
  · intro t l hl; cases hl
  · rintro l ⟨e, he, -⟩; cases he
  · rintro l ⟨e, he, -⟩; cases he
  · intro l ty k h; exact absurd h (hg l ty)
  · intro x hx; cases hx
  · rintro l ⟨t, ht, -⟩; exact absurd ht (hg l t)

theorem Inv.callUnion {S : CSys} {V : Labels} {tail : List Nat} (h : Inv S V tail) {t l r : Nat}
    (hid : S.threads t = .idle) (hl : S.Known l) (hr : S.Known r) : Inv (S.callUnion t l r) V tail := by
  unfold CSys.callUnion
  split
  · rename_i e
    subst e
    refine h.finish_union ?_ hl hl (h.known l hl) (by simp) ?_ ?_
    all_goals rw [hid]
    · exact id
    · rfl
    · rfl
  · rename_i hne
    refine h.goto ?_ ⟨hne, h.known l hl, h.known r hr⟩ ?_ ?_ ?_
    · rw [hid]; exact Iff.rfl
    · intro k hk
      simp only [operands, List.mem_cons, List.not_mem_nil, or_false] at hk
      rcases hk with rfl | rfl
      · exact Or.inr hl
      · exact Or.inr hr
    all_goals rw [hid]
    · simp [owed]
    · simp [root]

theorem Inv.callSource {S : CSys} {V : Labels} {tail : List Nat} (h : Inv S V tail) {t src off n : Nat}
    (hid : S.threads t = .idle) (h1 : src < 256) (h2 : 0 < n) (h3 : off + n ≤ 2 ^ 54) :
    Inv (S.callSource t src off n) V tail := by
  refine h.goto ?_ ⟨h1, h2, h3⟩ ?_ ?_ ?_
  all_goals rw [hid]
  · exact Iff.rfl
  · simp [operands]
  · simp [owed]
  · simp [root]

theorem Inv.callMark {S : CSys} {V : Labels} {tail : List Nat} (h : Inv S V tail) {t x : Nat}
    (hid : S.threads t = .idle) (hx : S.Known x) : Inv (S.callMark t x) V tail := by
  obtain ⟨hv, hc⟩ := holds_content (LabelDeq.new_holds (N := queueSlots) (by decide))
  have how : owed (.mChild x (LabelDeq.new queueSlots) x []) = [x] := by rw [owed, hc]; rfl
  refine h.goto ?_ ⟨hv, h.known x hx, ?_, Or.inr (by rw [how]; simp)⟩ ?_ ?_ ?_
  · rw [hid]; exact Iff.rfl
  · intro l hl
    rw [how, List.mem_singleton] at hl
    subst hl
    exact ⟨h.known l hx, .refl _⟩
  all_goals rw [hid]
  · simp [operands]
  · simp [owed]
  · simp [root]

theorem Reach.inv {cap : Nat} (h0 : 0 < cap) (h2 : cap ≤ 2 ^ 31) {S : CSys} (h : Reach cap S) :
    ∃ V tail, Inv S V tail ∧ S.cap = cap := by
  induction h with
  | init => exact ⟨_, _, Inv.init h0 h2, rfl⟩
  | @step S t S' _ hs ih =>
    obtain ⟨V, tail, hi, hc⟩ := ih
    rcases hi.step hs with ⟨S1, V', tail', he, hi', hg⟩ | ⟨he, -⟩ | ⟨he, -⟩
    · cases he; exact ⟨V', tail', hi', by rw [← hi'.cap, hg.cap, hi.cap, hc]⟩
    · cases he
    · cases he
  | union _ hid hl hr ih =>
    obtain ⟨V, tail, hi, hc⟩ := ih
    have := hi.callUnion hid hl hr
    exact ⟨V, tail, this, by rw [← this.cap, hi.cap, hc]⟩
  | source _ hid h1 h2' h3 ih =>
    obtain ⟨V, tail, hi, hc⟩ := ih
    exact ⟨V, tail, hi.callSource hid h1 h2' h3, hc⟩
  | mark _ hid hx ih =>
    obtain ⟨V, tail, hi, hc⟩ := ih
    exact ⟨V, tail, hi.callMark hid hx, hc⟩

end CSys
end Verif
