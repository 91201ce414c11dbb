import Verif.LabelsTsoReach
/- Helper lemmas: stores reaching memory, and what the correspondence says about the label graphs. -/
namespace Verif
open Spec

namespace TSys
open Labels CSys

/-- A store of the holder of the mutex, made before its release, reaches memory. -/
theorem Rel.commitHeld {T : TSys} {S : WSys} {P : Nat} (R : Rel T S P) {t : Nat} {i : Item} {b : List Item}
    (hl : T.lock = some t) (hb : T.buf t = i :: b) (hn : i ≠ .unlock)
    (hpre : InCS (T.threads t) ∨ ∃ pre post, T.buf t = i :: pre ++ .unlock :: post ∧ Held P S.sys.mem.length (i :: pre))
    {T' : TSys} (hc : T.commit t = some T') : Rel T' S P := by
  have hheld : (∃ a w, i = .word a w ∧ P ≤ a ∧ a < S.sys.mem.length) ∨ i = .size S.sys.mem.length := by
    rcases hpre with h | ⟨pre, post, -, h⟩
    · cases R.owner t hl with
      | inside _ _ _ h4 _ => exact h4 i (by rw [hb]; exact List.mem_cons_self ..)
      | outside _ _ h' => exact absurd h h'
    · exact h i (List.mem_cons_self ..)
  have hother : ∀ u, u ≠ t → T.lock ≠ some u := by
    intro u hu h; rw [hl] at h; cases h; exact hu rfl
  have key : ∀ (m : Nat → Nat) (s : Nat), (∀ x, after m b x = after T.mem (i :: b) x) →
      (∀ pre x, after m pre x = after T.mem (i :: pre) x) → (∀ pre, sizeAfter s pre = sizeAfter T.size (i :: pre)) →
      (∀ a, a < P → m a = T.mem a) → (∀ a, S.sys.mem.length ≤ a → m a = 0) → P ≤ s →
      Rel { T with mem := m, size := s, buf := fun u => if u = t then b else T.buf u } S P := by
    intro m s h1 h1' h2 h3 h4 h5
    have hbne : ∀ u, u ≠ t → (if u = t then b else T.buf u) = T.buf u := fun u hu => if_neg hu
    refine ⟨R.cap, R.threads, R.log, R.lock, R.le, R.pos, h5, ?_, ?_, ?_, ?_, h4, R.seen, ?_, R.pcs⟩
    · intro h
      have : T.lock = none := h
      rw [hl] at this; cases this
    · intro u hu
      have e : u ≠ t := fun h => hu (by rw [h]; exact hl)
      show Late _ _ (if u = t then b else T.buf u)
      rw [hbne u e]; exact R.others u hu
    · intro u hu
      have : T.lock = some u := hu
      rw [hl] at this; cases this
      cases R.owner t hl with
      | inside h6 h7 h8 h9 h10 =>
        refine .inside h6 h7 ?_ ?_ ?_
        · show sizeAfter s (if t = t then b else T.buf t) = _
          rw [if_pos rfl, h2, ← hb]; exact h8
        · show Held _ _ (if t = t then b else T.buf t)
          rw [if_pos rfl]; rw [hb] at h9; exact h9.tail
        · intro a h11 h12
          show _ = some (after m (if t = t then b else T.buf t) a)
          rw [if_pos rfl, h1, ← hb]; exact h10 a h11 h12
      | outside pre post h6 h7 h8 h9 h10 h11 =>
        cases pre with
        | nil =>
          rw [hb] at h7
          simp only [List.nil_append, List.cons.injEq] at h7
          exact absurd h7.1 hn
        | cons j pre =>
          rw [hb] at h7
          simp only [List.cons_append, List.cons.injEq] at h7
          obtain ⟨e1, e2⟩ := h7
          subst e1
          refine .outside pre post h6 ?_ ?_ h9.tail h10 ?_
          · show (if t = t then b else T.buf t) = _
            rw [if_pos rfl, e2]
          · show sizeAfter s pre = _
            rw [h2]; exact h8
          · intro a h12 h13
            show S.Has a (after m pre a) ∧ (_ = some (after m pre a) ∨ _)
            rw [h1']; exact h11 a h12 h13
    · intro a ha
      obtain ⟨h6, h7⟩ := R.low a ha
      show S.Has a (m a) ∧ (_ = some (m a) ∨ _)
      rw [h3 a ha]
      refine ⟨h6, h7.imp id ?_⟩
      rintro ⟨u, w, h8, h9⟩
      refine ⟨u, w, h8, ?_⟩
      show _ ∈ (if u = t then b else T.buf u)
      by_cases e : u = t
      · subst e
        rw [if_pos rfl]
        rw [hb] at h9
        rcases List.mem_cons.1 h9 with h10 | h10
        · rcases hheld with ⟨x, y, h11, h12, -⟩ | h11
          · rw [h11] at h10; cases h10; omega
          · rw [h11] at h10; cases h10
        · exact h10
      · rw [if_neg e]; exact h9
    · intro u e hu
      have hu' : .ret e ∈ (if u = t then b else T.buf u) := hu
      refine R.rets u e ?_
      by_cases e' : u = t
      · subst e'; rw [if_pos rfl] at hu'; rw [hb]; exact List.mem_cons_of_mem _ hu'
      · rwa [if_neg e'] at hu'
  unfold commit at hc
  rw [hb] at hc
  rcases hheld with ⟨a, w, rfl, h1, h2⟩ | rfl
  · simp only [Option.some.injEq] at hc
    subst hc
    refine key (fun x => if x = a then w else T.mem x) T.size (fun _ => rfl) (fun _ _ => rfl) (fun _ => rfl) ?_ ?_ R.sizeP
    · intro x hx; exact if_neg (by omega)
    · intro x hx
      show (if x = a then w else T.mem x) = 0
      rw [if_neg (by omega)]; exact R.zero x hx
  · simp only [Option.some.injEq] at hc
    subst hc
    exact key T.mem S.sys.mem.length (fun _ => rfl) (fun _ _ => rfl) (fun _ => rfl) (fun _ _ => rfl) R.zero R.le

/-- The release reaches memory: everything is published. -/
theorem Rel.commitUnlock {T : TSys} {S : WSys} {P : Nat} (R : Rel T S P) {V : Labels} {tail : List Nat}
    (hi : CSys.Inv S.sys V tail) {t : Nat} {b : List Item} (hl : T.lock = some t) (hb : T.buf t = .unlock :: b)
    {T' : TSys} (hc : T.commit t = some T') : Rel T' S S.sys.mem.length := by
  have hown := R.owner t hl
  cases hown with
  | inside _ _ _ h4 _ =>
    have := h4 .unlock (by rw [hb]; exact List.mem_cons_self ..)
    rcases this with ⟨_, _, h, -⟩ | h <;> cases h
  | outside pre post h1 h2 h3 h4 h5 h6 =>
    cases pre with
    | cons i pre =>
      rw [hb] at h2
      simp only [List.cons_append, List.cons.injEq] at h2
      have := h4 i (List.mem_cons_self ..)
      rw [← h2.1] at this
      rcases this with ⟨_, _, h, -⟩ | h <;> cases h
    | nil =>
      rw [hb] at h2
      simp only [List.nil_append, List.cons.injEq, true_and] at h2
      subst h2
      have hfull := R.full hi (R.only hl h1)
      unfold commit at hc
      rw [hb] at hc
      simp only [Option.some.injEq] at hc
      subst hc
      have hknown : ∀ e ∈ T.log, ∀ l, Returned e l → l < S.sys.mem.length := by
        intro e he l hr
        rw [← hfull]
        exact (hi.known l ⟨e, by rw [R.log]; exact he, hr⟩).2
      have hne : ∀ u, u ≠ t → T.lock ≠ some u := by
        intro u hu h; rw [hl] at h; cases h; exact hu rfl
      refine ⟨R.cap, R.threads, R.log, ?_, Nat.le_refl _, ?_, ?_, fun _ => ⟨rfl, h3⟩, ?_, ?_, ?_, R.zero, ?_, ?_, ?_⟩
      · intro u hu
        have h7 := (hi.holder u).2 hu
        rw [R.threads] at h7
        exact absurd h7 (R.only hl h1 u (R.lock u hu))
      · have := R.pos; have := R.le; omega
      · show _ ≤ T.size
        have : T.size = S.sys.mem.length := h3
        omega
      · intro u _
        show Late _ _ (if u = t then b else T.buf u)
        by_cases e : u = t
        · rw [if_pos e]; exact h5
        · rw [if_neg e]; exact (R.others u (hne u e)).mono R.le
      · intro u hu; cases hu
      · intro a ha
        by_cases hP : a < P
        · obtain ⟨h7, h8⟩ := R.low a hP
          refine ⟨h7, h8.imp id ?_⟩
          rintro ⟨u, w, h9, h10⟩
          refine ⟨u, w, h9, ?_⟩
          show _ ∈ (if u = t then b else T.buf u)
          by_cases e : u = t
          · subst e
            rw [if_pos rfl]; rw [hb] at h10
            rcases List.mem_cons.1 h10 with h11 | h11
            · cases h11
            · exact h11
          · rw [if_neg e]; exact h10
        · obtain ⟨h7, h8⟩ := h6 a (by omega) ha
          refine ⟨h7, h8.imp id ?_⟩
          rintro ⟨w, h9, h10⟩
          refine ⟨t, w, h9, ?_⟩
          show _ ∈ (if t = t then b else T.buf t)
          rw [if_pos rfl]; exact h10
      · intro e he
        have := R.seen e he
        exact ⟨this.1, hknown e this.1⟩
      · intro u e hu
        have hu' : .ret e ∈ (if u = t then b else T.buf u) := hu
        have : .ret e ∈ T.buf u := by
          by_cases e' : u = t
          · subst e'; rw [if_pos rfl] at hu'; rw [hb]; exact List.mem_cons_of_mem _ hu'
          · rwa [if_neg e'] at hu'
        have := (R.rets u e this).1
        exact ⟨this, fun _ => hknown e this⟩
      · intro u _
        have := below_inv hi u
        rw [R.threads, hfull] at this
        exact this

/-- A flag or a result reaches memory. -/
theorem Rel.commitLate {T : TSys} {S : WSys} {P : Nat} (R : Rel T S P) {t : Nat} {i : Item} {b : List Item}
    (hl : T.lock ≠ some t) (hb : T.buf t = i :: b) {T' : TSys} (hc : T.commit t = some T') : Rel T' S P := by
  have hlate := R.others t hl
  have hown : ∀ u, T.lock = some u → u ≠ t := fun u hu h => hl (by rw [← h]; exact hu)
  unfold commit at hc
  rw [hb] at hc hlate
  have hbuf : ∀ u j, j ∈ (if u = t then b else T.buf u) → j ∈ T.buf u := by
    intro u j hj
    by_cases e : u = t
    · subst e; rw [if_pos rfl] at hj; rw [hb]; exact List.mem_cons_of_mem _ hj
    · rwa [if_neg e] at hj
  have hothers : ∀ u, T.lock ≠ some u → Late S.sys.mem P (if u = t then b else T.buf u) := by
    intro u hu
    by_cases e : u = t
    · rw [if_pos e]; exact hlate.tail
    · rw [if_neg e]; exact R.others u hu
  rcases hlate i (List.mem_cons_self ..) with ⟨a, w, rfl, ha, hw, -⟩ | ⟨e, rfl⟩
  · simp only [Option.some.injEq] at hc
    subst hc
    refine ⟨R.cap, R.threads, R.log, R.lock, R.le, R.pos, R.sizeP, R.free, hothers, ?_, ?_, ?_, R.seen, ?_, R.pcs⟩
    · intro u hu
      refine (R.owner u hu).congr (if_neg (hown u hu)) rfl rfl (fun x hx => ?_) rfl (fun _ _ => rfl) (fun _ _ h _ => h)
        (fun _ _ h => h)
      exact if_neg (by omega)
    · intro x hx
      show S.Has x (if x = a then w else T.mem x) ∧ (_ = some (if x = a then w else T.mem x) ∨ _)
      by_cases e : x = a
      · subst e
        rw [if_pos rfl]; exact ⟨Or.inl hw, Or.inl hw⟩
      · rw [if_neg e]
        obtain ⟨h1, h2⟩ := R.low x hx
        refine ⟨h1, h2.imp id ?_⟩
        rintro ⟨u, y, h3, h4⟩
        refine ⟨u, y, h3, ?_⟩
        show _ ∈ (if u = t then b else T.buf u)
        by_cases e' : u = t
        · subst e'
          rw [if_pos rfl]; rw [hb] at h4
          rcases List.mem_cons.1 h4 with h5 | h5
          · cases h5; exact absurd rfl e
          · exact h5
        · rw [if_neg e']; exact h4
    · intro x hx
      show (if x = a then w else T.mem x) = 0
      have := R.le
      rw [if_neg (by omega)]; exact R.zero x hx
    · exact fun u e hu => R.rets u e (hbuf u _ hu)
  · simp only [Option.some.injEq] at hc
    subst hc
    have hret := R.rets t e (by rw [hb]; exact List.mem_cons_self ..)
    refine ⟨R.cap, R.threads, R.log, R.lock, R.le, R.pos, R.sizeP, R.free, hothers, ?_, ?_, R.zero, ?_, ?_, R.pcs⟩
    · intro u hu
      exact (R.owner u hu).congr (if_neg (hown u hu)) rfl rfl (fun _ _ => rfl) rfl (fun _ _ => rfl) (fun _ _ h _ => h)
        (fun _ _ h => h)
    · intro x hx
      obtain ⟨h1, h2⟩ := R.low x hx
      refine ⟨h1, h2.imp id ?_⟩
      rintro ⟨u, y, h3, h4⟩
      refine ⟨u, y, h3, ?_⟩
      show _ ∈ (if u = t then b else T.buf u)
      by_cases e' : u = t
      · subst e'
        rw [if_pos rfl]; rw [hb] at h4
        rcases List.mem_cons.1 h4 with h5 | h5
        · cases h5
        · exact h5
      · rw [if_neg e']; exact h4
    · intro x hx
      rcases List.mem_append.1 (hx : x ∈ T.seen ++ [e]) with h | h
      · exact R.seen x h
      · simp only [List.mem_singleton] at h
        subst h
        exact ⟨hret.1, hret.2 hl⟩
    · exact fun u x hu => R.rets u x (hbuf u _ hu)

theorem Rel.commit {T : TSys} {S : WSys} {P : Nat} (R : Rel T S P) {V : Labels} {tail : List Nat}
    (hi : CSys.Inv S.sys V tail) {t : Nat} {T' : TSys} (hc : T.commit t = some T') : ∃ P', Rel T' S P' := by
  cases hb : T.buf t with
  | nil => unfold TSys.commit at hc; rw [hb] at hc; cases hc
  | cons i b =>
    by_cases hl : T.lock = some t
    · by_cases hn : i = .unlock
      · subst hn; exact ⟨_, R.commitUnlock hi hl hb hc⟩
      · refine ⟨P, R.commitHeld hl hb hn ?_ hc⟩
        cases R.owner t hl with
        | inside h _ _ _ _ => exact Or.inl h
        | outside pre post _ h2 _ h4 _ _ =>
          right
          cases pre with
          | nil => rw [hb] at h2; simp only [List.nil_append, List.cons.injEq] at h2; exact absurd h2.1 hn
          | cons j pre =>
            have h2' := h2
            rw [hb] at h2'
            simp only [List.cons_append, List.cons.injEq] at h2'
            obtain ⟨e, -⟩ := h2'
            subst e
            exact ⟨pre, post, h2, h4⟩
    · exact ⟨P, R.commitLate hl hb hc⟩

/-- A label a thread can have: some call returned it, and its word is published to the thread. -/
theorem Rel.knownTo {T : TSys} {S : WSys} {P : Nat} (R : Rel T S P) {t l : Nat} (hk : T.KnownTo t l) :
    S.sys.Known l ∧ (T.lock ≠ some t → l < P) := by
  obtain ⟨e, he, hr⟩ := hk
  rcases he with he | he
  · obtain ⟨h1, h2⟩ := R.seen e he
    exact ⟨⟨e, by rw [R.log]; exact h1, hr⟩, fun _ => h2 l hr⟩
  · obtain ⟨h1, h2⟩ := R.rets t e he
    exact ⟨⟨e, by rw [R.log]; exact h1, hr⟩, fun h => h2 h l hr⟩

theorem become_nil (S : CSys) (t : Nat) (pc : PC) : S.become t (pc, []) = S.goto t pc := by
  show ({ (S.goto t pc) with log := S.log ++ [] } : CSys) = _
  rw [List.append_nil]; rfl

/-- Every reachable state corresponds to a reachable state of the machine with old values. -/
theorem Reach.rel {cap : Nat} (h0 : 0 < cap) (hcap : cap ≤ 2 ^ 31) {T : TSys} (h : Reach cap T) :
    ∃ S P, WSys.Reach cap S ∧ Rel T S P := by
  induction h with
  | init =>
    refine ⟨_, 1, .init, rfl, rfl, rfl, fun t h => (by cases h), Nat.le_refl _, Nat.one_pos, Nat.le_refl _,
      fun _ => ⟨rfl, rfl⟩, fun t _ i hi => (by cases hi), fun t h => (by cases h), ?_, fun _ _ => rfl,
      fun e he => (by cases he), fun t e he => (by cases he), fun t _ => ⟨fun l hl => (by cases hl), fun x hx => (by cases hx),
        fun _ _ _ _ _ h => (by cases h)⟩⟩
    intro a ha
    have : a = 0 := by omega
    subst this
    exact ⟨Or.inl rfl, Or.inl rfl⟩
  | step _ hs ih =>
    obtain ⟨S, P, hr, R⟩ := ih
    rcases R.step h0 hcap hr hs with ⟨T', S', he, hr', R'⟩ | ⟨he, -⟩ | ⟨he, -⟩
    · cases he; exact ⟨S', P, hr', R'⟩
    · cases he
    · cases he
  | commit _ hc ih =>
    obtain ⟨S, P, hr, R⟩ := ih
    obtain ⟨V, tail, hi, -⟩ := hr.inv h0 hcap
    obtain ⟨P', R'⟩ := R.commit hi.sys hc
    exact ⟨S, P', hr, R'⟩
  | @union T t l r _ hid hl hr' ih =>
    obtain ⟨S, P, hr, R⟩ := ih
    obtain ⟨h1, h2⟩ := R.knownTo hl
    obtain ⟨h3, h4⟩ := R.knownTo hr'
    have hcs : ¬ InCS (T.threads t) := by rw [hid]; exact id
    refine ⟨_, P, .union hr (t := t) (by rw [R.threads]; exact hid) h1 h3, ?_⟩
    unfold TSys.callUnion CSys.callUnion
    by_cases e : l = r
    · rw [if_pos e, if_pos e]
      exact R.quiet (pc' := .idle) (es := [.union l r l]) hcs id
        (fun _ => ⟨by simp [operands], by simp [CSys.root], by simp⟩)
        (fun h x hx k hk => by simp only [List.mem_singleton] at hx; subst hx; cases (hk : k = l); exact h2 h)
    · rw [if_neg e, if_neg e]
      have := R.quiet (t := t) (pc' := .uLeft l r) (es := []) hcs id
        (fun h => ⟨fun k hk => by
          simp only [operands, List.mem_cons, List.not_mem_nil, or_false] at hk
          rcases hk with rfl | rfl
          · exact h2 h
          · exact h4 h, by simp [CSys.root], by simp⟩) (by simp)
      rw [become_nil] at this
      exact this
  | @source T t src off n _ hid h1 h2 h3 ih =>
    obtain ⟨S, P, hr, R⟩ := ih
    refine ⟨_, P, .source hr (t := t) (by rw [R.threads]; exact hid) h1 h2 h3, ?_⟩
    have := R.quiet (t := t) (pc' := .sAlloc src off n) (es := []) (by rw [hid]; exact id) id
      (fun h => ⟨by simp [operands], by simp [CSys.root], by simp⟩) (by simp)
    rw [become_nil] at this
    exact this
  | @mark T t x _ hid hx ih =>
    obtain ⟨S, P, hr, R⟩ := ih
    obtain ⟨h1, h2⟩ := R.knownTo hx
    refine ⟨_, P, .mark hr (t := t) (by rw [R.threads]; exact hid) h1, ?_⟩
    have := R.quiet (t := t) (pc' := .mChild x (LabelDeq.new queueSlots) x []) (es := []) (by rw [hid]; exact id) id
      (fun h => ⟨by simp [operands], fun y hy => by cases hy; exact h2 h, by simp⟩) (by simp)
    rw [become_nil] at this
    exact this

end TSys
end Verif
