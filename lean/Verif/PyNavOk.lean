import Verif.PyNavSpec
/- The loops of PyNav stay in one frame. -/
namespace Verif.PyNav

variable {T : Tr}

theorem in_range {j : Nat} {e : Ev} (h : T.evs[j]? = some e) : j < T.evs.length := (List.getElem?_eq_some_iff.1 h).1

theorem nextLoop_sound (hT : T.Ok) {i e : Nat} (hi : T.entry i = some e) (fuel j0 j : Nat) (he : e < j0)
    (hf : frame T.evs j0 = some e) (h : T.nextLoop i fuel j0 = some j) :
    j0 ≤ j ∧ (∃ b, T.evs[j]? = some (.block b)) ∧ frame T.evs j = some e ∧
      ∀ m b : Nat, j0 ≤ m → m < j → T.evs[m]? = some (.block b) → frame T.evs m ≠ some e := by
  induction fuel generalizing j0 with
  | zero => simp [Tr.nextLoop] at h
  | succ fuel ih =>
    unfold Tr.nextLoop at h
    cases hev : T.evs[j0]? with
    | none => rw [hev] at h; cases h
    | some ev =>
      rw [hev] at h
      cases ev with
      | ret => cases h
      | other => cases h
      | block b =>
        have h0 := hT.block j0 b hev
        simp only at h
        split at h
        · cases h
          exact ⟨Nat.le_refl _, ⟨b, hev⟩, hf, fun m b h1 h2 => by omega⟩
        · cases h
      | enter =>
        simp only at h
        cases hr : T.ret j0 with
        | none => rw [hr] at h; cases h
        | some k =>
          rw [hr] at h
          obtain ⟨hk, hkf⟩ := (hT.ret j0 k hev).1 hr
          have hlt := (frame_stack hkf).2.1
          obtain ⟨h1, h2, h3, h4⟩ := ih (k + 1) (by omega) (by rw [frame_after hk hkf]; exact hf) h
          refine ⟨by omega, h2, h3, fun m b hm1 hm2 hb => ?_⟩
          by_cases hmk : k < m
          · exact h4 m b hmk hm2 hb
          · by_cases hm0 : m = j0
            · subst hm0; rw [hev] at hb; cases hb
            · exact inside hkf (by omega) (by omega) he

theorem nextLoop_complete (hT : T.Ok) {i e : Nat} (hi : T.entry i = some e) (fuel j0 : Nat) (he : e < j0)
    (hf : frame T.evs j0 = some e) (hl : T.evs.length ≤ fuel + j0)
    (ho : ∀ m : Nat, j0 ≤ m → frame T.evs m = some e → T.evs[m]? ≠ some .other)
    (h : T.nextLoop i fuel j0 = none) (m b : Nat) (hm : j0 ≤ m) (hb : T.evs[m]? = some (.block b)) : frame T.evs m ≠ some e := by
  induction fuel generalizing j0 with
  | zero => have := in_range hb; omega
  | succ fuel ih =>
    intro hmf
    unfold Tr.nextLoop at h
    cases hev : T.evs[j0]? with
    | none =>
      have h1 := List.getElem?_eq_none_iff.1 hev
      have h2 := in_range hb
      omega
    | some ev =>
      rw [hev] at h
      cases ev with
      | ret =>
        by_cases hm0 : m = j0
        · subst hm0; rw [hev] at hb; cases hb
        · exact closed hev hf (by omega) hmf
      | other => exact ho j0 (Nat.le_refl _) hf hev
      | block b' =>
        have h0 := hT.block j0 b' hev
        simp [h0, hf, hi] at h
      | enter =>
        simp only at h
        have hm0 : m ≠ j0 := by intro hm0; subst hm0; rw [hev] at hb; cases hb
        obtain ⟨k, hk1, hk2, hk3, hk4⟩ := must_return hev (by omega) hmf he
        rw [(hT.ret j0 k hev).2 ⟨hk3, hk4⟩] at h
        exact ih (k + 1) (by omega) (by rw [frame_after hk3 hk4]; exact hf) (by omega)
          (fun m h1 => ho m (by omega)) h (by omega) hmf

/-- A block of a frame is behind the entry of the function. -/
theorem lt_of_frame {e i : Nat} (h : frame T.evs i = some e) : e < i := (frame_stack h).2.1

theorem next_sound (hT : T.Ok) {i b e j : Nat} (hb : T.evs[i]? = some (.block b)) (hf : frame T.evs i = some e)
    (h : T.nextBlock i = some j) : i < j ∧ (∃ b, T.evs[j]? = some (.block b)) ∧ frame T.evs j = some e ∧
      ∀ m b : Nat, i < m → m < j → T.evs[m]? = some (.block b) → frame T.evs m ≠ some e :=
  nextLoop_sound hT ((hT.block i b hb).trans hf) _ _ _ (Nat.lt_succ_of_lt (lt_of_frame hf)) ((frame_block hb).trans hf) h

theorem next_complete (hT : T.Ok) {i b e : Nat} (hb : T.evs[i]? = some (.block b)) (hf : frame T.evs i = some e)
    (ho : ∀ m : Nat, i < m → frame T.evs m = some e → T.evs[m]? ≠ some .other)
    (h : T.nextBlock i = none) (m b' : Nat) (hm : i < m) (hb' : T.evs[m]? = some (.block b')) : frame T.evs m ≠ some e :=
  nextLoop_complete hT ((hT.block i b hb).trans hf) _ _ (Nat.lt_succ_of_lt (lt_of_frame hf)) ((frame_block hb).trans hf)
    (by omega) ho h m b' hm hb'

theorem blocksLoop_sound (hT : T.Ok) {e : Nat} (fuel : Nat) (o : Option Nat)
    (ho : ∀ i, o = some i → (∃ b, T.evs[i]? = some (.block b)) ∧ frame T.evs i = some e) :
    (∀ x ∈ T.blocksLoop fuel o, (∃ i, o = some i ∧ i ≤ x) ∧ (∃ b, T.evs[x]? = some (.block b)) ∧ frame T.evs x = some e) ∧
      (T.blocksLoop fuel o).Pairwise (· < ·) := by
  induction fuel generalizing o with
  | zero => cases o <;> simp [Tr.blocksLoop]
  | succ fuel ih =>
    cases o with
    | none => simp [Tr.blocksLoop]
    | some i =>
      obtain ⟨⟨b, hb⟩, hf⟩ := ho i rfl
      have hn : ∀ j, T.nextBlock i = some j → _ := fun j hj => next_sound hT hb hf hj
      obtain ⟨h1, h2⟩ := ih (T.nextBlock i) (fun j hj => ⟨(hn j hj).2.1, (hn j hj).2.2.1⟩)
      unfold Tr.blocksLoop
      have hgt : ∀ x ∈ T.blocksLoop fuel (T.nextBlock i), i < x := by
        intro x hx
        obtain ⟨⟨j, hj, hjx⟩, -⟩ := h1 x hx
        have := (hn j hj).1
        omega
      refine ⟨fun x hx => ?_, List.pairwise_cons.2 ⟨hgt, h2⟩⟩
      rcases List.mem_cons.1 hx with rfl | hx
      · exact ⟨⟨x, rfl, Nat.le_refl _⟩, ⟨b, hb⟩, hf⟩
      · exact ⟨⟨i, rfl, Nat.le_of_lt (hgt x hx)⟩, (h1 x hx).2⟩

theorem blocksLoop_complete (hT : T.Ok) {e : Nat} (fuel i b : Nat) (hb : T.evs[i]? = some (.block b))
    (hf : frame T.evs i = some e) (hl : T.evs.length ≤ fuel + i)
    (ho : ∀ m : Nat, i < m → frame T.evs m = some e → T.evs[m]? ≠ some .other)
    (x b' : Nat) (hx : i ≤ x) (hb' : T.evs[x]? = some (.block b')) (hxf : frame T.evs x = some e) :
    x ∈ T.blocksLoop fuel (some i) := by
  induction fuel generalizing i b with
  | zero => have := in_range hb; omega
  | succ fuel ih =>
    unfold Tr.blocksLoop
    by_cases hxi : x = i
    · subst hxi; exact List.mem_cons_self
    · refine List.mem_cons_of_mem _ ?_
      cases hn : T.nextBlock i with
      | none => exact absurd hxf (next_complete hT hb hf ho hn x b' (by omega) hb')
      | some j =>
        obtain ⟨h1, ⟨b2, h2⟩, h3, h4⟩ := next_sound hT hb hf hn
        have hjx : j ≤ x := Nat.le_of_not_lt fun hlt => h4 x b' (by omega) hlt hb' hxf
        exact ih j b2 h2 h3 (by omega) (fun m hm => ho m (by omega)) hjx

theorem callsLoop_spec (hT : T.Ok) {e : Nat} (hee : T.evs[e]? = some .enter) (fuel j0 : Nat) (he : e < j0)
    (hf : frame T.evs j0 = some e) (hl : T.evs.length ≤ fuel + j0) :
    (∀ x, x ∈ T.callsLoop e fuel j0 ↔ j0 ≤ x ∧ T.evs[x]? = some .enter ∧ frame T.evs x = some e) ∧
      (T.callsLoop e fuel j0).Pairwise (· < ·) := by
  induction fuel generalizing j0 with
  | zero =>
    refine ⟨fun x => ⟨fun h => by simp [Tr.callsLoop] at h, fun ⟨h1, h2, _⟩ => ?_⟩, by simp [Tr.callsLoop]⟩
    have := in_range h2; omega
  | succ fuel ih =>
    unfold Tr.callsLoop
    by_cases hret : T.ret e = some j0
    · rw [if_pos hret]
      refine ⟨fun x => ⟨fun h => by simp at h, fun ⟨h1, h2, h3⟩ => ?_⟩, List.Pairwise.nil⟩
      obtain ⟨hr, -⟩ := (hT.ret e j0 hee).1 hret
      by_cases hx : x = j0
      · subst hx; rw [hr] at h2; cases h2
      · exact absurd h3 (closed hr hf (by omega))
    · rw [if_neg hret]
      have step : ∀ ev, T.evs[j0]? = some ev → ev ≠ .enter → frame T.evs (j0 + 1) = some e →
          (∀ x, x ∈ T.callsLoop e fuel (j0 + 1) ↔ j0 ≤ x ∧ T.evs[x]? = some .enter ∧ frame T.evs x = some e) ∧
            (T.callsLoop e fuel (j0 + 1)).Pairwise (· < ·) := by
        intro ev hev hne hf'
        obtain ⟨h1, h2⟩ := ih (j0 + 1) (by omega) hf' (by omega)
        refine ⟨fun x => (h1 x).trans ⟨fun ⟨a, b⟩ => ⟨by omega, b⟩, fun ⟨a, b, c⟩ => ⟨?_, b, c⟩⟩, h2⟩
        by_cases hx : x = j0
        · subst hx; rw [hev] at b; cases b; exact absurd rfl hne
        · omega
      cases hev : T.evs[j0]? with
      | none =>
        refine ⟨fun x => ⟨fun h => by simp at h, fun ⟨h1, h2, _⟩ => ?_⟩, List.Pairwise.nil⟩
        have h3 := List.getElem?_eq_none_iff.1 hev
        have := in_range h2; omega
      | some ev =>
        cases ev with
        | ret => exact absurd ((hT.ret e j0 hee).2 ⟨hev, hf⟩) hret
        | block b => exact step _ hev (by simp) ((frame_block hev).trans hf)
        | other => exact step _ hev (by simp) ((frame_other hev).trans hf)
        | enter =>
          simp only
          cases hr : T.ret j0 with
          | none =>
            refine ⟨fun x => ⟨fun h => ?_, fun ⟨h1, h2, h3⟩ => ?_⟩, List.pairwise_singleton _ _⟩
            · rw [List.mem_singleton.1 h]; exact ⟨Nat.le_refl _, hev, hf⟩
            · by_cases hx : x = j0
              · exact List.mem_singleton.2 hx
              · obtain ⟨k, -, -, h5, h6⟩ := must_return hev (by omega) h3 he
                rw [(hT.ret j0 k hev).2 ⟨h5, h6⟩] at hr; cases hr
          | some k =>
            obtain ⟨hk, hkf⟩ := (hT.ret j0 k hev).1 hr
            have hlt := (frame_stack hkf).2.1
            obtain ⟨h1, h2⟩ := ih (k + 1) (by omega) (by rw [frame_after hk hkf]; exact hf) (by omega)
            refine ⟨fun x => ⟨fun h => ?_, fun ⟨a, b, c⟩ => ?_⟩, List.pairwise_cons.2 ⟨fun x hx => ?_, h2⟩⟩
            · rcases List.mem_cons.1 h with rfl | h
              · exact ⟨Nat.le_refl _, hev, hf⟩
              · obtain ⟨a, b⟩ := (h1 x).1 h
                exact ⟨by omega, b⟩
            · by_cases hx : x = j0
              · subst hx; exact List.mem_cons_self
              · refine List.mem_cons_of_mem _ ((h1 x).2 ⟨?_, b, c⟩)
                exact Nat.lt_of_not_le fun hle => inside hkf (by omega) hle he c
            · have := ((h1 x).1 hx).1
              omega

/-- The function that returns just before an event of the frame `e` was called from `e`. -/
theorem before_ret {e j : Nat} (hr : T.evs[j]? = some .ret) (hf : frame T.evs (j + 1) = some e) :
    ∃ k, frame T.evs j = some k ∧ frame T.evs k = some e := by
  cases hk : frame T.evs j with
  | none =>
    unfold frame at hf hk
    rw [stackAt_succ hr, push, List.head?_eq_none_iff.1 hk] at hf
    cases hf
  | some k => exact ⟨k, rfl, by rw [← frame_after hr hk]; exact hf⟩

theorem countP_gap (p : Nat → Bool) (k d : Nat) (h : ∀ m, k ≤ m → m < k + d → p m = false) :
    (List.range (k + d)).countP p = (List.range k).countP p := by
  induction d with
  | zero => rfl
  | succ d ih =>
    rw [← Nat.add_assoc, List.range_succ, List.countP_append, ih (fun m h1 h2 => h m h1 (by omega))]
    simp [h (k + d) (by omega) (by omega)]

theorem countLoop_spec (hT : T.Ok) (b : Nat) {e : Nat} (fuel j : Nat) (hj : j ≤ T.evs.length) (hfu : j ≤ fuel)
    (hf : frame T.evs j = some e) :
    T.countLoop b (some e) fuel j =
      (List.range j).countP fun m => decide (T.evs[m]? = some (.block b) ∧ frame T.evs m = some e) := by
  induction fuel generalizing j with
  | zero => have := lt_of_frame hf; omega
  | succ fuel ih =>
    have hlt := lt_of_frame hf
    cases j with
    | zero => omega
    | succ j =>
      unfold Tr.countLoop
      by_cases hej : e = j
      · subst hej
        rw [if_pos rfl]
        symm
        rw [List.countP_eq_zero]
        intro m hm
        have hm' := List.mem_range.1 hm
        simp only [decide_eq_true_eq, not_and]
        intro _ h
        have := lt_of_frame h
        omega
      · rw [if_neg (by simpa using hej)]
        cases hev : T.evs[j]? with
        | none => have := List.getElem?_eq_none_iff.1 hev; omega
        | some ev =>
          cases ev with
          | enter =>
            rw [frame_enter hev] at hf; cases hf; exact absurd rfl hej
          | block b' =>
            rw [frame_block hev] at hf
            simp only
            rw [ih j (by omega) (by omega) hf, List.range_succ, List.countP_append, Nat.add_comm]
            congr 1
            by_cases hbb : b' = b
            · subst hbb; simp [hev, hf]
            · simp [hev, hbb]
          | other =>
            rw [frame_other hev] at hf
            simp only
            rw [ih j (by omega) (by omega) hf, List.range_succ, List.countP_append]
            simp [hev]
          | ret =>
            obtain ⟨k, hk, hke⟩ := before_ret hev hf
            obtain ⟨-, hkj, hken⟩ := frame_stack hk
            have hek := lt_of_frame hke
            simp only
            rw [hT.back j hev, hk]
            simp only
            rw [ih k (by omega) (by omega) hke]
            have hd : j + 1 = k + (j + 1 - k) := by omega
            rw [hd, countP_gap]
            intro m h1 h2
            simp only [decide_eq_false_iff_not, not_and]
            intro hmb
            by_cases hmk : m = k
            · subst hmk; rw [hken] at hmb; cases hmb
            · exact inside hk (by omega) (by omega) hek

theorem callerLoop_spec (hT : T.Ok) {f : Nat} (fuel j : Nat) (hj : j ≤ T.evs.length) (hfu : j ≤ fuel)
    (hf : frame T.evs j = some f) (m b : Nat) (hm : m < j) (hb : T.evs[m]? = some (.block b)) (hmf : frame T.evs m = some f) :
    ∃ c, T.callerLoop fuel j = some c ∧ c < j ∧ (∃ b, T.evs[c]? = some (.block b)) ∧ frame T.evs c = some f ∧
      ∀ x b : Nat, c < x → x < j → T.evs[x]? = some (.block b) → frame T.evs x ≠ some f := by
  induction fuel generalizing j with
  | zero => omega
  | succ fuel ih =>
    cases j with
    | zero => omega
    | succ j =>
      have hmf' := lt_of_frame hmf
      have down : ∀ k, k ≤ j → m < k → frame T.evs k = some f →
          (∀ x b : Nat, k ≤ x → x ≤ j → T.evs[x]? = some (.block b) → frame T.evs x ≠ some f) →
          ∃ c, T.callerLoop fuel k = some c ∧ c < j + 1 ∧ (∃ b, T.evs[c]? = some (.block b)) ∧ frame T.evs c = some f ∧
            ∀ x b : Nat, c < x → x < j + 1 → T.evs[x]? = some (.block b) → frame T.evs x ≠ some f := by
        intro k hk hmk hkf hno
        obtain ⟨c, h1, h2, h3, h4, h5⟩ := ih k (by omega) (by omega) hkf hmk
        refine ⟨c, h1, by omega, h3, h4, fun x b hx1 hx2 hxb => ?_⟩
        by_cases hxk : x < k
        · exact h5 x b hx1 hxk hxb
        · exact hno x b (by omega) (by omega) hxb
      unfold Tr.callerLoop
      cases hev : T.evs[j]? with
      | none => have := List.getElem?_eq_none_iff.1 hev; omega
      | some ev =>
        cases ev with
        | enter =>
          rw [frame_enter hev] at hf; cases hf
          omega
        | block b' =>
          rw [frame_block hev] at hf
          exact ⟨j, rfl, by omega, ⟨b', hev⟩, hf, fun x b h1 h2 => by omega⟩
        | other =>
          rw [frame_other hev] at hf
          refine down j (Nat.le_refl _) ?_ hf fun x b h1 h2 hxb => ?_
          · have : m ≠ j := by intro h; subst h; rw [hev] at hb; cases hb
            omega
          · have : x = j := by omega
            subst this; rw [hev] at hxb; cases hxb
        | ret =>
          obtain ⟨k, hk, hke⟩ := before_ret hev hf
          obtain ⟨-, hkj, hken⟩ := frame_stack hk
          have hek := lt_of_frame hke
          simp only
          rw [hT.back j hev, hk]
          have hno : ∀ x b : Nat, k ≤ x → x ≤ j → T.evs[x]? = some (.block b) → frame T.evs x ≠ some f := by
            intro x b h1 h2 hxb
            by_cases hxk : x = k
            · subst hxk; rw [hken] at hxb; cases hxb
            · exact inside hk (by omega) h2 hek
          refine down k (by omega) (Nat.lt_of_not_le fun hle => hno m b hle (by omega) hb hmf) hke hno

end Verif.PyNav
