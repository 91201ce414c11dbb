import Verif.BitmapConc
namespace Verif
open Spec
namespace BSys

theorem and_mask_ne (v W i : Nat) : (v &&& Bitmap.mask W i != 0) = v.testBit (i % W) := by
  rw [Bool.eq_iff_iff, bne_iff_ne, ne_eq]
  constructor
  · intro h
    by_cases ht : v.testBit (i % W) = true
    · exact ht
    · exfalso
      apply h
      apply Nat.eq_of_testBit_eq
      intro j
      rw [Nat.testBit_and, Bitmap.testBit_mask]
      by_cases hj : i % W = j
      · subst hj; simp [ht]
      · simp [hj]
  · intro h h0
    have := congrArg (fun x => x.testBit (i % W)) h0
    simp [Bitmap.testBit_mask, h] at this

theorem isSet_iff (S : BSys) (i : Nat) : S.isSet i = true ↔
    ∃ v, S.buckets[i / S.W]? = some v ∧ v.testBit (i % S.W) = true := by
  unfold isSet
  split
  · rename_i h; simp [h]
  · rename_i v h; rw [and_mask_ne]; simp [h]

/-- Code fragments produced by `compile`. -/
theorem compile_mem {W cap : Nat} (hW : 0 < W) {r : Ins} (hr : r.within cap)
    (hnw : ∀ b n, r = .range b n → b + n < 2 ^ 64) {a : BAct} {tag : Option Nat}
    (h : (a, tag) ∈ compile W r) :
    a.inside (Bitmap.bucketCount W cap) ∧ (∀ i, a.covers W i → r.covers i) ∧
    (∀ i, tag = some i → r = .one i ∧ a = .bits (i / W) (Bitmap.mask W i)) ∧
    (tag = none → ∀ b m, a = .bits b m → ∃ b n, r = .range b n) ∧
    (∀ b, a = .fill b → ∃ b n, r = .range b n) := by
  cases r with
  | one i =>
    simp only [compile, List.mem_cons, List.not_mem_nil, or_false, Prod.mk.injEq] at h
    rcases h with ⟨rfl, rfl⟩ | ⟨rfl, rfl⟩
    · refine ⟨Bitmap.bucket_lt hW (hr i rfl), fun j hj => ?_, fun j hj => ?_, fun h => (by simp at h),
        fun b h => (by cases h)⟩
      · simp only [BAct.covers, Bitmap.testBit_mask, decide_eq_true_eq] at hj
        show j = i
        rw [@Bitmap.div_mul_rem W j, @Bitmap.div_mul_rem W i, hj.1, hj.2]
      · cases hj; exact ⟨rfl, rfl⟩
    · exact ⟨trivial, fun j hj => hj.elim, fun j hj => (by simp at hj), fun _ b m h => (by cases h),
        fun b h => (by cases h)⟩
  | range b n =>
    simp only [compile] at h
    split at h
    · simp at h
    · rename_i hn
      simp only [List.mem_map, Prod.mk.injEq] at h
      obtain ⟨a', ha, rfl, rfl⟩ := h
      have hnw' := hnw b n rfl
      have hend : b + n ≤ cap := by
        have := hr (b + n - 1) ⟨by omega, by omega⟩; omega
      refine ⟨Bitmap.setRangeActs_inside hW (by omega) hnw' hend a' ha, fun j hj => ?_,
        fun j hj => (by simp at hj), fun _ _ _ _ => ⟨b, n, rfl⟩, fun _ _ => ⟨b, n, rfl⟩⟩
      exact (Bitmap.setRangeActs_covers hW (by omega) hnw' j).1 ⟨a', ha, hj⟩

/-- Everything requested is covered by some action of the code, and the number of used buckets is
then raised past it. -/
theorem compile_covers {W cap : Nat} (hW : 0 < W) {r : Ins} (hr : r.within cap)
    (hnw : ∀ b n, r = .range b n → b + n < 2 ^ 64) {i : Nat} (hi : r.covers i) :
    (∃ p ∈ compile W r, p.1.covers W i) ∧ (∃ c, (BAct.used c, none) ∈ compile W r ∧ i / W ≤ c) := by
  cases r with
  | one j =>
    cases hi
    refine ⟨⟨_, by simp only [compile, List.mem_cons]; exact Or.inl rfl, ?_⟩, i / W, ?_, Nat.le_refl _⟩
    · simp [BAct.covers, Bitmap.testBit_mask]
    · simp [compile]
  | range b n =>
    have hi' : b ≤ i ∧ i < b + n := hi
    have hn : ¬ n = 0 := by omega
    have hnw' := hnw b n rfl
    simp only [compile, hn, if_false, List.mem_map]
    constructor
    · obtain ⟨a, ha, hc⟩ := (Bitmap.setRangeActs_covers hW (by omega) hnw' i).2 hi'
      exact ⟨(a, none), ⟨a, ha, rfl⟩, hc⟩
    · obtain ⟨pre, c, hp, -, hc, -, -, -⟩ := Bitmap.setRangeActs_used hW (show 0 < n by omega) hnw'
      refine ⟨c, ⟨.used c, by rw [hp]; simp, rfl⟩, ?_⟩
      have : i / W ≤ (b + n - 1) / W := Nat.div_le_div_right (by omega)
      omega

/-- How often index `i` was answered "was not set". -/
def news (S : BSys) (i : Nat) : Nat := (S.log.filter (fun e => e.2.1 == i && !e.2.2)).length

/-- How often index `i` was answered at all by thread `t`. -/
def answers (S : BSys) (t i : Nat) : Nat := (S.log.filter (fun e => e.1 == t && e.2.1 == i)).length

structure Inv (W cap : Nat) (ps : Nat → List Ins) (S : BSys) : Prop where
  w : S.W = W
  len : S.buckets.length = Bitmap.bucketCount W cap
  /-- no thread sets a bit it was not asked to set -/
  sound : ∀ i, S.isSet i = true → ∃ t, Covered (ps t) i
  /-- finished actions have taken effect -/
  split : ∀ t, ∃ done, (ps t).flatMap (compile W) = done ++ (S.threads t).code ∧
    (∀ p ∈ done, ∀ i, p.1.covers W i → S.isSet i = true) ∧
    (∀ p ∈ done, ∀ c, p.1 = .used c → c < S.used) ∧
    (∀ i, S.answers t i = (done.filter (fun p => p.2 == some i)).length)
  /-- loaded values are below the current ones -/
  stale : ∀ t old, (S.threads t).old = some old →
    (∀ b m tag rest, (S.threads t).code = (.bits b m, tag) :: rest →
      ∀ v, S.buckets[b]? = some v → ∀ j, j < W → old.testBit j = true → v.testBit j = true) ∧
    (∀ c tag rest, (S.threads t).code = (.used c, tag) :: rest → old ≤ S.used)
  once : ∀ i, S.news i ≤ 1 ∧ (S.news i = 1 → S.isSet i = true)
  told : ∀ i, (∀ t b n, .range b n ∈ ps t → ¬ (Ins.range b n).covers i) → S.isSet i = true →
    S.news i = 1


theorem grows_isSet {S S' : BSys} (hW : 0 < S.W) (hw : S'.W = S.W)
    (hlen : S'.buckets.length = S.buckets.length)
    (hg : ∀ (b v v' : Nat), S.buckets[b]? = some v → S'.buckets[b]? = some v' → ∀ j, j < S.W →
      v.testBit j = true → v'.testBit j = true) {i : Nat} (h : S.isSet i = true) :
    S'.isSet i = true := by
  rw [isSet_iff] at h ⊢
  obtain ⟨v, h1, h2⟩ := h
  have hb : i / S.W < S'.buckets.length := by
    rw [hlen]; exact (List.getElem?_eq_some_iff.1 h1).1
  refine ⟨S'.buckets[i / S.W], by rw [hw]; exact List.getElem?_eq_getElem hb, ?_⟩
  rw [hw]
  exact hg _ _ _ h1 (List.getElem?_eq_getElem hb) _ (Nat.mod_lt _ hW) h2

/-- A thread completes its current action. -/
theorem advance {W cap : Nat} {ps : Nat → List Ins} (hW : 0 < W) {S S' : BSys} (h : Inv W cap ps S)
    (t : Nat) (p : BAct × Option Nat) (rest : List (BAct × Option Nat))
    (hcode : (S.threads t).code = p :: rest)
    (hth : S'.threads = fun u => if u = t then { code := rest, old := none } else S.threads u)
    (hw : S'.W = S.W) (hlen : S'.buckets.length = S.buckets.length)
    (hg : ∀ (b v v' : Nat), S.buckets[b]? = some v → S'.buckets[b]? = some v' → ∀ j, j < S.W →
      v.testBit j = true → v'.testBit j = true)
    (heff : ∀ i, p.1.covers W i → S'.isSet i = true)
    (honly : ∀ i, S'.isSet i = true → S.isSet i = true ∨ p.1.covers W i)
    (hsound : ∀ i, p.1.covers W i → Covered (ps t) i)
    (hused : S.used ≤ S'.used) (hused' : ∀ c, p.1 = .used c → c < S'.used)
    (hans : ∀ u i, S'.answers u i = S.answers u i + if u = t ∧ p.2 = some i then 1 else 0)
    (honce : ∀ i, S'.news i ≤ 1 ∧ (S'.news i = 1 → S'.isSet i = true))
    (htold : ∀ i, (∀ t b n, .range b n ∈ ps t → ¬ (Ins.range b n).covers i) → S'.isSet i = true →
      S'.news i = 1) : Inv W cap ps S' := by
  have hW' : 0 < S.W := by rw [h.w]; exact hW
  have hgi : ∀ {i}, S.isSet i = true → S'.isSet i = true := fun hi => grows_isSet hW' hw hlen hg hi
  refine ⟨by rw [hw, h.w], by rw [hlen, h.len], ?_, ?_, ?_, honce, htold⟩
  · intro i hi
    rcases honly i hi with h1 | h1
    · exact h.sound i h1
    · exact ⟨t, hsound i h1⟩
  · intro u
    obtain ⟨done, d1, d2, d3, d4⟩ := h.split u
    rw [hth]
    by_cases hu : u = t
    · subst hu
      simp only [if_true]
      rw [hcode] at d1
      refine ⟨done ++ [p], by rw [d1]; simp, ?_, ?_, ?_⟩
      · intro q hq i hi
        rcases List.mem_append.1 hq with hq | hq
        · exact hgi (d2 q hq i hi)
        · rw [List.mem_singleton] at hq; subst hq; exact heff i hi
      · intro q hq c hc
        rcases List.mem_append.1 hq with hq | hq
        · have := d3 q hq c hc; omega
        · rw [List.mem_singleton] at hq; subst hq; exact hused' c hc
      · intro i
        rw [hans, d4, List.filter_append, List.length_append]
        congr 1
        by_cases hp : p.2 = some i
        · simp [hp]
        · simp [hp]
    · simp only [hu, if_false]
      refine ⟨done, d1, fun q hq i hi => hgi (d2 q hq i hi), fun q hq c hc => ?_, fun i => ?_⟩
      · have := d3 q hq c hc; omega
      · rw [hans, d4]; simp [hu]
  · intro u old
    rw [hth]
    by_cases hu : u = t
    · simp [hu]
    · simp only [hu, if_false]
      intro ho
      obtain ⟨s1, s2⟩ := h.stale u old ho
      refine ⟨fun b m tag rest hc v hv j hj ht => ?_, fun c tag rest hc => ?_⟩
      · have hb : b < S.buckets.length := by
          rw [← hlen]; exact (List.getElem?_eq_some_iff.1 hv).1
        have := s1 b m tag rest hc _ (List.getElem?_eq_getElem hb) j hj ht
        exact hg b _ v (List.getElem?_eq_getElem hb) hv j (by rw [h.w]; exact hj) this
      · have := s2 c tag rest hc; omega

/-- A thread (re)loads the current value; nothing else changes. -/
theorem reload {W cap : Nat} {ps : Nat → List Ins} {S : BSys} (h : Inv W cap ps S)
    (t : Nat) (p : BAct × Option Nat) (rest : List (BAct × Option Nat))
    (hcode : (S.threads t).code = p :: rest) (x : Nat)
    (hx : (∀ b m, p.1 = .bits b m → S.buckets[b]? = some x) ∧ (∀ c, p.1 = .used c → x = S.used)) :
    Inv W cap ps (S.setThread t { code := p :: rest, old := some x }) := by
  refine ⟨h.w, h.len, h.sound, ?_, ?_, h.once, h.told⟩
  · intro u
    obtain ⟨done, d1, d2, d3, d4⟩ := h.split u
    refine ⟨done, ?_, d2, d3, d4⟩
    rw [d1]
    by_cases hu : u = t
    · subst hu; simp [setThread, hcode]
    · simp [setThread, hu]
  · intro u old ho
    by_cases hu : u = t
    · subst hu
      simp only [setThread, if_true, Option.some.injEq] at ho ⊢
      subst ho
      refine ⟨fun b m tag rest' hc v hv j hj ht => ?_, fun c tag rest' hc => ?_⟩
      · simp only [List.cons.injEq] at hc
        have := hx.1 b m (by rw [hc.1])
        rw [this] at hv; cases hv; exact ht
      · simp only [List.cons.injEq] at hc
        exact Nat.le_of_eq (hx.2 c (by rw [hc.1]))
    · simp only [setThread, hu, if_false] at ho ⊢
      exact h.stale u old ho

theorem news_append (S : BSys) (e : Nat × Nat × Bool) (i : Nat) :
    ({ S with log := S.log ++ [e] } : BSys).news i =
      S.news i + if e.2.1 = i ∧ e.2.2 = false then 1 else 0 := by
  simp only [news, List.filter_append, List.length_append]
  congr 1
  by_cases h : e.2.1 = i <;> cases h2 : e.2.2 <;> simp [h, h2]

theorem answers_append (S : BSys) (e : Nat × Nat × Bool) (u i : Nat) :
    ({ S with log := S.log ++ [e] } : BSys).answers u i =
      S.answers u i + if e.1 = u ∧ e.2.1 = i then 1 else 0 := by
  simp only [answers, List.filter_append, List.length_append]
  congr 1
  by_cases h : e.1 = u <;> by_cases h2 : e.2.1 = i <;> simp [h, h2]


/-- Requests that the section accepts. -/
def Fits (cap : Nat) (ps : Nat → List Ins) : Prop :=
  ∀ t r, r ∈ ps t → r.within cap ∧ ∀ b n, r = .range b n → b + n < 2 ^ 64

theorem head_from {W cap : Nat} {ps : Nat → List Ins} {S : BSys} (h : Inv W cap ps S) {t : Nat}
    {p : BAct × Option Nat} {rest : List (BAct × Option Nat)}
    (hcode : (S.threads t).code = p :: rest) : ∃ r ∈ ps t, p ∈ compile W r := by
  obtain ⟨done, d1, -⟩ := h.split t
  have : p ∈ (ps t).flatMap (compile W) := by rw [d1, hcode]; simp
  simpa [List.mem_flatMap] using this

/-- Setting bucket `b` to a value that keeps its bits and adds those of `m`. -/
theorem set_bucket {S : BSys} {b cur new : Nat} (hb : S.buckets[b]? = some cur)
    (hnew : ∀ j, j < S.W → cur.testBit j = true → new.testBit j = true)
    {S' : BSys} (hw : S'.W = S.W) (hbk : S'.buckets = S.buckets.set b new) :
    (∀ (x v v' : Nat), S.buckets[x]? = some v → S'.buckets[x]? = some v' → ∀ j, j < S.W →
      v.testBit j = true → v'.testBit j = true) ∧
    (∀ i, S'.isSet i = true ↔ (i / S.W = b ∧ new.testBit (i % S.W) = true) ∨
      (i / S.W ≠ b ∧ S.isSet i = true)) := by
  have hlt := (List.getElem?_eq_some_iff.1 hb).1
  constructor
  · intro x v v' hv hv' j hj ht
    rw [hbk, List.getElem?_set] at hv'
    split at hv'
    · rename_i h; subst h
      cases hv'
      rw [hb] at hv; cases hv
      exact hnew j hj ht
    · rw [hv] at hv'; cases hv'; exact ht
  · intro i
    rw [isSet_iff, isSet_iff, hw, hbk, List.getElem?_set]
    by_cases h : b = i / S.W
    · simp [← h, hlt]
    · have : ¬ i / S.W = b := fun x => h x.symm
      simp [h, this]

theorem step_inv {W cap : Nat} {ps : Nat → List Ins} (hW : 0 < W) (hps : Fits cap ps) {S : BSys}
    (h : Inv W cap ps S) (t : Nat) (sp : Bool) :
    ∃ S', S.step t sp = .ok S' ∧ Inv W cap ps S' := by
  have hW' : 0 < S.W := by rw [h.w]; exact hW
  unfold step
  cases hcode : (S.threads t).code with
  | nil => exact ⟨S, rfl, h⟩
  | cons p rest =>
    obtain ⟨r, hr, hp⟩ := head_from h hcode
    obtain ⟨a, tag⟩ := p
    obtain ⟨hin, hcov, htag, hnone, hfill⟩ := compile_mem hW (hps t r hr).1 (hps t r hr).2 hp
    have hsound : ∀ i, a.covers W i → Covered (ps t) i := fun i hi => ⟨r, hr, hcov i hi⟩
    cases a with
    | bits b m =>
      have hb : b < S.buckets.length := by rw [h.len]; exact hin
      simp only [List.getElem?_eq_getElem hb]
      cases hold : (S.threads t).old with
      | none =>
        exact ⟨_, rfl, reload h t _ rest hcode _
          ⟨fun b' m' e => by cases e; exact List.getElem?_eq_getElem hb, fun c e => by cases e⟩⟩
      | some old =>
        have hstale := (h.stale t old hold).1 b m tag rest hcode _ (List.getElem?_eq_getElem hb)
        simp only
        by_cases hm : old &&& m = m
        · -- already set
          rw [if_pos hm]
          refine ⟨_, rfl, ?_⟩
          have hbits : ∀ i, (BAct.bits b m).covers W i → S.isSet i = true := by
            intro i ⟨h1, h2⟩
            rw [isSet_iff, h.w]
            refine ⟨S.buckets[b], by rw [h1]; exact List.getElem?_eq_getElem hb, ?_⟩
            apply hstale _ (Nat.mod_lt _ hW)
            rw [← hm, Nat.testBit_and] at h2
            simp at h2; exact h2.1
          cases tag with
          | none =>
            exact advance hW h t _ rest hcode rfl rfl rfl
              (fun b v v' e1 e2 j _ ht => by
                have e3 : S.buckets[b]? = some v' := e2
                rw [e1] at e3; cases e3; exact ht)
              hbits (fun i hi => Or.inl hi) hsound (Nat.le_refl _) (fun c e => by cases e)
              (fun u i => by simp [setThread, answers]) h.once h.told
          | some i0 =>
            refine advance hW h t _ rest hcode rfl rfl rfl
              (fun b v v' e1 e2 j _ ht => by
                have e3 : S.buckets[b]? = some v' := e2
                rw [e1] at e3; cases e3; exact ht)
              hbits (fun i hi => Or.inl hi) hsound (Nat.le_refl _) (fun c e => by cases e)
              (fun u i => ?_) (fun i => ?_) (fun i hi => ?_)
            · rw [answers_append]
              simp only [Option.some.injEq]
              congr 1
              simp only [eq_comm]
            · rw [news_append]; simp only [Bool.true_eq_false, and_false, if_false]; exact h.once i
            · rw [news_append]; simp only [Bool.true_eq_false, and_false, if_false]; exact h.told i hi
        · rw [if_neg hm]
          by_cases hcas : S.buckets[b] = old ∧ sp = false
          · -- successful compare-exchange
            rw [if_pos hcas]
            refine ⟨_, rfl, ?_⟩
            obtain ⟨hg, hset⟩ := set_bucket (S := S) (List.getElem?_eq_getElem hb)
              (new := old ||| m) (fun j _ ht => by rw [Nat.testBit_or, ← hcas.1, ht]; rfl)
              (S' := { S with buckets := S.buckets.set b (old ||| m) }) rfl rfl
            have hset' : ∀ i, ({ S with buckets := S.buckets.set b (old ||| m) } : BSys).isSet i = true ↔
                S.isSet i = true ∨ (BAct.bits b m).covers W i := by
              intro i
              rw [hset]
              by_cases hi : i / S.W = b
              · have : S.isSet i = true ↔ old.testBit (i % S.W) = true := by
                  rw [isSet_iff, hi, List.getElem?_eq_getElem hb, hcas.1]; simp
                rw [this, ← h.w]
                simp [hi, BAct.covers, Nat.testBit_or]
              · rw [← h.w]; simp [hi, BAct.covers]
            cases tag with
            | none =>
              obtain ⟨rb, rn, hrr⟩ := hnone rfl b m rfl
              refine advance hW h t _ rest hcode rfl rfl (by simp [setThread]) hg
                (fun i hi => (hset' i).2 (Or.inr hi)) (fun i hi => (hset' i).1 hi) hsound
                (Nat.le_refl _) (fun c e => by cases e) (fun u i => by simp [setThread, answers])
                (fun i => ⟨(h.once i).1, fun hn => (hset' i).2 (Or.inl ((h.once i).2 hn))⟩)
                (fun i hi hs => ?_)
              rcases (hset' i).1 hs with h1 | h1
              · exact h.told i hi h1
              · exact absurd (hrr ▸ hcov i h1) (hi t rb rn (hrr ▸ hr))
            | some i0 =>
              obtain ⟨hone, hact⟩ := htag i0 rfl
              simp only [BAct.bits.injEq] at hact
              have hfresh : S.isSet i0 = false := by
                rw [Bool.eq_false_iff]
                intro hs
                apply hm
                rw [isSet_iff, h.w, ← hact.1, List.getElem?_eq_getElem hb, hcas.1] at hs
                obtain ⟨v, hv, hs⟩ := hs
                cases hv
                rw [hact.2]
                apply Nat.eq_of_testBit_eq
                intro k
                rw [Nat.testBit_and, Bitmap.testBit_mask]
                by_cases hk : i0 % W = k
                · subst hk; simp [hs]
                · simp [hk]
              have hzero : S.news i0 = 0 := by
                have h1 := h.once i0
                rcases Nat.lt_or_ge (S.news i0) 1 with h2 | h2
                · omega
                · have := h1.2 (by omega)
                  rw [hfresh] at this; cases this
              have hc0 : (BAct.bits b m).covers W i0 := by
                simp [BAct.covers, hact, Bitmap.testBit_mask]
              have honly0 : ∀ i, (BAct.bits b m).covers W i → i = i0 := by
                intro i hi
                have := hcov i hi
                rw [hone] at this; exact this
              refine advance hW h t _ rest hcode rfl rfl (by simp [setThread]) hg
                (fun i hi => (hset' i).2 (Or.inr hi)) (fun i hi => (hset' i).1 hi) hsound
                (Nat.le_refl _) (fun c e => by cases e) (fun u i => ?_) (fun i => ?_)
                (fun i hi hs => ?_)
              · rw [answers_append]
                simp only [Option.some.injEq]
                congr 1
                simp only [eq_comm]
              · rw [news_append]
                by_cases hi : i0 = i
                · subst hi
                  refine ⟨?_, fun _ => (hset' i0).2 (Or.inr hc0)⟩
                  show S.news i0 + _ ≤ 1
                  rw [hzero]; simp
                · simp only [hi, false_and, if_false]
                  exact ⟨(h.once i).1, fun hn => (hset' i).2 (Or.inl ((h.once i).2 hn))⟩
              · rw [news_append]
                by_cases he : i0 = i
                · subst he
                  show S.news i0 + _ = 1
                  rw [hzero]; simp
                · simp only [he, false_and, if_false]
                  rcases (hset' i).1 hs with h1 | h1
                  · exact h.told i hi h1
                  · exact absurd (honly0 i h1).symm he
          · rw [if_neg hcas]
            exact ⟨_, rfl, reload h t _ rest hcode _
              ⟨fun b' m' e => by cases e; exact List.getElem?_eq_getElem hb, fun c e => by cases e⟩⟩
    | fill b =>
      have hb : b < S.buckets.length := by rw [h.len]; exact hin
      simp only [List.getElem?_eq_getElem hb]
      refine ⟨_, rfl, ?_⟩
      obtain ⟨hg, hset⟩ := set_bucket (S := S) (List.getElem?_eq_getElem hb)
        (new := Bitmap.allBits S.W) (fun j hj _ => by rw [Bitmap.testBit_allBits]; simpa using hj)
        (S' := { S with buckets := S.buckets.set b (Bitmap.allBits S.W) }) rfl rfl
      have hset' : ∀ i, ({ S with buckets := S.buckets.set b (Bitmap.allBits S.W) } : BSys).isSet i = true ↔
          S.isSet i = true ∨ (BAct.fill b).covers W i := by
        intro i
        rw [hset, Bitmap.testBit_allBits]
        have := Nat.mod_lt i hW'
        by_cases hi : i / S.W = b
        · rw [← h.w]; simp [hi, this, BAct.covers]
        · rw [← h.w]; simp [hi, BAct.covers]
      obtain ⟨rb, rn, hrr⟩ := hfill b rfl
      have htn : tag = none := by
        cases tag with
        | none => rfl
        | some i => have := (htag i rfl).2; cases this
      subst htn
      refine advance hW h t _ rest hcode rfl rfl (by simp [setThread]) hg
        (fun i hi => (hset' i).2 (Or.inr hi)) (fun i hi => (hset' i).1 hi) hsound
        (Nat.le_refl _) (fun c e => by cases e) (fun u i => by simp [setThread, answers])
        (fun i => ⟨(h.once i).1, fun hn => (hset' i).2 (Or.inl ((h.once i).2 hn))⟩)
        (fun i hi hs => ?_)
      rcases (hset' i).1 hs with h1 | h1
      · exact h.told i hi h1
      · exact absurd (hrr ▸ hcov i h1) (hi t rb rn (hrr ▸ hr))
    | used c =>
      have htn : tag = none := by
        cases tag with
        | none => rfl
        | some i => have := (htag i rfl).2; cases this
      subst htn
      simp only
      cases hold : (S.threads t).old with
      | none =>
        exact ⟨_, rfl, reload h t _ rest hcode _
          ⟨fun b' m' e => (by cases e), fun c e => rfl⟩⟩
      | some old =>
        have hstale := (h.stale t old hold).2 c none rest hcode
        simp only
        by_cases hgt : old > c + 1
        · rw [if_pos hgt]
          refine ⟨_, rfl, ?_⟩
          exact advance hW h t _ rest hcode rfl rfl rfl
              (fun b v v' e1 e2 j _ ht => by
                have e3 : S.buckets[b]? = some v' := e2
                rw [e1] at e3; cases e3; exact ht)
              (fun i hi => hi.elim) (fun i hi => Or.inl hi) hsound (Nat.le_refl _)
              (fun c' e => by cases e; show c < S.used; omega)
              (fun u i => by simp [setThread, answers]) h.once h.told
        · rw [if_neg hgt]
          by_cases hcas : S.used = old ∧ sp = false
          · rw [if_pos hcas]
            refine ⟨_, rfl, ?_⟩
            exact advance hW h t _ rest hcode rfl rfl rfl
              (fun b v v' e1 e2 j _ ht => by
                have e3 : S.buckets[b]? = some v' := e2
                rw [e1] at e3; cases e3; exact ht)
              (fun i hi => hi.elim) (fun i hi => Or.inl hi) hsound
              (by show S.used ≤ c + 1; omega)
              (fun c' e => by cases e; show c < c + 1; omega)
              (fun u i => by simp [setThread, answers]) h.once h.told
          · rw [if_neg hcas]
            exact ⟨_, rfl, reload h t _ rest hcode _
              ⟨fun b' m' e => (by cases e), fun c e => rfl⟩⟩

theorem step_other {S S' : BSys} {t u : Nat} {sp : Bool} (hu : u ≠ t)
    (h : S.step t sp = .ok S') : S'.threads u = S.threads u := by
  unfold step at h
  split at h
  · cases h; rfl
  · split at h
    · cases h
    · split at h
      · cases h; simp [setThread, hu]
      · simp only at h
        split at h
        · cases h; split <;> simp [setThread, hu]
        · split at h
          · cases h; split <;> simp [setThread, hu]
          · cases h; simp [setThread, hu]
  · split at h
    · cases h
    · cases h; simp [setThread, hu]
  · split at h
    · cases h; simp [setThread, hu]
    · split at h
      · cases h; simp [setThread, hu]
      · split at h
        · cases h; simp [setThread, hu]
        · cases h; simp [setThread, hu]

theorem run_other {u : Nat} : ∀ (sched : List (Nat × Bool)) {S S' : BSys},
    (∀ e ∈ sched, e.1 ≠ u) → S.run sched = .ok S' → S'.threads u = S.threads u := by
  intro sched
  induction sched with
  | nil => intro S S' _ h; cases h; rfl
  | cons e sched ih =>
    intro S S' he h
    obtain ⟨t, sp⟩ := e
    simp only [run, Res.bind_eq_ok] at h
    obtain ⟨S1, h1, h2⟩ := h
    rw [ih (fun x hx => he x (by simp [hx])) h2,
      step_other (fun h => he (t, sp) (by simp) h.symm) h1]

theorem init_inv (W cap : Nat) (ps : Nat → List Ins) : Inv W cap ps (init W cap ps) := by
  have hno : ∀ i, (init W cap ps).isSet i = false := by
    intro i
    rw [Bool.eq_false_iff]
    intro h
    rw [isSet_iff] at h
    obtain ⟨v, h1, h2⟩ := h
    simp only [init] at h1
    rw [List.getElem?_replicate] at h1
    split at h1
    · cases h1; simp at h2
    · cases h1
  refine ⟨rfl, by simp [init], fun i h => ?_, fun t => ⟨[], by simp [init], by simp, by simp,
    fun i => by simp [init, answers]⟩, fun t old h => by simp [init] at h, fun i => ?_,
    fun i _ h => ?_⟩
  · rw [hno] at h; cases h
  · simp [init, news]
  · rw [hno] at h; cases h

theorem run_inv {W cap : Nat} {ps : Nat → List Ins} (hW : 0 < W) (hps : Fits cap ps) :
    ∀ (sched : List (Nat × Bool)) {S : BSys}, Inv W cap ps S →
    ∃ S', S.run sched = .ok S' ∧ Inv W cap ps S' := by
  intro sched
  induction sched with
  | nil => intro S h; exact ⟨S, rfl, h⟩
  | cons e sched ih =>
    intro S h
    obtain ⟨t, sp⟩ := e
    obtain ⟨S1, h1, h2⟩ := step_inv hW hps h t sp
    obtain ⟨S2, k1, k2⟩ := ih h2
    exact ⟨S2, by simp only [run, h1, Res.bind_ok, k1], k2⟩

end BSys
end Verif
