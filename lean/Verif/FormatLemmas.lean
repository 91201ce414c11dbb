import Verif.Format
import Verif.Spec.Format
import Verif.CopyLemmas
/-
Formatted output: the effect of one chunk, of one item, and of a sequence of items.
-/
namespace Verif
namespace Fmt

open DfsanMem Spec

attribute [local irreducible] shadowFor

theorem putBytes_eq : ∀ (bs : List Nat) (a : Nat) (m : Mem) (x : Nat),
    putBytes a bs m x = if a ≤ x ∧ x < a + bs.length then bs.getD (x - a) 0 else m x
  | [], a, m, x => by
    rw [if_neg (by simp only [List.length_nil]; omega)]
    rfl
  | b :: bs, a, m, x => by
    rw [putBytes, putBytes_eq bs]
    simp only [List.length_cons]
    by_cases h1 : a + 1 ≤ x ∧ x < a + 1 + bs.length
    · rw [if_pos h1, if_pos (by omega), show x - a = (x - (a + 1)) + 1 by omega, List.getD_cons_succ]
    · rw [if_neg h1]
      by_cases h2 : x = a
      · rw [if_pos (by omega), h2, Nat.sub_self]
        simp [Mem.set]
      · rw [if_neg (by omega)]
        simp [Mem.set, h2]

/-- Writing application data does not touch labels. -/
theorem putBytes_label (bs : List Nat) {d : Nat} (hd : 0x700000008000 ≤ d) (m : Mem) {b : Nat}
    (hb : IsApp b) : labelOf (putBytes d bs m) b = labelOf m b := by
  obtain ⟨b1, b2⟩ := hb
  have eb := shadow_sum (show 0x700000000000 ≤ b by omega) (by omega)
  apply read32_congr
  intro x h1 h2
  rw [putBytes_eq, if_neg (by omega)]

theorem copyUp_out (d s : Nat) : ∀ (n i : Nat) (m : Mem) (x : Nat), (x < d + i ∨ d + i + n ≤ x) →
    copyUp d s i n m x = m x
  | 0, _, _, _, _ => rfl
  | n + 1, i, m, x, h => by
    rw [copyUp, copyUp_out d s n (i + 1) _ x (by omega)]
    simp only [Mem.set]
    rw [if_neg (by omega)]

/-- Effect of formatting the text `t` with labels `ls` at offset `off`: the text is stored, as far as it
fits, with a terminator; if all fits (and string conversions are verbatim, `verb`) its labels are set. -/
structure Emits (verb : Bool) (size str off : Nat) (m : Mem) (t ls : List Nat) (m' : Mem) : Prop where
  text : ∀ i, i < min t.length (numAvail size off - 1) → m' (str + off + i) = t.getD i 0
  nul : numAvail size off ≠ 0 → m' (str + off + min t.length (numAvail size off - 1)) = 0
  rest : ∀ a, IsApp a → ¬ (numAvail size off ≠ 0 ∧ str + off ≤ a ∧
    a ≤ str + off + min t.length (numAvail size off - 1)) → m' a = m a
  labels : verb = true → off + t.length < size → ∀ i, i < t.length →
    labelOf m' (str + off + i) = ls.getD i 0
  others : verb = true → off + t.length < size → ∀ a, IsApp a →
    ¬ (str + off ≤ a ∧ a < str + off + t.length) → labelOf m' a = labelOf m a

/-- The library call alone. -/
theorem snprintf_spec {lib : Lib} {m : Mem} {str size off : Nat} {chunk : List Nat} {vals : List Int}
    {t : List Nat} (hstr : 0x700000008000 ≤ str) (hl : lib m chunk vals = some t) :
    ∃ m1, snprintf lib m (str + off) (numAvail size off) chunk vals = (m1, (t.length : Int)) ∧
      (∀ i, i < min t.length (numAvail size off - 1) → m1 (str + off + i) = t.getD i 0) ∧
      (numAvail size off ≠ 0 → m1 (str + off + min t.length (numAvail size off - 1)) = 0) ∧
      (∀ a, ¬ (numAvail size off ≠ 0 ∧ str + off ≤ a ∧
        a ≤ str + off + min t.length (numAvail size off - 1)) → m1 a = m a) ∧
      (∀ a, IsApp a → labelOf m1 a = labelOf m a) := by
  unfold snprintf
  rw [hl]
  refine ⟨_, rfl, ?_⟩
  by_cases h0 : numAvail size off = 0
  · rw [if_pos h0]
    exact ⟨fun i hi => absurd hi (by omega), fun h => absurd h0 h, fun a _ => rfl, fun _ _ => rfl⟩
  · rw [if_neg h0]
    have hlen : (t.take (numAvail size off - 1) ++ [0]).length
        = min t.length (numAvail size off - 1) + 1 := by
      rw [List.length_append, List.length_take, Nat.min_comm]; rfl
    refine ⟨fun i hi => ?_, fun _ => ?_, fun a ha => ?_, fun a ha => ?_⟩
    · rw [putBytes_eq, hlen, if_pos (by omega), Nat.add_sub_cancel_left, List.getD_eq_getElem?_getD,
        List.getElem?_append_left (by rw [List.length_take, Nat.min_comm]; exact hi),
        List.getElem?_take, if_pos (by omega), ← List.getD_eq_getElem?_getD]
    · rw [putBytes_eq, hlen, if_pos (by omega), Nat.add_sub_cancel_left, List.getD_eq_getElem?_getD,
        List.getElem?_append_right (by rw [List.length_take, Nat.min_comm]; exact Nat.le_refl _),
        List.length_take, Nat.min_comm, Nat.sub_self]
      rfl
    · rw [putBytes_eq, hlen, if_neg (by omega)]
    · exact putBytes_label _ (by omega) m ha

theorem numWritten_le (size off n : Nat) : numWritten size off (n : Int) ≤ n := by
  unfold numWritten
  split
  · omega
  · split
    · omega
    · split <;> omega

theorem numWritten_fits {size off n : Nat} (h : off + n < size) : numWritten size off (n : Int) = n := by
  have : numAvail size off = size - off := by unfold numAvail; rw [if_pos (by omega)]
  unfold numWritten
  rw [if_neg (by omega), if_neg (by omega), if_neg (by omega)]
  omega

/-- Setting one label after the library call. -/
theorem emits_set {k : Nat} (hk : k ≤ 40) {lib : Lib} {m : Mem} {str size off l : Nat}
    {chunk : List Nat} {vals : List Int} {t : List Nat} (hstr : 0x700000008000 ≤ str)
    (hend : str + off + t.length < 0x800000000000) (hll : l < 2 ^ 32)
    (hl : lib m chunk vals = some t) (verb : Bool) :
    ∃ m1 m', snprintf lib m (str + off) (numAvail size off) chunk vals = (m1, (t.length : Int)) ∧
      setLabel (2 ^ k) m1 l (str + off) (numWritten size off (t.length : Int)) = .ok m' ∧
      Emits verb size str off m t (List.replicate t.length l) m' := by
  obtain ⟨m1, e1, h1, h2, h3, h4⟩ := snprintf_spec (size := size) (off := off) hstr hl
  have hle := numWritten_le size off t.length
  obtain ⟨m', e2, h5, h6⟩ := setLabel_app' (k := k) (l := l) (a := str + off)
    (n := numWritten size off (t.length : Int)) m1 hk hll (by omega) (by omega)
  refine ⟨m1, m', e1, e2, ?_, ?_, ?_, ?_, ?_⟩
  · intro i hi
    rw [h6 _ ⟨by omega, by omega⟩, h1 i hi]
  · intro h
    rw [h6 _ ⟨by omega, by omega⟩, h2 h]
  · intro a ha hn
    rw [h6 a ha, h3 a hn]
  · intro _ hf i hi
    rw [h5 _ ⟨by omega, by omega⟩, numWritten_fits hf]
    unfold fill
    rw [if_pos (by omega), List.getD_eq_getElem?_getD, List.getElem?_replicate, if_pos hi]
    rfl
  · intro _ hf a ha hn
    rw [h5 a ha, numWritten_fits hf]
    unfold fill
    rw [if_neg hn, h4 a ha]

/-- Copying labels after the library call. -/
theorem emits_copy {lib : Lib} {m : Mem} {str size off p : Nat}
    {chunk : List Nat} {vals : List Int} {t : List Nat} (hstr : 0x700000008000 ≤ str)
    (hend : str + off + t.length < 0x800000000000)
    (hl : lib m chunk vals = some t) (verb : Bool)
    (hp : verb = true → off + t.length < size → 0x700000008000 ≤ p ∧ p + t.length ≤ 0x800000000000 ∧
      (p + t.length ≤ str + off ∨ str + off + t.length ≤ p)) :
    ∃ m1 m', snprintf lib m (str + off) (numAvail size off) chunk vals = (m1, (t.length : Int)) ∧
      memcpy m1 (shadowFor (str + off)) (shadowFor p) (4 * numWritten size off (t.length : Int) % 2 ^ 64)
        = m' ∧
      Emits verb size str off m t ((List.range t.length).map fun i => labelOf m (p + i)) m' := by
  obtain ⟨m1, e1, h1, h2, h3, h4⟩ := snprintf_spec (size := size) (off := off) hstr hl
  have hle := numWritten_le size off t.length
  have ed := shadow_sum (show 0x700000000000 ≤ str + off by omega) (by omega)
  have hmod : 4 * numWritten size off (t.length : Int) % 2 ^ 64
      = 4 * numWritten size off (t.length : Int) := by omega
  rw [hmod]
  have h6 : ∀ b, IsApp b → memcpy m1 (shadowFor (str + off)) (shadowFor p)
      (4 * numWritten size off (t.length : Int)) b = m1 b := by
    rintro b ⟨b1, b2⟩
    exact copyUp_out _ _ _ _ _ _ (by omega)
  have h : verb = true → off + t.length < size → ∀ b, IsApp b →
      labelOf (memcpy m1 (shadowFor (str + off)) (shadowFor p)
        (4 * numWritten size off (t.length : Int))) b
      = Spec.copy (labelOf m1) (str + off) p t.length b := by
    intro hv hf
    obtain ⟨p1, p2, p3⟩ := hp hv hf
    rw [numWritten_fits hf]
    rcases Nat.eq_zero_or_pos t.length with h0 | hpos
    · rw [h0]
      intro b _
      unfold Spec.copy
      rw [if_neg (by omega)]
      rfl
    · have es := shadow_sum (show 0x700000000000 ≤ p by omega) (by omega)
      exact (copy_shadow (m := m1) (by omega) p1 (by omega) p2
        (fun x => memcpy_eq m1 (d := shadowFor (str + off)) (s := shadowFor p) (n := 4 * t.length)
          (by omega) x)).1
  refine ⟨m1, _, e1, rfl, ?_, ?_, ?_, fun hv hf i hi => ?_, fun hv hf a ha hn => ?_⟩
  · intro i hi
    rw [h6 _ ⟨by omega, by omega⟩, h1 i hi]
  · intro h
    rw [h6 _ ⟨by omega, by omega⟩, h2 h]
  · intro a ha hn
    rw [h6 a ha, h3 a hn]
  · obtain ⟨p1, p2, p3⟩ := hp hv hf
    rw [h hv hf _ ⟨by omega, by omega⟩]
    unfold Spec.copy
    rw [if_pos (by omega), h4 _ ⟨by omega, by omega⟩, Nat.add_sub_cancel_left,
      List.getD_eq_getElem?_getD, List.getElem?_map, List.getElem?_range hi]
    rfl
  · rw [h hv hf a ha]
    unfold Spec.copy
    rw [if_neg hn, h4 a ha]

/-- Two texts one after the other. -/
theorem Emits.append {verb : Bool} {size str off : Nat} {m m1 m2 : Mem} {t ts ls lss : List Nat}
    (hstr : 0x700000008000 ≤ str) (hend : str + off + t.length + ts.length < 0x800000000000)
    (hls : ls.length = t.length)
    (h1 : Emits verb size str off m t ls m1)
    (h2 : Emits verb size str (off + t.length) m1 ts lss m2) :
    Emits verb size str off m (t ++ ts) (ls ++ lss) m2 := by
  have hav : ∀ o, numAvail size o = size - o := fun o => by unfold numAvail; split <;> omega
  obtain ⟨a1, a2, a3, a4, a5⟩ := h1
  obtain ⟨b1, b2, b3, b4, b5⟩ := h2
  simp only [hav] at a1 a2 a3 b1 b2 b3
  have hlen : (t ++ ts).length = t.length + ts.length := List.length_append
  refine ⟨?_, ?_, ?_, ?_, ?_⟩
  · rw [hav, hlen]
    intro i hi
    rw [List.getD_eq_getElem?_getD]
    by_cases hit : i < t.length
    · rw [b3 _ ⟨by omega, by omega⟩ (by omega), a1 i (by omega), List.getElem?_append_left hit,
        List.getD_eq_getElem?_getD]
    · rw [List.getElem?_append_right (by omega), ← List.getD_eq_getElem?_getD, ← b1 (i - t.length) (by omega)]
      congr 1
      omega
  · rw [hav, hlen]
    intro h
    by_cases hc : size - (off + t.length) ≠ 0
    · rw [← b2 hc]
      congr 1
      omega
    · rw [b3 _ ⟨by omega, by omega⟩ (by omega), ← a2 h]
      congr 1
      omega
  · rw [hav, hlen]
    intro a ha hn
    rw [b3 a ha (by omega), a3 a ha (by omega)]
  · rw [hlen]
    intro hv hf i hi
    rw [List.getD_eq_getElem?_getD]
    by_cases hit : i < t.length
    · rw [b5 hv (by omega) _ ⟨by omega, by omega⟩ (by omega), a4 hv (by omega) i hit,
        List.getElem?_append_left (by omega), List.getD_eq_getElem?_getD]
    · rw [List.getElem?_append_right (by omega), ← List.getD_eq_getElem?_getD, hls,
        ← b4 hv (by omega) (i - t.length) (by omega)]
      congr 1
      omega
  · rw [hlen]
    intro hv hf a ha hn
    rw [b5 hv (by omega) a ha (by omega), a5 hv (by omega) a ha (by omega)]

/-! ### The tokenizer -/

theorem toInt32_asInt (v : Nat) : toInt32 v = asInt v := by
  unfold toInt32 asInt
  rw [Int.bmod_def]
  split <;> split <;> omega

theorem mod_step (lib : Lib) (page str size : Nat) {pre rest : List Nat} {width : Int} {st : St} {c : Nat}
    (hc : Item.IsMod c) (hs : c ≠ 42) :
    directive lib page str size pre (c :: rest) width st
      = directive lib page str size (c :: pre) rest width st := by
  rw [directive]
  unfold Item.IsMod at hc
  simp only [List.mem_cons, List.not_mem_nil, or_false] at hc
  rcases hc with h | h | h | h | h | h | h | h | h | h | h | h | h | h | h | h | h | h | h | h | h | h |
    h | h | h <;> subst h <;> first | rfl | exact absurd rfl hs

theorem star_step (lib : Lib) (page str size : Nat) {pre rest : List Nat} {width : Int} {st : St}
    {w : Nat} {A : List Nat} (ha : st.args = w :: A) :
    directive lib page str size pre (42 :: rest) width st
      = directive lib page str size (42 :: pre) rest (toInt32 w)
        { st with args := A, labels := st.labels.drop 1 } := by
  rw [directive]
  show (vaArg st >>= _) = _
  unfold vaArg
  rw [ha]
  rfl

theorem mods_plain (lib : Lib) (page str size : Nat) (rest : List Nat) (width : Int) (st : St) :
    ∀ (mods pre : List Nat), (∀ x ∈ mods, Item.IsMod x) → 42 ∉ mods →
    directive lib page str size pre (mods ++ rest) width st
      = directive lib page str size (mods.reverse ++ pre) rest width st
  | [], _, _, _ => rfl
  | c :: mods, pre, h, hs => by
    simp only [List.mem_cons, not_or] at hs
    rw [List.cons_append, mod_step lib page str size (h c (by simp)) (fun hc => hs.1 hc.symm),
      mods_plain lib page str size rest width st mods (c :: pre) (fun x hx => h x (by simp [hx])) hs.2]
    simp

theorem mods_star (lib : Lib) (page str size : Nat) (rest : List Nat) (width : Int) (st : St)
    {w : Nat} {A : List Nat} (ha : st.args = w :: A) :
    ∀ (mods pre : List Nat), (∀ x ∈ mods, Item.IsMod x) → mods.count 42 = 1 →
    directive lib page str size pre (mods ++ rest) width st
      = directive lib page str size (mods.reverse ++ pre) rest (toInt32 w)
        { st with args := A, labels := st.labels.drop 1 }
  | [], _, _, hs => absurd hs (by simp)
  | c :: mods, pre, h, hs => by
    by_cases hc : c = 42
    · subst hc
      rw [List.count_cons_self] at hs
      have hn : 42 ∉ mods := by
        rw [← List.count_eq_zero]; omega
      rw [List.cons_append, star_step lib page str size ha,
        mods_plain lib page str size rest _ _ mods _ (fun x hx => h x (by simp [hx])) hn]
      simp
    · rw [List.count_cons_of_ne (by exact hc)] at hs
      rw [List.cons_append, mod_step lib page str size (h c (by simp)) hc,
        mods_star lib page str size rest width st ha mods (c :: pre) (fun x hx => h x (by simp [hx])) hs]
      simp

/-- The type read for an integer conversion is the one its length modifier asks for. -/
theorem intTy_read {mods : List Nat} {c : Nat} (hm : ∀ x ∈ mods, Item.IsMod x) (hc : Item.IsInt c)
    (v : Nat) : (intTy (mods.reverse ++ [37])).read v = argVal mods c v := by
  unfold argVal wide
  rw [if_pos (show c ∈ [100, 105, 111, 117, 120, 88] from hc)]
  rcases List.eq_nil_or_concat mods with h | ⟨init, x, h⟩
  · subst h
    simp [intTy, VaTy.read, toInt32_asInt]
  · subst h
    have hx := hm x (by simp)
    unfold Item.IsMod at hx
    simp only [List.mem_cons, List.not_mem_nil, or_false] at hx
    rcases hx with h | h | h | h | h | h | h | h | h | h | h | h | h | h | h | h | h | h | h | h | h | h |
      h | h | h <;> subst h <;> simp [intTy, VaTy.read, toInt32_asInt]

/-! ### One item -/

theorem valueConv_spec {k : Nat} (hk : k ≤ 40) {lib : Lib} {str size : Nat} {chunk : List Nat}
    {width : Int} {ty : VaTy} {st : St} {v l : Nat} {A B : List Nat} {t : List Nat}
    (ha : st.args = v :: A) (hb : st.labels = l :: B) (hstr : 0x700000008000 ≤ str)
    (hend : str + st.off + t.length < 0x800000000000) (hll : l < 2 ^ 32)
    (hl : lib st.m chunk (formatArgs width (ty.read v)) = some t) (verb : Bool) :
    ∃ m', valueConv lib (2 ^ k) str size chunk width ty st = .ok ((t.length : Int), ⟨m', st.off, A, B⟩) ∧
      Emits verb size str st.off st.m t (List.replicate t.length l) m' := by
  obtain ⟨m1, m', e1, e2, h⟩ := emits_set hk (size := size) hstr hend hll hl verb
  refine ⟨m', ?_, h⟩
  unfold valueConv vaArg
  rw [ha]
  simp only [Res.bind_ok, e1, vaLabel, hb, e2]

theorem plain_spec {k : Nat} (hk : k ≤ 40) {lib : Lib} {str size : Nat} {chunk : List Nat}
    {st : St} {t : List Nat} (hstr : 0x700000008000 ≤ str)
    (hend : str + st.off + t.length < 0x800000000000)
    (hl : lib st.m chunk [] = some t) (verb : Bool) :
    ∃ m', plain lib (2 ^ k) str size chunk st = .ok ((t.length : Int), { st with m := m' }) ∧
      Emits verb size str st.off st.m t (List.replicate t.length 0) m' := by
  obtain ⟨m1, m', e1, e2, h⟩ := emits_set hk (size := size) (l := 0) hstr hend (by omega) hl verb
  refine ⟨m', ?_, h⟩
  unfold plain
  simp only [e1, e2, Res.bind_ok]

theorem strConv_spec {lib : Lib} {str size : Nat} {chunk : List Nat}
    {width : Int} {st : St} {p l : Nat} {A B : List Nat} {t : List Nat}
    (ha : st.args = p :: A) (hb : st.labels = l :: B) (hstr : 0x700000008000 ≤ str)
    (hend : str + st.off + t.length < 0x800000000000)
    (hl : lib st.m chunk (formatArgs width (p : Int)) = some t) (verb : Bool)
    (hp : verb = true → st.off + t.length < size → 0x700000008000 ≤ p ∧
      p + t.length ≤ 0x800000000000 ∧ (p + t.length ≤ str + st.off ∨ str + st.off + t.length ≤ p)) :
    ∃ m', strConv lib str size chunk width st = .ok ((t.length : Int), ⟨m', st.off, A, B⟩) ∧
      Emits verb size str st.off st.m t ((List.range t.length).map fun i => labelOf st.m (p + i)) m' := by
  obtain ⟨m1, m', e1, e2, h⟩ := emits_copy (size := size) hstr hend hl verb hp
  refine ⟨m', ?_, h⟩
  unfold strConv vaArg
  rw [ha]
  simp only [Res.bind_ok, VaTy.read, e1, hb, e2, List.drop_succ_cons, List.drop_zero]

/-- The directive ends with a letter that converts a value. -/
theorem letter_step (lib : Lib) (page str size : Nat) {mods rest : List Nat} {width : Int} {st : St} {c : Nat}
    (hm : ∀ x ∈ mods, Item.IsMod x) (hc : Item.IsInt c ∨ Item.IsOther c) :
    ∃ ty : VaTy, (∀ v, ty.read v = argVal mods c v) ∧
      directive lib page str size (mods.reverse ++ [37]) (c :: rest) width st
        = (valueConv lib page str size (Item.val mods c).fmt width ty st >>= fun p => .ok (p.1, p.2, rest)) := by
  have hch : (c :: (mods.reverse ++ [37])).reverse = (Item.val mods c).fmt := by
    simp [Item.fmt]
  rcases hc with hc | hc
  · refine ⟨intTy (mods.reverse ++ [37]), intTy_read hm hc, ?_⟩
    rw [directive]
    simp only [hch]
    rw [if_pos (by simpa [isInt, Item.IsInt] using hc)]
  · unfold Item.IsOther at hc
    simp only [List.mem_cons, List.not_mem_nil, or_false] at hc
    have key : ∀ c ∈ [112, 97, 65, 101, 69, 102, 70, 103, 71], ∀ v, VaTy.w64.read v = argVal mods c v := by
      intro c hc v
      simp only [List.mem_cons, List.not_mem_nil, or_false] at hc
      unfold argVal wide
      rcases hc with h | h | h | h | h | h | h | h | h <;> subst h <;> rfl
    rcases hc with h | hc
    · refine ⟨.w32, fun v => ?_, ?_⟩
      · subst h
        show toInt32 v = _
        rw [toInt32_asInt]
        simp [argVal, wide]
      · subst h
        rw [directive]
        simp only [hch]
        rfl
    · refine ⟨.w64, key c (by simpa using hc), ?_⟩
      rw [directive]
      simp only [hch]
      rcases hc with h | h | h | h | h | h | h | h | h <;> subst h <;> rfl

theorem s_step (lib : Lib) (page str size : Nat) {mods rest : List Nat} {width : Int} {st : St} :
    directive lib page str size (mods.reverse ++ [37]) (115 :: rest) width st
      = (strConv lib str size (Item.str mods).fmt width st >>= fun p => .ok (p.1, p.2, rest)) := by
  have hch : (115 :: (mods.reverse ++ [37])).reverse = (Item.str mods).fmt := by
    simp [Item.fmt]
  rw [directive]
  simp only [hch]
  rfl

theorem pct_step (lib : Lib) (page str size : Nat) {rest : List Nat} {width : Int} {st : St} :
    directive lib page str size [37] (37 :: rest) width st
      = (plain lib page str size [37, 37] st >>= fun p => .ok (p.1, p.2, rest)) := by
  rw [directive]
  rfl

/-- One iteration of the main loop, when the chunk succeeds. -/
theorem loop_step {lib : Lib} {page str size fuel c : Nat} {rest rest' : List Nat} {st st' : St} {n : Nat}
    (h : (if c ≠ 37 then literal lib page str size c rest st
      else directive lib page str size [c] rest (-1) st) = .ok ((n : Int), st', rest')) :
    loop lib page str size (fuel + 1) (c :: rest) st
      = loop lib page str size fuel rest' { st' with off := st'.off + n } := by
  rw [loop, show oneChunk lib page str size c rest st = _ from h]
  simp only [Res.bind_ok]
  rw [if_neg (by omega)]
  rfl

theorem formatArgs_pos {w : Int} (h : 0 ≤ w) (v : Int) : formatArgs w v = [w, v] := if_pos h

theorem formatArgs_none (v : Int) : formatArgs (-1) v = [v] := rfl

/-- The next part of the format does not continue a literal text. -/
def Starts (tail : List Nat) : Prop := tail = [] ∨ ∃ r, tail = 37 :: r

theorem span_lit {t tail : List Nat} (ht : ∀ c ∈ t, c ≠ 37) (h : Starts tail) :
    (t ++ tail).takeWhile (· ≠ 37) = t ∧ (t ++ tail).dropWhile (· ≠ 37) = tail := by
  induction t with
  | nil =>
    rcases h with h | ⟨r, h⟩ <;> subst h <;> simp
  | cons c t ih =>
    have hc := ht c (by simp)
    obtain ⟨h1, h2⟩ := ih (fun x hx => ht x (by simp [hx]))
    simp only [List.cons_append]
    constructor
    · rw [List.takeWhile_cons_of_pos (by simpa using hc), h1]
    · rw [List.dropWhile_cons_of_pos (by simpa using hc), h2]

/-- One item. -/
theorem item_step {k : Nat} (hk : k ≤ 40) {lib : Lib} (hlib : CLib.Faithful lib) {m : Mem} {lo hi : Nat}
    {verb : Bool} {i : Item} {a : List (Nat × Nat)} {t ls : List Nat} {st : St} {A B : List Nat}
    {str size : Nat} (hok : i.Ok)
    (hy : Yields lib m (labelOf m) lo hi verb i a t ls)
    (ha : st.args = a.map Prod.fst ++ A) (hb : st.labels = a.map Prod.snd ++ B)
    (hlab : ∀ x ∈ a, x.2 < 2 ^ 32)
    (hstr : 0x700000008000 ≤ str) (hend : str + st.off + t.length < 0x800000000000)
    (hlo : lo = str) (hhi : verb = true → st.off + t.length < size → str + st.off + t.length ≤ hi)
    (hsame : ∀ x, IsApp x → ¬ (lo ≤ x ∧ x < hi) → st.m x = m x)
    (hsl : verb = true → st.off + t.length < size → ∀ x, IsApp x → ¬ (lo ≤ x ∧ x < hi) →
      labelOf st.m x = labelOf m x)
    {tail : List Nat} (htail : i.isLit = true → Starts tail) (fuel : Nat) :
    ∃ m', loop lib (2 ^ k) str size (fuel + 1) (i.fmt ++ tail) st
        = loop lib (2 ^ k) str size fuel tail ⟨m', st.off + t.length, A, B⟩ ∧
      Emits verb size str st.off st.m t ls m' := by
  have hcopy : ∀ p, (verb = true → Verbatim m lo hi p t) → ∀ m', Emits verb size str st.off st.m t
      ((List.range t.length).map fun i => labelOf st.m (p + i)) m' →
      Emits verb size str st.off st.m t ((List.range t.length).map fun i => labelOf m (p + i)) m' := by
    intro p hv m' h
    refine ⟨h.text, h.nul, h.rest, fun v f i hi' => ?_, h.others⟩
    obtain ⟨-, v1, v2, v3⟩ := hv v
    have := hhi v f
    rw [h.labels v f i hi', List.getD_eq_getElem?_getD, List.getD_eq_getElem?_getD, List.getElem?_map,
      List.getElem?_map, List.getElem?_range hi']
    exact hsl v f (p + i) ⟨by omega, by omega⟩ (by omega)
  have hpos : ∀ p, (verb = true → Verbatim m lo hi p t) → verb = true → st.off + t.length < size →
      0x700000008000 ≤ p ∧ p + t.length ≤ 0x800000000000 ∧
        (p + t.length ≤ str + st.off ∨ str + st.off + t.length ≤ p) := by
    intro p hv v f
    obtain ⟨-, v1, v2, v3⟩ := hv v
    have := hhi v f
    exact ⟨v1, v2, by omega⟩
  cases hy with
  | lit =>
    obtain ⟨h1, h2⟩ := hok
    cases t with
    | nil => exact absurd rfl h1
    | cons c t =>
      obtain ⟨m', e, h⟩ := plain_spec hk (chunk := c :: t) (st := st) (size := size) hstr hend
        (hlib.lit st.m (c :: t) (fun x hx => (h2 x hx).1)) verb
      refine ⟨m', ?_, h⟩
      obtain ⟨s1, s2⟩ := span_lit (t := t) (tail := tail) (fun x hx => (h2 x (by simp [hx])).1) (htail rfl)
      have hstep : (if c ≠ 37 then literal lib (2 ^ k) str size c (t ++ tail) st
          else directive lib (2 ^ k) str size [c] (t ++ tail) (-1) st)
          = .ok (((c :: t).length : Int), { st with m := m' }, tail) := by
        rw [if_pos (h2 c (by simp)).1]
        unfold literal
        rw [s1, s2, e]
        rfl
      have := loop_step (fuel := fuel) hstep
      simp only [List.map_nil, List.nil_append] at ha hb
      simpa only [Item.fmt, List.cons_append, ha, hb] using this
  | pct =>
    obtain ⟨m', e, h⟩ := plain_spec hk (chunk := [37, 37]) (st := st) (size := size) hstr hend
      (hlib.pct st.m) verb
    refine ⟨m', ?_, h⟩
    have hstep : (if (37 : Nat) ≠ 37 then literal lib (2 ^ k) str size 37 (37 :: tail) st
        else directive lib (2 ^ k) str size [37] (37 :: tail) (-1) st)
        = .ok ((([37] : List Nat).length : Int), { st with m := m' }, tail) := by
      rw [if_neg (by decide), pct_step, e]
      rfl
    have := loop_step (fuel := fuel) hstep
    simp only [List.map_nil, List.nil_append] at ha hb
    simpa only [Item.fmt, List.cons_append, List.nil_append, ha, hb] using this
  | val mods c v l t hs hcv =>
    obtain ⟨ty, hty, e0⟩ := letter_step lib (2 ^ k) str size (mods := mods) (rest := tail) (width := -1)
      (st := st) hok.1 hok.2
    obtain ⟨m', e, h⟩ := valueConv_spec hk (lib := lib) (width := -1) (ty := ty) (size := size)
      (chunk := (Item.val mods c).fmt) (v := v) (l := l) (t := t)
      ha hb hstr hend (hlab (v, l) (by simp))
      (by rw [hty, formatArgs_none]; exact hcv st.m hsame) verb
    refine ⟨m', ?_, h⟩
    have hstep : (if (37 : Nat) ≠ 37 then literal lib (2 ^ k) str size 37 (mods ++ c :: tail) st
        else directive lib (2 ^ k) str size [37] (mods ++ c :: tail) (-1) st)
        = .ok ((t.length : Int), ⟨m', st.off, A, B⟩, tail) := by
      rw [if_neg (by decide), mods_plain lib (2 ^ k) str size _ _ _ mods [37] hok.1 hs, e0, e]
      rfl
    have := loop_step (fuel := fuel) hstep
    simpa [Item.fmt] using this
  | valStar mods c w lw v l t hs hw hcv =>
    obtain ⟨ty, hty, e0⟩ := letter_step lib (2 ^ k) str size (mods := mods) (rest := tail)
      (width := toInt32 w) (st := { st with args := v :: A, labels := l :: B }) hok.1 hok.2
    obtain ⟨m', e, h⟩ := valueConv_spec hk (lib := lib) (width := toInt32 w) (ty := ty) (size := size)
      (chunk := (Item.val mods c).fmt) (v := v) (l := l) (t := t)
      (st := { st with args := v :: A, labels := l :: B })
      rfl rfl hstr hend (hlab (v, l) (by simp))
      (by rw [hty, toInt32_asInt, formatArgs_pos hw]; exact hcv st.m hsame) verb
    refine ⟨m', ?_, h⟩
    have hstep : (if (37 : Nat) ≠ 37 then literal lib (2 ^ k) str size 37 (mods ++ c :: tail) st
        else directive lib (2 ^ k) str size [37] (mods ++ c :: tail) (-1) st)
        = .ok ((t.length : Int), ⟨m', st.off, A, B⟩, tail) := by
      rw [if_neg (by decide), mods_star lib (2 ^ k) str size _ _ _ (w := w) (A := v :: A) ha mods [37]
        hok.1 hs, hb]
      simp only [List.map_cons, List.map_nil, List.cons_append, List.nil_append, List.drop_succ_cons,
        List.drop_zero]
      rw [e0, e]
      rfl
    have := loop_step (fuel := fuel) hstep
    simpa [Item.fmt] using this
  | str mods p l t hs hcv hv =>
    obtain ⟨m', e, h⟩ := strConv_spec (lib := lib) (width := -1) (size := size)
      (chunk := (Item.str mods).fmt) (p := p) (l := l) (t := t)
      ha hb hstr hend
      (by rw [formatArgs_none]; exact hcv st.m hsame) verb (hpos p hv)
    refine ⟨m', ?_, hcopy p hv m' h⟩
    have hstep : (if (37 : Nat) ≠ 37 then literal lib (2 ^ k) str size 37 (mods ++ 115 :: tail) st
        else directive lib (2 ^ k) str size [37] (mods ++ 115 :: tail) (-1) st)
        = .ok ((t.length : Int), ⟨m', st.off, A, B⟩, tail) := by
      rw [if_neg (by decide), mods_plain lib (2 ^ k) str size _ _ _ mods [37] hok hs, s_step, e]
      rfl
    have := loop_step (fuel := fuel) hstep
    simpa [Item.fmt] using this
  | strStar mods w lw p l t hs hw hcv hv =>
    obtain ⟨m', e, h⟩ := strConv_spec (lib := lib) (width := toInt32 w) (size := size)
      (chunk := (Item.str mods).fmt) (p := p) (l := l) (t := t)
      (st := { st with args := p :: A, labels := l :: B })
      rfl rfl hstr hend
      (by rw [toInt32_asInt, formatArgs_pos hw]; exact hcv st.m hsame) verb (hpos p hv)
    refine ⟨m', ?_, hcopy p hv m' h⟩
    have hstep : (if (37 : Nat) ≠ 37 then literal lib (2 ^ k) str size 37 (mods ++ 115 :: tail) st
        else directive lib (2 ^ k) str size [37] (mods ++ 115 :: tail) (-1) st)
        = .ok ((t.length : Int), ⟨m', st.off, A, B⟩, tail) := by
      rw [if_neg (by decide), mods_star lib (2 ^ k) str size _ _ _ (w := w) (A := p :: A) ha mods [37]
        hok hs, hb]
      simp only [List.map_cons, List.map_nil, List.cons_append, List.nil_append, List.drop_succ_cons,
        List.drop_zero]
      rw [s_step, e]
      rfl
    have := loop_step (fuel := fuel) hstep
    simpa [Item.fmt] using this

/-! ### A sequence of items -/

theorem yields_length {lib : CLib} {m lab : Nat → Nat} {lo hi : Nat} {verb : Bool} {i : Item}
    {a : List (Nat × Nat)} {t ls : List Nat} (h : Yields lib m lab lo hi verb i a t ls) :
    ls.length = t.length := by
  cases h <;> simp

theorem Format.tail {i : Item} {is : List Item} (h : Format (i :: is)) : i.Ok ∧ Format is := by
  cases is with
  | nil => exact ⟨h, trivial⟩
  | cons j is => exact ⟨h.1, h.2.2⟩

/-- After literal text comes a directive or what follows the items. -/
theorem Format.starts {i : Item} {is : List Item} {tail : List Nat} (h : Format (i :: is))
    (ht : Starts tail) (hi : i.isLit = true) : Starts (is.flatMap Item.fmt ++ tail) := by
  cases is with
  | nil => exact ht
  | cons j is =>
    have hj : ¬ j.isLit = true := fun hj => h.2.1 ⟨hi, hj⟩
    refine Or.inr ?_
    cases j with
    | lit t => exact absurd rfl hj
    | pct => exact ⟨_, rfl⟩
    | val mods c => exact ⟨_, rfl⟩
    | str mods => exact ⟨_, rfl⟩

theorem items_run {k : Nat} (hk : k ≤ 40) {lib : Lib} (hlib : CLib.Faithful lib) {m : Mem} {hi : Nat}
    {verb : Bool} {str size : Nat} (hstr : 0x700000008000 ≤ str) {A B tail : List Nat} (ht : Starts tail)
    (fuel : Nat) {items : List Item} {as : List (Nat × Nat)} {t ls : List Nat}
    (ho : Output lib m (labelOf m) str hi verb items as t ls) : ∀ (_ : Format items) (st : St)
    (_ : st.args = as.map Prod.fst ++ A) (_ : st.labels = as.map Prod.snd ++ B)
    (_ : ∀ x ∈ as, x.2 < 2 ^ 32)
    (_ : str + st.off + t.length < 0x800000000000)
    (_ : str + min size (st.off + t.length + 1) ≤ hi)
    (_ : ∀ x, IsApp x → ¬ (str ≤ x ∧ x < hi) → st.m x = m x)
    (_ : verb = true → st.off < size → ∀ x, IsApp x → ¬ (str ≤ x ∧ x < hi) →
      labelOf st.m x = labelOf m x),
    ∃ m', loop lib (2 ^ k) str size (items.length + fuel) (items.flatMap Item.fmt ++ tail) st
        = loop lib (2 ^ k) str size fuel tail ⟨m', st.off + t.length, A, B⟩ ∧
      (items = [] ∧ m' = st.m ∨ items ≠ [] ∧ Emits verb size str st.off st.m t ls m') := by
  induction ho with
  | nil =>
    intro _ st ha hb _ _ _ _ _
    refine ⟨st.m, ?_, Or.inl ⟨rfl, rfl⟩⟩
    simp only [List.map_nil, List.nil_append] at ha hb
    simp only [List.length_nil, Nat.zero_add, Nat.add_zero, List.flatMap_nil, List.nil_append, ← ha, ← hb]
  | @cons i is a as t ts l ls hy ho ih =>
    intro hf st ha hb hlab hend hhi hsame hsl
    obtain ⟨hok, hf'⟩ := Format.tail hf
    have hlen : (t ++ ts).length = t.length + ts.length := List.length_append
    rw [hlen] at hend hhi
    obtain ⟨m1, e1, h1⟩ := item_step hk hlib (st := st) (size := size)
      (A := as.map Prod.fst ++ A) (B := as.map Prod.snd ++ B) (tail := is.flatMap Item.fmt ++ tail) hok hy
      (by rw [ha, List.map_append, List.append_assoc]) (by rw [hb, List.map_append, List.append_assoc])
      (fun x hx => hlab x (List.mem_append_left _ hx)) hstr (by omega) rfl (fun _ hf => by omega) hsame
      (fun v f => hsl v (by omega)) (Format.starts hf ht) (is.length + fuel)
    have hav : numAvail size st.off = size - st.off := by unfold numAvail; split <;> omega
    obtain ⟨m2, e2, h2⟩ := ih hf' ⟨m1, st.off + t.length, as.map Prod.fst ++ A, as.map Prod.snd ++ B⟩ rfl rfl
      (fun x hx => hlab x (List.mem_append_right _ hx)) (by simp only []; omega)
      (by simp only []; omega)
      (fun x hx hn => by
        simp only []
        rw [h1.rest x hx (by rw [hav]; omega), hsame x hx hn])
      (fun v f x hx hn => by
        simp only [] at f ⊢
        rw [h1.others v f x hx (by omega), hsl v (by omega) x hx hn])
    refine ⟨m2, ?_, Or.inr ⟨by simp, ?_⟩⟩
    · rw [List.length_cons, List.flatMap_cons, List.append_assoc,
        show is.length + 1 + fuel = (is.length + fuel) + 1 by omega, e1, e2, hlen, Nat.add_assoc]
    · rcases h2 with ⟨h0, h2⟩ | ⟨_, h2⟩
      · subst h0
        cases ho
        rw [List.append_nil, List.append_nil, h2]
        exact h1
      · exact Emits.append hstr (by omega) (yields_length hy) h1 h2

end Fmt
end Verif
