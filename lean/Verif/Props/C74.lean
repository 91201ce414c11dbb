import Verif.Spec.Mapping
import Verif.Props.C36
import Verif.Props.C40
import Verif.Examples.Run
/- C74: fresh mappings carry no old labels, and mapped files are labelled as their bytes. -/
namespace Verif
open Spec Tracker DfsanMem

theorem roundUpTo_span {k n : Nat} (hk : k ≤ 40) (hn : n < 2 ^ 63) :
    roundUpTo n (2 ^ k) = pageSpan (2 ^ k) n := by
  have h1 : 2 ^ k ≤ 2 ^ 40 := Nat.pow_le_pow_right (by decide) hk
  exact roundUpTo_eq k n (by omega) (by omega)

theorem le_pageSpan (k n : Nat) : n ≤ pageSpan (2 ^ k) n := by
  unfold pageSpan
  have hp : 0 < 2 ^ k := Nat.pow_pos (by decide)
  have h1 := Nat.div_add_mod (n + 2 ^ k - 1) (2 ^ k)
  have h2 := Nat.mod_lt (n + 2 ^ k - 1) hp
  rw [Nat.mul_comm] at h1
  omega

/-- The pages of a length are the smallest multiple of the page size that holds it. -/
theorem pageSpan_least (k n : Nat) : n ≤ pageSpan (2 ^ k) n ∧ 2 ^ k ∣ pageSpan (2 ^ k) n ∧
    ∀ j, 2 ^ k ∣ j → n ≤ j → pageSpan (2 ^ k) n ≤ j := by
  refine ⟨le_pageSpan k n, Nat.dvd_mul_left _ _, ?_⟩
  rintro j ⟨q, rfl⟩ hn
  unfold pageSpan
  have hp : 0 < 2 ^ k := Nat.pow_pos (by decide)
  rw [Nat.mul_comm (2 ^ k) q] at *
  refine Nat.mul_le_mul_right _ (Nat.le_of_lt_succ ?_)
  rw [Nat.div_lt_iff_lt_mul hp, Nat.succ_mul]
  omega

/-- What one event does to the labels of application memory. -/
theorem mapStep_labels {k : Nat} (hk : k ≤ 40) (m : Mem) (e : MapEvent) (hf : Fits (2 ^ k) e) :
    ∃ m', mapStep (2 ^ k) m e = .ok m' ∧
      (∀ b, IsApp b → labelOf m' b = (gives (2 ^ k) e b).getD (labelOf m b)) ∧
      ∀ b, IsApp b → m' b = m b := by
  have span : ∀ a n, 0x700000008000 ≤ a → a + pageSpan (2 ^ k) n < 0x800000000000 →
      ∃ m', setLabel (2 ^ k) m 0 a (roundUpTo n (2 ^ k)) = .ok m' ∧
        (∀ b, IsApp b → labelOf m' b = fill (labelOf m) a (pageSpan (2 ^ k) n) 0 b) ∧
        ∀ b, IsApp b → m' b = m b := by
    intro a n h1 h2
    have h3 := le_pageSpan k n
    rw [roundUpTo_span hk (by omega)]
    obtain ⟨m', h4, h5, -⟩ := C36_set m hk (l := 0) (by decide) h1 h2
    exact ⟨m', h4, h5, C36_data m m' hk (by decide) h1 h2 h4⟩
  cases e with
  | mmap length res =>
    cases res with
    | none => exact ⟨m, rfl, fun b _ => rfl, fun b _ => rfl⟩
    | some a =>
      obtain ⟨h1, h2, -⟩ := hf a _ 0 rfl
      obtain ⟨m', h4, h5, h6⟩ := span a length h1 h2
      refine ⟨m', h4, fun b hb => ?_, h6⟩
      rw [h5 b hb]
      simp only [gives, range, fill, reduceCtorEq, if_false]
      split <;> rfl
  | munmap addr length ret =>
    by_cases hr : ret = -1
    · subst hr
      exact ⟨m, rfl, fun b _ => rfl, fun b _ => rfl⟩
    · obtain ⟨h1, h2, -⟩ := hf addr (pageSpan (2 ^ k) length) 0 (by simp only [range, if_neg hr])
      obtain ⟨m', h4, h5, h6⟩ := span addr length h1 h2
      refine ⟨m', by simp only [mapStep, munmapIntercepted, ne_eq, hr, not_false_eq_true, if_true, h4], fun b hb => ?_, h6⟩
      rw [h5 b hb]
      simp only [gives, range, fill, reduceCtorEq, if_false, if_neg hr]
      split <;> rfl
  | label l addr n =>
    obtain ⟨h1, h2, h3⟩ := hf addr n l rfl
    obtain ⟨m', h4, h5, -⟩ := C36_set m hk h3 h1 h2
    refine ⟨m', h4, fun b hb => ?_, C36_data m m' hk h3 h1 h2 h4⟩
    rw [h5 b hb]
    simp only [gives, range, fill, reduceCtorEq, if_false]
    split <;> rfl
  | flush =>
    refine ⟨_, rfl, fun b hb => ?_, fun b hb => ?_⟩
    · obtain ⟨h1, h2, -⟩ := C36_outside hb
      have : ∀ i, i < 4 → DfsanMem.flush m (shadowFor b + i) = 0 := by
        intro i hi
        unfold DfsanMem.flush kShadowAddr kUnionTableAddr
        rw [if_pos (by omega)]
      simp only [labelOf, Mem.read32, gives, if_true, Option.getD_some]
      rw [this 1 (by omega), this 2 (by omega), this 3 (by omega), show shadowFor b = shadowFor b + 0 from rfl,
        this 0 (by omega)]
    · unfold DfsanMem.flush kShadowAddr kUnionTableAddr
      rw [if_neg]
      have := hb.1
      omega

theorem getLast_cons_getD (o : Option Nat) (l : List Nat) (d : Nat) :
    (o.toList ++ l).getLast?.getD d = l.getLast?.getD (o.getD d) := by
  cases o with
  | none => rfl
  | some v =>
    cases l with
    | nil => rfl
    | cons w l => simp [List.getLast?_cons]

theorem filterMap_cons_toList (f : MapEvent → Option Nat) (e : MapEvent) (es : List MapEvent) :
    (e :: es).filterMap f = (f e).toList ++ es.filterMap f := by
  cases h : f e <;> simp [h]

/-- After any sequence of mappings, unmappings and label writes, the label of a byte is the one given by
the last event about it: zero if that was a mapping or an unmapping of its page. The content of memory is
not touched. The page size is any power of two up to 2^40. -/
theorem C74_events {k : Nat} (hk : k ≤ 40) : ∀ (es : List MapEvent) (m : Mem), (∀ e ∈ es, Fits (2 ^ k) e) →
    ∃ m', mapRun (2 ^ k) es m = .ok m' ∧
      (∀ b, IsApp b → labelOf m' b = ((es.filterMap (gives (2 ^ k) · b)).getLast?).getD (labelOf m b)) ∧
      ∀ b, IsApp b → m' b = m b := by
  intro es
  induction es with
  | nil => intro m _; exact ⟨m, rfl, fun b _ => rfl, fun b _ => rfl⟩
  | cons e es ih =>
    intro m hf
    obtain ⟨m1, h1, h2, h3⟩ := mapStep_labels hk m e (hf e (by simp))
    obtain ⟨m2, h4, h5, h6⟩ := ih m1 (fun e he => hf e (by simp [he]))
    refine ⟨m2, by simp only [mapRun, h1, Res.bind_ok, h4], fun b hb => ?_, fun b hb => (h6 b hb).trans (h3 b hb)⟩
    rw [h5 b hb, h2 b hb, filterMap_cons_toList, getLast_cons_getD]

/-- A mapping of 5000 bytes, a label on bytes 4990 to 5009 of it, an unmapping of the first page and a
failed unmapping of everything: what the last event about a byte says. -/
example : (∀ e ∈ [MapEvent.mmap 5000 (some 0x7f0000000000), .label 7 0x7f000000137e 20,
      .munmap 0x7f0000000000 1 0, .munmap 0x7f0000000000 8192 (-1)], Fits (2 ^ 12) e) ∧
    ∀ m, ∃ m', mapRun (2 ^ 12) [.mmap 5000 (some 0x7f0000000000), .label 7 0x7f000000137e 20,
      .munmap 0x7f0000000000 1 0, .munmap 0x7f0000000000 8192 (-1)] m = .ok m' ∧
      labelOf m' 0x7f0000000000 = 0 ∧ labelOf m' 0x7f0000001380 = 7 ∧ labelOf m' 0x7f0000001fff = 0 ∧
      labelOf m' 0x7f0000002000 = labelOf m 0x7f0000002000 := by
  have hf : ∀ e ∈ [MapEvent.mmap 5000 (some 0x7f0000000000), .label 7 0x7f000000137e 20,
      .munmap 0x7f0000000000 1 0, .munmap 0x7f0000000000 8192 (-1)], Fits (2 ^ 12) e := by
    intro e he
    simp only [List.mem_cons, List.not_mem_nil, or_false] at he
    rcases he with rfl | rfl | rfl | rfl <;> intro a n l h <;> simp [range, pageSpan] at h <;> omega
  refine ⟨hf, fun m => ?_⟩
  obtain ⟨m', h1, h2, -⟩ := C74_events (k := 12) (by decide) _ m hf
  refine ⟨m', h1, ?_, ?_, ?_, ?_⟩
  · rw [h2 _ (by unfold IsApp; decide)]; rfl
  · rw [h2 _ (by unfold IsApp; decide)]; rfl
  · rw [h2 _ (by unfold IsApp; decide)]; rfl
  · rw [h2 _ (by unfold IsApp; decide)]; rfl

/-! ### Calls of instrumented programs -/

/-- A history of label writes with label 0. -/
def Zeros (z : Trace) : Prop := ∀ e ∈ z, ∃ x, e = (.store x 0, .unit)

theorem Zeros.facts {z h : Trace} (hz : Zeros z) :
    registered (z ++ h) = registered h ∧ ∀ i, readPos (z ++ h) i = readPos h i := by
  induction z with
  | nil => exact ⟨rfl, fun _ => rfl⟩
  | cons e z ih =>
    obtain ⟨x, rfl⟩ := hz e (by simp)
    obtain ⟨h1, h2⟩ := ih (fun e he => hz e (by simp [he]))
    exact ⟨h1, h2⟩

theorem Zeros.owner {z h : Trace} (hz : Zeros z) (fd : Int) : owner (z ++ h) fd = owner h fd := by
  unfold Spec.owner
  rw [hz.facts.1]

theorem reach_setAll {c : Config} {base : Nat} (hc : c.Ok base) : ∀ (n : Nat) {h : Trace} {T : Tracker} (a : Nat),
    Reach c base h T → ∃ z, Zeros z ∧ Reach c base (z ++ h) { T with shadow := Wrap.setAll T.shadow 0 a n } := by
  intro n
  induction n with
  | zero => intro h T a hr; exact ⟨[], by intro e he; simp at he, hr⟩
  | succ n ih =>
    intro h T a hr
    have h0 : 0 < T.labels.words.length := by
      have := (hr.sim hc).shadowOk 0
      omega
    have hr1 := hr.snoc (show T.Allowed (.store a 0) from h0) rfl
    obtain ⟨z, hz, h1⟩ := ih (a + 1) hr1
    refine ⟨z ++ [(.store a 0, .unit)], ?_, by rw [List.append_assoc]; exact h1⟩
    intro e he
    rcases List.mem_append.1 he with he | he
    · exact hz e he
    · simp only [List.mem_singleton] at he
      exact ⟨a, he⟩

/-- mmap of a tracked file: whatever labels the memory had before, the bytes asked for get new labels that
denote exactly the bytes of the file from the offset on, the rest of the last page is unlabelled, and all
other memory keeps its labels. What was done is one read of the file after labels were cleared, so all
claims about such histories hold of the result. -/
theorem C74_mapped_partial {c : Config} {base : Nat} (hc : c.Ok base) {h : Trace} {T : Tracker}
    (hr : Reach c base h T) {k : Nat} (hk : k ≤ 40) {fd : Int} {i : Nat} (hi : owner h fd = some i) {length a : Nat}
    {offset : Int} (hlen : 0 < length) (hmax : length < 2 ^ 63) (hroom : T.labels.words.length + length ≤ c.labelCap)
    (h0 : 0 ≤ offset) (hoff : offset.toNat + length ≤ 2 ^ 54) :
    ∃ T' first z, Wrap.mmapCall (2 ^ k) T fd length offset (some a) = .ok (T', some a, 0) ∧
      (∀ j, j < length → T.labels.graph (first + j) = none) ∧
      (∀ j b, j < length → (Denotes T'.labels.graph (first + j) b ↔ b = (i, offset.toNat + j))) ∧
      (∀ x, T'.shadow x = if a ≤ x ∧ x < a + length then first + (x - a)
        else if a ≤ x ∧ x < a + pageSpan (2 ^ k) length then 0 else T.shadow x) ∧
      Zeros z ∧ Reach c base ((.read fd (some a) (some offset.toNat) length,
        .range (some (first, first + length - 1))) :: (z ++ h)) T' := by
  obtain ⟨z, hz, hr1⟩ := reach_setAll hc (roundUpTo length (2 ^ k)) a hr
  have hi1 : owner (z ++ h) fd = some i := by rw [hz.owner, hi]
  have hn : ¬ offset < 0 := by omega
  obtain ⟨T', first, h1, h2, h3, h4⟩ := sourceTaint_exact hc hr1 hi1 (some a) (some offset.toNat) (len := length)
    hoff hlen hroom
  have hs := hr1.sim hc
  obtain ⟨ss, ht⟩ := hs.tab
  have hm := ht.mapping hc.src fd
  refine ⟨T', first, z, ?_, h2, h3, ?_, hz, hr1.snoc ?_ ?_⟩
  · simp only [Wrap.mmapCall, Wrap.mmap, Wrap.mmapCleared, fromOffT_eq (show offset < 2 ^ 54 by omega), knownPos,
      if_neg hn, Res.bind_ok, h1, Res.pure_eq]
  · intro x
    rw [h4 x]
    simp only [setAll_eq, roundUpTo_span hk hmax]
  · intro j _
    exact hoff
  · simp only [exec, h1, Res.bind_ok, Res.pure_eq]

/-- Hypotheses are met: a mapping of three bytes at offset 4 of a tracked file. The memory at 128 carried
a label before. -/
example : ∃ (h : Trace) (T : Tracker), Reach exCfg 4096 h T ∧ owner h 3 = some 0 ∧ T.shadow 200 = 1 ∧
    T.labels.words.length + 3 ≤ exCfg.labelCap := by
  refine ⟨_, _, run_reach (cs := [.openFile 3 [97] none, .read 3 (some 200) none 1]) rfl, ?_⟩
  decide +kernel

/-- A failed mmap, a mapping of a file that is not tracked and an mmap64 (C74_mmap64_refuted) only clear. -/
theorem C74_untracked {c : Config} {base : Nat} (hc : c.Ok base) {h : Trace} {T : Tracker}
    (hr : Reach c base h T) {k : Nat} (hk : k ≤ 40) {fd : Int} (hi : owner h fd = none) {length a : Nat}
    {offset : Int} (hmax : length < 2 ^ 63) (hoff : offset < 2 ^ 54) :
    Wrap.mmapCall (2 ^ k) T fd length offset none = .ok (T, none, 0) ∧
    ∃ T', Wrap.mmapCall (2 ^ k) T fd length offset (some a) = .ok (T', some a, 0) ∧
      T'.labels = T.labels ∧
      ∀ x, T'.shadow x = if a ≤ x ∧ x < a + pageSpan (2 ^ k) length then 0 else T.shadow x := by
  obtain ⟨z, hz, hr1⟩ := reach_setAll hc (roundUpTo length (2 ^ k)) a hr
  have hi1 : owner (z ++ h) fd = none := by rw [hz.owner, hi]
  refine ⟨?_, { T with shadow := Wrap.setAll T.shadow 0 a (roundUpTo length (2 ^ k)) }, ?_, rfl, ?_⟩
  · simp only [Wrap.mmapCall, Wrap.mmap, Wrap.mmapCleared, fromOffT_eq hoff, Res.bind_ok, Res.pure_eq]
  · simp only [Wrap.mmapCall, Wrap.mmap, Wrap.mmapCleared, fromOffT_eq hoff, Res.bind_ok, Res.pure_eq,
      sourceTaint_untracked hc hr1 hi1]
  · intro x
    simp only [setAll_eq, roundUpTo_span hk hmax]

/-- Hypotheses are met: no file was opened. -/
example : ∃ (h : Trace) (T : Tracker), Reach exCfg 4096 h T ∧ owner h 3 = none := by
  refine ⟨_, _, run_reach (cs := [.openFile 4 [97] none]) rfl, ?_⟩
  decide +kernel

/-- munmap that succeeds: the whole pages lose their labels and no other byte does; nothing else of the
tracker changes. -/
theorem C74_unmapped {k : Nat} (hk : k ≤ 40) (T : Tracker) {addr length : Nat} {ret : Int} (hret : ret ≠ -1)
    (hmax : length < 2 ^ 63) :
    Wrap.munmapCall (2 ^ k) T addr length ret =
      ({ T with shadow := fill T.shadow addr (pageSpan (2 ^ k) length) 0 }, ret, 0) := by
  have : fill T.shadow addr (pageSpan (2 ^ k) length) 0 =
      Wrap.setAll (Wrap.setAll T.shadow 0 addr (roundUpTo length (2 ^ k))) 0 addr length := by
    funext x
    rw [setAll_eq, setAll_eq, roundUpTo_span hk hmax]
    unfold fill
    have := le_pageSpan k length
    by_cases h1 : addr ≤ x ∧ x < addr + length
    · rw [if_pos h1, if_pos (by omega)]
    · rw [if_neg h1]
  rw [this]
  simp only [Wrap.munmapCall, Wrap.munmap, ne_eq, hret, not_false_eq_true, if_true]

/-- Unmapping 1 byte clears a page of 4096. -/
example (T : Tracker) : ∃ T', Wrap.munmapCall (2 ^ 12) T 8192 1 0 = (T', 0, 0) ∧ T'.shadow 12287 = 0 ∧
    T'.shadow 12288 = T.shadow 12288 := by
  refine ⟨_, C74_unmapped (k := 12) (by decide) T (by decide) (by decide), ?_, ?_⟩ <;> simp [pageSpan, fill]

/-- The labels `dfsan_create_label` hands out are pairwise different, not 0, and counted by
`dfsan_get_label_count`. -/
theorem C74_created : ∀ (n last : Nat), last + n < 2 ^ 32 - 1 →
    Wrap.createLabels last n = .ok (last + n, (List.range n).map (last + 1 + ·)) ∧
    Wrap.labelCount (last + n) = last + n := by
  intro n
  induction n with
  | zero => intro last _; exact ⟨rfl, rfl⟩
  | succ n ih =>
    intro last hl
    refine ⟨?_, rfl⟩
    have h1 : (last + 1) % 2 ^ 32 = last + 1 := Nat.mod_eq_of_lt (by omega)
    have h2 : Wrap.createLabel last = .ok (last + 1, last + 1) := by
      simp only [Wrap.createLabel, h1]
      rw [if_neg (by omega)]
    simp only [Wrap.createLabels, h2, Res.bind_ok, (ih (last + 1) (by omega)).1, Res.pure_eq, List.range_succ_eq_map,
      List.map_cons, List.map_map, Res.ok.injEq, Prod.mk.injEq, Nat.add_zero]
    refine ⟨by omega, ?_⟩
    congr 1
    apply List.map_congr_left
    intro j _
    simp only [Function.comp]
    omega

example : Wrap.createLabels 0 3 = .ok (3, [1, 2, 3]) := (C74_created 3 0 (by decide)).1

/-! ### Where the claim fails -/

/-- A file mapped with mmap64, which is what mmap is called in programs compiled with 64-bit file offsets:
the memory is unlabelled although the file is tracked. -/
theorem C74_mmap64_refuted {k : Nat} (hk : k ≤ 40) (T : Tracker) {length a : Nat} (hmax : length < 2 ^ 63) :
    ∃ T', Wrap.mmap64Call (2 ^ k) T length (some a) = (T', some a, 0) ∧ T'.labels = T.labels ∧
      ∀ j, j < length → T'.shadow (a + j) = 0 := by
  refine ⟨_, rfl, rfl, fun j hj => ?_⟩
  have := le_pageSpan k length
  show Wrap.setAll T.shadow 0 a (roundUpTo length (2 ^ k)) (a + j) = 0
  rw [setAll_eq, roundUpTo_span hk hmax, if_pos (by omega)]

example : ∃ (h : Trace) (T T' : Tracker), Reach exCfg 4096 h T ∧ owner h 3 = some 0 ∧
    Wrap.mmap64Call (2 ^ 12) T 2 (some 4096) = (T', some 4096, 0) ∧ T'.shadow 4097 = 0 := by
  obtain ⟨h, T, hr, ho⟩ : ∃ (h : Trace) (T : Tracker), Reach exCfg 4096 h T ∧ owner h 3 = some 0 :=
    ⟨_, _, run_reach (cs := [.openFile 3 [97] none]) rfl, by decide +kernel⟩
  obtain ⟨T', h1, -, h2⟩ := C74_mmap64_refuted (k := 12) (by decide) T (length := 2) (a := 4096) (by decide)
  exact ⟨h, T, T', hr, ho, h1, h2 1 (by decide)⟩

/-- Mapping more than the file has: the file has 2 bytes, and the zero bytes mapped after them are labelled
as bytes 2 and 3 of it. -/
theorem C74_tail_refuted : ∃ (h : Trace) (T T' : Tracker), Reach exCfg 4096 h T ∧
    registered h = [([97], 3, 2)] ∧ Wrap.mmapCall (2 ^ 12) T 3 4 0 (some 4096) = .ok (T', some 4096, 0) ∧
    T'.shadow 4099 ≠ 0 ∧ ∀ b, Denotes T'.labels.graph (T'.shadow 4099) b ↔ b = (0, 3) := by
  obtain ⟨h, T, hr, ho, hg, hw⟩ : ∃ (h : Trace) (T : Tracker), Reach exCfg 4096 h T ∧ owner h 3 = some 0 ∧
      registered h = [([97], 3, 2)] ∧ T.labels.words.length + 4 ≤ exCfg.labelCap :=
    ⟨_, _, run_reach (cs := [.openFile 3 [97] (some 2)]) rfl, by decide +kernel⟩
  obtain ⟨T', first, z, h1, h2, h3, h4, h5, h6⟩ := C74_mapped_partial exCfg_ok hr (k := 12) (by decide) ho (a := 4096)
    (offset := 0) (length := 4) (by decide) (by decide) hw (by decide) (by decide)
  have h7 : T'.shadow 4099 = first + 3 := by rw [h4]; rfl
  refine ⟨h, T, T', hr, hg, h1, ?_, ?_⟩
  · rw [h7]; omega
  · rw [h7]
    intro b
    exact h3 3 b (by decide)

/-- munmap that fails (here: -1 for an address that is not the start of a page) leaves the memory mapped
and clears its labels. -/
theorem C74_failed_refuted {k : Nat} (T : Tracker) (addr length : Nat) :
    ∃ T', Wrap.munmapCall (2 ^ k) T addr length (-1) = (T', -1, 0) ∧
      ∀ x, addr ≤ x → x < addr + length → T'.shadow x = 0 := by
  refine ⟨_, rfl, fun x h1 h2 => ?_⟩
  show Wrap.setAll _ 0 addr length x = 0
  rw [setAll_eq, if_pos ⟨h1, h2⟩]

example : ∃ (h : Trace) (T T' : Tracker), Reach exCfg 4096 h T ∧ T.shadow 200 = 1 ∧
    Wrap.munmapCall (2 ^ 12) T 200 1 (-1) = (T', -1, 0) ∧ T'.shadow 200 = 0 := by
  obtain ⟨h, T, hr, hs⟩ : ∃ (h : Trace) (T : Tracker), Reach exCfg 4096 h T ∧ T.shadow 200 = 1 :=
    ⟨_, _, run_reach (cs := [.openFile 3 [97] none, .read 3 (some 200) none 1]) rfl, by decide +kernel⟩
  obtain ⟨T', h1, h2⟩ := C74_failed_refuted (k := 12) T 200 1
  exact ⟨h, T, T', hr, hs, h1, h2 200 (by decide) (by decide)⟩

/-- mremap to a new place moves the bytes but not their labels. -/
theorem C74_mremap_refuted (m : Mem) {old new n j : Nat} (hj : j < n) (ha : IsApp new) (hn : new + n < 0x800000000000)
    (hdiff : labelOf m (old + j) ≠ labelOf m (new + j)) :
    mremap m old new n (new + j) = m (old + j) ∧ labelOf (mremap m old new n) (new + j) ≠ labelOf m (old + j) := by
  have hb : IsApp (new + j) := ⟨by have := ha.1; omega, by omega⟩
  have h1 := (C36_outside hb).2.2 new ha
  refine ⟨?_, ?_⟩
  · unfold mremap
    rw [if_pos (by omega)]
    congr 1
    omega
  · have : labelOf (mremap m old new n) (new + j) = labelOf m (new + j) := by
      unfold labelOf Mem.read32 mremap
      rw [if_neg (by omega), if_neg (by omega), if_neg (by omega), if_neg (by omega)]
    rw [this]
    exact fun h => hdiff h.symm

example : ∃ m : Mem, labelOf m 0x7f0000000000 = 7 ∧ labelOf m 0x7f0000002000 = 0 := by
  obtain ⟨m', h1, h2, -⟩ := C74_events (k := 12) (by decide) [.flush, .label 7 0x7f0000000000 1] (fun _ => 0) (by
    intro e he
    simp only [List.mem_cons, List.not_mem_nil, or_false] at he
    rcases he with rfl | rfl <;> intro a n l h <;> simp [range] at h <;> omega)
  refine ⟨m', ?_, ?_⟩
  · rw [h2 _ (by unfold IsApp; decide)]; rfl
  · rw [h2 _ (by unfold IsApp; decide)]; rfl

/-- The first label created by the program is the label of the first byte of input: labels of both kinds
are confused. Nor does the label count know of the labels of input bytes. -/
theorem C74_created_refuted : ∃ (h : Trace) (T : Tracker), Reach exCfg 4096 h T ∧ T.shadow 64 = 1 ∧
    (∀ b, Denotes T.labels.graph 1 b ↔ b = (0, 0)) ∧ Wrap.createLabel 0 = .ok (1, 1) ∧ Wrap.labelCount 0 = 0 := by
  obtain ⟨h, T, hr, ho, hw, hw1⟩ : ∃ (h : Trace) (T : Tracker), Reach exCfg 4096 h T ∧ owner h 3 = some 0 ∧
      T.labels.words.length + 1 ≤ exCfg.labelCap ∧ T.labels.words.length = 1 :=
    ⟨_, _, run_reach (cs := [.openFile 3 [97] none]) rfl, by decide +kernel⟩
  have ha : T.Allowed (.read 3 (some 64) (some 0) 1) := by intro j _; show 0 + 1 ≤ 2 ^ 54; decide
  obtain ⟨T', first, h1, h2, h3, h4⟩ := sourceTaint_exact exCfg_ok hr ho (some 64) (some 0) (len := 1)
    (show 0 + 1 ≤ 2 ^ 54 by decide) (by decide) hw
  have he : T.exec (.read 3 (some 64) (some 0) 1) = .ok (T', .range (some (first, first + 1 - 1))) := by
    simp only [exec, h1, Res.bind_ok, Res.pure_eq]
  have hf : first = 1 := by
    rcases hr.read exCfg_ok ha he with ⟨h5, -⟩ | ⟨j, h5, h6, h7, -⟩
    · rw [ho] at h5; cases h5
    · simp only [Ret.range.injEq, Option.some.injEq, Prod.mk.injEq] at h7
      omega
  subst hf
  refine ⟨_, T', hr.snoc ha he, by rw [h4]; rfl, fun b => h3 0 b (by decide), rfl, rfl⟩

end Verif
