import Verif.PyDiffFacts
/-!
C78: what a difference of two traces reports (diffing.py, visualizations.py).
-/
namespace Verif.Py
open Verif.Spec

/-- The text around some bytes of a file: a line with the offset, a line with consecutive bytes of the file
that begins at most half of the context before the offset and has all bytes to be highlighted that the file has,
and, unless there are none, a line of marks with a caret exactly below the characters of these bytes. -/
theorem C78_context (content : List Nat) (offset length ctx maxHl : Nat) (indent : List Char) :
    ∃ (first : Nat) (bytes : List Nat) (note marks : List Char),
      printFileContext content offset length ctx maxHl indent =
        indent ++ '@' :: (toString offset).toList ++ '\n' :: indent ++ bytes.flatMap shownByte ++ note ++ ['\n'] ++
          (if marks = [] then [] else indent ++ marks ++ ['\n']) ∧
      bytes <+: content.drop first ∧ first ≤ offset ∧ offset ≤ first + ctx / 2 ∧
      min content.length (offset + min length maxHl) ≤ first + bytes.length ∧
      bytes.length ≤ min length maxHl + ctx ∧
      Marks marks (columns (fun b => (shownByte b).length) first bytes) offset (offset + min length maxHl) ∧
      (note = [] ↔ length ≤ maxHl) ∧
      (maxHl < length → ∃ pre post, note = pre ++ (toString (length - maxHl)).toList ++ post) := by
  have key : ∀ (extra len ctxBytes before start : Nat) (data : List Nat),
      before = (if offset < ctx / 2 then offset else ctx / 2) → start = offset - before → len = min length maxHl →
      ctx / 2 ≤ ctxBytes → ctxBytes ≤ ctx → data = (content.drop start).take (len + ctxBytes) →
      ∃ marks : List Char,
        (if 0 < (if (ctxLoop before len 0 data ⟨-1, -1, 0, []⟩).len < 0 ∧ 0 ≤ (ctxLoop before len 0 data ⟨-1, -1, 0, []⟩).start then
              ((ctxLoop before len 0 data ⟨-1, -1, 0, []⟩).written : Int) - (ctxLoop before len 0 data ⟨-1, -1, 0, []⟩).start
            else (ctxLoop before len 0 data ⟨-1, -1, 0, []⟩).len) then
          indent ++ List.replicate (ctxLoop before len 0 data ⟨-1, -1, 0, []⟩).start.toNat ' ' ++
            List.replicate (if (ctxLoop before len 0 data ⟨-1, -1, 0, []⟩).len < 0 ∧ 0 ≤ (ctxLoop before len 0 data ⟨-1, -1, 0, []⟩).start then
              ((ctxLoop before len 0 data ⟨-1, -1, 0, []⟩).written : Int) - (ctxLoop before len 0 data ⟨-1, -1, 0, []⟩).start
            else (ctxLoop before len 0 data ⟨-1, -1, 0, []⟩).len).toNat '^' ++ ['\n']
         else []) = (if marks = [] then [] else indent ++ marks ++ ['\n']) ∧
        Marks marks (columns (fun b => (shownByte b).length) start data) offset (offset + len) := by
    intro extra len ctxBytes before start data hbef hstart hlen _ _ hdata
    have hbo : before ≤ offset := by subst hbef; split_ifs <;> omega
    have hso : start + before = offset := by omega
    rw [ctxLoop_eq]
    simp only [Nat.zero_le, true_and, Nat.zero_add, Nat.sub_zero, if_true]
    by_cases hb : before < data.length
    · -- the three parts
      have hsplit : data = data.take before ++ (data.drop before).take len ++ data.drop (before + len) := by
        rw [List.append_assoc, ← List.drop_drop, List.take_append_drop, List.take_append_drop]
      have htake : data.take (before + len) = data.take before ++ (data.drop before).take len := by
        rw [List.take_add]
      have hla : (data.take before).length = before := by rw [List.length_take]; omega
      have hcols : columns (fun b => (shownByte b).length) start data =
          columns (fun b => (shownByte b).length) start (data.take before) ++
          columns (fun b => (shownByte b).length) offset ((data.drop before).take len) ++
          columns (fun b => (shownByte b).length) (offset + ((data.drop before).take len).length)
            (data.drop (before + len)) := by
        have h := congrArg (columns (fun b => (shownByte b).length) start) hsplit
        rw [columns_append, columns_append, hla, hso, List.length_append, hla, ← Nat.add_assoc, hso] at h
        exact h
      have hlb : ((data.drop before).take len).length = min len (data.length - before) := by
        rw [List.length_take, List.length_drop]
      have hM := marks_parts (columns (fun b => (shownByte b).length) start (data.take before))
        (columns (fun b => (shownByte b).length) offset ((data.drop before).take len))
        (columns (fun b => (shownByte b).length) (offset + ((data.drop before).take len).length) (data.drop (before + len)))
        offset (offset + len)
        (fun k hk => by have := columns_mem _ _ _ _ hk; omega)
        (fun k hk => by have := columns_mem _ _ _ _ hk; omega)
        (fun k hk => by
          have := columns_mem _ _ _ _ hk
          rw [List.length_drop] at this
          omega)
      rw [← hcols, columns_length, columns_length] at hM
      rw [if_pos hb]
      -- the length of the marks
      have hW : shownWidth (data.take (before + len)) =
          shownWidth (data.take before) + shownWidth ((data.drop before).take len) := by
        rw [htake, shownWidth_append]
      have hhl : (if (if before + len < data.length then
            ((shownWidth (data.take (before + len)) : Nat) : Int) - ((shownWidth (data.take before) : Nat) : Int) else -1) < 0 ∧
            (0 : Int) ≤ ((shownWidth (data.take before) : Nat) : Int) then
            ((shownWidth data : Nat) : Int) - ((shownWidth (data.take before) : Nat) : Int)
          else (if before + len < data.length then
            ((shownWidth (data.take (before + len)) : Nat) : Int) - ((shownWidth (data.take before) : Nat) : Int) else -1)) =
          ((shownWidth ((data.drop before).take len) : Nat) : Int) := by
        by_cases hc : before + len < data.length
        · rw [if_pos hc, if_neg (by omega), hW]
          omega
        · rw [if_neg hc, if_pos ⟨by omega, by omega⟩]
          have : data.take (before + len) = data := List.take_of_length_le (by omega)
          rw [this] at hW
          omega
      rw [hhl]
      by_cases hz : (data.drop before).take len = []
      · refine ⟨[], ?_, ?_⟩
        · rw [hz]
          simp [shownWidth]
        · refine ⟨by simp, fun j => ?_⟩
          rw [hz] at hM
          have := hM.below j
          rw [← this]
          simp [shownWidth]
          intro h
          exact absurd (List.mem_replicate.1 (List.mem_of_getElem? h)).2 (by decide)
      · have hpos := shownWidth_pos hz
        refine ⟨List.replicate (shownWidth (data.take before)) ' ' ++
          List.replicate (shownWidth ((data.drop before).take len)) '^', ?_, hM⟩
        rw [if_pos (by omega), if_neg (by
          intro h
          have := congrArg List.length h
          simp at this
          omega)]
        simp [List.append_assoc]
    · refine ⟨[], ?_, by simp, fun j => ?_⟩
      · rw [if_neg hb, if_neg (by omega : ¬ before + len < data.length)]
        simp
      · constructor
        · intro h; simp at h
        · rintro ⟨k, hk, h1, -⟩
          have := columns_mem _ _ _ _ (List.mem_of_getElem? hk)
          omega
  have hnote : ∀ e, moreNote e = [] ↔ e = 0 := by
    intro e
    unfold moreNote
    by_cases h : e = 0
    · simp [h]
    · rw [if_neg h]
      refine ⟨fun he => ?_, fun he => absurd he h⟩
      have := congrArg List.length he
      simp [String.toList_append] at this
  have hextra : (if length > maxHl then length - maxHl else 0) = length - maxHl := by split_ifs <;> omega
  have hlen : (if length > maxHl then maxHl else length) = min length maxHl := by split_ifs <;> omega
  have hctx : ctx / 2 ≤ (if length - maxHl > 0 then ctx / 2 else ctx) := by split_ifs <;> omega
  have hctx2 : (if length - maxHl > 0 then ctx / 2 else ctx) ≤ ctx := by split_ifs <;> omega
  obtain ⟨marks, e, hM⟩ := key (length - maxHl) (min length maxHl) (if length - maxHl > 0 then ctx / 2 else ctx)
    (if offset < ctx / 2 then offset else ctx / 2) _ _ rfl rfl rfl hctx hctx2 rfl
  refine ⟨offset - (if offset < ctx / 2 then offset else ctx / 2), _, moreNote (length - maxHl), marks, ?_,
    List.take_prefix _ _, Nat.sub_le _ _, ?_, ?_, ?_, hM, ?_, ?_⟩
  · unfold printFileContext
    simp only [hextra, hlen]
    rw [e]
    rw [ctxLoop_eq]
    simp
  · split_ifs <;> omega
  · rw [List.length_take, List.length_drop]
    split_ifs at hctx hctx2 ⊢ <;> omega
  · rw [List.length_take]
    omega
  · rw [hnote]
    omega
  · intro h
    unfold moreNote
    rw [if_neg (by omega)]
    simp only [String.toList_append]
    exact ⟨" [ … plus ".toList, _, by simp only [List.append_assoc]; rfl⟩

/-- The text tells the bytes: reading its escapes gives them back, and every character is a printable one, so
the text stays on its line. -/
theorem C78_text (l : List Nat) (hl : ∀ b ∈ l, b < 256) :
    unescape (l.flatMap shownByte) = some l ∧ ∀ c ∈ l.flatMap shownByte, ' ' ≤ c ∧ c ≤ '~' := by
  refine ⟨unescape_shown l hl, fun c hc => ?_⟩
  obtain ⟨b, hb, hc⟩ := List.mem_flatMap.1 hc
  have := List.all_eq_true.1 (shown_printable ⟨b, hl b hb⟩) c hc
  rw [Bool.and_eq_true] at this
  exact ⟨of_decide_eq_true this.1, of_decide_eq_true this.2⟩

/-- Three bytes in the middle of a file: the carets are below them, a line break being two columns wide. -/
example : printFileContext [65, 66, 10, 67, 68] 1 2 4 32 [] = "@1\nAB\\nCD\n ^^^\n".toList := by decide +kernel

example : unescape "AB\\nCD\\x00".toList = some [65, 66, 10, 67, 68, 0] := by decide +kernel

/-- The number of additional bytes in the note is not that of the bytes left out: near the beginning of a file
all of them are shown. The claim that the line shows at most the highlighted bytes and the context before them
when the note is there is false. -/
theorem C78_additional_refuted : ∃ (content : List Nat) (offset length ctx maxHl : Nat),
    maxHl < length ∧ offset + length ≤ content.length ∧
    printFileContext content offset length ctx maxHl [] =
      ("@0\nABC [ … plus 1 additional byte … ]\n^^\n").toList ∧ length = 3 ∧ content = [65, 66, 67] :=
  ⟨[65, 66, 67], 0, 3, 2, 2, by decide, by decide, by decide +kernel, rfl, rfl⟩

/-- The reported chunks of the first trace: not empty, without common bytes, every byte was touched in the
first trace and not in the second; a byte touched in the first is reported if no byte that hangs together with it
in the first was touched in the second. If the library merges intervals that only meet, these are exactly the
reported bytes. Missing for the full claim: bytes touched only in the first that hang together with bytes of
the second (`C78_missed_refuted`). -/
theorem C78_chunks_partial (strict : Bool) (fs1 fs2 : List TFunc) :
    (∀ r ∈ chunksOnlyInFirst strict fs1 fs2, 0 < r.length ∧ ∀ x, r.offset ≤ x → x < r.offset + r.length →
      Touched fs1 r.source x ∧ ¬ Touched fs2 r.source x) ∧
    ((chunksOnlyInFirst strict fs1 fs2).Pairwise fun a b =>
      a.source = b.source → a.offset + a.length ≤ b.offset ∨ b.offset + b.length ≤ a.offset) ∧
    (∀ s x, Touched fs1 s x → (∀ y, Joined (Touched fs1 s) x y → ¬ Touched fs2 s y) →
      ∃ r ∈ chunksOnlyInFirst strict fs1 fs2, r.source = s ∧ r.offset ≤ x ∧ x < r.offset + r.length) ∧
    (strict = false → ∀ r ∈ chunksOnlyInFirst strict fs1 fs2, ∀ x, r.offset ≤ x → x < r.offset + r.length →
      ∀ y, Joined (Touched fs1 r.source) x y → ¬ Touched fs2 r.source y) := by
  refine ⟨?_, chunks_disjoint strict fs1 fs2, ?_, ?_⟩
  · intro r hr
    obtain ⟨h0, h1, h2⟩ := (mem_chunks strict fs1 fs2 r).1 hr
    exact ⟨h0, fun x hx1 hx2 => ⟨((traceIvals_spec strict fs1 r.source).2.2 x).1 ⟨_, h1, hx1, hx2⟩, h2 x hx1 hx2⟩⟩
  · intro s x ht hy
    obtain ⟨hn, -, hc⟩ := traceIvals_spec strict fs1 s
    obtain ⟨j, hj, hx1, hx2⟩ := (hc x).2 ht
    have e : j.1 + (j.2 - j.1) = j.2 := by omega
    refine ⟨⟨s, j.1, j.2 - j.1⟩, (mem_chunks strict fs1 fs2 _).2 ⟨by show 0 < j.2 - j.1; omega, ?_, ?_⟩, rfl, hx1, ?_⟩
    · show (j.1, j.1 + (j.2 - j.1)) ∈ _
      rw [e]
      exact hj
    · intro y hy1 hy2
      have hy2' : y < j.2 := by
        have : y < j.1 + (j.2 - j.1) := hy2
        omega
      have hy1' : j.1 ≤ y := hy1
      exact hy y fun z hz1 hz2 => (hc z).1 ⟨j, hj, by omega, by omega⟩
    · show x < j.1 + (j.2 - j.1)
      omega
  · rintro rfl r hr x hx1 hx2 y hJ hy
    obtain ⟨h0, h1, h2⟩ := (mem_chunks false fs1 fs2 r).1 hr
    obtain ⟨hn, hp, hc⟩ := traceIvals_spec false fs1 r.source
    have hstay : ∀ z, Touched fs1 r.source z → (z = r.offset + r.length ∨ z + 1 = r.offset) → False := by
      intro z hz hzz
      obtain ⟨k, hk, hk1, hk2⟩ := (hc z).2 hz
      have hne : k ≠ (r.offset, r.offset + r.length) := by
        rintro rfl
        simp only at hk1 hk2
        omega
      have hsep : (k.2 < r.offset ∨ r.offset + r.length < k.1) := by
        obtain ⟨a, ha, rfl⟩ := List.getElem_of_mem hk
        obtain ⟨b, hb, eb⟩ := List.getElem_of_mem h1
        rw [List.pairwise_iff_getElem] at hp
        rcases Nat.lt_trichotomy a b with hab | hab | hab
        · have := hp a b ha hb hab
          rw [eb] at this
          exact .inl this
        · subst hab
          exact absurd eb hne
        · have := hp b a hb ha hab
          rw [eb] at this
          exact .inr this
      omega
    rcases Nat.lt_or_ge y r.offset with h | h
    · exact hstay (r.offset - 1) (hJ _ (by omega) (by omega)) (by omega)
    · rcases Nat.lt_or_ge y (r.offset + r.length) with h' | h'
      · exact h2 y h h' hy
      · exact hstay (r.offset + r.length) (hJ _ (by omega) (by omega)) (.inl rfl)

/-- The input of the examples. -/
def diffInput : InputRef := ⟨3, [97]⟩

/-- Two bytes of it, as one function touches them. -/
def twoBytes : TFunc := ⟨0, [102], [⟨diffInput, 0⟩, ⟨diffInput, 1⟩]⟩

/-- One of them. -/
def oneByte : TFunc := ⟨0, [102], [⟨diffInput, 0⟩]⟩

theorem twoBytes_regions : twoBytes.regions = [⟨diffInput, 0, 2⟩] := by
  have e : sortOffsets [⟨diffInput, 0⟩, ⟨diffInput, 1⟩] = [⟨diffInput, 0⟩, ⟨diffInput, 1⟩] :=
    List.mergeSort_of_pairwise (by decide)
  have g : groupBySource twoBytes.offsets [] = [(diffInput, [⟨diffInput, 0⟩, ⟨diffInput, 1⟩])] := by decide
  rw [TFunc.regions, Taints.mk, g, List.map_cons, e]
  decide

theorem oneByte_regions : oneByte.regions = [⟨diffInput, 0, 1⟩] := by
  have e : sortOffsets [⟨diffInput, 0⟩] = [⟨diffInput, 0⟩] := List.mergeSort_of_pairwise (by decide)
  have g : groupBySource oneByte.offsets [] = [(diffInput, [⟨diffInput, 0⟩])] := by decide
  rw [TFunc.regions, Taints.mk, g, List.map_cons, e]
  decide

/-- Bytes touched only in the first trace are missed if they hang together with a byte of the second, and the
report then says that both traces consumed the same bytes. -/
theorem C78_missed_refuted : ∃ (fs1 fs2 : List TFunc) (s : InputRef) (x : Nat), Touched fs1 s x ∧ ¬ Touched fs2 s x ∧
    ∀ strict, chunksOnlyInFirst strict fs1 fs2 = [] ∧ saysSameBytes strict fs1 fs2 = true := by
  refine ⟨[twoBytes], [oneByte], diffInput, 1,
    ⟨_, List.mem_cons_self, by decide⟩, ?_, ?_⟩
  · rintro ⟨f, hf, h⟩
    rcases List.mem_cons.1 hf with rfl | hf
    · exact absurd h (by decide)
    · cases hf
  · have c1 : ∀ strict, traceIvals strict [twoBytes] diffInput = [(0, 2)] := by
      intro strict
      have : addedIvals [twoBytes] diffInput = [(0, 2)] := by simp [addedIvals, twoBytes_regions, addNew]
      rw [traceIvals, mergeOverlaps, this, List.mergeSort_singleton]
      rfl
    have c2 : ∀ strict, traceIvals strict [oneByte] diffInput = [(0, 1)] := by
      intro strict
      have : addedIvals [oneByte] diffInput = [(0, 1)] := by simp [addedIvals, oneByte_regions, addNew]
      rw [traceIvals, mergeOverlaps, this, List.mergeSort_singleton]
      rfl
    have s1 : sourcesOf [twoBytes] = [diffInput] := by simp [sourcesOf, twoBytes_regions, addNew]
    have s2 : sourcesOf [oneByte] = [diffInput] := by simp [sourcesOf, oneByte_regions, addNew]
    have b1 : ∀ strict, chunksOnlyInFirst strict [twoBytes] [oneByte] = [] := by
      intro strict
      simp [chunksOnlyInFirst, s1, bytesOnlyInFirst, c1, c2, hasSource, twoBytes_regions, oneByte_regions, removeOverlap]
    have b2 : ∀ strict, chunksOnlyInFirst strict [oneByte] [twoBytes] = [] := by
      intro strict
      simp [chunksOnlyInFirst, s2, bytesOnlyInFirst, c1, c2, hasSource, twoBytes_regions, oneByte_regions, removeOverlap]
    intro strict
    exact ⟨b1 strict, by rw [saysSameBytes, b1, b2]; rfl⟩

/-- The second trace touched one byte less, which is reported if it is not next to the others. -/
example : chunksOnlyInFirst true [twoBytes, ⟨1, [103], [⟨⟨4, [98]⟩, 9⟩]⟩] [twoBytes] ≠ [] := by
  intro h
  obtain ⟨r, hr, -⟩ := (C78_chunks_partial true [twoBytes, ⟨1, [103], [⟨⟨4, [98]⟩, 9⟩]⟩] [twoBytes]).2.2.1 ⟨4, [98]⟩ 9
    ⟨_, List.mem_cons_of_mem _ List.mem_cons_self, by decide⟩ (by
      rintro y - ⟨f, hf, hy⟩
      rcases List.mem_cons.1 hf with rfl | hf
      · rcases List.mem_cons.1 hy with e | hy
        · exact absurd (congrArg (fun o => o.source.uid) e) (by show ¬ (4 : Int) = 3; decide)
        · rcases List.mem_cons.1 hy with e | hy
          · exact absurd (congrArg (fun o => o.source.uid) e) (by show ¬ (4 : Int) = 3; decide)
          · cases hy
      · cases hf)
  rw [h] at hr
  cases hr

/-- If the report says that both traces consumed the same bytes and no reported part is missed, it is so: every
byte touched in only one trace hangs together with a byte that both touched. -/
theorem C78_same (strict : Bool) (fs1 fs2 : List TFunc) (h : saysSameBytes strict fs1 fs2 = true) (s : InputRef)
    (x : Nat) : (Touched fs1 s x → ∃ y, Joined (Touched fs1 s) x y ∧ Touched fs1 s y ∧ Touched fs2 s y) ∧
      (Touched fs2 s x → ∃ y, Joined (Touched fs2 s) x y ∧ Touched fs1 s y ∧ Touched fs2 s y) := by
  rw [saysSameBytes, Bool.and_eq_true, List.isEmpty_iff, List.isEmpty_iff] at h
  constructor
  · intro ht
    refine Classical.byContradiction fun hn => ?_
    obtain ⟨r, hr, -⟩ := (C78_chunks_partial strict fs1 fs2).2.2.1 s x ht
      (fun y hy h2 => hn ⟨y, hy, hy y (Nat.min_le_right _ _) (Nat.le_max_right _ _), h2⟩)
    rw [h.1] at hr
    cases hr
  · intro ht
    refine Classical.byContradiction fun hn => ?_
    obtain ⟨r, hr, -⟩ := (C78_chunks_partial strict fs2 fs1).2.2.1 s x ht
      (fun y hy h2 => hn ⟨y, hy, h2, hy y (Nat.min_le_right _ _) (Nat.le_max_right _ _)⟩)
    rw [h.2] at hr
    cases hr

/-- Functions: for traces of one program, in which names and indices belong together, a function is only in the
first trace if it is not in the second, names in both traces are those that both have, and the difference is
false exactly if both traces have the same functions. -/
theorem C78_functions_partial (fs1 fs2 : List TFunc)
    (hone : ∀ f ∈ fs1 ++ fs2, ∀ g ∈ fs1 ++ fs2, f.index = g.index ↔ f.name = g.name) :
    (∀ f, f ∈ functionsOnlyInFirst fs1 fs2 ↔ f ∈ fs1 ∧ ∀ g ∈ fs2, g.name ≠ f.name) ∧
    ((namesInBoth fs1 fs2).Nodup ∧ ∀ n, n ∈ namesInBoth fs1 fs2 ↔ (∃ f ∈ fs1, f.name = n) ∧ ∃ g ∈ fs2, g.name = n) ∧
    (tracesDiffer fs1 fs2 = false ↔ ∀ n, (∃ f ∈ fs1, f.name = n) ↔ ∃ g ∈ fs2, g.name = n) := by
  have hmem : ∀ a b : List TFunc, (∀ f ∈ a, ∀ g ∈ b, g.index = f.index ↔ g.name = f.name) → ∀ f,
      f ∈ functionsOnlyInFirst a b ↔ f ∈ a ∧ ∀ g ∈ b, g.name ≠ f.name := by
    intro a b hab f
    rw [functionsOnlyInFirst, List.mem_filter]
    refine and_congr_right fun hf => ?_
    simp only [Bool.not_eq_true', List.any_eq_false, decide_eq_true_eq]
    exact ⟨fun h g hg e => h g hg ((hab f hf g hg).2 e), fun h g hg e => h g hg ((hab f hf g hg).1 e)⟩
  have h12 := hmem fs1 fs2 fun f hf g hg => hone g (List.mem_append_right _ hg) f (List.mem_append_left _ hf)
  have h21 := hmem fs2 fs1 fun f hf g hg => hone g (List.mem_append_left _ hg) f (List.mem_append_right _ hf)
  refine ⟨h12, ⟨foldl_addNew_nodup _ _ List.nodup_nil, fun n => ?_⟩, ?_⟩
  · rw [namesInBoth, mem_foldl_addNew]
    simp only [List.not_mem_nil, false_or, List.mem_filter, List.mem_map, Bool.not_eq_true', List.any_eq_false,
      decide_eq_true_eq, List.mem_append]
    constructor
    · rintro ⟨⟨f, hf, rfl⟩, h⟩
      refine ⟨⟨f, hf, rfl⟩, Classical.byContradiction fun hn => ?_⟩
      exact h f (.inl ((h12 f).2 ⟨hf, fun g hg e => hn ⟨g, hg, e⟩⟩)) rfl
    · rintro ⟨⟨f, hf, hfn⟩, g, hg, hgn⟩
      refine ⟨⟨f, hf, hfn⟩, ?_⟩
      rintro k (hk | hk) e
      · exact ((h12 k).1 hk).2 g hg (hgn.trans e.symm)
      · exact ((h21 k).1 hk).2 f hf (hfn.trans e.symm)
  · rw [tracesDiffer, Bool.or_eq_false_iff]
    simp only [Bool.not_eq_false', List.isEmpty_iff]
    constructor
    · rintro ⟨e1, e2⟩ n
      constructor
      · rintro ⟨f, hf, rfl⟩
        refine Classical.byContradiction fun hn => ?_
        have := (h12 f).2 ⟨hf, fun g hg e => hn ⟨g, hg, e⟩⟩
        rw [e1] at this
        cases this
      · rintro ⟨f, hf, rfl⟩
        refine Classical.byContradiction fun hn => ?_
        have := (h21 f).2 ⟨hf, fun g hg e => hn ⟨g, hg, e⟩⟩
        rw [e2] at this
        cases this
    · intro h
      constructor
      · refine List.eq_nil_iff_forall_not_mem.2 fun f hf => ?_
        obtain ⟨hf, hn⟩ := (h12 f).1 hf
        obtain ⟨g, hg, e⟩ := (h f.name).1 ⟨f, hf, rfl⟩
        exact hn g hg e
      · refine List.eq_nil_iff_forall_not_mem.2 fun f hf => ?_
        obtain ⟨hf, hn⟩ := (h21 f).1 hf
        obtain ⟨g, hg, e⟩ := (h f.name).2 ⟨f, hf, rfl⟩
        exact hn g hg e

/-- Functions are compared by index, names by name: for two builds of a program a name can count as being in
both traces although the second does not have it, and looking it up there is an error. -/
theorem C78_index_refuted : ∃ (fs1 fs2 : List TFunc) (n : List Nat), n ∈ namesInBoth fs1 fs2 ∧
    (∀ g ∈ fs2, g.name ≠ n) ∧ tracesDiffer fs1 fs2 = false :=
  ⟨[⟨0, [97], []⟩], [⟨0, [98], []⟩], [97], by decide +kernel, by decide, by decide +kernel⟩

/-- A difference counts as false, and the report ends with "Traces do not differ", although other bytes were touched. -/
theorem C78_bool_refuted : ∃ (fs1 fs2 : List TFunc) (s : InputRef) (x : Nat), Touched fs1 s x ∧ ¬ Touched fs2 s x ∧
    tracesDiffer fs1 fs2 = false := by
  refine ⟨[⟨0, [102], [⟨diffInput, 7⟩]⟩], [⟨0, [102], []⟩], diffInput, 7, ⟨_, List.mem_cons_self, by decide⟩, ?_, by decide +kernel⟩
  rintro ⟨f, hf, h⟩
  rcases List.mem_cons.1 hf with rfl | hf
  · exact absurd h (by decide)
  · cases hf

/-- The picture of a difference, whatever size the floating point numbers suggest: it is drawn without an error,
and byte `i` has its own pixel, blue if only the first trace has the byte, red if only the second has it, black if
none and white if both have it. The other pixels are white. -/
theorem C78_picture (n h0 w0 : Nat) (inFirst inSecond : Nat → Bool) :
    ∃ im, fileDiff n h0 w0 inFirst inSecond = some im ∧ 0 < im.width ∧ n ≤ im.width * im.height ∧
      im.width = max w0 1 ∧ max h0 1 ≤ im.height ∧
      (∀ i, i < n → i % im.width < im.width ∧ i / im.width < im.height ∧
        im.pixel (i % im.width) (i / im.width) = (if inFirst i = true ∧ inSecond i = true then Colour.white
          else if inFirst i = true then .blue else if inSecond i = true then .red else .black)) ∧
      (∀ i j, i < n → j < n → (i % im.width, i / im.width) = (j % im.width, j / im.width) → i = j) ∧
      ∀ x y, (∀ i, i < n → ¬ (x = i % im.width ∧ y = i / im.width)) → im.pixel x y = .white := by
  have hw : 0 < max w0 1 := by omega
  obtain ⟨hg, hh⟩ := growHeight_enough n (max w0 1) (max h0 1) hw
  refine ⟨_, fold_drawn _ _ hw inFirst inSecond n hg, hw, hg, rfl, hh, ?_, ?_, ?_⟩
  · intro i hi
    have hx : i % max w0 1 < max w0 1 := Nat.mod_lt _ hw
    have hdm : i / max w0 1 * max w0 1 + i % max w0 1 = i := by rw [Nat.mul_comm]; exact Nat.div_add_mod _ _
    refine ⟨hx, Nat.div_lt_of_lt_mul (Nat.lt_of_lt_of_le hi hg), ?_⟩
    show (if i % max w0 1 < max w0 1 ∧ i / max w0 1 * max w0 1 + i % max w0 1 < n then
      shade (inFirst (i / max w0 1 * max w0 1 + i % max w0 1)) (inSecond (i / max w0 1 * max w0 1 + i % max w0 1)) else _) = _
    rw [hdm, if_pos (c := i % max w0 1 < max w0 1 ∧ i < n) ⟨hx, hi⟩]
    cases inFirst i <;> cases inSecond i <;> rfl
  · intro i j _ _ e
    obtain ⟨e1, e2⟩ := Prod.mk.inj e
    rw [← Nat.div_add_mod i (max w0 1), ← Nat.div_add_mod j (max w0 1)]
    show max w0 1 * (i / max w0 1) + i % max w0 1 = _
    have e1' : i % max w0 1 = j % max w0 1 := e1
    have e2' : i / max w0 1 = j / max w0 1 := e2
    rw [e1', e2']
  · intro x y h
    show (if x < max w0 1 ∧ y * max w0 1 + x < n then _ else Colour.white) = _
    refine if_neg fun hc => h (y * max w0 1 + x) hc.2 ⟨?_, ?_⟩
    · show x = (y * max w0 1 + x) % max w0 1
      rw [Nat.add_comm, Nat.add_mul_mod_self_right, Nat.mod_eq_of_lt hc.1]
    · show y = (y * max w0 1 + x) / max w0 1
      rw [Nat.add_comm, Nat.add_mul_div_right _ _ hw, Nat.div_eq_of_lt hc.1, Nat.zero_add]

/-- A picture of two traces shows the touched bytes of one input. -/
theorem C78_image_partial (strict : Bool) (fs1 fs2 : List TFunc) (s : InputRef) (rest : List InputRef)
    (size : InputRef → Nat) (dims : Nat → Nat × Nat) :
    ∃ im, toImage strict fs1 fs2 (s :: rest) size dims = some (some im) ∧ ∀ i, i < size s →
      (im.pixel (i % im.width) (i / im.width) = .blue ↔ Touched fs1 s i ∧ ¬ Touched fs2 s i) ∧
      (im.pixel (i % im.width) (i / im.width) = .red ↔ Touched fs2 s i ∧ ¬ Touched fs1 s i) ∧
      (im.pixel (i % im.width) (i / im.width) = .white ↔ Touched fs1 s i ∧ Touched fs2 s i) := by
  have hin : ∀ (fs : List TFunc) (o : Nat), (hasSource fs s &&
      (traceIvals strict fs s).any fun iv => decide (iv.1 ≤ o) && decide (o < iv.2)) = true ↔ Touched fs s o := by
    intro fs o
    rw [Bool.and_eq_true, hasSource_iff, List.any_eq_true, ← (traceIvals_spec strict fs s).2.2 o]
    simp only [Bool.and_eq_true, decide_eq_true_eq]
    refine ⟨fun h => h.2, fun h => ⟨⟨o, ((traceIvals_spec strict fs s).2.2 o).1 h⟩, h⟩⟩
  obtain ⟨im, e, -, -, -, -, h, -⟩ := C78_picture (size s) (dims (size s)).1 (dims (size s)).2
    (fun o => hasSource fs1 s && (traceIvals strict fs1 s).any fun iv => decide (iv.1 ≤ o) && decide (o < iv.2))
    (fun o => hasSource fs2 s && (traceIvals strict fs2 s).any fun iv => decide (iv.1 ≤ o) && decide (o < iv.2))
  refine ⟨im, by rw [toImage, e]; rfl, fun i hi => ?_⟩
  rw [(h i hi).2.2]
  rw [← hin fs1 i, ← hin fs2 i]
  generalize (hasSource fs1 s && (traceIvals strict fs1 s).any fun iv => decide (iv.1 ≤ i) && decide (i < iv.2)) = b1
  generalize (hasSource fs2 s && (traceIvals strict fs2 s).any fun iv => decide (iv.1 ≤ i) && decide (i < iv.2)) = b2
  revert b1 b2
  decide

/-- Of several inputs only one is in the picture: two traces that differ in bytes of the other input have the
picture of two traces that do not. -/
theorem C78_inputs_refuted : ∃ (fs1 fs2 : List TFunc) (s s' : InputRef) (x : Nat), Touched fs1 s' x ∧ ¬ Touched fs2 s' x ∧
    ∀ strict size dims, toImage strict fs1 fs2 [s, s'] size dims = toImage strict [] [] [s, s'] size dims := by
  refine ⟨[⟨0, [102], [⟨⟨4, [98]⟩, 7⟩]⟩], [], diffInput, ⟨4, [98]⟩, 7, ⟨_, List.mem_cons_self, by decide⟩, ?_, ?_⟩
  · rintro ⟨f, hf, -⟩
    cases hf
  · intro strict size dims
    have h : hasSource [⟨0, [102], [⟨⟨4, [98]⟩, 7⟩]⟩] diffInput = false := by decide +kernel
    have h' : hasSource [] diffInput = false := rfl
    simp only [toImage, h, h', Bool.false_and]

end Verif.Py
