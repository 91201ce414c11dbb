import Verif.ReadBack
import Verif.Examples.Run
/-
C17: a finished trace file describes itself exactly; an unfinished one is recognisable.

`File.closed` is the file after an orderly end, `File.running` before the destructor, `File.closing`
while the destructor stores the sizes. The reader is `Py.parse`.
-/
namespace Verif
open Spec Py File Tracker

/-! ### Finished files -/

/-- The header of a finished file: the identification, and for each of the eight sections its tag, its
alignment, its offset in the file and its used size; the bytes it points at are the used bytes of the
section, and different sections do not share bytes. -/
theorem C17_closed (c : Config) (base : Nat) (hc : c.Ok base) (h : Trace) (T : Tracker)
    (hr : Reach c base h T) (hroom : T.labels.words.length + 64 ≤ c.indexCap) (pads : Pads) :
    (closed pads c base T).take 8 = [84, 68, 65, 71, 44, 0, 8, 0] ∧
    ∀ (i : Nat) (s : SecSpec), c.specs[i]? = some s → ∃ b,
      (Layout.begins base c.specs)[i]? = some b ∧ base ≤ b ∧
      ((closed pads c base T).drop (8 + 24 * i)).take 24 =
        le 4 s.tag ++ le 4 s.align ++ le 8 (b - base) ++ le 8 (used pads T i).length ∧
      (used pads T i).length ≤ s.alloc ∧
      slice (closed pads c base T) (b - base) (b - base + (used pads T i).length) = used pads T i := by
  have hs := hr.sim hc
  have hf := hs.fits hc
  have hidx : T.index.used ≤ T.index.buckets.length := by
    have h1 := hs.lab.used
    have h2 := hf.idx
    have h3 : Bitmap.bucketCount 64 c.indexCap = (c.indexCap + 64 - 1) / 64 := rfl
    have h4 := (hs.lab.reach.good hc.lab0 hc.lab).wf.nonempty
    omega
  have hm : ∃ rest, closed pads c base T =
      header c.specs ((offsets c base).zip ((contents pads T).map (·.2))) ++ rest := by
    simp only [closed, image, List.append_assoc]
    exact ⟨_, rfl⟩
  obtain ⟨rest, hm⟩ := hm
  constructor
  · rw [hm, header]
    simp only [show magic c.specs = 44 by simp [magic, Config.specs], show c.specs.length = 8 from rfl]
    simp [le]
  · intro i s hi
    have hlt : i < 8 := (List.getElem?_eq_some_iff.1 hi).1
    have hbl : (Layout.begins base c.specs).length = 8 := by rw [C16_all]; rfl
    obtain ⟨b, hb⟩ : ∃ b, (Layout.begins base c.specs)[i]? = some b :=
      ⟨_, List.getElem?_eq_getElem (by omega)⟩
    have ho : (offsets c base)[i]? = some (b - base) := by
      rw [offsets, List.getElem?_map, hb]; rfl
    have hcl : ((contents pads T).map (·.2)).length = 8 := rfl
    obtain ⟨z, hz⟩ : ∃ z, ((contents pads T).map (·.2))[i]? = some z :=
      ⟨_, List.getElem?_eq_getElem (by omega)⟩
    have hoz : ((offsets c base).zip ((contents pads T).map (·.2)))[i]? = some (b - base, z) := by
      rw [List.getElem?_zip_eq_some]; exact ⟨ho, hz⟩
    obtain ⟨k1, s', k2, k3⟩ := closed_section (pads := pads) hf hidx hoz
    rw [hi] at k2; cases k2
    have hbb := C16_disjoint base c.specs (by simp [Config.specs]) i b s hb hi
    -- the slice has the stated length
    have hlen : (used pads T i).length = z := by
      rw [← k1, closed, image_section (bs := ((contents pads T).map (·.1))[i]'(by
        rw [List.length_map]; exact hlt)) (by rfl) (hf.all pads) hi
        (List.getElem?_eq_getElem _) ho k3, List.length_take]
      have : s.alloc ≤ (padTo s.alloc (((contents pads T).map (·.1))[i]'(by
          rw [List.length_map]; exact hlt))).length := by
        rw [padTo, List.length_append, List.length_replicate]; omega
      omega
    refine ⟨b, hb, by omega, ?_, by omega, by rw [hlen]; exact k1⟩
    rw [hlen, hm]
    obtain ⟨pre, post, h1, h2⟩ := flatMap_split
      (f := fun p : SecSpec × Nat × Nat => encMeta p.1 p.2.1 p.2.2)
      (l := c.specs.zip ((offsets c base).zip ((contents pads T).map (·.2))))
      (sz := 24) (fun a _ => encMeta_length _ _ _) (i := i) (a := (s, b - base, z))
      (by rw [List.getElem?_zip_eq_some]; exact ⟨hi, hoz⟩)
    have hh : header c.specs ((offsets c base).zip ((contents pads T).map (·.2))) ++ rest =
        ([84, 68, 65, 71] ++ le 2 (magic c.specs) ++ le 2 c.specs.length ++ pre) ++
          (encMeta s (b - base) z ++ (post ++ rest)) := by
      rw [header, h1]; simp
    rw [hh, List.drop_left' (by simp [h2]; omega), List.take_left' (encMeta_length _ _ _)]
    rfl

/-- The used bytes are those of the entries: 16 bytes per source and sink record, 8 per label, 4 per
function and event; the string table and the control-flow log are counted in bytes. -/
theorem C17_sizes (pads : Pads) (T : Tracker) (hstr : T.strings.pos ≤ T.strings.mem.length)
    (hlog : T.cflog.pos ≤ T.cflog.mem.length) (hidx : T.index.used ≤ T.index.buckets.length) :
    (List.range 8).map (fun i => (used pads T i).length) =
      [16 * T.sources.length, 8 * T.labels.words.length, T.strings.pos, 16 * T.sinks.length,
       8 * T.index.used, 4 * T.fns.length, 4 * T.events.length, T.cflog.pos] := by
  have hr : List.range 8 = [0, 1, 2, 3, 4, 5, 6, 7] := rfl
  simp only [hr, List.map_cons, List.map_nil, used]
  rw [flatMap_length (sz := 16) T.sources (fun e _ => encSource_length e),
    flatMap_length (sz := 8) T.labels.words (fun e _ => le_length _ _),
    flatMap_length (sz := 16) T.sinks.zipIdx (fun e _ => encSink_length _ _),
    flatMap_length (sz := 8) (T.index.buckets.take T.index.used) (fun e _ => le_length _ _),
    flatMap_length (sz := 4) T.fns (fun e _ => le_length _ _),
    flatMap_length (sz := 4) T.events.zipIdx (fun e _ => encEvent_length _ _)]
  simp only [List.length_take, List.length_zipIdx, Nat.min_eq_left hstr, Nat.min_eq_left hlog,
    Nat.min_eq_left hidx]

/-! ### Unfinished files -/

/-- A trace without any content. -/
structure Py.TDFile.Empty (F : TDFile) : Prop where
  sources : F.fdHeaders = []
  fns : F.fnHeaders = []
  nodes : ∀ l, F.readNode l = none
  count : ∀ n, F.labelCount = some n → n = 0
  sinks : ∀ s, F.sinks = some s → s = []
  events : ∀ s, F.events = some s → s = []
  index : ∀ s, F.inputLabels = some s → s = []
  cf : ∀ s, F.cfItems = some s → s = ([], false)

/-- All sections seen so far are empty. -/
def Nil (F : TDFile) : Prop :=
  ∀ s, F.source = some s ∨ F.label = some s ∨ F.string = some s ∨ F.sink = some s ∨ F.index = some s ∨
    F.fn = some s ∨ F.event = some s ∨ F.cflog = some s → s = []

theorem addSection_nil {m : List Nat} {F : TDFile} {hd : SecMeta} (hF : Nil F) (hz : hd.size = 0) :
    addSection m F hd = none ∨ ∃ F', addSection m F hd = some F' ∧ Nil F' := by
  have hs : slice m hd.offset (hd.offset + hd.size) = [] := by rw [hz]; exact slice_empty m _
  simp only [addSection, hs]
  split <;> first
    | exact Or.inl rfl
    | (refine Or.inr ⟨_, rfl, ?_⟩
       intro s h
       rcases h with h | h | h | h | h | h | h | h <;> simp only [Option.some.injEq] at h <;> first
        | exact h.symm
        | exact hF s (by simp only [h, true_or, or_true]))

theorem addSections_nil {m : List Nat} : ∀ (k off : Nat) {F : TDFile}, Nil F →
    (∀ i, i < k → ∀ hd, readSecMeta m (off + 24 * i) = some hd → hd.size = 0) →
    addSections m k off F = none ∨ ∃ F', addSections m k off F = some F' ∧ Nil F' := by
  intro k
  induction k with
  | zero => intro off F hF _; exact Or.inr ⟨F, rfl, hF⟩
  | succ k ih =>
    intro off F hF hz
    simp only [addSections]
    cases hr : readSecMeta m off with
    | none => exact Or.inl rfl
    | some hd =>
      simp only [Option.bind_eq_bind, Option.bind_some]
      rcases addSection_nil (m := m) hF (hz 0 (by omega) hd hr) with h | ⟨F', h, hF'⟩
      · rw [h]; exact Or.inl rfl
      · rw [h]
        refine ih (off + 24) hF' fun i hi hd' hr' => hz (i + 1) (by omega) hd' ?_
        rw [← hr']; congr 1; omega

theorem unle_zero {l : List Nat} (h : ∀ b ∈ l, b = 0) : unle l = 0 := by
  induction l with
  | nil => rfl
  | cons b l ih => rw [unle, h b (by simp), ih (fun x hx => h x (by simp [hx]))]

theorem nil_empty {F : TDFile} (hF : Nil F) {fd fn}
    (h1 : readFdHeaders F = some fd) (h2 : readFnHeaders F = some fn) :
    TDFile.Empty { F with fdHeaders := fd, fnHeaders := fn } := by
  have hfd : fd = [] := by
    simp only [readFdHeaders, Option.bind_eq_bind, Option.bind_eq_some_iff] at h1
    obtain ⟨s, hs, t, ht, hh, e1, e2⟩ := h1
    rw [hF s (by simp [hs])] at e1
    cases e1; cases e2; rfl
  have hfn : fn = [] := by
    simp only [readFnHeaders, Option.bind_eq_bind, Option.bind_eq_some_iff] at h2
    obtain ⟨s, hs, t, ht, hh, e1, e2⟩ := h2
    rw [hF s (by simp [hs])] at e1
    cases e1; cases e2; rfl
  subst hfd hfn
  refine ⟨rfl, rfl, ?_, ?_, ?_, ?_, ?_, ?_⟩
  · intro l
    simp only [TDFile.readNode]
    cases h : F.label with
    | none => rfl
    | some s => rw [hF s (by simp [h])]; simp [uint]
  · intro n hn
    simp only [TDFile.labelCount, Option.bind_eq_bind, Option.bind_eq_some_iff] at hn
    obtain ⟨s, hs, e⟩ := hn
    rw [hF s (by simp [hs])] at e; cases e; rfl
  · intro n hn
    simp only [TDFile.sinks, Option.bind_eq_bind, Option.bind_eq_some_iff] at hn
    obtain ⟨s, hs, e⟩ := hn
    rw [hF s (by simp [hs])] at e; cases e; rfl
  · intro n hn
    simp only [TDFile.events, Option.bind_eq_bind, Option.bind_eq_some_iff] at hn
    obtain ⟨s, hs, e⟩ := hn
    rw [hF s (by simp [hs])] at e; cases e; rfl
  · intro n hn
    simp only [TDFile.inputLabels, Option.bind_eq_bind, Option.bind_eq_some_iff] at hn
    obtain ⟨s, hs, t, e, e2⟩ := hn
    rw [hF s (by simp [hs])] at e; cases e; cases e2; rfl
  · intro n hn
    simp only [TDFile.cfItems, Option.bind_eq_bind, Option.bind_eq_some_iff] at hn
    obtain ⟨s, hs, e⟩ := hn
    rw [hF s (by simp [hs])] at e; cases e
    simp [iter, align]

/-- The file is cut short: every byte of its header is still zero or has its value from the time before
the destructor (with size zero for every section and whatever offsets); the rest of the file is
arbitrary. -/
def Cut (c : Config) (os : List Nat) (m : List Nat) : Prop :=
  ∀ (p b : Nat), p < 200 → m[p]? = some b →
    b = 0 ∨ (header c.specs (os.zip (List.replicate 8 0)))[p]? = some b

/-- A reader of a file that was cut short sees an error or an empty trace. This covers every moment
from the creation of the file (empty, then zeros, then a partly initialised header) to the last store
before the destructor, since the sections lie behind the header (C16). -/
theorem C17_crash_partial (c : Config) (os : List Nat) (hos : os.length = 8) (m : List Nat)
    (hcut : Cut c os m) : parse m = none ∨ ∃ F, parse m = some F ∧ F.Empty := by
  have hlen : (os.zip (List.replicate 8 0)).length = 8 := by rw [List.length_zip, hos]; rfl
  -- the size fields are zero
  have hz : ∀ i, i < 8 → ∀ hd, readSecMeta m (8 + 24 * i) = some hd → hd.size = 0 := by
    intro i hi hd hr
    simp only [readSecMeta] at hr
    split at hr
    · cases hr
      show unle _ = 0
      apply unle_zero
      intro b hb
      obtain ⟨j, hj⟩ := List.getElem?_of_mem hb
      rw [List.getElem?_take] at hj
      split at hj
      · rename_i hj8
        rw [List.getElem?_drop, List.getElem?_drop] at hj
        rcases hcut _ _ (by omega) hj with h | h
        · exact h
        · have hs : ∃ s, c.specs[i]? = some s := ⟨_, List.getElem?_eq_getElem (show i < c.specs.length from hi)⟩
          obtain ⟨s, hs⟩ := hs
          have ho : ∃ o, os[i]? = some o := ⟨_, List.getElem?_eq_getElem (by omega)⟩
          obtain ⟨o, ho⟩ := ho
          obtain ⟨pre, post, h1, h2⟩ := flatMap_split
            (f := fun p : SecSpec × Nat × Nat => encMeta p.1 p.2.1 p.2.2)
            (l := c.specs.zip (os.zip (List.replicate 8 0)))
            (sz := 24) (fun a _ => encMeta_length _ _ _) (i := i) (a := (s, o, 0))
            (by
              rw [List.getElem?_zip_eq_some, List.getElem?_zip_eq_some]
              exact ⟨hs, ho, by rw [List.getElem?_replicate, if_pos hi]⟩)
          have hh : header c.specs (os.zip (List.replicate 8 0)) =
              ([84, 68, 65, 71] ++ le 2 (magic c.specs) ++ le 2 c.specs.length ++ pre ++ le 4 s.tag ++
                le 4 s.align ++ le 8 o) ++ (List.replicate 8 0 ++ post) := by
            rw [header, h1]; simp [encMeta, le]
          rw [hh, List.getElem?_append_right (by simp [h2]; omega),
            List.getElem?_append_left (by simp [h2]; omega), List.getElem?_replicate] at h
          split at h
          · cases h; rfl
          · cases h
      · cases hj
    · cases hr
  by_cases h8 : 8 ≤ m.length
  · -- the section count is 0 or 8
    have hcount : fld 2 6 m = 0 ∨ fld 2 6 m = 8 := by
      have hh : ∀ p : Nat, (header c.specs (os.zip (List.replicate 8 0)))[p]? =
          ([84, 68, 65, 71, 44, 0, 8, 0] ++ (c.specs.zip (os.zip (List.replicate 8 0))).flatMap
            fun p => encMeta p.1 p.2.1 p.2.2)[p]? := by
        intro p
        rw [header]
        simp only [show magic c.specs = 44 by simp [magic, Config.specs], show c.specs.length = 8 from rfl]
        simp [le]
      have e6 := hcut 6 (m[6]) (by omega) (List.getElem?_eq_getElem (by omega))
      have e7 := hcut 7 (m[7]) (by omega) (List.getElem?_eq_getElem (by omega))
      rw [hh, List.getElem?_append_left (by simp)] at e6 e7
      have hm : (m.drop 6).take 2 = [m[6], m[7]] := by
        apply List.ext_getElem
        · simp; omega
        · intro n h1 h2
          have : n = 0 ∨ n = 1 := by simp at h2; omega
          rcases this with rfl | rfl <;> simp
      simp at e6 e7
      simp only [fld, hm, unle]
      omega
    rcases hcount with hc0 | hc8
    · left
      simp only [parse, h8, guard, if_true, hc0, addSections, Option.bind_eq_bind, pure, Option.bind_some]
      rfl
    · have hn : Nil { filemeta := ⟨m.take 4, fld 2 4 m, fld 2 6 m⟩ } := by
        intro s hs
        rcases hs with h | h | h | h | h | h | h | h <;> cases h
      rcases addSections_nil (m := m) 8 8 hn hz with h | ⟨F, h, hF⟩
      · left
        simp only [hc8] at h
        simp only [parse, h8, guard, if_true, hc8, h, Option.bind_eq_bind, pure, Option.bind_some]
        rfl
      · simp only [hc8] at h
        simp only [parse, h8, guard, if_true, hc8, h, Option.bind_eq_bind, pure, Option.bind_some]
        cases h1 : readFdHeaders F with
        | none => exact Or.inl rfl
        | some fd =>
          cases h2 : readFnHeaders F with
          | none => exact Or.inl rfl
          | some fn => exact Or.inr ⟨_, rfl, nil_empty hF h1 h2⟩
  · left
    simp only [parse, guard, h8, if_false]
    rfl

/-- After the constructor and before the destructor, in whatever state the sections are, the reader
finds an empty trace. -/
theorem C17_running_partial (c : Config) (os : List Nat) (hos : os.length = 8) (ho : ∀ o ∈ os, o < 2 ^ 64)
    (rest : List Nat) :
    ∃ F, parse (header c.specs (os.zip (List.replicate 8 0)) ++ rest) = some F ∧ F.Empty ∧
      F.labelCount = some 0 ∧ F.sinks = some [] ∧ F.events = some [] ∧ F.inputLabels = some [] ∧
      F.cfItems = some ([], false) := by
  have hlen : (os.zip (List.replicate 8 0)).length = 8 := by rw [List.length_zip, hos]; rfl
  have hsz : ∀ (i o z : Nat), (os.zip (List.replicate 8 0))[i]? = some (o, z) → z = 0 := by
    intro i o z h
    rw [List.getElem?_zip_eq_some, List.getElem?_replicate] at h
    obtain ⟨-, h⟩ := h
    split at h
    · exact (Option.some.inj h).symm
    · cases h
  have hp := parse_header c (os.zip (List.replicate 8 0)) rest hlen (by
    intro p hp
    obtain ⟨i, hi⟩ := List.getElem?_of_mem hp
    have hz := hsz i p.1 p.2 hi
    have := ho p.1 (List.of_mem_zip (a := p.1) (b := p.2) hp).1
    omega) (by
    intro o z h
    rw [hsz 4 o z h, slice_empty]; rfl)
  have hnil : secOf (os.zip (List.replicate 8 0)) (header c.specs (os.zip (List.replicate 8 0)) ++ rest) =
      fun _ => ([] : List Nat) := by
    funext i
    rw [secOf]
    cases h : (os.zip (List.replicate 8 0))[i]? with
    | none => rfl
    | some p =>
      obtain ⟨o, z⟩ := p
      simp only [hsz i o z h, slice_empty]
  simp only [hnil] at hp
  refine ⟨_, hp, ?_, rfl, rfl, rfl, rfl, ?_⟩
  · refine nil_empty (F := fileOf fun _ => []) ?_ rfl rfl
    intro s hs
    rcases hs with h | h | h | h | h | h | h | h <;> (cases h; rfl)
  · show some (iter [] []) = _
    simp [iter, align]

/-- `File.running` is such a file. -/
theorem C17_running_image (pads : Pads) (c : Config) (base : Nat) (T : Tracker) :
    ∃ rest, running pads c base T = header c.specs ((offsets c base).zip (List.replicate 8 0)) ++ rest := by
  simp only [running, image, List.append_assoc]
  exact ⟨_, rfl⟩

/-- A file cut short inside the destructor lists every section with its exact used size or with size
zero (in the order of the sections: the first `k` are exact). -/
theorem C17_closing_partial (pads : Pads) (c : Config) (base : Nat) (T : Tracker) (k i z z' : Nat)
    (hz : (((contents pads T).map (·.2)).take k ++ List.replicate (8 - k) 0)[i]? = some z)
    (hz' : ((contents pads T).map (·.2))[i]? = some z') :
    (∃ rest, closing pads c base T k = header c.specs ((offsets c base).zip
      (((contents pads T).map (·.2)).take k ++ List.replicate (8 - k) 0)) ++ rest) ∧
    (i < k → z = z') ∧ (k ≤ i → z = 0) := by
  have h8 : ((contents pads T).map (·.2)).length = 8 := rfl
  have hi : i < 8 := by have := (List.getElem?_eq_some_iff.1 hz').1; omega
  refine ⟨by simp only [closing, image, List.append_assoc]; exact ⟨_, rfl⟩, ?_, ?_⟩
  · intro hk
    rw [List.getElem?_append_left (by rw [List.length_take]; omega), List.getElem?_take, if_pos hk, hz'] at hz
    exact (Option.some.inj hz).symm
  · intro hk
    rw [List.getElem?_append_right (by rw [List.length_take]; omega), List.getElem?_replicate] at hz
    split at hz
    · exact (Option.some.inj hz).symm
    · cases hz

/-- Padding bytes. -/
def zeroPads : Pads := ⟨fun _ => (0, 0, 0), fun _ => 0⟩

/-- Cut short inside the destructor, the file is accepted and shows a wrong trace: labels and inputs
are there, but the tainted output bytes that were logged are missing. -/
theorem C17_closing_refuted : ∃ (c : Config) (base : Nat) (h : Trace) (T : Tracker) (k : Nat) (F : TDFile),
    c.Ok base ∧ Reach c base h T ∧ k < 8 ∧ parse (closing zeroPads c base T k) = some F ∧
      F.labelCount = some T.labels.words.length ∧ 1 < T.labels.words.length ∧ F.fdHeaders ≠ [] ∧
      written h ≠ [] ∧ F.sinks = some [] := by
  have hrun : (run exCfg 4096 exCalls).isSome = true := by decide +kernel
  obtain ⟨⟨T, h⟩, hx⟩ := Option.isSome_iff_exists.1 hrun
  have key : (match run exCfg 4096 exCalls with
      | none => false
      | some (T, h) => match parse (closing zeroPads exCfg 4096 T 3) with
        | none => false
        | some F => decide (F.labelCount = some T.labels.words.length ∧ 1 < T.labels.words.length ∧
            F.fdHeaders ≠ [] ∧ written h ≠ [] ∧ F.sinks = some [])) = true := by decide +kernel
  rw [hx] at key
  simp only at key
  cases hp : parse (closing zeroPads exCfg 4096 T 3) with
  | none => rw [hp] at key; cases key
  | some F =>
    rw [hp] at key
    simp only [decide_eq_true_eq] at key
    exact ⟨exCfg, 4096, h, T, 3, F, exCfg_ok, run_reach hx, by decide, hp, key⟩

/-- The hypotheses of `C17_closed` hold of the example run. -/
example : ∃ T, Reach exCfg 4096 (histOf exCfg 4096 exCalls) T ∧ T.labels.words.length + 64 ≤ exCfg.indexCap := by
  have hrun : (run exCfg 4096 exCalls).isSome = true := by decide +kernel
  obtain ⟨⟨T, h⟩, hx⟩ := Option.isSome_iff_exists.1 hrun
  refine ⟨T, by simpa [histOf, hx] using run_reach hx, ?_⟩
  have key : (match run exCfg 4096 exCalls with
      | none => false
      | some (T, _) => decide (T.labels.words.length + 64 ≤ exCfg.indexCap)) = true := by decide +kernel
  rw [hx] at key
  simpa using key

/-- A zero-filled file, and one with a finished header and arbitrary sections, are cut short. -/
example : Cut exCfg (offsets exCfg 4096) (List.replicate 1000 0) := by
  intro p b _ hb
  rw [List.getElem?_replicate] at hb
  split at hb
  · exact Or.inl (Option.some.inj hb).symm
  · cases hb
example (rest : List Nat) : Cut exCfg (offsets exCfg 4096)
    (header exCfg.specs ((offsets exCfg 4096).zip (List.replicate 8 0)) ++ rest) := by
  intro p b hp hb
  right
  rwa [List.getElem?_append_left] at hb
  rw [header_length _ _ (by decide)]
  exact hp

end Verif
