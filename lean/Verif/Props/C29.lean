import Verif.CavityLemmas
import Verif.Props.C09
import Verif.Props.C28
import Mathlib.Data.Nat.Find
/- C29: file cavities. -/
namespace Verif
open Spec Py File Tracker

/-- Byte `o` of input `i` was given a label. -/
def Spec.WasRead (g : Graph) (i o : Nat) : Prop := ∃ l cf, g l = some (.source cf i o)

/-- Input `i` is an opening of the file `p` from which something was read. -/
def Py.Opening (F : TDFile) (g : Graph) (p : List Nat) (i : Nat) : Prop := PathIs F i p ∧ ∃ o, WasRead g i o

/-- The number of bytes of input `i` that the trace knows of: the least number that covers the recorded
size and every byte read. -/
def Py.ExtentIs (F : TDFile) (g : Graph) (i L : Nat) : Prop := IsExtent (F.knownSize i) (WasRead g i) L

/-- Byte `o` of the file `p` affected control flow or contributed to an output byte. -/
def Py.Matters (F : TDFile) (g : Graph) (p : List Nat) (o : Nat) : Prop :=
  ∃ i, PathIs F i p ∧ (FlaggedByte g (i, o) ∨ ∃ ss s, F.sinks = some ss ∧ s ∈ ss ∧ Denotes g s.label (i, o))

theorem bits_zero {v : List Nat} (h : Bits v) (o : Nat) : v[o]? = some 0 ↔ o < v.length ∧ ¬ v[o]? = some 1 := by
  by_cases ho : o < v.length
  · rw [List.getElem?_eq_getElem ho]
    rcases h v[o] (List.getElem_mem ho) with e | e <;> simp [e, ho]
  · rw [List.getElem?_eq_none (by omega)]; simp [ho]

/-- What `file_cavities` returns, for every trace: a file is listed exactly when something was read from
it, and the ranges listed are the maximal runs of the bytes that do not matter and lie inside the extent
of *every* opening of the file. -/
theorem C29_exact (F : TDFile) (g : Graph) (n : Nat) (hF : F.Shows g n) :
    ∃ N d, (∀ fuel, N ≤ fuel → fileCavities F fuel = some d) ∧
      (∀ p, (∃ rs, d.get p = some rs) ↔ ∃ i, Opening F g p i) ∧
      ∀ p rs, d.get p = some rs → MaximalRuns rs fun o =>
        (∀ i L, Opening F g p i → ExtentIs F g i L → o < L) ∧ ¬ Matters F g p o := by
  obtain ⟨ls, hls, -, hmem⟩ := hF.index
  obtain ⟨ss, hss, hsk⟩ := hF.sinks
  obtain ⟨m₀, h1, h2⟩ := sweep_spec hF ls [] [] (fun l hl => (hmem l).1 hl)
    ⟨by simp [Dict.keys], by simp [Dict.keys], by simp [Dict.get], by simp [Dict.get], by simp [Marked, Dict.get]⟩
  rw [List.nil_append] at h2
  have hread : ∀ i o, (∃ l ∈ ls, ∃ cf, g l = some (.source cf i o)) ↔ WasRead g i o := by
    intro i o
    constructor
    · rintro ⟨l, -, cf, h⟩; exact ⟨l, cf, h⟩
    · rintro ⟨l, cf, h⟩; exact ⟨l, (hmem l).2 ⟨cf, i, o, h⟩, cf, h⟩
  have hlen : ∀ i v, m₀.get i = some v → ExtentIs F g i v.length := fun i v hv => (h2.len i v hv).congr (hread i)
  have hkey : ∀ i, i ∈ m₀.keys ↔ ∃ o, WasRead g i o := by
    intro i
    rw [h2.keys]
    constructor
    · rintro ⟨l, -, cf, o, h⟩; exact ⟨o, l, cf, h⟩
    · rintro ⟨o, l, cf, h⟩; exact ⟨l, (hmem l).2 ⟨cf, i, o, h⟩, cf, o, h⟩
  have h₀ : ∀ l cf i o, g l = some (.source cf i o) → ∃ v, m₀.get i = some v ∧ o < v.length := by
    intro l cf i o h
    obtain ⟨v, hv⟩ := (Dict.get_isSome_iff m₀ i).2 ((hkey i).2 ⟨o, l, cf, h⟩)
    exact ⟨v, hv, (hlen i v hv).1.2 o ⟨l, cf, h⟩⟩
  have hfl : ∀ b, Marked m₀ b ↔ FlaggedByte g b := by
    intro b
    rw [h2.mark]
    constructor
    · rintro ⟨l, -, h⟩; exact ⟨l, h⟩
    · rintro ⟨l, h⟩; exact ⟨l, (hmem l).2 ⟨_, _, _, h⟩, h⟩
  obtain ⟨N, m, seen, h3, h4⟩ := cavSinks_spec hF h₀ ss [] m₀ []
    ⟨⟨rfl, fun _ => rfl, h2.bits⟩, fun b hb => (hfl b).2 hb, fun b hb => Or.inl ((hfl b).1 hb), by simp, by simp⟩
    (fun s hs => ⟨(hsk s hs).1, (hsk s hs).2.1⟩)
  rw [List.nil_append] at h4
  have hmk : ∀ b, Marked m b ↔ FlaggedByte g b ∨ ∃ s ∈ ss, Denotes g s.label b := fun b =>
    ⟨h4.sound b, fun h => h.elim (h4.flagged b) fun ⟨s, k1, k2⟩ => h4.done s k1 b k2⟩
  have hnd : m.keys.Nodup := by rw [h4.shape.keys]; exact h2.nodup
  have hhd : ∀ e ∈ m, e.1 < F.fdHeaders.length := by
    intro e he
    have : e.1 ∈ m.keys := List.mem_map.2 ⟨e, he, rfl⟩
    rw [h4.shape.keys] at this
    obtain ⟨o, l, cf, h⟩ := (hkey _).1 this
    exact hF.header l cf _ o h
  obtain ⟨r, h5, h6⟩ := merge_spec (F := F) m [] [] ⟨by simp, by simp [Dict.get]⟩ hhd
  rw [List.nil_append] at h6
  -- entries of the array dictionary
  have hent : ∀ e ∈ m, (∃ o, WasRead g e.1 o) ∧ ExtentIs F g e.1 e.2.length ∧
      ∀ o, e.2[o]? = some 0 ↔ o < e.2.length ∧ ¬ (FlaggedByte g (e.1, o) ∨ ∃ s ∈ ss, Denotes g s.label (e.1, o)) := by
    intro e he
    have hget : m.get e.1 = some e.2 := Dict.get_of_mem hnd he
    have hk : e.1 ∈ m.keys := List.mem_map.2 ⟨e, he, rfl⟩
    rw [h4.shape.keys] at hk
    refine ⟨(hkey _).1 hk, ?_, ?_⟩
    · have hl := h4.shape.len e.1
      rw [hget] at hl
      cases hm : m₀.get e.1 with
      | none => rw [hm] at hl; cases hl
      | some v =>
        rw [hm] at hl
        have hl : e.2.length = v.length := by simpa using hl
        rw [hl]; exact hlen _ _ hm
    · intro o
      rw [bits_zero (h4.shape.bits _ _ hget), ← hmk]
      simp [Marked, hget]
  have hopen : ∀ p i, Opening F g p i ↔ ∃ v, (i, v) ∈ m ∧ PathIs F i p := by
    intro p i
    constructor
    · rintro ⟨hp, ho⟩
      have hk := (hkey i).2 ho
      rw [← h4.shape.keys] at hk
      obtain ⟨v, hv⟩ := (Dict.get_isSome_iff m i).2 hk
      exact ⟨v, Dict.mem_of_get hv, hp⟩
    · rintro ⟨v, hv, hp⟩
      exact ⟨hp, (hent _ hv).1⟩
  refine ⟨N, r.map fun p => (p.1, markerToRanges p.2), ?_, ?_, ?_⟩
  · intro fuel hf
    simp only [fileCavities, hls, h1, hss, h3 fuel hf, h5, Option.bind_eq_bind, Option.bind_some]
    rfl
  · intro p
    rw [Dict.get_mapVal]
    cases hg : r.get p with
    | none =>
      simp only [Option.map_none, reduceCtorEq, exists_false, false_iff, not_exists]
      intro i hi
      obtain ⟨v, k1, k2⟩ := (hopen p i).1 hi
      exact h6.absent p hg _ k1 k2
    | some w =>
      obtain ⟨⟨e, k1, k2⟩, -, -⟩ := h6.present p w hg
      simp only [Option.map_some, Option.some.injEq, exists_eq', true_iff]
      exact ⟨e.1, (hopen p e.1).2 ⟨e.2, k1, k2⟩⟩
  · intro p rs hp
    rw [Dict.get_mapVal] at hp
    cases hg : r.get p with
    | none => rw [hg] at hp; cases hp
    | some w =>
      rw [hg] at hp; cases hp
      obtain ⟨⟨e₀, k1, k2⟩, -, k4⟩ := h6.present p w hg
      have hrw : ∀ o, w[o]? = some 0 ↔
          ((∀ i L, Opening F g p i → ExtentIs F g i L → o < L) ∧ ¬ Matters F g p o) := by
        intro o
        rw [k4]
        constructor
        · intro h
          refine ⟨?_, ?_⟩
          · intro i L hi hL
            obtain ⟨v, j1, j2⟩ := (hopen p i).1 hi
            have := (((hent _ j1).2.2 o).1 (h _ j1 j2)).1
            rw [IsExtent.unique hL (hent _ j1).2.1]
            exact this
          · rintro ⟨i, hi, hm⟩
            have hwr : ∃ o, WasRead g i o := by
              rcases hm with ⟨l, h⟩ | ⟨ss', s, -, -, hd⟩
              · exact ⟨o, l, true, h⟩
              · obtain ⟨k, cf, -, h⟩ := denotes_iff_builtFrom.1 hd
                exact ⟨o, k, cf, h⟩
            obtain ⟨v, j1, j2⟩ := (hopen p i).1 ⟨hi, hwr⟩
            refine (((hent _ j1).2.2 o).1 (h _ j1 j2)).2 ?_
            rcases hm with hm | ⟨ss', s, e, hs, hd⟩
            · exact Or.inl hm
            · rw [hss] at e; cases e
              exact Or.inr ⟨s, hs, hd⟩
        · rintro ⟨hE, hM⟩ e he hpe
          refine ((hent e he).2.2 o).2 ⟨hE e.1 _ ((hopen p e.1).2 ⟨e.2, he, hpe⟩) (hent e he).2.1, ?_⟩
          rintro (h | ⟨s, hs, hd⟩)
          · exact hM ⟨e.1, hpe, Or.inl h⟩
          · exact hM ⟨e.1, hpe, Or.inr ⟨ss, s, hss, hs, hd⟩⟩
      have : (fun o => (∀ i L, Opening F g p i → ExtentIs F g i L → o < L) ∧ ¬ Matters F g p o) =
          fun o => w[o]? = some 0 := funext fun o => propext (hrw o).symm
      rw [this]
      exact markerToRanges_spec w

/-- Every input has an extent. -/
theorem Py.extent_exists {F : TDFile} {g : Graph} {n : Nat} (hF : F.Shows g n) (i : Nat) : ∃ L, ExtentIs F g i L := by
  classical
  have hb : ∃ L, F.knownSize i ≤ L ∧ ∀ o, WasRead g i o → o < L := by
    have key : ∀ m, ∃ L, F.knownSize i ≤ L ∧ ∀ l cf o, l < m → g l = some (.source cf i o) → o < L := by
      intro m
      induction m with
      | zero => exact ⟨_, Nat.le_refl _, fun _ _ _ h => absurd h (Nat.not_lt_zero _)⟩
      | succ m ih =>
        obtain ⟨L, h1, h2⟩ := ih
        by_cases h : ∃ cf o, g m = some (.source cf i o)
        · obtain ⟨cf, o, h⟩ := h
          refine ⟨max L (o + 1), by omega, fun l cf' o' hl hg => ?_⟩
          by_cases e : l = m
          · subst e; rw [h] at hg; cases hg; omega
          · have := h2 l cf' o' (by omega) hg; omega
        · refine ⟨L, h1, fun l cf' o' hl hg => ?_⟩
          by_cases e : l = m
          · subst e; exact absurd ⟨cf', o', hg⟩ h
          · exact h2 l cf' o' (by omega) hg
    obtain ⟨L, h1, h2⟩ := key n
    exact ⟨L, h1, fun o ⟨l, cf, h⟩ => h2 l cf o (shows_lt hF h).2 h⟩
  exact ⟨Nat.find hb, Nat.find_spec hb, fun L' h => Nat.find_min' hb h⟩

/-- If all openings of each file that was read have the same extent, the byte is in a cavity exactly when
it belongs to the file and neither affected control flow nor contributed to an output.
Missing for the full claim: openings of one file with different extents (`C29_merge_refuted`) and
files from which nothing was read (`C29_unread_refuted`). -/
theorem C29_cavities_partial (F : TDFile) (g : Graph) (n : Nat) (hF : F.Shows g n)
    (hsame : ∀ p i j L L', Opening F g p i → Opening F g p j → ExtentIs F g i L → ExtentIs F g j L' → L = L') :
    ∃ N d, (∀ fuel, N ≤ fuel → fileCavities F fuel = some d) ∧
      ∀ p i L, Opening F g p i → ExtentIs F g i L →
        ∃ rs, d.get p = some rs ∧ MaximalRuns rs fun o => o < L ∧ ¬ Matters F g p o := by
  obtain ⟨N, d, h1, h2, h3⟩ := C29_exact F g n hF
  refine ⟨N, d, h1, ?_⟩
  intro p i L hi hL
  obtain ⟨rs, hrs⟩ := (h2 p).2 ⟨i, hi⟩
  refine ⟨rs, hrs, ?_⟩
  have := h3 p rs hrs
  have e : (fun o => (∀ i L, Opening F g p i → ExtentIs F g i L → o < L) ∧ ¬ Matters F g p o) =
      fun o => o < L ∧ ¬ Matters F g p o := by
    funext o
    apply propext
    constructor
    · rintro ⟨k1, k2⟩; exact ⟨k1 i L hi hL, k2⟩
    · rintro ⟨k1, k2⟩
      exact ⟨fun j L' hj hL' => by rw [← hsame p i j L L' hi hj hL hL']; exact k1, k2⟩
  rwa [e] at this

/-- The hypothesis of `C29_cavities_partial` holds whenever no file was opened twice. -/
theorem C29_distinct (F : TDFile) (g : Graph) (hd : (F.fdHeaders.map (·.1)).Nodup) (p : List Nat) (i j L L' : Nat)
    (hi : Opening F g p i) (hj : Opening F g p j) (hL : ExtentIs F g i L) (hL' : ExtentIs F g j L') : L = L' := by
  obtain ⟨⟨a, a1, a2⟩, -⟩ := hi
  obtain ⟨⟨b, b1, b2⟩, -⟩ := hj
  obtain ⟨ai, ae⟩ := List.getElem?_eq_some_iff.1 a1
  obtain ⟨bi, be⟩ := List.getElem?_eq_some_iff.1 b1
  have : i = j := by
    refine (List.getElem_inj hd (i := i) (j := j) (h₀ := by simpa using ai) (h₁ := by simpa using bi)).1 ?_
    simp [ae, be, a2, b2]
  subst this
  exact hL.unique hL'

/-- For every run that ends in an orderly way: no byte that affected control flow or contributed to a
byte recorded in the sink log is in a cavity of its file. -/
theorem C29_run (c : Config) (base : Nat) (hc : c.Ok base) (h : Trace) (T : Tracker)
    (hr : Tracker.Reach c base h T) (hroom : T.labels.words.length + 64 ≤ c.indexCap)
    (hu : ∀ n ∈ names h, utf8 n = true) (hlog : (written h).length ≤ c.sinkCap) (pads : Pads) :
    ∃ F N d, parse (closed pads c base T) = some F ∧ (∀ fuel, N ≤ fuel → fileCavities F fuel = some d) ∧
      ∀ p rs a b o, d.get p = some rs → (a, b) ∈ rs → a ≤ o → o < b → ∀ i e, (registered h)[i]? = some e →
        pathStr e.1 = p → ¬ Influenced (labelEvents h) (i, o) ∧
          ∀ w ∈ written h, ¬ Meaning (labelEvents h) w.label (i, o) := by
  obtain ⟨F, hF, hs, hrec⟩ := shows_reach c base hc h T hr hroom hu pads
  obtain ⟨N, d, h1, -, h3⟩ := C29_exact F _ _ hs
  refine ⟨F, N, d, hF, h1, ?_⟩
  intro p rs a b o hp hab ha hb i e he hpe
  have hnot := (((h3 p rs hp).covers o).1 ⟨(a, b), hab, ha, hb⟩).2
  have hpath : PathIs F i p := by
    have := congrArg (fun x => (x[i]?).map (·.1)) hrec.sources
    simp only [List.getElem?_map, he, Option.map_some] at this
    cases k1 : F.fdHeaders[i]? with
    | none => rw [k1] at this; cases this
    | some hd =>
      rw [k1] at this
      exact ⟨hd, k1, by simp at this; rw [this, hpe]⟩
  have hm := (hr.sim hc).lab.reach.meaning hc.lab0 hc.lab
  have hsk := hrec.sinks
  rw [List.take_of_length_le hlog] at hsk
  refine ⟨fun hi => hnot ⟨i, hpath, Or.inl ?_⟩, fun w hw hwm => hnot ⟨i, hpath, Or.inr ?_⟩⟩
  · exact (C09_influenced _ hc.lab0 hc.lab _ _ (hr.sim hc).lab.reach (i, o)).2 hi
  · exact ⟨_, _, hsk, List.mem_map.2 ⟨w, hw, rfl⟩, (hm _ _).2 hwm⟩

/-- A run that opens a file of ten bytes, reads six of them, branches on bytes 0 and 1, and writes byte 3. -/
def cavCalls : List Call :=
  [.openFile 3 [97] (some 10), .read 3 (some 1000) none 6, .union 1 2, .mark 7,
   .openFile 4 [98] none, .store 2000 4, .write 4 none 2000 1]

def cavities (calls : List Call) : Option (Dict (List Nat) (List (Nat × Nat))) :=
  (run exCfg 4096 calls).bind fun p => (parse (closed zeroPads exCfg 4096 p.1)).bind fun F => fileCavities F 20

/-- Its cavities: byte 2 and bytes 4 to 9. -/
example : cavities cavCalls = some [([97], [(2, 3), (4, 10)])] := by decide +kernel

/-- The hypotheses of `C29_run` hold of it. -/
example : ∃ h T, Tracker.Reach exCfg 4096 h T ∧ T.labels.words.length + 64 ≤ exCfg.indexCap ∧
    (∀ n ∈ names h, utf8 n = true) ∧ (written h).length ≤ exCfg.sinkCap := by
  have hrun : (run exCfg 4096 cavCalls).isSome = true := by decide +kernel
  obtain ⟨⟨T, h⟩, hx⟩ := Option.isSome_iff_exists.1 hrun
  have key : (match run exCfg 4096 cavCalls with
      | none => false
      | some (T, h) => decide (T.labels.words.length + 64 ≤ exCfg.indexCap ∧
          (∀ n ∈ names h, utf8 n = true) ∧ (written h).length ≤ exCfg.sinkCap)) = true := by decide +kernel
  rw [hx] at key
  simp only [decide_eq_true_eq] at key
  exact ⟨h, T, run_reach hx, key.1, key.2.1, key.2.2⟩

/-- The hypotheses of `C29_exact` and `C29_cavities_partial` hold of the trace file of that run. -/
example : ∃ F g n, F.Shows g n ∧ (∃ i, Opening F g [97] i) ∧
    ∀ p i j L L', Opening F g p i → Opening F g p j → ExtentIs F g i L → ExtentIs F g j L' → L = L' := by
  have hrun : (run exCfg 4096 cavCalls).isSome = true := by decide +kernel
  obtain ⟨⟨T, h⟩, hx⟩ := Option.isSome_iff_exists.1 hrun
  have key : (match run exCfg 4096 cavCalls with
      | none => false
      | some (T, h) => decide (T.labels.words.length + 64 ≤ exCfg.indexCap ∧
          (∀ n ∈ names h, utf8 n = true) ∧ ((registered h).map fun e => pathStr e.1) = [[97], [98]] ∧
          T.labels.graph 3 = some (.source false 0 2))) = true := by decide +kernel
  rw [hx] at key
  simp only [decide_eq_true_eq] at key
  obtain ⟨k1, k2, k3, k4⟩ := key
  obtain ⟨F, -, hs, hrec⟩ := shows_reach exCfg 4096 exCfg_ok h T (run_reach hx) k1 k2 zeroPads
  have hp : F.fdHeaders.map (·.1) = [[97], [98]] := by
    rw [← k3]
    have := congrArg (List.map (·.1)) hrec.sources
    rw [List.map_map, List.map_map] at this
    exact this
  refine ⟨F, _, _, hs, ⟨0, ?_, 2, 3, false, k4⟩, C29_distinct F _ (by rw [hp]; decide)⟩
  have := congrArg (fun x => x[0]?) hp
  simp only [List.getElem?_map] at this
  cases hh : F.fdHeaders[0]? with
  | none => rw [hh] at this; cases this
  | some a => rw [hh] at this; exact ⟨a, hh, by simpa using this⟩

theorem Py.fileCavities_noSinks {F : TDFile} (h : F.sinks = some []) (fuel : Nat) :
    fileCavities F fuel = fileCavities F 0 := by
  simp only [fileCavities, h, Option.bind_eq_bind, Option.bind_some, cavSinks]

theorem Spec.not_influenced {es : List Event} (h : ∀ l, Event.mark l ∉ es) (b : Nat × Nat) : ¬ Influenced es b := by
  rintro ⟨bf, l, rest, rfl, -⟩
  exact h l (by simp)

/-- Runs the calls, closes the file, parses it and computes the cavities; with the facts used below. -/
def cavCheck (calls : List Call) (es : List Event) (regs : List (List Nat × Int × Nat))
    (d : Dict (List Nat) (List (Nat × Nat))) : Bool :=
  match run exCfg 4096 calls with
  | none => false
  | some (T, h) => decide (labelEvents h = es ∧ registered h = regs ∧ written h = []) &&
    match parse (closed zeroPads exCfg 4096 T) with
    | none => false
    | some F => decide (F.sinks = some [] ∧ fileCavities F 0 = some d)

theorem cavCheck_spec {calls : List Call} {es : List Event} {regs : List (List Nat × Int × Nat)}
    {d : Dict (List Nat) (List (Nat × Nat))} (hc : cavCheck calls es regs d = true) :
    ∃ (h : Trace) (T : Tracker) (F : TDFile), Tracker.Reach exCfg 4096 h T ∧
      parse (closed zeroPads exCfg 4096 T) = some F ∧ (∀ fuel, fileCavities F fuel = some d) ∧
      labelEvents h = es ∧ registered h = regs ∧ written h = [] := by
  unfold cavCheck at hc
  split at hc
  · cases hc
  · rename_i T h hrun
    simp only [Bool.and_eq_true, decide_eq_true_eq] at hc
    obtain ⟨⟨h1, h2, h3⟩, hc⟩ := hc
    split at hc
    · cases hc
    · rename_i F hF
      simp only [decide_eq_true_eq] at hc
      exact ⟨h, T, F, run_reach hrun, hF, fun fuel => by rw [fileCavities_noSinks hc.1]; exact hc.2, h1, h2, h3⟩

/-- The claim is false of the code when a file of unknown size is opened twice and read to different
lengths: byte 4 is read by the second opening (source 1), influences nothing, and is in no cavity, because
`zip` cuts the merged array to the shorter one. -/
theorem C29_merge_refuted : ∃ (h : Trace) (T : Tracker) (F : TDFile) (d : Dict (List Nat) (List (Nat × Nat))),
    Tracker.Reach exCfg 4096 h T ∧ parse (closed zeroPads exCfg 4096 T) = some F ∧
    (∀ fuel, fileCavities F fuel = some d) ∧ d.get [97] = some [(0, 2)] ∧
    (∀ b, ¬ Influenced (labelEvents h) b) ∧ written h = [] ∧
    (registered h).map (·.1) = [[97], [97]] ∧ Event.source 1 0 6 3 ∈ labelEvents h := by
  obtain ⟨h, T, F, h1, h2, h3, h4, h5, h6⟩ := cavCheck_spec
    (calls := [.openFile 3 [97] none, .read 3 (some 1000) none 2, .openFile 4 [97] none, .read 4 (some 2000) none 6])
    (es := [.source 0 0 2 1, .source 1 0 6 3]) (regs := [([97], 3, unknownSize), ([97], 4, unknownSize)])
    (d := [([97], [(0, 2)])]) (by decide +kernel)
  refine ⟨h, T, F, _, h1, h2, h3, rfl, fun b => not_influenced (by rw [h4]; simp) b, h6, by rw [h5]; rfl, by rw [h4]; simp⟩

/-- It is also false for a file that was opened but not read: none of its ten bytes influenced
anything, and the file is not reported. -/
theorem C29_unread_refuted : ∃ (h : Trace) (T : Tracker) (F : TDFile) (d : Dict (List Nat) (List (Nat × Nat))),
    Tracker.Reach exCfg 4096 h T ∧ parse (closed zeroPads exCfg 4096 T) = some F ∧
    (∀ fuel, fileCavities F fuel = some d) ∧ d.get [97] = none ∧
    (∀ b, ¬ Influenced (labelEvents h) b) ∧ written h = [] ∧ registered h = [([97], 3, 10)] := by
  obtain ⟨h, T, F, h1, h2, h3, h4, h5, h6⟩ := cavCheck_spec (calls := [.openFile 3 [97] (some 10)])
    (es := []) (regs := [([97], 3, 10)]) (d := []) (by decide +kernel)
  exact ⟨h, T, F, _, h1, h2, h3, rfl, fun b => not_influenced (by rw [h4]; simp) b, h6, h5⟩

end Verif
