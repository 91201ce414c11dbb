import Verif.LinkedMain
/-
C52: a program is instrumented by the taint-tracking pass and by DFSan, linked with the runtime and run; the
trace it leaves is read by Python. The mapping of input bytes to output bytes that Python computes is exactly
the dependence of outputs on inputs of the original program, and the cavities are exactly the bytes on which
neither an output nor a decision of the original program depends.
-/
namespace Verif
namespace C52
open Ir PassIr CfPass Spec Labels DfsanMem Tracker EndToEnd Linked Py File

/-- How a run of the linked program may end: as `Q` says, or it is stopped because the store has no room for
`k` labels more than it had. -/
def Does (c : Config) (k : Nat) (T : Tracker) (r : Res (IOut × Tracker)) (Q : IOut × Tracker → Prop) : Prop :=
  (∃ x, r = .ok x ∧ Q x) ∨ ((r = .fatal ∨ r = .ub) ∧ c.labelCap < T.labels.words.length + k)

/-- A tainted byte written to offset `r` of an output with path `q`, in the history `h`, had a label that
meant byte `o` of an input with path `p`. -/
def Before (h : Trace) (p : List Nat) (o : Nat) (q : List Nat) (r : Int) : Prop :=
  ∃ w i e e', w ∈ Spec.written h ∧ (w.offset : Int) = r ∧ Meaning (labelEvents h) w.label (i, o) ∧
    (registered h)[i]? = some e ∧ pathStr e.1 = p ∧ (registered h)[w.out]? = some e' ∧ pathStr e'.1 = q

/-- Byte `r` of the output `out` depends on byte `o` of an input with path `p`, and the output `snk` has the
path `q`. -/
def Depends (h : Trace) (snk : Nat) (out : List (Nat × (Nat × Nat → Prop))) (p : List Nat) (o : Nat)
    (q : List Nat) (r : Int) : Prop :=
  ∃ (j : Nat) (y : Nat × (Nat × Nat → Prop)) (i : Nat) (e e' : List Nat × Int × Nat), (j : Int) = r ∧
    out[j]? = some y ∧ y.2 (i, o) ∧
    (registered h)[i]? = some e ∧ pathStr e.1 = p ∧ (registered h)[snk]? = some e' ∧ pathStr e'.1 = q

variable {dom : Nat → Nat → Nat → Bool} {P : Prog} {c : Config} {base src snk : Nat} {inp : World} {io : Io}
  {h : Trace} {C : Nat → Marks}

theorem silent {τ : Type} {A : Alg τ} (hC : ∀ f, ∃ lg cd, C f = taintTracking lg cd) (hN : C49.NoHooks P)
    {fn n : Nat} {s : State τ} : saidCount (observeFrom A C P inp fn n s) = 0 := by
  rw [C51.observeFrom_noted hC, saidCount, List.countP_eq_zero]
  intro y hy
  rw [C51.observeRun_noted hC hN n hy]
  simp [said]

theorem fine {A : Alg (Nat × Nat → Prop)} (hC : ∀ f, ∃ lg cd, C f = taintTracking lg cd) (hN : C49.NoHooks P)
    {fn n : Nat} {s : State (Nat × Nat → Prop)} {gs : Glob (Nat × Nat → Prop)} (hb : ∀ y ∈ gs.out, y.1 < 256)
    (hl : gs.out.length < 2 ^ 54) : Fine { gs with ev := observeFrom A C P inp fn n s } where
  bytes := hb
  short := hl
  fns := by
    intro y hy f hf
    simp only [C51.observeFrom_noted hC] at hy
    rw [C51.observeRun_noted hC hN n hy] at hf
    simp at hf

theorem does {k n : Nat} {T : Tracker} {r : Res (IOut × Tracker)} {Q R : IOut × Tracker → Prop}
    (hd : TGoes c k T.labels n 0 r Q) (hq : ∀ x, Q x → R x) : Does c k T r R := by
  rcases hd with ⟨x, h1, h2⟩ | h1 | h1
  · exact Or.inl ⟨x, h1, hq x h2⟩
  · exact Or.inr h1
  · exact absurd h1.2.1 (by omega)

/-- What Python computes from the trace of the linked program: the mapping. -/
theorem mapping_read (hc : c.Ok base) {T T' : Tracker} (hr : Tracker.Reach c base h T)
    (hu : ∀ n ∈ names h, utf8 n = true) {g0 g : IGlob} (hg0 : g0.L = T.labels) {h' : Trace}
    {gs : Glob (Nat × Nat → Prop)} {k : Nat} (hg : GRel c.labelCap g gs) (he : Evolves k g0 g)
    (hl : Link c base io src snk h g T' h')
    (hlog : (Spec.written h).length + gs.out.length ≤ c.sinkCap)
    (hroom : T'.labels.words.length + 64 ≤ c.indexCap) (pads : Pads) :
    ∃ D N d, parse (closed pads c base T') = some D ∧ (∀ fuel, N ≤ fuel → mapping D fuel = some d) ∧
      ∀ p o q r, Maps d (p, ((o : Nat) : Int)) (q, r) ↔
        Before h p o q r ∨ Depends h snk gs.out p o q r := by
  obtain ⟨D, N, d, h1, h2, h3⟩ := C28_run c base hc h' T' hl.reach hroom (by rw [hl.names]; exact hu)
    (hl.room hg hlog) pads
  refine ⟨D, N, d, h1, h2, ?_⟩
  intro p o' q r
  rw [h3]
  have hw := fun i => hl.wrote hc hr hg0 he hg (fun a b => (b : Int) = r ∧ ∃ e', (registered h)[a]? = some e' ∧
    pathStr e'.1 = q) (i, o')
  rw [hl.reg]
  constructor
  · rintro ⟨w, i, e, e', k1, k2, k3, k4, k5, k6, k7⟩
    rcases (hw i).1 ⟨w, k1, ⟨k2, e', k6, k7⟩, k3⟩ with ⟨w', j1, ⟨j2, e2, j3, j4⟩, j5⟩ | ⟨j, y, j1, ⟨j2, e2, j3, j4⟩, j5⟩
    · exact Or.inl ⟨w', i, e, e2, j1, j2, j5, k4, k5, j3, j4⟩
    · exact Or.inr ⟨j, y, i, e, e2, j2, j1, j5, k4, k5, j3, j4⟩
  · rintro (⟨w', i, e, e2, j1, j2, j5, k4, k5, j3, j4⟩ | ⟨j, y, i, e, e2, j2, j1, j5, k4, k5, j3, j4⟩)
    · obtain ⟨w, a1, ⟨a2, e', a3, a4⟩, a5⟩ := (hw i).2 (Or.inl ⟨w', j1, ⟨j2, e2, j3, j4⟩, j5⟩)
      exact ⟨w, i, e, e', a1, a2, a5, k4, k5, a3, a4⟩
    · obtain ⟨w, a1, ⟨a2, e', a3, a4⟩, a5⟩ := (hw i).2 (Or.inr ⟨j, y, j1, ⟨j2, e2, j3, j4⟩, j5⟩)
      exact ⟨w, i, e, e', a1, a2, a5, k4, k5, a3, a4⟩

/-- The number of bytes a file of the recorded size (`unknownSize`: not known) has, if `n` bytes were read. -/
def extent (size n : Nat) : Nat := if size = unknownSize then n else max size n

/-- A byte has been read: it was before (history `h`), or it is one of the first `n` of the input `src`. -/
def HasRead (h : Trace) (src n : Nat) (b : Nat × Nat) : Prop := Given h b ∨ (b.1 = src ∧ b.2 < n)

/-- A byte has mattered: a decision was taken on it (before, or `X`), or an output byte (written before, or in
`out`) depends on it. -/
def Mattered (h : Trace) (X : Nat × Nat → Prop) (out : List (Nat × (Nat × Nat → Prop))) (b : Nat × Nat) : Prop :=
  Influenced (labelEvents h) b ∨ X b ∨ (∃ w ∈ Spec.written h, Meaning (labelEvents h) w.label b) ∨ ∃ y ∈ out, y.2 b

/-- File `i` with entry `e` has the path `p`, and something of it was read. -/
def InUse (h : Trace) (R : Nat × Nat → Prop) (p : List Nat) (i : Nat) (e : List Nat × Int × Nat) : Prop :=
  (registered h)[i]? = some e ∧ p = pathStr e.1 ∧ ∃ o, R (i, o)

/-- The byte `b` of path `p` is in none of the files of that path a byte that mattered, and in none of them
beyond the end (the recorded size, if known, or the last byte read). -/
def Idle (h : Trace) (R M : Nat × Nat → Prop) (p : List Nat) (b : Nat) : Prop :=
  (∀ i e L, InUse h R p i e → IsExtent (if e.2.2 = unknownSize then 0 else e.2.2) (fun o => R (i, o)) L → b < L) ∧
    ∀ i e, (registered h)[i]? = some e → p = pathStr e.1 → ¬ M (i, b)

/-- What Python computes from the trace of the linked program: the cavities. `X` says which bytes are flagged. -/
theorem cavities_any (hc : c.Ok base) {T T' : Tracker} (hr : Tracker.Reach c base h T)
    (hu : ∀ n ∈ names h, utf8 n = true) {g0 g : IGlob} (hg0 : g0.L = T.labels) {h' : Trace}
    {gs : Glob (Nat × Nat → Prop)} {k : Nat} (hg : GRel c.labelCap g gs) (he : Evolves k g0 g)
    (hl : Link c base io src snk h g T' h') {X : Nat × Nat → Prop}
    (hflag : ∀ b, C51.FlaggedByte g.L b ↔ Influenced (labelEvents h) b ∨ X b)
    (hlog : (Spec.written h).length + gs.out.length ≤ c.sinkCap)
    (hroom : T'.labels.words.length + 64 ≤ c.indexCap) (pads : Pads) :
    ∃ D N d, parse (closed pads c base T') = some D ∧ (∀ fuel, N ≤ fuel → fileCavities D fuel = some d) ∧
      (∀ p, (∃ rs, d.get p = some rs) ↔ ∃ i e, InUse h (HasRead h src gs.pos) p i e) ∧
      (∀ p rs, d.get p = some rs →
        MaximalRuns rs (Idle h (HasRead h src gs.pos) (Mattered h X gs.out) p)) ∧
      ∀ b, Mattered h X gs.out b → HasRead h src gs.pos b := by
  obtain ⟨D, hD, hsh, hrec⟩ := shows_reach c base hc h' T' hl.reach hroom (by rw [hl.names]; exact hu) pads
  obtain ⟨N, d, h1, h2, h3⟩ := C29_exact D _ _ hsh
  have hread : ∀ i b, WasRead T'.labels.graph i b ↔ HasRead h src gs.pos (i, b) := by
    intro i b
    rw [wasRead_iff hc hl.reach, hl.given, hg.pos]
    exact Iff.rfl
  have hpath : ∀ i p, PathIs D i p ↔ ∃ e, (registered h)[i]? = some e ∧ pathStr e.1 = p := by
    intro i p
    have := congrArg (fun x => (x[i]?).map (·.1)) hrec.sources
    simp only [List.getElem?_map, hl.reg] at this
    unfold PathIs
    cases k1 : D.fdHeaders[i]? <;> cases k2 : (registered h)[i]? <;> rw [k1, k2] at this <;> simp at this
    · simp
    · simp [this]
  have hopen : ∀ p i, Opening D T'.labels.graph p i ↔ ∃ e, InUse h (HasRead h src gs.pos) p i e := by
    intro p i
    unfold Opening InUse
    rw [hpath]
    simp only [hread]
    constructor
    · rintro ⟨⟨e', k1, k2⟩, k3⟩; exact ⟨e', k1, k2.symm, k3⟩
    · rintro ⟨e', k1, k2, k3⟩; exact ⟨⟨e', k1, k2.symm⟩, k3⟩
  have hsize : ∀ i e, (registered h)[i]? = some e → D.knownSize i = if e.2.2 = unknownSize then 0 else e.2.2 := by
    intro i e hsrc
    have := congrArg (fun x => (x[i]?).map (·.2.2)) hrec.sources
    simp only [List.getElem?_map, hl.reg, hsrc] at this
    unfold TDFile.knownSize
    cases k1 : D.fdHeaders[i]? <;> rw [k1] at this <;> simp at this
    simp only [this]
    rfl
  have hext : ∀ i e L, (registered h)[i]? = some e → (ExtentIs D T'.labels.graph i L ↔
      IsExtent (if e.2.2 = unknownSize then 0 else e.2.2) (fun o => HasRead h src gs.pos (i, o)) L) := by
    intro i e L hi
    unfold ExtentIs
    rw [hsize i e hi, show WasRead T'.labels.graph i = fun o => HasRead h src gs.pos (i, o) from
      funext fun o => propext (hread i o)]
  have hsk := hrec.sinks
  rw [List.take_of_length_le (hl.room hg hlog)] at hsk
  have hm' := (hl.reach.sim hc).lab.reach.meaning hc.lab0 hc.lab
  have hone : ∀ i b, (FlaggedByte T'.labels.graph (i, b) ∨
        ∃ ss, ∃ s : Sink, D.sinks = some ss ∧ s ∈ ss ∧ Denotes T'.labels.graph s.label (i, b)) ↔
        Mattered h X gs.out (i, b) := by
    intro i b
    have hw := hl.wrote hc hr hg0 he hg (fun _ _ => True) (i, b)
    have hf := hflag (i, b)
    rw [← hl.labels] at hf
    unfold Mattered
    rw [← or_assoc]
    refine or_congr hf ?_
    constructor
    · rintro ⟨ss, s, k1, k2, k3⟩
      rw [hsk] at k1
      cases k1
      obtain ⟨w, hwm, rfl⟩ := List.mem_map.1 k2
      rcases hw.1 ⟨w, hwm, trivial, (hm' _ _).1 k3⟩ with ⟨w', h5, -, h6⟩ | ⟨r, y, h5, -, h6⟩
      · exact Or.inl ⟨w', h5, h6⟩
      · exact Or.inr ⟨y, List.mem_of_getElem? h5, h6⟩
    · intro h5
      have : ∃ w ∈ Spec.written h', True ∧ Meaning (labelEvents h') w.label (i, b) := by
        refine hw.2 ?_
        rcases h5 with ⟨w, h5, h6⟩ | ⟨y, h5, h6⟩
        · exact Or.inl ⟨w, h5, trivial, h6⟩
        · obtain ⟨r, h7, h8⟩ := List.mem_iff_getElem.1 h5
          exact Or.inr ⟨r, y, by rw [List.getElem?_eq_getElem h7, h8], trivial, h6⟩
      obtain ⟨w, hwm, -, h9⟩ := this
      exact ⟨_, _, hsk, List.mem_map.2 ⟨w, hwm, rfl⟩, (hm' _ _).2 h9⟩
  have hmat : ∀ p b, Matters D T'.labels.graph p b ↔
      ∃ i e, (registered h)[i]? = some e ∧ p = pathStr e.1 ∧ Mattered h X gs.out (i, b) := by
    intro p b
    unfold Matters
    constructor
    · rintro ⟨i, hp, hx⟩
      obtain ⟨e, k1, k2⟩ := (hpath i p).1 hp
      exact ⟨i, e, k1, k2.symm, (hone i b).1 hx⟩
    · rintro ⟨i, e, k1, k2, hx⟩
      exact ⟨i, (hpath i p).2 ⟨e, k1, k2.symm⟩, (hone i b).2 hx⟩
  have hgen : ∀ l x, Denotes T'.labels.graph l x → WasRead T'.labels.graph x.1 x.2 := by
    intro l x hx
    induction hx with
    | source hgr => exact ⟨_, _, hgr⟩
    | lower _ _ ih => exact ih
    | higher _ _ ih => exact ih
    | range _ _ _ _ ih => exact ih
  refine ⟨D, N, d, hD, h1, ?_, ?_, ?_⟩
  · intro p
    rw [h2]
    simp only [hopen]
  rotate_left
  · rintro ⟨i, b⟩ hb
    rcases (hone i b).2 hb with ⟨l, hgr⟩ | ⟨ss, s, -, -, k3⟩
    · exact (hread i b).1 ⟨l, true, hgr⟩
    · exact (hread i b).1 (hgen _ _ k3)
  · intro p rs hrs
    have h5 := h3 _ _ hrs
    have : (fun b => (∀ i L, Opening D T'.labels.graph p i → ExtentIs D T'.labels.graph i L → b < L) ∧
        ¬ Matters D T'.labels.graph p b) = Idle h (HasRead h src gs.pos) (Mattered h X gs.out) p := by
      funext b
      apply propext
      unfold Idle
      rw [hmat]
      constructor
      · rintro ⟨k1, k2⟩
        exact ⟨fun i e L k3 k4 => k1 i L ((hopen _ _).2 ⟨e, k3⟩) ((hext i e L k3.1).2 k4),
          fun i e k3 k4 k5 => k2 ⟨i, e, k3, k4, k5⟩⟩
      · rintro ⟨k1, k2⟩
        refine ⟨fun i L k3 k4 => ?_, fun ⟨i, e, k3, k4, k5⟩ => k2 i e k3 k4 k5⟩
        obtain ⟨e, k3⟩ := (hopen _ _).1 k3
        exact k1 i e L k3 ((hext i e L k3.1).1 k4)
    rw [this] at h5
    exact h5

/-- The extent of a file of which the first `n` bytes were read. -/
theorem isExtent_prefix {size n : Nat} {Q : Nat → Prop} (hQ : ∀ o, Q o ↔ o < n) (L : Nat) :
    IsExtent (if size = unknownSize then 0 else size) Q L ↔ L = extent size n := by
  have h0 : IsExtent (if size = unknownSize then 0 else size) Q (extent size n) := by
    constructor
    · refine ⟨?_, fun o ho => ?_⟩
      · rw [extent]; split <;> omega
      · have := (hQ o).1 ho
        rw [extent]; split <;> omega
    · rintro L' ⟨h5, h6⟩
      have h7 : n ≤ L' := by
        cases h8 : n with
        | zero => omega
        | succ m =>
          have := h6 m ((hQ m).2 (by omega))
          omega
      rw [extent]
      split at h5
      · rename_i hu; rw [if_pos hu]; exact h7
      · rename_i hu; rw [if_neg hu]; omega
  constructor
  · intro h5
    exact Nat.le_antisymm (h5.2 _ h0.1) (h0.2 _ h5.1)
  · rintro rfl; exact h0

/-- The same if nothing was read before: only the file `src` has cavities. -/
theorem cavities_fresh {out : List (Nat × (Nat × Nat → Prop))} {pos : Nat} {X : Nat × Nat → Prop}
    (hfresh : labelEvents h = []) {e : List Nat × Int × Nat} (hsrc : (registered h)[src]? = some e)
    (hX : ∀ b, Mattered h X out b → HasRead h src pos b) {d : Dict (List Nat) (List (Nat × Nat))}
    (h2 : ∀ p, (∃ rs, d.get p = some rs) ↔ ∃ i e, InUse h (HasRead h src pos) p i e)
    (h3 : ∀ p rs, d.get p = some rs → MaximalRuns rs (Idle h (HasRead h src pos) (Mattered h X out) p)) :
    (∀ p, (∃ rs, d.get p = some rs) ↔ 0 < pos ∧ p = pathStr e.1) ∧
      ∀ rs, d.get (pathStr e.1) = some rs → MaximalRuns rs fun b => b < extent e.2.2 pos ∧
        ¬ X (src, b) ∧ ∀ y ∈ out, ¬ y.2 (src, b) := by
  have hread : ∀ b, HasRead h src pos b ↔ b.1 = src ∧ b.2 < pos := by
    intro b
    constructor
    · rintro (⟨l, s, o, n, f, hm, -⟩ | h5)
      · rw [hfresh] at hm; simp at hm
      · exact h5
    · exact Or.inr
  have huse : ∀ p i e', InUse h (HasRead h src pos) p i e' ↔ 0 < pos ∧ i = src ∧ e' = e ∧ p = pathStr e.1 := by
    intro p i e'
    unfold InUse
    simp only [hread]
    constructor
    · rintro ⟨k1, k2, o, rfl, k3⟩
      rw [hsrc] at k1
      cases k1
      exact ⟨by omega, rfl, rfl, k2⟩
    · rintro ⟨k1, rfl, rfl, k2⟩
      exact ⟨hsrc, k2, 0, rfl, k1⟩
  have hmat : ∀ b, Mattered h X out (src, b) ↔ X (src, b) ∨ ∃ y ∈ out, y.2 (src, b) := by
    intro b
    unfold Mattered
    constructor
    · rintro (⟨bf, l, rest, h5, -⟩ | h5 | ⟨w, hw, hmw⟩ | h5)
      · rw [hfresh] at h5; simp at h5
      · exact Or.inl h5
      · rw [hfresh] at hmw
        simp [Meaning] at hmw
      · exact Or.inr h5
    · rintro (h5 | h5)
      · exact Or.inr (Or.inl h5)
      · exact Or.inr (Or.inr (Or.inr h5))
  constructor
  · intro p
    rw [h2]
    simp only [huse]
    constructor
    · rintro ⟨i, e', k1, -, -, k2⟩; exact ⟨k1, k2⟩
    · rintro ⟨k1, k2⟩; exact ⟨src, e, k1, rfl, rfl, k2⟩
  · intro rs hrs
    have h5 := h3 _ _ hrs
    obtain ⟨i, e', hi⟩ := (h2 _).1 ⟨rs, hrs⟩
    have hp := ((huse _ _ _).1 hi).1
    have : Idle h (HasRead h src pos) (Mattered h X out) (pathStr e.1) = fun b => b < extent e.2.2 pos ∧
        ¬ X (src, b) ∧ ∀ y ∈ out, ¬ y.2 (src, b) := by
      funext b
      apply propext
      unfold Idle
      have hx := isExtent_prefix (size := e.2.2) (n := pos) (Q := fun o => HasRead h src pos (src, o))
        (fun o => by rw [hread]; simp)
      constructor
      · rintro ⟨k1, k2⟩
        have k3 := k2 src e hsrc rfl
        rw [hmat] at k3
        exact ⟨k1 src e _ ((huse _ _ _).2 ⟨hp, rfl, rfl, rfl⟩) ((hx _).2 rfl), fun k => k3 (Or.inl k),
          fun y hy k => k3 (Or.inr ⟨y, hy, k⟩)⟩
      · rintro ⟨k1, k2, k3⟩
        refine ⟨?_, ?_⟩
        · intro i e' L k4 k5
          obtain ⟨-, rfl, rfl, -⟩ := (huse _ _ _).1 k4
          rw [(hx _).1 k5]; exact k1
        · intro i e' k4 k5 k6
          obtain ⟨rfl, -⟩ := (hread _).1 (hX _ k6)
          rcases (hmat b).1 k6 with k6 | ⟨y, hy, k6⟩
          · exact k2 k6
          · exact k3 y hy k6
    rw [this] at h5
    exact h5

/-- C52 (mapping): take any program accepted by the verifier, insert the reports of the taint-tracking pass
(any choice `C` of decisions), instrument it, link it with the runtime in any state the runtime can be in
(history `h`), with its streams registered as input `src` and output `snk`, and run it on any input, to any
moment. Unless there is no room for the labels, it does what the original program does; and if it is ended
there and its trace is read by Python, then the mapping relates byte `o` of file `p` to byte `r` of file `q`
exactly if it did before, or byte `r` of the output of the original program depends on byte `o` of `p`. -/
theorem C52_mapping (c : Config) (base : Nat) (hc : c.Ok base) (h : Trace) (T : Tracker)
    (hr : Tracker.Reach c base h T) (hu : ∀ n ∈ names h, utf8 n = true)
    (dom : Nat → Nat → Nat → Bool) (P : Prog) (hP : C47.Accepted dom P) (hP2 : C49.Accepted P)
    (hN : C49.NoHooks P) (C : Nat → Marks) (hC : ∀ f, ∃ lg cd, C f = taintTracking lg cd)
    (io : Io) (src snk : Nat) (hS : Streams h io src snk) (inp : World) (fn : Nat) (F : Func)
    (hF : P[fn]? = some F) (hne : F.blocks ≠ []) (args : List Nat) (mem : Mem) (hm : Spec.IsBytes mem)
    {tm : Nat → Nat × Nat → Prop} (hz : TaintedBy T.labels mem tm) (sp n : Nat) (o : Out (Nat × Nat → Prop))
    (gs : Glob (Nat × Nat → Prop)) (hs : Ir.run (sets src) P inp n (start (sets src) fn args mem sp tm) = o)
    (ho : globAfter o = some gs) (hpos : gs.pos < 2 ^ 54) (hbytes : ∀ y ∈ gs.out, y.1 < 256)
    (hlen : gs.out.length < 2 ^ 54) (hlog : (Spec.written h).length + gs.out.length ≤ c.sinkCap) :
    ∃ k, Does c (runCost plain P inp n (start plain fn args mem sp)) T
      (trun dom (pass C P) inp io k (istart (passFunc (C fn) F) fn args mem sp T.labels) T)
      (fun x => ∃ g, Stands o x.1 g ∧ g.out.map (·.1) = gs.out.map (·.1) ∧
        (x.2.labels.words.length + 64 ≤ c.indexCap → ∀ pads, ∃ D N d,
          parse (closed pads c base x.2) = some D ∧ (∀ fuel, N ≤ fuel → mapping D fuel = some d) ∧
          ∀ p o q r, Maps d (p, ((o : Nat) : Int)) (q, r) ↔
            Before h p o q r ∨ Depends h snk gs.out p o q r)) := by
  obtain ⟨k, hk⟩ := linked (C := C) (dom := dom) (inp := inp) hP hP2 hc hr hS hF hne hm hz hs ho hpos
    (fine hC hN hbytes hlen)
  rw [silent hC hN] at hk
  refine ⟨k, does hk ?_⟩
  rintro ⟨x, T'⟩ ⟨g, h', hst, hg, he, hl⟩
  refine ⟨g, hst, ?_, ?_⟩
  · have := hg.out
    generalize gs.out = ys at this
    generalize g.out = xs at this
    induction this with
    | nil => rfl
    | cons a _ ih => simp only [List.map_cons, a.1, ih]
  intro hroom pads
  exact mapping_read hc hr hu (g0 := (istart (passFunc (C fn) F) fn args mem sp T.labels).glob) rfl hg he hl hlog
    hroom pads

/-- C52 (cavities, any history): Python lists cavities for the paths of which something was read, before or by
the program, and they are the maximal runs of bytes that lie in every file of the path and on which no decision
and no output byte depends, neither one before nor one of the original program. -/
theorem C52_cavities_any (c : Config) (base : Nat) (hc : c.Ok base) (h : Trace) (T : Tracker)
    (hr : Tracker.Reach c base h T) (hu : ∀ n ∈ names h, utf8 n = true)
    (dom : Nat → Nat → Nat → Bool) (P : Prog) (hP : C47.Accepted dom P) (hP2 : C49.Accepted P)
    (hN : C49.NoHooks P) (C : Nat → Marks) (hC : ∀ f, ∃ lg cd, C f = taintTracking lg cd)
    (io : Io) (src snk : Nat) (hS : Streams h io src snk) (inp : World) (fn : Nat) (F : Func)
    (hF : P[fn]? = some F) (hne : F.blocks ≠ []) (args : List Nat) (mem : Mem) (hm : Spec.IsBytes mem)
    {tm : Nat → Nat × Nat → Prop} (hz : TaintedBy T.labels mem tm) (sp n : Nat) (o : Out (Nat × Nat → Prop))
    (gs : Glob (Nat × Nat → Prop)) (hs : Ir.run (sets src) P inp n (start (sets src) fn args mem sp tm) = o)
    (ho : globAfter o = some gs) (hpos : gs.pos < 2 ^ 54) (hbytes : ∀ y ∈ gs.out, y.1 < 256)
    (hlen : gs.out.length < 2 ^ 54) (hlog : (Spec.written h).length + gs.out.length ≤ c.sinkCap) :
    ∃ k, Does c (runCost plain P inp n (start plain fn args mem sp)) T
      (trun dom (pass C P) inp io k (istart (passFunc (C fn) F) fn args mem sp T.labels) T)
      (fun x => ∃ g, Stands o x.1 g ∧
        (x.2.labels.words.length + 64 ≤ c.indexCap → ∀ pads, ∃ D N d,
          parse (closed pads c base x.2) = some D ∧ (∀ fuel, N ≤ fuel → fileCavities D fuel = some d) ∧
          (∀ p, (∃ rs, d.get p = some rs) ↔ ∃ i e, InUse h (HasRead h src gs.pos) p i e) ∧
          ∀ p rs, d.get p = some rs → MaximalRuns rs (Idle h (HasRead h src gs.pos)
            (Mattered h (C51.Decided C P inp src n (start (sets src) fn args mem sp tm)) gs.out) p))) := by
  obtain ⟨k, hk⟩ := linked (C := C) (dom := dom) (inp := inp) hP hP2 hc hr hS hF hne hm hz hs ho hpos
    (fine hC hN hbytes hlen)
  rw [silent hC hN] at hk
  refine ⟨k, does hk ?_⟩
  rintro ⟨x, T'⟩ ⟨g, h', hst, hg, he, hl⟩
  refine ⟨g, hst, ?_⟩
  intro hroom pads
  obtain ⟨D, N, d, h1, h2, h3, h4, -⟩ := cavities_any hc hr hu
    (g0 := (istart (passFunc (C fn) F) fn args mem sp T.labels).glob) rfl hg
    he hl (C51.flags_pass hc.lab0 hc.lab (hr.sim hc).lab.reach rfl he hC hN hg) hlog hroom pads
  exact ⟨D, N, d, h1, h2, h3, h4⟩

/-- C52 (cavities): the same, when nothing was read before. If the program has read anything, Python lists
cavities for the input file and for no other, and they are the maximal runs of the bytes of the file on which
no decision and no output byte of the original program depends. -/
theorem C52_cavities (c : Config) (base : Nat) (hc : c.Ok base) (h : Trace) (T : Tracker)
    (hr : Tracker.Reach c base h T) (hu : ∀ n ∈ names h, utf8 n = true) (hfresh : labelEvents h = [])
    (dom : Nat → Nat → Nat → Bool) (P : Prog) (hP : C47.Accepted dom P) (hP2 : C49.Accepted P)
    (hN : C49.NoHooks P) (C : Nat → Marks) (hC : ∀ f, ∃ lg cd, C f = taintTracking lg cd)
    (io : Io) (src snk : Nat) (hS : Streams h io src snk) (e : List Nat × Int × Nat)
    (hsrc : (registered h)[src]? = some e) (inp : World) (fn : Nat) (F : Func)
    (hF : P[fn]? = some F) (hne : F.blocks ≠ []) (args : List Nat) (mem : Mem) (hm : Spec.IsBytes mem)
    {tm : Nat → Nat × Nat → Prop} (hz : TaintedBy T.labels mem tm) (sp n : Nat) (o : Out (Nat × Nat → Prop))
    (gs : Glob (Nat × Nat → Prop)) (hs : Ir.run (sets src) P inp n (start (sets src) fn args mem sp tm) = o)
    (ho : globAfter o = some gs) (hpos : gs.pos < 2 ^ 54) (hbytes : ∀ y ∈ gs.out, y.1 < 256)
    (hlen : gs.out.length < 2 ^ 54) (hlog : (Spec.written h).length + gs.out.length ≤ c.sinkCap) :
    ∃ k, Does c (runCost plain P inp n (start plain fn args mem sp)) T
      (trun dom (pass C P) inp io k (istart (passFunc (C fn) F) fn args mem sp T.labels) T)
      (fun x => ∃ g, Stands o x.1 g ∧
        (x.2.labels.words.length + 64 ≤ c.indexCap → ∀ pads, ∃ D N d,
          parse (closed pads c base x.2) = some D ∧ (∀ fuel, N ≤ fuel → fileCavities D fuel = some d) ∧
          (∀ p, (∃ rs, d.get p = some rs) ↔ 0 < gs.pos ∧ p = pathStr e.1) ∧
          ∀ rs, d.get (pathStr e.1) = some rs → MaximalRuns rs fun b => b < extent e.2.2 gs.pos ∧
            ¬ C51.Decided C P inp src n (start (sets src) fn args mem sp tm) (src, b) ∧
            ∀ y ∈ gs.out, ¬ y.2 (src, b))) := by
  obtain ⟨k, hk⟩ := linked (C := C) (dom := dom) (inp := inp) hP hP2 hc hr hS hF hne hm hz hs ho hpos
    (fine hC hN hbytes hlen)
  rw [silent hC hN] at hk
  refine ⟨k, does hk ?_⟩
  rintro ⟨x, T'⟩ ⟨g, h', hst, hg, he, hl⟩
  refine ⟨g, hst, ?_⟩
  intro hroom pads
  obtain ⟨D, N, d, h1, h2, h3, h4, h5⟩ := cavities_any hc hr hu
    (g0 := (istart (passFunc (C fn) F) fn args mem sp T.labels).glob) rfl hg
    he hl (C51.flags_pass hc.lab0 hc.lab (hr.sim hc).lab.reach rfl he hC hN hg) hlog hroom pads
  exact ⟨D, N, d, h1, h2, cavities_fresh hfresh hsrc h5 h3 h4⟩

/-! ### An example -/

/-- Reads four bytes, branches on the sum of the first two and, if it is even, outputs the third. -/
def mainF : Func where
  nparams := 0
  void := false
  blocks := [
    ⟨[], [.getc, .getc, .getc, .getc, .op (fun xs => xs.sum) [.reg (.ins 0 0), .reg (.ins 0 1)]],
      .br (.reg (.ins 0 4)) (fun v => v % 2) [1, 2]⟩,
    ⟨[], [.putc (.reg (.ins 0 2))], .br (.const 0) (fun _ => 0) [2]⟩,
    ⟨[], [], .ret (some (.const 0))⟩]

def prog : Prog := [mainF]

/-- The file "a" of six bytes is opened for reading and "b" for writing. -/
def opens : List Call := [.openFile 3 [97] (some 6), .openFile 4 [98] none]

def exIo : Io := ⟨3, 4, true, false⟩

/-- What Python computes from the trace of the example on the input `1, 1, 1, 1`. -/
def answer : Option (List ((List Nat × Int) × List (List Nat × Int)) × List (List Nat × List (Nat × Nat))) :=
  (Tracker.run exCfg 4096 opens).bind fun p =>
    match trun C47.dom0 (pass C51.marks prog) (.file [1, 1, 1, 1, 1, 1]) exIo 30
        (istart (passFunc (C51.marks 0) mainF) 0 [] (fun _ => 0) 0 p.1.labels) p.1 with
    | .ok (.done _ _ _, T) => (parse (closed zeroPads exCfg 4096 T)).bind fun F =>
      (mapping F 20).bind fun m => (fileCavities F 20).map fun d => (m, d)
    | _ => none

/-- Byte 2 of "a" goes to byte 0 of "b"; bytes 3, 4 and 5 are a cavity. -/
example : answer.map (·.1) = some [(([97], 2), [([98], 0)])] ∧ answer.map (·.2) = some [([97], [(3, 6)])] := by
  decide +kernel

/-- Reads up to 8 bytes into memory and one byte more, puts the sum of the first byte and the third in place of
the second, branches on the fourth, and writes three of the bytes in memory. -/
def blockF : Func where
  nparams := 0
  void := false
  blocks := [
    ⟨[], [.read (.const C47.a0) (.const 8), .getc, .load (.const C47.a0) 1, .load (.const (C47.a0 + 2)) 1,
      .op (fun xs => xs.sum) [.reg (.ins 0 2), .reg (.ins 0 3)],
      .store (.const (C47.a0 + 1)) (.reg (.ins 0 4)) 1, .load (.const (C47.a0 + 3)) 1],
      .br (.reg (.ins 0 6)) (fun v => v % 2) [1, 2]⟩,
    ⟨[], [.write (.const C47.a0) (.const 3)], .br (.const 0) (fun _ => 0) [2]⟩,
    ⟨[], [], .ret (some (.const 0))⟩]

/-- What Python computes from its trace on a file of six bytes. -/
def blockAnswer :
    Option (List ((List Nat × Int) × List (List Nat × Int)) × List (List Nat × List (Nat × Nat))) :=
  (Tracker.run exCfg 4096 opens).bind fun p =>
    match trun C47.dom0 (pass C51.marks [blockF]) (.file [1, 2, 3, 4, 5, 6]) exIo 30
        (istart (passFunc (C51.marks 0) blockF) 0 [] (fun _ => 0) 0 p.1.labels) p.1 with
    | .ok (.done _ _ _, T) => (parse (closed zeroPads exCfg 4096 T)).bind fun F =>
      (mapping F 20).bind fun m => (fileCavities F 20).map fun d => (m, d)
    | _ => none

/-- Bytes 0 and 2 of "a" go to byte 1 of "b", and each to its own place; byte 3 is decided on; bytes 1, 4 and 5
are cavities. -/
example : blockAnswer.map (·.1) =
      some [(([97], 0), [([98], 1), ([98], 0)]), (([97], 2), [([98], 2), ([98], 1)])] ∧
    blockAnswer.map (·.2) = some [([97], [(1, 2), (4, 6)])] := by
  decide +kernel

theorem prog_accepted : C47.Accepted C47.dom0 prog := by
  intro fn F hF
  match fn, hF with
  | 0, hF => cases hF; exact ⟨(Func.check_valid (by decide)).1, by decide, C47.dom0_sound 0 _⟩
  | n + 1, hF => cases hF

theorem prog_ok : C49.Accepted prog ∧ C49.NoHooks prog := by
  constructor
  · intro f F hF b B hB
    match f, hF with
    | 0, hF =>
      cases hF
      match b, hB with
      | 0, hB => cases hB; decide
      | 1, hB => cases hB; decide
      | 2, hB => cases hB; decide
      | n + 3, hB => cases hB
    | n + 1, hF => cases hF
  · intro f F b B j k v hF hB h
    have hm := List.mem_of_getElem? h
    match f, hF with
    | 0, hF =>
      cases hF
      match b, hB with
      | 0, hB => cases hB; simp at hm
      | 1, hB => cases hB; simp at hm
      | 2, hB => cases hB; simp at hm
      | n + 3, hB => cases hB
    | n + 1, hF => cases hF

/-- The hypotheses are met by the example. -/
example : ∃ (h : Trace) (T : Tracker) (e : List Nat × Int × Nat), exCfg.Ok 4096 ∧ Tracker.Reach exCfg 4096 h T ∧
    (∀ n ∈ names h, utf8 n = true) ∧ labelEvents h = [] ∧ C47.Accepted C47.dom0 prog ∧ C49.Accepted prog ∧
    C49.NoHooks prog ∧ (∀ f, ∃ lg cd, C51.marks f = taintTracking lg cd) ∧ Streams h exIo 0 1 ∧
    (registered h)[0]? = some e ∧
    ∃ v gs, Ir.run (sets 0) prog (.file [1, 1, 1, 1, 1, 1]) 20 (start (sets 0) 0 [] (fun _ => 0) 0) = .done v gs ∧
      globAfter (.done v gs) = some gs ∧ gs.pos < 2 ^ 54 ∧ (∀ y ∈ gs.out, y.1 < 256) ∧ gs.out.length < 2 ^ 54 ∧
      (Spec.written h).length + gs.out.length ≤ exCfg.sinkCap := by
  have hrun : (Tracker.run exCfg 4096 opens).isSome = true := by decide +kernel
  obtain ⟨⟨T, h⟩, hx⟩ := Option.isSome_iff_exists.1 hrun
  have key : (match Tracker.run exCfg 4096 opens with
      | none => false
      | some (T, h) => decide ((∀ n ∈ names h, utf8 n = true) ∧ labelEvents h = [] ∧ owner h 3 = some 0 ∧
        owner h 4 = some 1 ∧ writePos h 1 = 0 ∧ (registered h)[0]? = some ([97], 3, 6) ∧
        Spec.written h = [])) = true := by decide +kernel
  rw [hx] at key
  simp only [decide_eq_true_eq] at key
  obtain ⟨k1, k2, k3, k4, k5, k6, k7⟩ := key
  obtain ⟨v, gs, h1, h2, h3⟩ : ∃ v gs, Ir.run (sets 0) prog (.file [1, 1, 1, 1, 1, 1]) 20 (start (sets 0) 0 [] (fun _ => 0) 0) =
      .done v gs ∧ gs.pos = 4 ∧ gs.out.map (·.1) = [1] := ⟨_, _, rfl, rfl, rfl⟩
  have h4 : gs.out.length = 1 := by simpa using congrArg List.length h3
  refine ⟨h, T, _, exCfg_ok, run_reach hx, k1, k2, prog_accepted, prog_ok.1, prog_ok.2,
    fun _ => ⟨_, _, rfl⟩, ⟨k3, k4, (by intro h; cases h), fun _ => k5⟩, k6, v, gs, h1, rfl, by omega, ?_,
    by omega, by rw [k7, h4]; decide⟩
  intro y hy
  have : y.1 ∈ gs.out.map (·.1) := List.mem_map.2 ⟨y, hy, rfl⟩
  rw [h3, List.mem_singleton] at this
  omega

end C52
end Verif
