import Verif.Props.C20
import Verif.StreamConc
/- C21: stream reads and writes are numbered without gaps or overlaps. -/
namespace Verif
open Spec Tracker

/-! ### Specification: the stream operations of a history -/
namespace Spec

/-- `StreamRead h i h1 len first`: in history `h`, after the calls `h1`, there was a read of `len`
bytes from input `i` at its stream position, whose labels start at `first`. -/
def StreamRead (h : Trace) (i : Nat) (h1 : Trace) (len first : Nat) : Prop :=
  ∃ h2 fd addr last, h = h2 ++ (.read fd addr none len, .range (some (first, last))) :: h1 ∧
    owner h1 fd = some i

/-- `StreamWrite h i h1 len lab`: in history `h`, after the calls `h1`, there was a write of `len`
bytes to output `i` at its stream position; byte `k` of it had label `lab k`. -/
def StreamWrite (h : Trace) (i : Nat) (h1 : Trace) (len : Nat) (lab : Nat → Nat) : Prop :=
  (∃ h2 fd addr r, h = h2 ++ (.write fd none addr len, r) :: h1 ∧ owner h1 fd = some i ∧
    lab = fun k => labelAt h1 (addr + k)) ∨
  (∃ h2 fd l r, h = h2 ++ (.writeLabel fd none l len, r) :: h1 ∧ owner h1 fd = some i ∧
    lab = fun _ => l)

theorem readPos_cons_le (x : Call × Ret) (h : Trace) (i : Nat) : readPos h i ≤ readPos (x :: h) i := by
  obtain ⟨cl, r⟩ := x
  cases cl with
  | read fd a off len =>
    cases off with
    | none => simp only [readPos]; omega
    | some o => exact Nat.le_refl _
  | _ => exact Nat.le_refl _

theorem readPos_mono (h2 h1 : Trace) (i : Nat) : readPos h1 i ≤ readPos (h2 ++ h1) i := by
  induction h2 with
  | nil => exact Nat.le_refl _
  | cons x h2 ih => exact Nat.le_trans ih (readPos_cons_le x _ i)

theorem writePos_cons_le (x : Call × Ret) (h : Trace) (i : Nat) : writePos h i ≤ writePos (x :: h) i := by
  obtain ⟨cl, r⟩ := x
  cases cl with
  | write fd off addr len =>
    cases off with
    | none => simp only [writePos]; omega
    | some o => exact Nat.le_refl _
  | writeLabel fd off l len =>
    cases off with
    | none => simp only [writePos]; omega
    | some o => exact Nat.le_refl _
  | _ => exact Nat.le_refl _

theorem writePos_mono (h2 h1 : Trace) (i : Nat) : writePos h1 i ≤ writePos (h2 ++ h1) i := by
  induction h2 with
  | nil => exact Nat.le_refl _
  | cons x h2 ih => exact Nat.le_trans ih (writePos_cons_le x _ i)

theorem StreamRead.next {h h1 : Trace} {i len first : Nat} (hs : StreamRead h i h1 len first) :
    ∃ h2 x, h = h2 ++ x :: h1 ∧ readPos (x :: h1) i = readPos h1 i + len := by
  obtain ⟨h2, fd, addr, last, e, ho⟩ := hs
  exact ⟨h2, _, e, by simp [readPos, ho]⟩

theorem StreamWrite.next {h h1 : Trace} {i len : Nat} {lab : Nat → Nat} (hs : StreamWrite h i h1 len lab) :
    ∃ h2 x, h = h2 ++ x :: h1 ∧ writePos (x :: h1) i = writePos h1 i + len := by
  rcases hs with ⟨h2, fd, addr, r, e, ho, -⟩ | ⟨h2, fd, l, r, e, ho, -⟩
  · exact ⟨h2, _, e, by simp [writePos, ho]⟩
  · exact ⟨h2, _, e, by simp [writePos, ho]⟩

/-- Two positions in one history: the same, or one after the other. -/
theorem split_cases {α : Type} {a b c d : List α} {x y : α} (h : a ++ x :: b = c ++ y :: d) :
    (x = y ∧ b = d) ∨ (∃ m, b = m ++ y :: d) ∨ (∃ m, d = m ++ x :: b) := by
  induction a generalizing c with
  | nil =>
    cases c with
    | nil => simp at h; exact Or.inl h
    | cons z c => simp at h; exact Or.inr (Or.inl ⟨c, h.2⟩)
  | cons w a ih =>
    cases c with
    | nil => simp at h; exact Or.inr (Or.inr ⟨a, h.2.symm⟩)
    | cons z c => simp at h; exact ih h.2

theorem StreamRead.later {h h1 : Trace} {x : Call × Ret} {i len first : Nat}
    (hs : StreamRead h i h1 len first) : StreamRead (x :: h) i h1 len first := by
  obtain ⟨h2, fd, addr, last, e, ho⟩ := hs
  exact ⟨x :: h2, fd, addr, last, by rw [e]; rfl, ho⟩

theorem StreamWrite.later {h h1 : Trace} {x : Call × Ret} {i len : Nat} {lab : Nat → Nat}
    (hs : StreamWrite h i h1 len lab) : StreamWrite (x :: h) i h1 len lab := by
  rcases hs with ⟨h2, fd, addr, r, e, ho, hl⟩ | ⟨h2, fd, l, r, e, ho, hl⟩
  · exact Or.inl ⟨x :: h2, fd, addr, r, by rw [e]; rfl, ho, hl⟩
  · exact Or.inr ⟨x :: h2, fd, l, r, by rw [e]; rfl, ho, hl⟩

end Spec

/-! ### Reads -/

/-- A stream read of `len` bytes covers exactly the offsets `readPos .. readPos+len-1`, where `readPos`
is the number of bytes of that input read by the stream reads before it: its labels denote these
bytes, now and in every later state. -/
theorem C21_read_offsets (c : Config) (base : Nat) (hc : c.Ok base) (h : Trace) (T : Tracker)
    (hr : Reach c base h T) (i : Nat) (h1 : Trace) (len first : Nat)
    (hs : StreamRead h i h1 len first) :
    ∀ k, k < len → ∀ b, Denotes T.labels.graph (first + k) b ↔ b = (i, readPos h1 i + k) := by
  obtain ⟨h2, fd, addr, last, rfl, ho⟩ := hs
  intro k hk b
  obtain ⟨T1, hr1⟩ := Reach.suffix h2 hr
  obtain ⟨T0, hr0, ha, he⟩ := hr1.cons_inv
  rcases hr0.read hc ha he with ⟨h3, -⟩ | ⟨j, h3, -, h5, -, h7⟩
  · rw [ho] at h3; cases h3
  · rw [ho] at h3; cases h3
    have hf : first = T0.labels.words.length := by cases h5; rfl
    obtain ⟨s, off, n, f, h8, h9⟩ := h7 k hk
    have hg : GivenTo (labelEvents (h2 ++ (Call.read fd addr none len, Ret.range (some (first, last))) :: h1))
        (T0.labels.words.length + k) (i, readPos h1 i + k) :=
      ⟨s, off, n, f, labelEvents_mem h2 h8, h9⟩
    rw [hf]
    exact (hr.given hc hg).2.2 b

/-- The ranges of two stream reads of the same input are equal (it is the same read) or disjoint,
the earlier read having the smaller offsets. -/
theorem C21_reads_disjoint (h : Trace) (i : Nat) (h1 h1' : Trace) (len len' first first' : Nat)
    (hs : StreamRead h i h1 len first) (hs' : StreamRead h i h1' len' first') :
    (h1 = h1' ∧ len = len' ∧ first = first') ∨ readPos h1 i + len ≤ readPos h1' i ∨
      readPos h1' i + len' ≤ readPos h1 i := by
  obtain ⟨h2, x, e, hx⟩ := hs.next
  obtain ⟨h2', x', e', hx'⟩ := hs'.next
  rcases split_cases (e.symm.trans e') with ⟨-, rfl⟩ | ⟨m, rfl⟩ | ⟨m, rfl⟩
  · left
    obtain ⟨g2, fd, addr, last, e, ho⟩ := hs
    obtain ⟨g2', fd', addr', last', e', ho'⟩ := hs'
    rcases split_cases (e.symm.trans e') with ⟨h3, -⟩ | ⟨m, h3⟩ | ⟨m, h3⟩
    · cases h3; exact ⟨rfl, rfl, rfl⟩
    · have := congrArg List.length h3; simp at this; omega
    · have := congrArg List.length h3; simp at this; omega
  · exact Or.inr (Or.inr (hx' ▸ readPos_mono m _ i))
  · exact Or.inr (Or.inl (hx ▸ readPos_mono m _ i))

/-- The stream reads of an input leave no gaps: every offset below the stream position belongs to one
of them, and none goes beyond it. -/
theorem C21_reads_cover (c : Config) (base : Nat) (hc : c.Ok base) (h : Trace) (T : Tracker)
    (hr : Reach c base h T) (i o : Nat) :
    o < readPos h i ↔ ∃ h1 len first, StreamRead h i h1 len first ∧ readPos h1 i ≤ o ∧ o < readPos h1 i + len := by
  constructor
  · intro ho
    induction h generalizing T with
    | nil => simp [readPos] at ho
    | cons x h ih =>
      obtain ⟨cl, r⟩ := x
      obtain ⟨T0, hr0, ha, he⟩ := hr.cons_inv
      by_cases hlt : o < readPos h i
      · obtain ⟨h1, len, first, h2, h3⟩ := ih T0 hr0 hlt
        exact ⟨h1, len, first, h2.later, h3⟩
      · cases cl with
        | read fd a off len =>
          cases off with
          | none =>
            simp only [readPos] at ho
            by_cases hown : owner h fd = some i
            · rw [if_pos hown] at ho
              rcases hr0.read hc ha he with ⟨h3, -⟩ | ⟨j, h3, h4, h5, -⟩
              · rw [hown] at h3; cases h3
              · exact ⟨h, len, _, ⟨[], fd, a, _, by rw [h5]; rfl, hown⟩, by omega, ho⟩
            · rw [if_neg hown] at ho; omega
          | some _ => exact absurd ho hlt
        | _ => exact absurd ho hlt
  · rintro ⟨h1, len, first, hs, h3, h4⟩
    obtain ⟨h2, x, e, hx⟩ := hs.next
    have := readPos_mono h2 (x :: h1) i
    rw [← e] at this; omega

/-! ### Writes -/

/-- The bytes of a stream write are recorded at the offsets `writePos .. writePos+len-1`, where
`writePos` is the number of bytes written before to that output by stream writes (provided the sink
log had room for all records). -/
theorem C21_write_offsets (c : Config) (base : Nat) (hc : c.Ok base) (h : Trace) (T : Tracker)
    (hr : Reach c base h T) (hroom : (written h).length ≤ c.sinkCap) (i : Nat) (h1 : Trace) (len : Nat)
    (lab : Nat → Nat) (hs : StreamWrite h i h1 len lab) :
    ∀ k, k < len → lab k ≠ 0 → ⟨writePos h1 i + k, lab k, i⟩ ∈ T.sinks := by
  intro k hk hl
  have hsim := hr.sim hc
  have hmem : OutByte.mk i (writePos h1 i + k) (lab k) ∈ written h := by
    have hpre : ∀ (h2 h : Trace) (b : OutByte), b ∈ written h → b ∈ written (h2 ++ h) := by
      intro h2
      induction h2 with
      | nil => intro h b hb; exact hb
      | cons x h2 ih =>
        intro h b hb
        have := ih h b hb
        rw [List.cons_append]
        obtain ⟨cl, r⟩ := x
        cases cl with
        | write fd off addr n =>
          simp only [written]
          cases owner (h2 ++ h) fd with
          | none => exact this
          | some j => exact List.mem_append_left _ this
        | writeLabel fd off l n =>
          simp only [written]
          cases owner (h2 ++ h) fd with
          | none => exact this
          | some j => exact List.mem_append_left _ this
        | _ => exact this
    rcases hs with ⟨h2, fd, addr, r, rfl, ho, rfl⟩ | ⟨h2, fd, l, r, rfl, ho, rfl⟩
    · apply hpre
      simp only [written, ho]
      apply List.mem_append_right
      simp only [tainted, List.mem_map, List.mem_filter, List.mem_range]
      exact ⟨k, ⟨hk, by simpa using hl⟩, rfl⟩
    · apply hpre
      simp only [written, ho]
      apply List.mem_append_right
      simp only [tainted, List.mem_map, List.mem_filter, List.mem_range]
      exact ⟨k, ⟨hk, by simpa using hl⟩, rfl⟩
  rw [hsim.sinks, List.take_of_length_le hroom]
  exact List.mem_map.2 ⟨_, hmem, rfl⟩

/-- The ranges of two stream writes to the same output are equal (same write) or disjoint, in order. -/
theorem C21_writes_disjoint (h : Trace) (i : Nat) (h1 h1' : Trace) (len len' : Nat)
    (lab lab' : Nat → Nat) (hs : StreamWrite h i h1 len lab) (hs' : StreamWrite h i h1' len' lab') :
    (h1 = h1' ∧ len = len') ∨ writePos h1 i + len ≤ writePos h1' i ∨
      writePos h1' i + len' ≤ writePos h1 i := by
  obtain ⟨h2, x, e, hx⟩ := hs.next
  obtain ⟨h2', x', e', hx'⟩ := hs'.next
  rcases split_cases (e.symm.trans e') with ⟨rfl, rfl⟩ | ⟨m, rfl⟩ | ⟨m, rfl⟩
  · left; exact ⟨rfl, by omega⟩
  · exact Or.inr (Or.inr (hx' ▸ writePos_mono m _ i))
  · exact Or.inr (Or.inl (hx ▸ writePos_mono m _ i))

/-- The stream writes of an output leave no gaps. -/
theorem C21_writes_cover (h : Trace) (i o : Nat) :
    o < writePos h i ↔ ∃ h1 len lab, StreamWrite h i h1 len lab ∧ writePos h1 i ≤ o ∧ o < writePos h1 i + len := by
  constructor
  · intro ho
    induction h with
    | nil => simp [writePos] at ho
    | cons x h ih =>
      obtain ⟨cl, r⟩ := x
      by_cases hlt : o < writePos h i
      · obtain ⟨h1, len, lab, h2, h3⟩ := ih hlt
        exact ⟨h1, len, lab, h2.later, h3⟩
      · cases cl with
        | write fd off a len =>
          cases off with
          | none =>
            simp only [writePos] at ho
            by_cases hown : owner h fd = some i
            · rw [if_pos hown] at ho
              exact ⟨h, len, _, Or.inl ⟨[], fd, a, r, rfl, hown, rfl⟩, by omega, ho⟩
            · rw [if_neg hown] at ho; omega
          | some _ => exact absurd ho hlt
        | writeLabel fd off l len =>
          cases off with
          | none =>
            simp only [writePos] at ho
            by_cases hown : owner h fd = some i
            · rw [if_pos hown] at ho
              exact ⟨h, len, _, Or.inr ⟨[], fd, l, r, rfl, hown, rfl⟩, by omega, ho⟩
            · rw [if_neg hown] at ho; omega
          | some _ => exact absurd ho hlt
        | _ => exact absurd ho hlt
  · rintro ⟨h1, len, lab, hs, h3, h4⟩
    obtain ⟨h2, x, e, hx⟩ := hs.next
    have := writePos_mono h2 (x :: h1) i
    rw [← e] at this; omega

/-! ### Concurrent streams -/
namespace Stream

/-- Bytes requested from source `idx` by completed calls. -/
def total (log : List Done) (idx : Nat) : Nat :=
  ((log.filter fun d => d.idx = idx).map fun d => d.len).sum

/-- The calls thread `t` has completed, in order. -/
def doneBy (log : List Done) (t : Nat) : List (Nat × Nat) :=
  (log.filter fun d => d.thread = t).map fun d => (d.idx, d.len)

theorem total_snoc (log : List Done) (d : Done) (idx : Nat) :
    total (log ++ [d]) idx = total log idx + if d.idx = idx then d.len else 0 := by
  simp only [total, List.filter_append, List.map_append, List.sum_append]
  by_cases h : d.idx = idx <;> simp [h]

theorem doneBy_snoc (log : List Done) (d : Done) (t : Nat) :
    doneBy (log ++ [d]) t = doneBy log t ++ if d.thread = t then [(d.idx, d.len)] else [] := by
  simp only [doneBy, List.filter_append, List.map_append]
  by_cases h : d.thread = t <;> simp [h]

theorem total_append_le (a b : List Done) (idx : Nat) : total a idx ≤ total (a ++ b) idx := by
  simp [total]

theorem steps_inv {progs : Nat → List (Nat × Nat)} {s : State} (h : Steps (start progs) s) :
    (∀ idx, s.offs idx = total s.log idx % 2 ^ 64) ∧
    (∀ t, doneBy s.log t ++ s.todo t = progs t) ∧
    (∀ a d b, s.log = a ++ d :: b → d.start = total a d.idx % 2 ^ 64) := by
  generalize hs0 : start progs = s0 at h
  induction h with
  | refl =>
    subst hs0
    refine ⟨fun _ => rfl, fun _ => rfl, fun a d b h => ?_⟩
    simp [start] at h
  | @tail s' s'' hst hstep ih =>
    obtain ⟨i1, i2, i3⟩ := ih
    cases hstep with
    | @call t idx len rest offs' o ht hinc =>
      simp only [Tracker.increase] at hinc
      split at hinc
      · cases hinc
      · cases hinc
        refine ⟨fun j => ?_, fun u => ?_, fun a d b h => ?_⟩
        · simp only [total_snoc]
          by_cases hj : j = idx
          · subst hj; simp [i1, Nat.add_mod]
          · simp [hj, Ne.symm hj, i1]
        · simp only [doneBy_snoc]
          by_cases hu : u = t
          · subst hu; simp [← i2, ht]
          · simp [hu, Ne.symm hu, i2]
        · rcases List.eq_nil_or_concat b with rfl | ⟨b', e, rfl⟩
          · have := List.append_inj' h rfl
            obtain ⟨rfl, h2⟩ := this
            cases h2
            exact i1 idx
          · have h' : s'.log ++ [⟨t, idx, s'.offs idx, len⟩] = (a ++ d :: b') ++ [e] := by
              exact Eq.trans h (by simp)
            exact i3 a d b' (List.append_inj' h' rfl).1

end Stream

/-- Under every interleaving of threads taking stream ranges: each completed call got the range that
starts where the previous ranges of that source end, so the ranges of one source are disjoint and
gap-free in completion order; every thread got its calls answered in its own order. (Fewer than 2^64
bytes per source.) -/
theorem C21_concurrent (progs : Nat → List (Nat × Nat)) (s : Stream.State)
    (h : Stream.Steps (Stream.start progs) s) (hsmall : ∀ idx, Stream.total s.log idx < 2 ^ 64) :
    (∀ a d b, s.log = a ++ d :: b → d.start = Stream.total a d.idx) ∧
    (∀ a d m d' b, s.log = a ++ d :: m ++ d' :: b → d.idx = d'.idx → d.start + d.len ≤ d'.start) ∧
    (∀ idx o, o < Stream.total s.log idx ↔ ∃ d ∈ s.log, d.idx = idx ∧ d.start ≤ o ∧ o < d.start + d.len) ∧
    (∀ t, Stream.doneBy s.log t ++ s.todo t = progs t) := by
  obtain ⟨-, i2, i3⟩ := Stream.steps_inv h
  have k : ∀ a d b, s.log = a ++ d :: b → d.start = Stream.total a d.idx := by
    intro a d b e
    have h1 := i3 a d b e
    have h2 := hsmall d.idx
    rw [e] at h2
    have h3 := Stream.total_append_le a (d :: b) d.idx
    rwa [Nat.mod_eq_of_lt (by omega)] at h1
  refine ⟨k, ?_, ?_, i2⟩
  · intro a d m d' b e hi
    have k1 := k a d (m ++ d' :: b) (by rw [e]; simp)
    have k2 := k (a ++ d :: m) d' b e
    have h3 := Stream.total_append_le (a ++ [d]) m d.idx
    rw [Stream.total_snoc, if_pos rfl] at h3
    have e2 : a ++ [d] ++ m = a ++ d :: m := by simp
    rw [e2] at h3
    rw [k2, ← hi, k1]; exact h3
  · intro idx o
    constructor
    · intro ho
      have : ∀ (l : List Stream.Done), o < Stream.total l idx →
          ∃ a d b, l = a ++ d :: b ∧ d.idx = idx ∧ Stream.total a idx ≤ o ∧ o < Stream.total a idx + d.len := by
        intro l
        induction hn : l.length generalizing l with
        | zero => intro ho; rw [List.length_eq_zero_iff] at hn; subst hn; simp [Stream.total] at ho
        | succ n ih =>
          rcases List.eq_nil_or_concat l with rfl | ⟨l', d, rfl⟩
          · simp at hn
          · intro ho
            by_cases hlt : o < Stream.total l' idx
            · obtain ⟨a, d', b, rfl, h4⟩ := ih l' (by simpa using hn) hlt
              exact ⟨a, d', b ++ [d], by simp, h4⟩
            · rw [List.concat_eq_append, Stream.total_snoc] at ho
              by_cases hd : d.idx = idx
              · rw [if_pos hd] at ho
                exact ⟨l', d, [], by simp, hd, by omega, ho⟩
              · rw [if_neg hd] at ho; omega
      obtain ⟨a, d, b, e, hd, h5, h6⟩ := this _ ho
      have := k a d b e
      refine ⟨d, by rw [e]; simp, hd, ?_, ?_⟩ <;> rw [this, hd] <;> assumption
    · rintro ⟨d, hm, hd, h5, h6⟩
      obtain ⟨a, b, e⟩ := List.append_of_mem hm
      have k1 := k a d b e
      have h3 := Stream.total_append_le (a ++ [d]) b idx
      rw [Stream.total_snoc, if_pos hd] at h3
      have e2 : a ++ [d] ++ b = s.log := by rw [e]; simp
      rw [e2] at h3
      rw [k1, hd] at h6; omega

/-- Hypotheses are met: the example run has two stream reads of input 0, one of them after other
calls, and stream writes to output 1. -/
example : ∃ h1, StreamRead (histOf exCfg 4096 exCalls) 0 h1 2 6 ∧ readPos h1 0 = 4 :=
  ⟨((histOf exCfg 4096 exCalls).drop 15), ⟨(histOf exCfg 4096 exCalls).take 14, 3, some 1002, 7,
    by decide +kernel, by decide +kernel⟩, by decide +kernel⟩

example : ∃ h1 lab, StreamWrite (histOf exCfg 4096 exCalls) 1 h1 2 lab ∧ writePos h1 1 = 3 ∧ lab 1 = 9 :=
  ⟨((histOf exCfg 4096 exCalls).drop 7), fun _ => 9, Or.inr ⟨(histOf exCfg 4096 exCalls).take 6, 4, 9, .unit,
    by decide +kernel, by decide +kernel, rfl⟩, by decide +kernel, rfl⟩

example : (written (histOf exCfg 4096 exCalls)).length ≤ exCfg.sinkCap := by decide +kernel

/-- Two threads reading the same source in turn. -/
example : ∃ s, Stream.Steps (Stream.start fun t => if t < 2 then [(5, 10), (5, 3)] else []) s ∧
    s.log = [⟨0, 5, 0, 10⟩, ⟨1, 5, 10, 10⟩, ⟨1, 5, 20, 3⟩, ⟨0, 5, 23, 3⟩] := by
  refine ⟨_, .tail (.tail (.tail (.tail .refl (.call (t := 0) rfl rfl)) (.call (t := 1) rfl rfl))
    (.call (t := 1) rfl rfl)) (.call (t := 0) rfl rfl), rfl⟩

end Verif
