import Verif.Linked
import Verif.EndToEnd
import Verif.Props.C42
import Verif.Props.C14
/- Helper lemmas: the linked program does what the instrumented program does, and the calls of the tracker it
makes. -/
namespace Verif
namespace Linked
open Ir PassIr Spec Labels DfsanMem Tracker EndToEnd

/-- The tainted bytes among the output `out`, written to output `snk` from offset `k` on. -/
def outBytes (snk k : Nat) : List (Nat × Nat) → List OutByte
  | [] => []
  | y :: out => tainted snk k 1 (fun _ => y.2) ++ outBytes snk (k + 1) out

theorem outBytes_append (snk : Nat) : ∀ (xs ys : List (Nat × Nat)) (k : Nat),
    outBytes snk k (xs ++ ys) = outBytes snk k xs ++ outBytes snk (k + xs.length) ys
  | [], ys, k => by simp [outBytes]
  | x :: xs, ys, k => by
    simp only [List.cons_append, outBytes, outBytes_append snk xs ys (k + 1), List.append_assoc,
      List.length_cons]
    congr 3
    omega

theorem mem_outBytes (snk : Nat) (w : OutByte) : ∀ (xs : List (Nat × Nat)) (k : Nat),
    w ∈ outBytes snk k xs ↔ ∃ r y, xs[r]? = some y ∧ y.2 ≠ 0 ∧ w = ⟨snk, k + r, y.2⟩
  | [], k => by simp [outBytes]
  | x :: xs, k => by
    rw [outBytes, List.mem_append, mem_outBytes snk w xs (k + 1)]
    constructor
    · rintro (h | ⟨r, y, h1, h2, h3⟩)
      · by_cases h0 : x.2 = 0
        · simp [tainted, h0] at h
        · simp [tainted, h0] at h
          exact ⟨0, x, rfl, h0, by simpa using h⟩
      · exact ⟨r + 1, y, by simpa using h1, h2, by rw [h3, show k + 1 + r = k + (r + 1) by omega]⟩
    · rintro ⟨r, y, h1, h2, h3⟩
      cases r with
      | zero =>
        simp at h1
        subst h1
        left
        simp [tainted, h2, h3]
      | succ r =>
        right
        exact ⟨r, y, by simpa using h1, h2, by rw [h3, show k + 1 + r = k + (r + 1) by omega]⟩

/-- Byte `b` was given a label. -/
def Given (h : Trace) (b : Nat × Nat) : Prop := ∃ l, GivenTo (labelEvents h) l b

theorem given_other {h h' : Trace} {e : Event} (he : labelEvents h' = labelEvents h ++ [e])
    (hs : ∀ s o n f, e ≠ .source s o n f) (b : Nat × Nat) : Given h' b ↔ Given h b := by
  unfold Given GivenTo
  rw [he]
  constructor
  · rintro ⟨l, s, o, n, f, hm, hr⟩
    rcases List.mem_append.1 hm with hm | hm
    · exact ⟨l, s, o, n, f, hm, hr⟩
    · exact absurd (List.mem_singleton.1 hm).symm (hs s o n f)
  · rintro ⟨l, s, o, n, f, hm, hr⟩
    exact ⟨l, s, o, n, f, List.mem_append_left _ hm, hr⟩

theorem given_read {h h' : Trace} {i o n f : Nat} (he : labelEvents h' = labelEvents h ++ [.source i o n f])
    (b : Nat × Nat) : Given h' b ↔ Given h b ∨ (b.1 = i ∧ o ≤ b.2 ∧ b.2 < o + n) := by
  unfold Given GivenTo
  rw [he]
  constructor
  · rintro ⟨l, s, o', n', f', hm, h1, h2, h3⟩
    rcases List.mem_append.1 hm with hm | hm
    · exact Or.inl ⟨l, s, o', n', f', hm, h1, h2, h3⟩
    · cases List.mem_singleton.1 hm
      right
      rw [h3]
      exact ⟨rfl, Nat.le_add_right _ _, by show o + (l - f) < o + n; omega⟩
  · rintro (⟨l, s, o', n', f', hm, hr⟩ | ⟨h1, h2, h3⟩)
    · exact ⟨l, s, o', n', f', List.mem_append_left _ hm, hr⟩
    · refine ⟨f + (b.2 - o), i, o, n, f, by simp, by omega, by omega, Prod.ext h1 ?_⟩
      show b.2 = o + (f + (b.2 - o) - f)
      omega

/-- The tracker after the linked program has come from the history `h0` to the state with globals `g`: `h` is
the history now. -/
structure Link (c : Config) (base : Nat) (io : Io) (src snk : Nat) (h0 : Trace) (g : IGlob) (T : Tracker)
    (h : Trace) : Prop where
  reach : Tracker.Reach c base h T
  labels : T.labels = g.L
  reg : registered h = registered h0
  rd : io.seekIn = false → readPos h src = g.pos
  wr : io.seekOut = false → writePos h snk = g.out.length
  written : written h = written h0 ++ outBytes snk 0 g.out
  cf : cfEvents h = cfEvents h0 ++ g.ev.filterMap logged
  fns : functions h = functions h0
  given : ∀ b, Given h b ↔ Given h0 b ∨ (b.1 = src ∧ b.2 < g.pos)

/-- The history of a sequence of combinations of labels. -/
def unionCalls (es : List Event) : Trace :=
  (es.filterMap fun e => match e with
    | .union l r u => some (Call.union l r, Ret.label u)
    | _ => none).reverse

theorem runs_unions {T0 : Tracker} {h : Trace} {T : Tracker} (hr : Tracker.Runs T0 h T) {L' : Labels} {L : Labels}
    {es : List Event} (hl : Labels.Runs L es L') (hT : T.labels = L) (hk : es.filterMap keyOf = []) :
    Tracker.Runs T0 (unionCalls es ++ h) { T with labels := L' } := by
  induction hl with
  | nil => subst hT; exact hr
  | @snoc es L1 op L2 e hrun ha he ih =>
    rw [List.filterMap_append] at hk
    obtain ⟨h1, h2⟩ := List.append_eq_nil_iff.1 hk
    have := ih h1
    cases op with
    | source s o n =>
      simp only [Labels.exec, Res.bind_eq_ok] at he
      obtain ⟨x, -, h3⟩ := he
      cases h3
      simp [keyOf] at h2
    | mark l =>
      simp only [Labels.exec, Res.bind_eq_ok] at he
      obtain ⟨x, -, h3⟩ := he
      cases h3
      simp [keyOf] at h2
    | union l r =>
      simp only [Labels.exec, Res.bind_eq_ok] at he
      obtain ⟨⟨L3, u⟩, h3, h4⟩ := he
      cases h4
      have e : unionCalls (es ++ [.union l r u]) ++ h = (Call.union l r, Ret.label u) :: (unionCalls es ++ h) := by
        simp [unionCalls]
      rw [e]
      refine .cons this ha ?_
      simp only [Tracker.exec, Tracker.unionLabels, h3, Res.bind_ok, Res.pure_eq]

theorem unions_facts (es : List Event) (h : Trace) :
    registered (unionCalls es ++ h) = registered h ∧ (∀ i, readPos (unionCalls es ++ h) i = readPos h i) ∧
    (∀ i, writePos (unionCalls es ++ h) i = writePos h i) ∧ written (unionCalls es ++ h) = written h ∧
    cfEvents (unionCalls es ++ h) = cfEvents h ∧ functions (unionCalls es ++ h) = functions h ∧
    ∀ b, Given (unionCalls es ++ h) b ↔ Given h b := by
  have key : ∀ (t : Trace), (∀ x ∈ t, ∃ l r u, x = (Call.union l r, Ret.label u)) →
      registered (t ++ h) = registered h ∧ (∀ i, readPos (t ++ h) i = readPos h i) ∧
      (∀ i, writePos (t ++ h) i = writePos h i) ∧ written (t ++ h) = written h ∧
      cfEvents (t ++ h) = cfEvents h ∧ functions (t ++ h) = functions h ∧
      ∀ b, Given (t ++ h) b ↔ Given h b := by
    intro t
    induction t with
    | nil => intro _; exact ⟨rfl, fun _ => rfl, fun _ => rfl, rfl, rfl, rfl, fun _ => Iff.rfl⟩
    | cons x t ih =>
      intro hx
      obtain ⟨l, r, u, rfl⟩ := hx x (by simp)
      obtain ⟨a1, a2, a3, a4, a5, a6, a7⟩ := ih (fun y hy => hx y (by simp [hy]))
      exact ⟨a1, a2, a3, a4, a5, a6, fun b =>
        (given_other (h := t ++ h) (e := .union l r u) rfl (by simp) b).trans (a7 b)⟩
  apply key
  intro x hx
  simp only [unionCalls, List.mem_reverse, List.mem_filterMap] at hx
  obtain ⟨e, -, he⟩ := hx
  cases e <;> simp at he
  exact ⟨_, _, _, he.symm⟩

variable {c : Config} {base : Nat} {io : Io} {src snk : Nat} {h0 : Trace} {g g' : IGlob} {T : Tracker} {h : Trace}

theorem le_sum {x : Nat} : ∀ {xs : List Nat}, x ∈ xs → x ≤ xs.sum
  | [], h => by cases h
  | y :: ys, h => by
    rw [List.sum_cons]
    rcases List.mem_cons.1 h with rfl | h
    · omega
    · have := le_sum h; omega

/-- A step that only combines labels. -/
theorem Link.quiet (hl : Link c base io src snk h0 g T h) {k : Nat} (he : Evolves k g g') (hev : g'.ev = g.ev)
    (hpos : g'.pos = g.pos) (hout : g'.out = g.out) :
    ∃ h', Link c base io src snk h0 g' { T with labels := g'.L } h' := by
  obtain ⟨new, ms, e1, e2, e3, ⟨es, hr, e4⟩, -⟩ := he
  have hnew : new = [] := by
    rw [hev] at e1
    have := congrArg List.length e1
    simp at this
    exact this
  subst hnew
  have hms : ms = [] := by
    rw [List.eq_nil_iff_forall_not_mem]
    intro m hm
    have hm' := hm
    rw [← e4, List.mem_filterMap] at hm'
    obtain ⟨e, -, h1⟩ := hm'
    cases m with
    | union l r u => cases e <;> simp [keyOf] at h1
    | source s o n f =>
      have h2 : srcBytes (.source s o n f) ≤ (ms.map srcBytes).sum := le_sum (List.mem_map_of_mem hm)
      simp only [srcBytes] at h2
      omega
    | mark l =>
      have : l ∈ ms.filterMap markOf := List.mem_filterMap.2 ⟨_, hm, rfl⟩
      rw [e2] at this
      simp at this
  subst hms
  obtain ⟨T0, h1, h2⟩ := hl.reach
  obtain ⟨f1, f2, f3, f4, f5, f6, f7⟩ := unions_facts es h
  refine ⟨unionCalls es ++ h, ⟨⟨T0, h1, runs_unions h2 hr hl.labels e4⟩, rfl, f1.trans hl.reg, ?_, ?_, ?_, ?_, ?_, ?_⟩⟩
  · intro hs; rw [f2, hl.rd hs, hpos]
  · intro hs; rw [f3, hl.wr hs, hout]
  · rw [f4, hl.written, hout]
  · rw [f5, hl.cf, hev]
  · rw [f6, hl.fns]
  · intro b; rw [f7, hl.given, hpos]

theorem owner_reg {h h0 : Trace} (hr : registered h = registered h0) (fd : Int) : owner h fd = owner h0 fd := by
  simp only [owner, hr]

theorem knownPos_told (seek : Bool) (pos : Nat) : knownPos (told seek pos) = if seek then some pos else none := by
  cases seek <;> simp [told, knownPos]

theorem told_lt {seek : Bool} {pos : Nat} (h : pos < 2 ^ 54) : told seek pos < 2 ^ 54 := by
  cases seek <;> simp [told]
  omega

theorem owner_256 (hc : c.Ok base) (hr : Tracker.Reach c base h T) {fd : Int} {i : Nat}
    (ho : owner h fd = some i) : i < 256 := by
  obtain ⟨ss, ht⟩ := (hr.sim hc).tab
  have := owner_lt ho; have := ht.srcLen; have := ht.srcCap; have := hc.src; omega

/-- Reading `n` bytes, into memory or not. -/
theorem Link.source (hc : c.Ok base) (hl : Link c base io src snk h0 g T h) (hin : owner h0 io.fdIn = some src)
    (ad : Option Nat) {n : Nat} (hn : 0 < n) (hpos : g.pos + n ≤ 2 ^ 54) :
    (∃ L' r T' h', g.L.createSourceLabels src g.pos n = .ok (L', r) ∧
      T.sourceTaint io.fdIn ad (knownPos (told io.seekIn g.pos)) n = .ok (T', some r) ∧ T'.labels = L' ∧
      T'.shadow = Tracker.markMem T.shadow ad r.1 n ∧
      ∀ mem, Link c base io src snk h0 { g with mem := mem, pos := g.pos + n, L := L' } T' h') ∨
    (g.L.createSourceLabels src g.pos n = .ub ∧
      T.sourceTaint io.fdIn ad (knownPos (told io.seekIn g.pos)) n = .ub) := by
  have hs := hl.reach.sim hc
  obtain ⟨ss, ht⟩ := hs.tab
  have ho : owner h io.fdIn = some src := (owner_reg hl.reg _).trans hin
  have hm := ht.mapping hc.src io.fdIn
  rw [ho] at hm
  have h256 := owner_256 hc hl.reach ho
  -- the offset
  have hoff : ∃ rd, T.sourceOffset src (knownPos (told io.seekIn g.pos)) n = .ok ({ T with rd }, g.pos) := by
    rw [knownPos_told]
    cases hsk : io.seekIn with
    | true => exact ⟨T.rd, rfl⟩
    | false =>
      have := hs.rd src
      rw [hl.rd hsk] at this
      simp only [Bool.false_eq_true, if_false, Tracker.sourceOffset, Tracker.increase, if_neg (show ¬ src ≥ 256 by omega),
        Res.bind_ok, Res.pure_eq, this]
      exact ⟨_, rfl⟩
  obtain ⟨rd, hoff⟩ := hoff
  have hsrc : T.sourceTaint io.fdIn ad (knownPos (told io.seekIn g.pos)) n =
      (do
        let (T, rng) ← Tracker.createSourceTaint { T with rd } src ad n g.pos
        return (T, some rng)) := by
    simp only [Tracker.sourceTaint, hm, hoff, Res.bind_ok]
  rcases createSourceTaint_total hc (T := { T with rd }) hs.lab src ad n g.pos with ⟨-, -, p, hp⟩ | ⟨hn', hp⟩
  · left
    have hp' := hp
    simp only [Tracker.createSourceTaint, Res.bind_eq_ok] at hp'
    obtain ⟨⟨L', r⟩, e1, B, e2, e3⟩ := hp'
    cases e3
    have hT : T.sourceTaint io.fdIn ad (knownPos (told io.seekIn g.pos)) n =
        .ok ({ T with rd, labels := L', index := B, shadow := Tracker.markMem T.shadow ad r.1 n }, some r) := by
      rw [hsrc, hp]; rfl
    rw [hl.labels] at e1
    refine ⟨L', r, { T with rd, labels := L', index := B, shadow := Tracker.markMem T.shadow ad r.1 n },
      (.read io.fdIn ad (knownPos (told io.seekIn g.pos)) n, .range (some r)) :: h, e1, hT, rfl, rfl, ?_⟩
    intro mem
    refine ⟨hl.reach.snoc ?_ ?_, rfl, hl.reg, ?_, hl.wr, hl.written, hl.cf, hl.fns, ?_⟩
    · intro i hi
      rw [hm] at hi
      cases hi
      rw [hs.rd, knownPos_told]
      cases hsk : io.seekIn with
      | true => simp only [if_true, Option.getD_some]; omega
      | false =>
        have := hl.rd hsk
        simp only [Bool.false_eq_true, if_false, Option.getD_none]; omega
    · simp only [Tracker.exec, hT, Res.bind_ok, Res.pure_eq]
    · intro hsk
      have := hl.rd hsk
      rw [knownPos_told, hsk]
      simp only [Bool.false_eq_true, if_false, readPos, ho, if_true, this]
    · intro b
      have hpv : (knownPos (told io.seekIn g.pos)).getD (readPos h src) = g.pos := by
        rw [knownPos_told]
        cases hsk : io.seekIn with
        | true => rfl
        | false => simp [hl.rd hsk]
      rw [given_read (h := h) (i := src) (o := g.pos) (n := n) (f := r.1) (by simp only [labelEvents, ho, hpv]), hl.given]
      simp only
      constructor
      · rintro ((h5 | h5) | h5)
        · exact Or.inl h5
        · exact Or.inr ⟨h5.1, by omega⟩
        · exact Or.inr ⟨h5.1, h5.2.2⟩
      · rintro (h5 | ⟨h5, h6⟩)
        · exact Or.inl (Or.inl h5)
        · by_cases h7 : b.2 < g.pos
          · exact Or.inl (Or.inr ⟨h5, h7⟩)
          · exact Or.inr ⟨h5, by omega, h6⟩
  · right
    have hub : g.L.createSourceLabels src g.pos n = .ub := by
      have hcap := hs.lab.reach.cap hc.lab0 hc.lab
      rw [hl.labels] at hn' hcap
      simp only [hn, true_and] at hn'
      simp [createSourceLabels, hcap, hn']
    refine ⟨hub, ?_⟩
    rw [hsrc, hp]
    rfl

/-- Reading a byte. -/
theorem Link.getc (hc : c.Ok base) (hl : Link c base io src snk h0 g T h) (hin : owner h0 io.fdIn = some src)
    (hpos : g.pos < 2 ^ 54) (ch : Nat) :
    (∃ L' r T' h', g.L.createSourceLabels src g.pos 1 = .ok (L', r) ∧
      Wrap.getc T io.fdIn (told io.seekIn g.pos) ch = .ok (T', ch, r.1) ∧ T'.labels = L' ∧
      Link c base io src snk h0 { g with pos := g.pos + 1, L := L' } T' h') ∨
    (g.L.createSourceLabels src g.pos 1 = .ub ∧ Wrap.getc T io.fdIn (told io.seekIn g.pos) ch = .ub) := by
  have hne : ¬ ((ch : Int) = -1) := by omega
  have hgetc : Wrap.getc T io.fdIn (told io.seekIn g.pos) ch =
      (do
        let (T, r) ← T.sourceTaint io.fdIn none (knownPos (told io.seekIn g.pos)) 1
        match r with
        | some (first, _) => return (T, (ch : Int), first)
        | none => return (T, (ch : Int), 0)) := by
    unfold Wrap.getc
    rw [fromOffT_eq (told_lt hpos), Res.bind_ok]
    simp only [ne_eq, hne, not_false_iff, if_true]
    rfl
  rcases hl.source hc hin none (n := 1) (by omega) (by omega) with ⟨L', r, T', h', k1, k2, k3, -, k5⟩ | ⟨k1, k2⟩
  · exact Or.inl ⟨L', r, T', h', k1, by rw [hgetc, k2]; rfl, k3, k5 g.mem⟩
  · exact Or.inr ⟨k1, by rw [hgetc, k2]; rfl⟩

/-- At the end of the input. -/
theorem getc_end (hpos : g.pos < 2 ^ 54) :
    Wrap.getc T io.fdIn (told io.seekIn g.pos) (-1) = .ok (T, -1, 0) := by
  unfold Wrap.getc
  rw [fromOffT_eq (told_lt hpos), Res.bind_ok]
  simp

theorem copyLabels_eq : ∀ (m : Nat) {sh : Shadow} {mem : Mem} {a l : Nat}, (∀ i, i < m → sh (a + i) = l + i) →
    copyLabels sh mem a m = labelBytes mem a l m
  | 0, _, _, _, _, _ => rfl
  | m + 1, sh, mem, a, l, h => by
    have h1 : sh a = l := h 0 (by omega)
    simp only [copyLabels, labelBytes, h1]
    congr 1
    funext mem
    refine copyLabels_eq m fun i hi => ?_
    rw [show a + 1 + i = a + (i + 1) by omega, h (i + 1) (by omega)]
    omega

/-- Reading into memory. -/
theorem Link.read (hc : c.Ok base) (hl : Link c base io src snk h0 g T h) (hin : owner h0 io.fdIn = some src)
    {n : Nat} (hn : 0 < n) (hpos : g.pos + n ≤ 2 ^ 54) (a : Nat) :
    (∃ L' r T' h', g.L.createSourceLabels src g.pos n = .ok (L', r) ∧
      Wrap.read T io.fdIn a (told io.seekIn g.pos) n = .ok (T', (n : Int), 0) ∧ T'.labels = L' ∧
      (∀ mem, copyLabels T'.shadow mem a n = labelBytes mem a r.1 n) ∧
      ∀ mem, Link c base io src snk h0 { g with mem := mem, pos := g.pos + n, L := L' } T' h') ∨
    (g.L.createSourceLabels src g.pos n = .ub ∧ Wrap.read T io.fdIn a (told io.seekIn g.pos) n = .ub) := by
  have hread : Wrap.read T io.fdIn a (told io.seekIn g.pos) n =
      (do
        let (T, _) ← T.sourceTaint io.fdIn (some a) (knownPos (told io.seekIn g.pos)) n
        return (T, (n : Int), 0)) := by
    unfold Wrap.read
    rw [fromOffT_eq (told_lt (by omega)), Res.bind_ok, Wrap.fromReturnedSize, if_pos (by omega)]
    simp only [Wrap.taintSourceBuffer, Int.toNat_natCast]
    cases T.sourceTaint io.fdIn (some a) (knownPos (told io.seekIn g.pos)) n <;> rfl
  rcases hl.source hc hin (some a) hn hpos with ⟨L', r, T', h', k1, k2, k3, k4, k5⟩ | ⟨k1, k2⟩
  · refine Or.inl ⟨L', r, T', h', k1, by rw [hread, k2]; rfl, k3, fun mem => copyLabels_eq n fun i hi => ?_, k5⟩
    rw [k4]
    simp only [Tracker.markMem, setLabels_eq]
    rw [if_pos (by omega)]
    omega
  · exact Or.inr ⟨k1, by rw [hread, k2]; rfl⟩

theorem read_none (hpos : g.pos < 2 ^ 54) (a : Nat) :
    Wrap.read T io.fdIn a (told io.seekIn g.pos) ((0 : Nat) : Int) = .ok (T, ((0 : Nat) : Int), 0) := by
  unfold Wrap.read
  rw [fromOffT_eq (told_lt hpos), Res.bind_ok]
  rfl

theorem putBytes_zero (inp : World) (pos a : Nat) (mem : Mem) : putBytes inp pos a 0 mem = mem := by
  funext x
  unfold putBytes
  rw [if_neg (by omega)]

/-- Labels of memory stored before. -/
theorem Link.sync (hl : Link c base io src snk h0 g T h) (a : Nat) : ∀ (m : Nat),
    (∀ i, i < m → labelOf g.mem (a + i) < g.L.words.length) →
    ∃ h', Link c base io src snk h0 g (sync T g.mem a m) h'
  | 0, _ => by
    refine ⟨h, ?_⟩
    have : Linked.sync T g.mem a 0 = T := by
      unfold Linked.sync
      have : (fun x => if a ≤ x ∧ x < a + 0 then labelOf g.mem x else T.shadow x) = T.shadow := by
        funext x; rw [if_neg (by omega)]
      rw [this]
    rw [this]; exact hl
  | m + 1, hlab => by
    obtain ⟨h', hl'⟩ := Link.sync hl a m (fun i hi => hlab i (by omega))
    refine ⟨(.store (a + m) (labelOf g.mem (a + m)), .unit) :: h', ?_⟩
    refine ⟨hl'.reach.snoc ?_ ?_, hl'.labels, hl'.reg, hl'.rd, hl'.wr, hl'.written, hl'.cf, hl'.fns, hl'.given⟩
    · show _ < (Linked.sync T g.mem a m).labels.words.length
      rw [hl'.labels]
      exact hlab m (by omega)
    · simp only [Tracker.exec]
      congr 2
      unfold Linked.sync
      simp only
      congr 1
      funext x
      simp only [Dfsan.upd]
      by_cases hx : x = a + m
      · subst hx; rw [if_pos rfl, if_pos (by omega)]
      · rw [if_neg hx]
        by_cases h2 : a ≤ x ∧ x < a + m
        · rw [if_pos h2, if_pos (by omega)]
        · rw [if_neg h2, if_neg (by omega)]

theorem outBytes_range (snk : Nat) (f : Nat → Nat × Nat) : ∀ (m k : Nat),
    outBytes snk k ((List.range m).map f) = tainted snk k m (fun i => (f i).2)
  | 0, k => rfl
  | m + 1, k => by
    rw [List.range_succ, List.map_append, outBytes_append, outBytes_range snk f m k]
    simp only [List.map_cons, List.map_nil, outBytes, List.append_nil, tainted, List.range_succ, List.filter_append,
      List.map_append, List.length_map, List.length_range]
    congr 1
    by_cases h : (f m).2 = 0 <;> simp [h]

theorem tainted_congr {i off m : Nat} {f f' : Nat → Nat} (h : ∀ k, k < m → f k = f' k) :
    tainted i off m f = tainted i off m f' := by
  unfold tainted
  have : (List.range m).filter (fun k => f k ≠ 0) = (List.range m).filter (fun k => f' k ≠ 0) :=
    List.filter_congr fun k hk => by rw [h k (List.mem_range.1 hk)]
  rw [this]
  refine List.map_congr_left fun k hk => ?_
  rw [h k (List.mem_range.1 (List.mem_filter.1 hk).1)]

/-- Writing from memory. -/
theorem Link.write (hc : c.Ok base) (hl : Link c base io src snk h0 g T h) (hout : owner h0 io.fdOut = some snk)
    {a m : Nat} (hpos : g.out.length + m < 2 ^ 54)
    (hlab : ∀ i, i < m → labelOf g.mem (a + i) < g.L.words.length) :
    ∃ T' h', Wrap.write (Linked.sync T g.mem a m) io.fdOut a (told io.seekOut g.out.length) m = .ok (T', (m : Int), 0) ∧
      T'.labels = g.L ∧ Link c base io src snk h0
        { g with
          out := g.out ++ (List.range m).map (fun i => (g.mem (a + i), labelOf g.mem (a + i))) } T' h' := by
  obtain ⟨h1, hl1⟩ := hl.sync a m hlab
  have hsh : ∀ i, i < m → (Linked.sync T g.mem a m).shadow (a + i) = labelOf g.mem (a + i) := by
    intro i hi
    show (if a ≤ a + i ∧ a + i < a + m then labelOf g.mem (a + i) else T.shadow (a + i)) = _
    rw [if_pos (by omega)]
  generalize Linked.sync T g.mem a m = T1 at hl1 hsh
  have hs := hl1.reach.sim hc
  obtain ⟨ss, ht⟩ := hs.tab
  have ho : owner h1 io.fdOut = some snk := (owner_reg hl1.reg _).trans hout
  have hm := ht.mapping hc.src io.fdOut
  rw [ho] at hm
  have hoffv : (knownPos (told io.seekOut g.out.length)).getD (writePos h1 snk) = g.out.length := by
    rw [knownPos_told]
    cases hsk : io.seekOut with
    | true => rfl
    | false => simp [hl1.wr hsk]
  rcases Nat.eq_zero_or_pos m with h0' | h0'
  · subst h0'
    refine ⟨T1, h1, ?_, hl1.labels, by simpa using hl1⟩
    unfold Wrap.write
    rw [fromOffT_eq (told_lt (by omega)), Res.bind_ok]
    rfl
  · obtain ⟨wr, k1, k2⟩ := sinkOffset_exact hc hl1.reach ho (knownPos (told io.seekOut g.out.length)) (n := m)
      (by rw [hoffv]; omega)
    rw [hoffv] at k1
    have k3 := sinkLoop_spec snk m a g.out.length { T1 with wr := wr } (Spec.written h1)
      (by simp only [hs.cfg]; exact hs.sinks) (by omega)
    have hsink : ∃ T2, T1.taintSink io.fdOut (knownPos (told io.seekOut g.out.length)) a m = .ok T2 ∧
        T2.labels = T1.labels := by
      simp only [Tracker.taintSink, hm, k1, Res.bind_ok]
      exact ⟨_, k3, rfl⟩
    obtain ⟨T2, hsink, hT2⟩ := hsink
    refine ⟨T2, (.write io.fdOut (knownPos (told io.seekOut g.out.length)) a m, .unit) :: h1, ?_,
      hT2.trans hl1.labels, ?_⟩
    · unfold Wrap.write
      rw [fromOffT_eq (told_lt (by omega)), Res.bind_ok, Wrap.fromReturnedSize, if_pos (by omega)]
      simp only [Wrap.taintSinkBuffer, Int.toNat_natCast, hsink, Res.bind_ok]
      rfl
    · refine ⟨hl1.reach.snoc ?_ ?_, hT2.trans hl1.labels, hl1.reg, hl1.rd, ?_, ?_, hl1.cf, hl1.fns, hl1.given⟩
      · intro i hi
        rw [hm] at hi
        cases hi
        rw [hs.wr, hoffv]
        omega
      · simp only [Tracker.exec, hsink, Res.bind_ok, Res.pure_eq]
      · intro hsk
        have := hl1.wr hsk
        rw [knownPos_told, hsk]
        simp only [Bool.false_eq_true, if_false, writePos, ho, if_true, this, List.length_append, List.length_map,
          List.length_range]
      · simp only [Spec.written, ho, hoffv, hl1.written, outBytes_append, Nat.zero_add, List.append_assoc,
          outBytes_range]
        congr 2
        refine tainted_congr fun i hi => ?_
        rw [← hs.shadow, hsh i hi]

/-- Writing a byte. -/
theorem Link.putc (hc : c.Ok base) (hl : Link c base io src snk h0 g T h) (hout : owner h0 io.fdOut = some snk)
    (hpos : g.out.length < 2 ^ 54) {ch l : Nat} (hch : ch < 256) (hlab : l < g.L.words.length) :
    ∃ T' h' x, Wrap.putc T io.fdOut ch l (told io.seekOut g.out.length) ((ch % 256 : Nat) : Int) = .ok (T', x) ∧
      T'.labels = g.L ∧ Link c base io src snk h0 { g with out := g.out ++ [(ch, l)] } T' h' := by
  have hs := hl.reach.sim hc
  obtain ⟨ss, ht⟩ := hs.tab
  have ho : owner h io.fdOut = some snk := (owner_reg hl.reg _).trans hout
  have hm := ht.mapping hc.src io.fdOut
  rw [ho] at hm
  have hoffv : (knownPos (told io.seekOut g.out.length)).getD (writePos h snk) = g.out.length := by
    rw [knownPos_told]
    cases hsk : io.seekOut with
    | true => rfl
    | false => simp [hl.wr hsk]
  obtain ⟨wr, h1, h2⟩ := sinkOffset_exact hc hl.reach ho (knownPos (told io.seekOut g.out.length)) (n := 1)
    (by rw [hoffv]; omega)
  rw [hoffv] at h1
  have hsink : ∃ T', T.taintSinkLabel io.fdOut (knownPos (told io.seekOut g.out.length)) l 1 = .ok T' ∧
      T'.labels = T.labels := by
    simp only [Tracker.taintSinkLabel, hm, h1, Res.bind_ok]
    by_cases h0 : l = 0
    · exact ⟨{ T with wr }, by simp [h0], rfl⟩
    · refine ⟨_, by rw [if_neg h0]; rfl, ?_⟩
      simp only [Tracker.sinkSame, Tracker.logSingle]
      split <;> rfl
  obtain ⟨T', h3, h4⟩ := hsink
  refine ⟨T', (.writeLabel io.fdOut (knownPos (told io.seekOut g.out.length)) l 1, .unit) :: h,
    (((ch % 256 : Nat) : Int), 0), ?_,
    h4.trans hl.labels, ?_⟩
  · unfold Wrap.putc
    rw [fromOffT_eq (told_lt hpos), Res.bind_ok, Nat.mod_eq_of_lt hch, if_pos rfl, h3]
    rfl
  · refine ⟨hl.reach.snoc ?_ ?_, h4.trans hl.labels, hl.reg, hl.rd, ?_, ?_, hl.cf, hl.fns, hl.given⟩
    · refine ⟨by rw [hl.labels]; exact hlab, ?_⟩
      intro i hi
      rw [hm] at hi
      cases hi
      rw [hs.wr, hoffv]
      omega
    · simp only [Tracker.exec, h3, Res.bind_ok, Res.pure_eq]
    · intro hsk
      have := hl.wr hsk
      rw [knownPos_told, hsk]
      simp only [Bool.false_eq_true, if_false, writePos, ho, if_true, this, List.length_append,
        List.length_singleton]
    · simp only [Spec.written, ho, hoffv, hl.written, outBytes_append, outBytes, Nat.zero_add, List.append_nil,
        List.append_assoc]

/-- Logging. -/
theorem Link.log (hc : c.Ok base) (hl : Link c base io src snk h0 g T h) {e : CfEvent} (hf : e.fits)
    {x : Hook × Nat × Nat} (hx : logged x = some e) :
    (∃ T' h', T.logCf e = .ok T' ∧ T'.labels = g.L ∧
      Link c base io src snk h0 { g with ev := g.ev ++ [x] } T' h') ∨
    (T.logCf e = .fatal ∧ c.logSize < 11 * ((cfEvents h0).length + (g.ev.filterMap logged).length + 1)) := by
  have hs := hl.reach.sim hc
  have hlen := CfLog.encode_length e hf
  cases ha : T.cflog.append (CfLog.encode e) with
  | some p =>
    obtain ⟨S, off⟩ := p
    left
    have hlog : T.logCf e = .ok { T with cflog := S } := by
      simp only [Tracker.logCf, CfLog.log, ha, Res.bind_ok, Res.pure_eq]
    refine ⟨{ T with cflog := S }, (.cf e, .unit) :: h, hlog, hl.labels, ?_⟩
    refine ⟨hl.reach.snoc ?_ ?_, hl.labels, hl.reg, hl.rd, hl.wr, hl.written, ?_, hl.fns, hl.given⟩
    · cases e <;> exact hf
    · simp only [Tracker.exec, hlog, Res.bind_ok, Res.pure_eq]
    · simp only [cfEvents, hl.cf, List.filterMap_append, List.filterMap_cons, hx, List.filterMap_nil,
        List.append_assoc]
  | none =>
    right
    refine ⟨by simp only [Tracker.logCf, CfLog.log, ha]; rfl, ?_⟩
    rw [Section.append_eq hs.logOk (by omega)] at ha
    split at ha
    · cases ha
    · rename_i hfull
      have h1 := congrArg List.length hs.log
      rw [List.length_take, hs.logLen] at h1
      have h2 := hs.logOk.pos
      rw [hs.logLen] at h2 hfull
      have h3 : ∀ (es : List CfEvent), (∀ e ∈ es, e.fits) → (es.flatMap CfLog.encode).length ≤ 11 * es.length := by
        intro es
        induction es with
        | nil => intro _; simp
        | cons a es ih =>
          intro hfs
          have := CfLog.encode_length a (hfs a (by simp))
          have := ih (fun e he => hfs e (by simp [he]))
          simp only [List.flatMap_cons, List.length_append, List.length_cons]
          omega
      have h4 := h3 _ hs.logFits
      rw [hl.cf, List.length_append] at h4
      rw [hl.cf] at h1
      omega

/-- A call that is not logged. -/
theorem Link.skip (hl : Link c base io src snk h0 g T h) {x : Hook × Nat × Nat} (hx : logged x = none) :
    Link c base io src snk h0 { g with ev := g.ev ++ [x] } T h :=
  ⟨hl.reach, hl.labels, hl.reg, hl.rd, hl.wr, hl.written, by
    simp only [hl.cf, List.filterMap_append, List.filterMap_cons, hx, List.filterMap_nil, List.append_nil],
    hl.fns, hl.given⟩

/-- A label reported to affect control flow. -/
theorem Link.mark (hl : Link c base io src snk h0 g T h) {l : Nat} (h0' : 0 < l) (hlab : l < g.L.words.length)
    {L' : Labels} (he : g.L.affectsControlFlow l = .ok L') :
    T.affectsControlFlow l = .ok { T with labels := L' } ∧
      Link c base io src snk h0 { g with L := L' } { T with labels := L' } ((.mark l, .unit) :: h) := by
  have hT : T.affectsControlFlow l = .ok { T with labels := L' } := by
    simp only [Tracker.affectsControlFlow, hl.labels, he, Res.bind_ok, Res.pure_eq]
  refine ⟨hT, hl.reach.snoc ?_ ?_, rfl, hl.reg, hl.rd, hl.wr, hl.written, hl.cf, hl.fns, fun b =>
    (given_other (h := h) (e := .mark l) rfl (by simp) b).trans (hl.given b)⟩
  · show 0 < l ∧ l < T.labels.words.length
    rw [hl.labels]; exact ⟨h0', hlab⟩
  · simp only [Tracker.exec, hT, Res.bind_ok, Res.pure_eq]

end Linked
end Verif
