import Verif.Props.C22
import Verif.Props.C40
/- C42: the wrappers of output calls log exactly the tainted bytes the call reported as written. -/
namespace Verif
open Spec Tracker

/-- What an output call that wrote `n` bytes to `fd` at file position `off` (none: not known), byte `k`
carrying the label `lab k`, must do: return `r`; leave the tracker alone if nothing was written or the
descriptor is not tracked; else append one record for each byte with a label, in increasing order, and
touch neither labels nor shadow memory nor the positions of other outputs. (As long as the records fit the log and the
position fits 63 bits; see C22 for what happens otherwise.) -/
def LogsExactly (c : Config) (h : Trace) (T : Tracker) (fd : Int) (lab : Nat → Nat) (off : Option Nat) (n : Nat)
    {ρ : Type} (out : Res (Tracker × ρ)) (r : ρ) : Prop :=
  ((n = 0 ∨ owner h fd = none) → out = .ok (T, r)) ∧
  ∀ i, owner h fd = some i → 0 < n → off.getD (writePos h i) + n ≤ 2 ^ 63 →
    T.sinks.length + ((List.range n).filter fun k => lab k ≠ 0).length ≤ c.sinkCap →
    ∃ T', out = .ok (T', r) ∧
      T'.sinks = T.sinks ++ ((List.range n).filter fun k => lab k ≠ 0).map (fun k =>
        ⟨off.getD (writePos h i) + k, lab k, i⟩) ∧
      T'.labels = T.labels ∧ T'.shadow = T.shadow ∧ T'.sources = T.sources ∧ T'.rd = T.rd ∧
      ∀ j, T'.wr j = T.wr j + if off = none ∧ i = j then n else 0

theorem take_append_room {α β : Type} (f : α → β) (w t : List α) (cap : Nat)
    (hroom : ((w.take cap).map f).length + t.length ≤ cap) :
    ((w ++ t).take cap).map f = (w.take cap).map f ++ t.map f := by
  rw [List.take_append, List.map_append]
  simp only [List.length_map, List.length_take] at hroom
  by_cases ht : t.length = 0
  · have : t = [] := List.length_eq_zero_iff.1 ht
    subst this; simp
  · rw [List.take_of_length_le (l := t) (by omega)]

theorem sinkOffset_exact {c : Config} {base : Nat} (hc : c.Ok base) {h : Trace} {T : Tracker}
    (hr : Reach c base h T) {fd : Int} {i : Nat} (hi : owner h fd = some i) (off : Option Nat) {n : Nat}
    (hoff : off.getD (writePos h i) + n ≤ 2 ^ 63) :
    ∃ wr, T.sinkOffset i off n = .ok ({ T with wr := wr }, off.getD (writePos h i)) ∧
      ∀ j, wr j = T.wr j + if off = none ∧ i = j then n else 0 := by
  have hs := hr.sim hc
  obtain ⟨ss, ht⟩ := hs.tab
  have hi256 : ¬ i ≥ 256 := by
    have := owner_lt hi; have := ht.srcLen; have := ht.srcCap; have := hc.src; omega
  have hex : ∃ p, T.sinkOffset i off n = .ok p := by
    cases off with
    | some o => exact ⟨_, rfl⟩
    | none => simp only [sinkOffset, increase, hi256, if_false, Res.bind_ok, Res.pure_eq]; exact ⟨_, rfl⟩
  obtain ⟨⟨T', o⟩, hp⟩ := hex
  obtain ⟨wr, rfl, rfl, h3⟩ := sinkOffset_spec hp (by rw [hs.wr]; exact hoff)
  exact ⟨wr, by rw [hp, hs.wr], h3⟩

theorem sink_untracked {c : Config} {base : Nat} (hc : c.Ok base) {h : Trace} {T : Tracker}
    (hr : Reach c base h T) {fd : Int} (hi : owner h fd = none) :
    T.mappingIdx fd = none := by
  obtain ⟨ss, ht⟩ := (hr.sim hc).tab
  rw [ht.mapping hc.src fd, hi]

theorem sink_exact {c : Config} {base : Nat} (hc : c.Ok base) {h : Trace} {T : Tracker}
    (hr : Reach c base h T) (fd : Int) (buf : Nat) (off len : Option Nat) (hlen : len ≠ some 0) {ρ : Type} (r : ρ) :
    LogsExactly c h T fd (fun k => T.shadow (buf + k)) off (len.getD 0)
      (Wrap.taintSinkBuffer T fd off len buf >>= fun T => Res.ok (T, r)) r := by
  cases len with
  | none => exact ⟨fun _ => rfl, fun i _ h0 => absurd h0 (by simp)⟩
  | some n =>
    simp only [Option.getD_some]
    refine ⟨?_, ?_⟩
    · rintro (h0 | h0)
      · subst h0; exact absurd rfl hlen
      · simp only [Wrap.taintSinkBuffer, taintSink, sink_untracked hc hr h0, Res.bind_ok]
    · intro i hi h0 hoff hroom
      have hs := hr.sim hc
      obtain ⟨ss, ht⟩ := hs.tab
      have hm := ht.mapping hc.src fd
      obtain ⟨wr, h1, h2⟩ := sinkOffset_exact hc hr hi off hoff
      have h3 := sinkLoop_spec i n buf (off.getD (writePos h i)) { T with wr := wr } (written h)
        (by simp only [hs.cfg]; exact hs.sinks) hoff
      simp only [Wrap.taintSinkBuffer, taintSink, hm, hi, h1, Res.bind_ok, h3]
      refine ⟨_, rfl, ?_, rfl, rfl, rfl, rfl, h2⟩
      simp only [hs.cfg]
      rw [take_append_room, ← hs.sinks]
      · simp only [tainted, List.map_map]; rfl
      · rw [← hs.sinks]; simpa [tainted] using hroom

/-- write and send: for every result of the call, exactly the tainted bytes among those it reported
as written are logged and its result is returned. Missing for the full claim: positions from 2^54 on
(`C42_position_refuted`) and a full log (C22). -/
theorem C42_write_partial {c : Config} {base : Nat} (hc : c.Ok base) {h : Trace} {T : Tracker}
    (hr : Reach c base h T) (fd : Int) (buf : Nat) (pos ret : Int) (hpos : pos < 2 ^ 54) :
    LogsExactly c h T fd (fun k => T.shadow (buf + k)) (knownPos pos) ret.toNat
      (Wrap.write T fd buf pos ret) (ret, 0) := by
  have hl : ret.toNat = (Wrap.fromReturnedSize ret).getD 0 := by
    unfold Wrap.fromReturnedSize
    split <;> simp
    omega
  have hne : Wrap.fromReturnedSize ret ≠ some 0 := by
    unfold Wrap.fromReturnedSize
    split <;> simp
    omega
  have := sink_exact hc hr fd buf (knownPos pos) (Wrap.fromReturnedSize ret) hne (ret, 0)
  rw [hl]
  unfold Wrap.write
  rw [fromOffT_eq hpos, Res.bind_ok]
  exact this

/-- fwrite: size times the number of items reported. -/
theorem C42_fwrite_partial {c : Config} {base : Nat} (hc : c.Ok base) {h : Trace} {T : Tracker}
    (hr : Reach c base h T) (fd : Int) (buf size : Nat) (pos : Int) (ret : Nat) (hpos : pos < 2 ^ 54)
    (hsize : size * ret < 2 ^ 64) :
    LogsExactly c h T fd (fun k => T.shadow (buf + k)) (knownPos pos) (size * ret)
      (Wrap.fwrite T fd buf size pos ret) (ret, 0) := by
  unfold Wrap.fwrite
  rw [fromOffT_eq hpos, Res.bind_ok, Wrap.fromReturnedSizeCount, if_neg (by omega)]
  split
  · rename_i h0
    rw [h0]
    exact sink_exact hc hr fd buf (knownPos pos) none (by simp) (ret, 0)
  · rename_i h0
    exact sink_exact hc hr fd buf (knownPos pos) (some (size * ret)) (by simpa using h0) (ret, 0)

/-- putc and fputc of a character in 0..255, for which the C library returns the character or EOF: the
character is logged with its label if and only if it was written and has a label. Missing for the full
claim: other characters (`C42_putc_refuted`, `C42_putc_eof_refuted`). -/
theorem C42_putc_partial {c : Config} {base : Nat} (hc : c.Ok base) {h : Trace} {T : Tracker}
    (hr : Reach c base h T) (fd : Int) (ch : Int) (chLabel : Nat) (pos ret : Int) (hpos : pos < 2 ^ 54)
    (h0 : 0 ≤ ch) (hret : ret = ch ∨ ret = -1) :
    LogsExactly c h T fd (fun _ => chLabel) (knownPos pos) (if ret = -1 then 0 else 1)
      (Wrap.putc T fd ch chLabel pos ret) (ret, 0) := by
  unfold Wrap.putc
  rw [fromOffT_eq hpos, Res.bind_ok]
  rcases hret with rfl | rfl
  · rw [if_neg (by omega), if_pos rfl]
    refine ⟨?_, ?_⟩
    · rintro (h1 | h1)
      · omega
      · simp only [taintSinkLabel, sink_untracked hc hr h1, Res.bind_ok, Res.pure_eq]
    · intro i hi _ hoff hroom
      have hs := hr.sim hc
      obtain ⟨ss, ht⟩ := hs.tab
      have hm := ht.mapping hc.src fd
      obtain ⟨wr, h1, h2⟩ := sinkOffset_exact hc hr hi (knownPos pos) hoff
      simp only [taintSinkLabel, hm, hi, h1, Res.bind_ok, Res.pure_eq]
      by_cases hl : chLabel = 0
      · subst hl
        simp only [if_true, Res.bind_ok]
        exact ⟨_, rfl, by simp, rfl, rfl, rfl, rfl, h2⟩
      · rw [if_neg hl]
        simp only [Res.bind_ok]
        have h3 := sinkSame_spec i chLabel ((knownPos pos).getD (writePos h i)) hl 1 0 { T with wr := wr } (written h)
          (by simp only [hs.cfg]; exact hs.sinks) (by omega)
        rw [h3]
        refine ⟨_, rfl, ?_, rfl, rfl, rfl, rfl, h2⟩
        simp only [hs.cfg]
        rw [take_append_room, ← hs.sinks]
        · simp only [tainted, List.map_map, Nat.add_zero]; rfl
        · rw [← hs.sinks]; simpa [tainted] using hroom
  · rw [if_pos rfl, if_neg (by omega)]
    exact ⟨fun _ => rfl, fun _ _ h1 => absurd h1 (by omega)⟩

/-! ### Where the claim fails -/

/-- An output positioned at 2^54 or later ends the program on the next write, tracked or not. -/
theorem C42_position_refuted (T : Tracker) (fd : Int) (buf : Nat) (pos ret : Int) (hpos : 2 ^ 54 ≤ pos) :
    Wrap.write T fd buf pos ret = .fatal := by
  unfold Wrap.write Wrap.fromOffT
  have : ((maxSourceOffset : Nat) : Int) = 2 ^ 54 - 1 := by decide
  rw [this, if_neg (by omega), if_pos (by omega)]
  rfl

/-- A character outside 0..255 (a negative `char`, for instance) is written as its value modulo 256,
which is what the C library returns; it is not logged, whatever label it has. -/
theorem C42_putc_refuted (T : Tracker) (fd : Int) (ch : Int) (chLabel : Nat) (pos : Int) (hpos : pos < 2 ^ 54)
    (hch : ¬ (0 ≤ ch ∧ ch < 256)) :
    Wrap.putc T fd ch chLabel pos (ch % 256) = .ok (T, ch % 256, 0) := by
  unfold Wrap.putc
  rw [fromOffT_eq hpos, Res.bind_ok, if_neg (by omega)]
  rfl

/-- A failing putc of EOF, by contrast, is logged though nothing was written: the result of the failure
is the character. -/
theorem C42_putc_eof_refuted : ∃ (h : Trace) (T T' : Tracker), Reach exCfg 4096 h T ∧ owner h 4 = some 1 ∧
    Wrap.putc T 4 (-1) 1 0 (-1) = .ok (T', -1, 0) ∧ T.sinks = [] ∧ T'.sinks = [⟨0, 1, 1⟩] := by
  refine ⟨_, _, _, run_reach (cs := [.openFile 3 [97] none, .read 3 none none 1, .openFile 4 [98] none]) rfl, ?_, rfl, ?_⟩
  · decide +kernel
  · decide +kernel

/-- `_putc` never logs anything: a tainted character written to a tracked output leaves no record. -/
theorem C42__putc_refuted : ∃ (h : Trace) (T T' : Tracker), Reach exCfg 4096 h T ∧ owner h 4 = some 1 ∧
    T.shadow 64 = 1 ∧ (Wrap.putcNoLog T 65).1.sinks = [] ∧ (Wrap.putcNoLog T 65).2 = (65, 0) ∧
    Wrap.putc T 4 65 1 0 65 = .ok (T', 65, 0) ∧ T'.sinks = [⟨0, 1, 1⟩] := by
  refine ⟨_, _, _, run_reach (cs := [.openFile 3 [97] none, .read 3 (some 64) none 1, .openFile 4 [98] none]) rfl, ?_, ?_, ?_, ?_, rfl, ?_⟩
  all_goals decide +kernel

/-- Hypotheses are met: a tracked output, room in the log, a short write of partly tainted memory. -/
example : ∃ (h : Trace) (T : Tracker), Reach exCfg 4096 h T ∧ owner h 4 = some 1 ∧
    (knownPos 5).getD (writePos h 1) + 3 ≤ 2 ^ 63 ∧ T.shadow 64 = 1 ∧ T.shadow 65 = 0 ∧ T.shadow 66 = 2 ∧
    T.sinks.length + ((List.range 3).filter fun k => T.shadow (64 + k) ≠ 0).length ≤ exCfg.sinkCap := by
  refine ⟨_, _, run_reach (cs := [.openFile 3 [97] none, .read 3 (some 64) none 1, .read 3 (some 66) none 1, .openFile 4 [98] none]) rfl, ?_⟩
  decide +kernel

end Verif
