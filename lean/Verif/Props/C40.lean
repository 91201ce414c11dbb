import Verif.Wrappers
import Verif.Props.C20
/- C40: library-call results determine exactly how many bytes get tainted. -/
namespace Verif
open Spec Tracker

/-- Tainting `len` bytes read from input `i`, with or without memory, at a known or unknown position. -/
theorem sourceTaint_exact {c : Config} {base : Nat} (hc : c.Ok base) {h : Trace} {T : Tracker}
    (hr : Reach c base h T) {fd : Int} {i : Nat} (hi : owner h fd = some i) (addr off : Option Nat) {len : Nat}
    (hoff : off.getD (readPos h i) + len ≤ 2 ^ 54) (hlen : 0 < len)
    (hroom : T.labels.words.length + len ≤ c.labelCap) :
    ∃ T' first, T.sourceTaint fd addr off len = .ok (T', some (first, first + len - 1)) ∧
      (∀ k, k < len → T.labels.graph (first + k) = none) ∧
      (∀ k b, k < len → (Denotes T'.labels.graph (first + k) b ↔ b = (i, off.getD (readPos h i) + k))) ∧
      (∀ x, T'.shadow x = match addr with
        | some a => if a ≤ x ∧ x < a + len then first + (x - a) else T.shadow x
        | none => T.shadow x) := by
  have hs := hr.sim hc
  obtain ⟨ss, ht⟩ := hs.tab
  have hm := ht.mapping hc.src fd
  have ha : T.Allowed (.read fd addr off len) := by
    intro j hj
    rw [hm, hi] at hj; cases hj
    rw [hs.rd i]; exact hoff
  have hi256 : ¬ i ≥ 256 := by
    have := owner_lt hi; have := ht.srcLen; have := ht.srcCap; have := hc.src; omega
  have hex : ∃ T' r, T.sourceTaint fd addr off len = .ok (T', r) := by
    cases off with
    | some o =>
      rcases createSourceTaint_total hc hs.lab i addr len o with ⟨-, -, p, hp⟩ | ⟨hn, -⟩
      · exact ⟨p.1, some p.2, by simp only [sourceTaint, hm, hi, sourceOffset, Res.bind_ok, Res.pure_eq, hp]⟩
      · exact absurd ⟨hlen, hroom⟩ hn
    | none =>
      rcases createSourceTaint_total hc (T := { T with rd := fun j => if j = i then (T.rd i + len) % 2 ^ 64 else T.rd j })
        hs.lab i addr len (T.rd i) with ⟨-, -, p, hp⟩ | ⟨hn, -⟩
      · exact ⟨p.1, some p.2, by
          simp only [sourceTaint, hm, hi, sourceOffset, increase, hi256, if_false, Res.bind_ok, Res.pure_eq, hp]⟩
      · exact absurd ⟨hlen, hroom⟩ hn
  obtain ⟨T', r, hst⟩ := hex
  have he : T.exec (.read fd addr off len) = .ok (T', .range r) := by
    simp only [exec, hst, Res.bind_ok, Res.pure_eq]
  have hr' := hr.snoc ha he
  rcases hr.read hc ha he with ⟨h3, -⟩ | ⟨j, h3, h4, h5, h6, h7⟩
  · rw [hi] at h3; cases h3
  · rw [hi] at h3; cases h3
    cases h5
    refine ⟨T', T.labels.words.length, hst, ?_, ?_, ?_⟩
    · intro k _; exact Labels.graph_none_of_ge (by omega)
    · intro k b hk
      exact (hr'.given hc (h7 k hk)).2.2 b
    · intro x
      have h1 := hs.shadow x
      have h2 := (hr'.sim hc).shadow x
      rw [h2, h1]
      cases addr <;> rfl

theorem sourceTaint_untracked {c : Config} {base : Nat} (hc : c.Ok base) {h : Trace} {T : Tracker}
    (hr : Reach c base h T) {fd : Int} (hi : owner h fd = none) (addr off : Option Nat) (len : Nat) :
    T.sourceTaint fd addr off len = .ok (T, none) := by
  obtain ⟨ss, ht⟩ := (hr.sim hc).tab
  have hm := ht.mapping hc.src fd
  simp only [sourceTaint, hm, hi]

/-- What an input call that put `n` bytes into the buffer at `buf`, at file position `off` (none: not
known), must do: return `r`; taint nothing and leave the tracker alone if there are no bytes or the
descriptor is not tracked; else give exactly those bytes new labels that denote exactly the bytes of the
input. (As long as labels are left and the position is below 2^54; see C20 for what happens otherwise.) -/
def TaintsExactly (c : Config) (h : Trace) (T : Tracker) (fd : Int) (buf : Nat) (off : Option Nat) (n : Nat)
    {ρ : Type} (out : Res (Tracker × ρ)) (r : ρ) : Prop :=
  ((n = 0 ∨ owner h fd = none) → out = .ok (T, r)) ∧
  ∀ i, owner h fd = some i → 0 < n → T.labels.words.length + n ≤ c.labelCap →
    off.getD (readPos h i) + n ≤ 2 ^ 54 →
    ∃ T' first, out = .ok (T', r) ∧
      (∀ k, k < n → T.labels.graph (first + k) = none) ∧
      (∀ k b, k < n → (Denotes T'.labels.graph (first + k) b ↔ b = (i, off.getD (readPos h i) + k))) ∧
      (∀ x, T'.shadow x = if buf ≤ x ∧ x < buf + n then first + (x - buf) else T.shadow x)

/-- A position as reported by lseek, ftello or the caller: negative if there is none. -/
def knownPos (pos : Int) : Option Nat := if pos < 0 then none else some pos.toNat

theorem fromOffT_eq {pos : Int} (h : pos < 2 ^ 54) : Wrap.fromOffT pos = .ok (knownPos pos) := by
  unfold Wrap.fromOffT knownPos
  have : ((maxSourceOffset : Nat) : Int) = 2 ^ 54 - 1 := by decide
  rw [this]
  split
  · rfl
  · rw [if_neg (by omega)]

theorem buffer_exact {c : Config} {base : Nat} (hc : c.Ok base) {h : Trace} {T : Tracker}
    (hr : Reach c base h T) (fd : Int) (buf : Nat) (off len : Option Nat) (hlen : len ≠ some 0) {ρ : Type} (r : ρ) :
    TaintsExactly c h T fd buf off (len.getD 0)
      (Wrap.taintSourceBuffer T fd buf off len >>= fun T => Res.ok (T, r)) r := by
  cases len with
  | none =>
    refine ⟨fun _ => rfl, fun i _ h0 => ?_⟩
    simp at h0
  | some n =>
    simp only [Option.getD_some]
    refine ⟨?_, ?_⟩
    · rintro (h0 | h0)
      · subst h0; exact absurd rfl hlen
      · simp only [Wrap.taintSourceBuffer, sourceTaint_untracked hc hr h0, Res.bind_ok, Res.pure_eq]
    · intro i hi h0 hroom hoff
      obtain ⟨T', first, h1, h2, h3, h4⟩ := sourceTaint_exact hc hr hi (some buf) off hoff h0 hroom
      exact ⟨T', first, by simp only [Wrap.taintSourceBuffer, h1, Res.bind_ok, Res.pure_eq], h2, h3, h4⟩

/-- read, recv and recvfrom: for every result of the call, exactly the bytes it reported are tainted and
its result is returned. Missing for the full claim: positions from 2^54 on (`C40_position_refuted`) and
recv with MSG_TRUNC, whose result is not the number of bytes stored (`C40_recv_refuted`). -/
theorem C40_read_partial {c : Config} {base : Nat} (hc : c.Ok base) {h : Trace} {T : Tracker}
    (hr : Reach c base h T) (fd : Int) (buf : Nat) (pos ret : Int) (hpos : pos < 2 ^ 54) :
    TaintsExactly c h T fd buf (knownPos pos) ret.toNat (Wrap.read T fd buf pos ret) (ret, 0) := by
  have hl : ret.toNat = (Wrap.fromReturnedSize ret).getD 0 := by
    unfold Wrap.fromReturnedSize
    split <;> simp
    omega
  have hne : Wrap.fromReturnedSize ret ≠ some 0 := by
    unfold Wrap.fromReturnedSize
    split <;> simp
    omega
  have := buffer_exact hc hr fd buf (knownPos pos) (Wrap.fromReturnedSize ret) hne (ret, 0)
  rw [hl]
  unfold Wrap.read
  rw [fromOffT_eq hpos, Res.bind_ok]
  exact this

/-- pread: the same at the position given by the caller. -/
theorem C40_pread_partial {c : Config} {base : Nat} (hc : c.Ok base) {h : Trace} {T : Tracker}
    (hr : Reach c base h T) (fd : Int) (buf : Nat) (offset ret : Int) (hpos : offset < 2 ^ 54) :
    TaintsExactly c h T fd buf (knownPos offset) ret.toNat (Wrap.pread T fd buf offset ret) (ret, 0) :=
  C40_read_partial hc hr fd buf offset ret hpos

/-- getdelim and getline: the same for the line buffer. -/
theorem C40_getdelim_partial {c : Config} {base : Nat} (hc : c.Ok base) {h : Trace} {T : Tracker}
    (hr : Reach c base h T) (fd : Int) (line : Nat) (pos ret : Int) (hpos : pos < 2 ^ 54) :
    TaintsExactly c h T fd line (knownPos pos) ret.toNat (Wrap.getdelim T fd line pos ret) (ret, 0) :=
  C40_read_partial hc hr fd line pos ret hpos

/-- fread: size times the number of items reported. -/
theorem C40_fread_partial {c : Config} {base : Nat} (hc : c.Ok base) {h : Trace} {T : Tracker}
    (hr : Reach c base h T) (fd : Int) (buf size : Nat) (pos : Int) (ret : Nat) (hpos : pos < 2 ^ 54)
    (hsize : size * ret < 2 ^ 64) :
    TaintsExactly c h T fd buf (knownPos pos) (size * ret) (Wrap.fread T fd buf size pos ret) (ret, 0) := by
  unfold Wrap.fread
  rw [fromOffT_eq hpos, Res.bind_ok, Wrap.fromReturnedSizeCount, if_neg (by omega)]
  split
  · rename_i h0
    rw [h0]
    exact buffer_exact hc hr fd buf (knownPos pos) none (by simp) (ret, 0)
  · rename_i h0
    exact buffer_exact hc hr fd buf (knownPos pos) (some (size * ret)) (by simpa using h0) (ret, 0)

/-- fread of a number of bytes that does not fit 64 bits ends the program. -/
theorem C40_fread_overflow (T : Tracker) (fd : Int) (buf size : Nat) (pos : Int) (ret : Nat) (hpos : pos < 2 ^ 54)
    (hsize : 2 ^ 64 ≤ size * ret) : Wrap.fread T fd buf size pos ret = .fatal := by
  unfold Wrap.fread
  rw [fromOffT_eq hpos, Res.bind_ok, Wrap.fromReturnedSizeCount, if_pos hsize]
  rfl

/-- getc and the like: at end of file or for descriptors that are not tracked nothing happens and the
label is 0; else the label of the result is new and denotes exactly the byte read; memory is not
touched. -/
theorem C40_getc_partial {c : Config} {base : Nat} (hc : c.Ok base) {h : Trace} {T : Tracker}
    (hr : Reach c base h T) (fd : Int) (pos ch : Int) (hpos : pos < 2 ^ 54) :
    ((ch = -1 ∨ owner h fd = none) → Wrap.getc T fd pos ch = .ok (T, ch, 0)) ∧
    ∀ i, owner h fd = some i → ch ≠ -1 → T.labels.words.length + 1 ≤ c.labelCap →
      (knownPos pos).getD (readPos h i) + 1 ≤ 2 ^ 54 →
      ∃ T' l, Wrap.getc T fd pos ch = .ok (T', ch, l) ∧ T.labels.graph l = none ∧
        (∀ b, Denotes T'.labels.graph l b ↔ b = (i, (knownPos pos).getD (readPos h i))) ∧
        T'.shadow = T.shadow := by
  unfold Wrap.getc
  rw [fromOffT_eq hpos]
  simp only [Res.bind_ok, ne_eq, ite_not]
  refine ⟨?_, ?_⟩
  · intro h0
    split
    · rfl
    · rename_i hne
      rw [sourceTaint_untracked hc hr (h0.resolve_left hne)]
      rfl
  · intro i hi hne hroom hoff
    obtain ⟨T', first, h1, h2, h3, h4⟩ := sourceTaint_exact hc hr hi none (knownPos pos) hoff (Nat.lt_succ_self 0) hroom
    rw [if_neg hne]
    refine ⟨T', first, ?_, h2 0 (by omega), ?_, funext h4⟩
    · rw [h1]; rfl
    · intro b
      have := h3 0 b (by omega)
      simpa using this

theorem cStrLen_append : ∀ (s t : List Nat), (∀ b ∈ s, b ≠ 0) → Wrap.cStrLen (s ++ 0 :: t) = .ok s.length := by
  intro s
  induction s with
  | nil => intro t _; rfl
  | cons b s ih =>
    intro t hs
    have hb := hs b List.mem_cons_self
    simp only [List.cons_append, Wrap.cStrLen, hb, if_false]
    rw [ih t (fun x hx => hs x (List.mem_cons_of_mem _ hx))]
    rfl

/-- fgets: if it placed at least one byte and none of the bytes is zero, exactly the bytes placed before
the terminating zero are tainted; if it failed, nothing is. Missing for the full claim: lines with zero
bytes and empty results (`C40_fgets_zero_refuted`, `C40_fgets_empty_refuted`). -/
theorem C40_fgets_partial {c : Config} {base : Nat} (hc : c.Ok base) {h : Trace} {T : Tracker}
    (hr : Reach c base h T) (fd : Int) (str strLabel : Nat) (pos : Int) (hpos : pos < 2 ^ 54) :
    Wrap.fgets T fd str strLabel pos none = .ok (T, false, 0) ∧
    ∀ got : List Nat, got ≠ [] → (∀ b ∈ got, b ≠ 0) →
      TaintsExactly c h T fd str (knownPos pos) got.length (Wrap.fgets T fd str strLabel pos (some got)) (true, strLabel) := by
  unfold Wrap.fgets
  rw [fromOffT_eq hpos]
  refine ⟨rfl, fun got hne hz => ?_⟩
  have := buffer_exact hc hr fd str (knownPos pos) (some got.length)
    (by simpa using hne) (true, strLabel)
  simp only [Res.bind_ok, Option.map_some, Wrap.fromReturnedString, cStrLen_append got [] hz, Res.pure_eq,
    Option.isSome_some, if_true]
  exact this

/-- mmap: a failed call changes nothing; a mapping of a tracked file has exactly its `length` bytes
tainted. Missing for the full claim: anonymous mappings (`C40_mmap_refuted`). -/
theorem C40_mmap_partial {c : Config} {base : Nat} (hc : c.Ok base) {h : Trace} {T : Tracker}
    (hr : Reach c base h T) (fd : Int) (length : Nat) (offset : Int) (hpos : offset < 2 ^ 54) :
    Wrap.mmap T fd length offset none = .ok (T, none, 0) ∧
    ∀ a, 0 < length → TaintsExactly c h T fd a (knownPos offset) length (Wrap.mmap T fd length offset (some a)) (some a, 0) := by
  unfold Wrap.mmap
  rw [fromOffT_eq hpos]
  refine ⟨rfl, fun a h0 => ⟨?_, ?_⟩⟩
  · rintro (h1 | h1)
    · omega
    · simp only [Res.bind_ok, sourceTaint_untracked hc hr h1, Res.pure_eq]
  · intro i hi h0 hroom hoff
    obtain ⟨T', first, h1, h2, h3, h4⟩ := sourceTaint_exact hc hr hi (some a) (knownPos offset) hoff h0 hroom
    exact ⟨T', first, by simp only [Res.bind_ok, h1, Res.pure_eq], h2, h3, h4⟩

theorem setAll_eq (n : Nat) : ∀ (sh : Shadow) (l a x : Nat),
    Wrap.setAll sh l a n x = if a ≤ x ∧ x < a + n then l else sh x := by
  induction n with
  | zero => intro sh l a x; rw [if_neg (by omega)]; rfl
  | succ n ih =>
    intro sh l a x
    simp only [Wrap.setAll]
    rw [ih]
    unfold Dfsan.upd
    by_cases h : x = a
    · subst h; simp
    · by_cases h2 : a ≤ x ∧ x < a + (n + 1)
      · rw [if_pos (by omega), if_pos h2]
      · rw [if_neg (by omega), if_neg h2, if_neg h]

/-- munmap: the bytes of the mapping lose their labels and no other byte does. -/
theorem C40_munmap (T : Tracker) (addr length : Nat) (ret : Int) :
    ∃ T', Wrap.munmap T addr length ret = (T', ret, 0) ∧
      (∀ x, T'.shadow x = if addr ≤ x ∧ x < addr + length then 0 else T.shadow x) ∧
      T'.labels = T.labels ∧ T'.sources = T.sources ∧ T'.sinks = T.sinks :=
  ⟨_, rfl, fun x => setAll_eq length T.shadow 0 addr x, rfl, rfl, rfl⟩

/-! ### Where the claim fails -/

/-- A file positioned at 2^54 or later ends the program on the next read, tracked or not, whatever the
read would have returned. -/
theorem C40_position_refuted (T : Tracker) (fd : Int) (buf : Nat) (pos ret : Int) (hpos : 2 ^ 54 ≤ pos) :
    Wrap.read T fd buf pos ret = .fatal := by
  unfold Wrap.read Wrap.fromOffT
  have : ((maxSourceOffset : Nat) : Int) = 2 ^ 54 - 1 := by decide
  rw [this, if_neg (by omega), if_pos (by omega)]
  rfl

/-- recv with MSG_TRUNC returns the length of the message even if it was longer than the buffer. Here a
1-byte buffer at 64 received a 3-byte message: the two bytes after the buffer, which the call did not
touch, get labels. -/
theorem C40_recv_refuted : ∃ (h : Trace) (T T' : Tracker), Reach exCfg 4096 h T ∧
    Wrap.read T 3 64 (-1) 3 = .ok (T', 3, 0) ∧ T.shadow 65 = 0 ∧ T.shadow 66 = 0 ∧
    T'.shadow 65 ≠ 0 ∧ T'.shadow 66 ≠ 0 := by
  refine ⟨_, _, _, run_reach (cs := [.openFile 3 [97] none]) rfl, rfl, ?_⟩
  decide +kernel

/-- fgets read the five bytes `a`, zero, `b`, `c`, newline: only the first gets a label, the others keep
the labels they had before (here none). -/
theorem C40_fgets_zero_refuted : ∃ (h : Trace) (T T' : Tracker), Reach exCfg 4096 h T ∧
    owner h 3 = some 0 ∧
    Wrap.fgets T 3 64 0 (-1) (some [97, 0, 98, 99, 10]) = .ok (T', true, 0) ∧
    T'.shadow 64 ≠ 0 ∧ T'.shadow 65 = 0 ∧ T'.shadow 66 = 0 ∧ T'.shadow 67 = 0 ∧ T'.shadow 68 = 0 := by
  refine ⟨_, _, _, run_reach (cs := [.openFile 3 [97] none]) rfl, ?_, rfl, ?_⟩
  · decide +kernel
  · decide +kernel

/-- An fgets from a tracked file that returns an empty string, because the first byte read is zero or
because the buffer has room for the terminating zero only, runs into undefined behaviour. -/
theorem C40_fgets_empty_refuted {c : Config} {base : Nat} (hc : c.Ok base) {h : Trace} {T : Tracker}
    (hr : Reach c base h T) (fd : Int) (str strLabel : Nat) (pos : Int) (hp : 0 ≤ pos) (hpos : pos < 2 ^ 54) (i : Nat)
    (hi : owner h fd = some i) (got : List Nat) (hgot : got.head?.getD 0 = 0) :
    Wrap.fgets T fd str strLabel pos (some got) = .ub := by
  have h0 : Wrap.cStrLen (got ++ [0]) = .ok 0 := by
    cases got with
    | nil => rfl
    | cons b s => simp only [List.head?_cons, Option.getD_some] at hgot; subst hgot; rfl
  have hk : knownPos pos = some pos.toNat := by unfold knownPos; rw [if_neg (by omega)]
  have := C20_undefined_refuted c base hc h T hr fd str pos.toNat 0 i hi (.inl rfl)
  have hub : T.sourceTaint fd (some str) (some pos.toNat) 0 = .ub := by
    simp only [exec] at this
    cases hs : T.sourceTaint fd (some str) (some pos.toNat) 0 with
    | ok p => rw [hs] at this; simp at this
    | fatal => rw [hs] at this; simp at this
    | ub => rfl
    | hang => rw [hs] at this; simp at this
  unfold Wrap.fgets
  rw [fromOffT_eq hpos]
  simp only [Res.bind_ok, Option.map_some, Wrap.fromReturnedString, h0, Res.pure_eq, Wrap.taintSourceBuffer, hk, hub,
    Res.bind_ub]

/-- gets: the line the C library's gets would store is everything before the newline. -/
def getsLine (s : List Nat) : List Nat := s.takeWhile (· ≠ 10)

/-- The gets wrapper does not return what gets would have stored: of the line "abcdefgh" it stores seven
bytes, and of a short line it stores the newline too. -/
theorem C40_gets_refuted : ∃ (h : Trace) (T T1 T2 : Tracker), Reach exCfg 4096 h T ∧
    Wrap.gets T 0 64 0 (-1) [97, 98, 99, 100, 101, 102, 103, 104, 10] = .ok (T1, some [97, 98, 99, 100, 101, 102, 103], 0) ∧
    getsLine [97, 98, 99, 100, 101, 102, 103, 104, 10] = [97, 98, 99, 100, 101, 102, 103, 104] ∧
    Wrap.gets T 0 64 0 (-1) [97, 10] = .ok (T2, some [97, 10], 0) ∧ getsLine [97, 10] = [97] :=
  ⟨_, _, _, _, run_reach (cs := [.openFile 0 [97] none]) rfl, rfl, by decide, rfl, by decide⟩

/-- An anonymous mapping has descriptor -1, which is the descriptor recorded for command-line arguments:
after an argument was registered, fresh zero memory is labelled as bytes of that argument. -/
theorem C40_mmap_refuted : ∃ (h : Trace) (T T' : Tracker), Reach exCfg 4096 h T ∧
    h = [(.input [118] 32 1, .range (some (1, 1)))] ∧
    Wrap.mmap T (-1) 2 0 (some 128) = .ok (T', some 128, 0) ∧ T'.shadow 128 = 2 ∧ T'.shadow 129 = 3 := by
  refine ⟨_, _, _, run_reach (cs := [.input [118] 32 1]) rfl, rfl, rfl, ?_⟩
  decide +kernel

/-- Hypotheses are met: a tracked descriptor, room for labels, a short read at a known position. -/
example : ∃ (h : Trace) (T : Tracker), Reach exCfg 4096 h T ∧ owner h 3 = some 0 ∧
    T.labels.words.length + 2 ≤ exCfg.labelCap ∧ (knownPos 5).getD (readPos h 0) + 2 ≤ 2 ^ 54 := by
  refine ⟨_, _, run_reach (cs := [.openFile 3 [97] none]) rfl, ?_⟩
  decide +kernel

end Verif
