import Verif.Startup
import Verif.CopyLemmas
import Verif.Props.C20
/- C55: start-up does what the environment says, and taints exactly the command line. -/
namespace Verif
open Spec Tracker

namespace Startup

/-! ### Specification -/

/-- Value of a string of decimal digits. -/
def value (ds : List Nat) : Nat := ds.foldl (fun a d => 10 * a + (d - 48)) 0

/-- `ds` is the usual decimal notation of `n`. -/
def IsDecimal (n : Nat) (ds : List Nat) : Prop :=
  ds ≠ [] ∧ (∀ d ∈ ds, 48 ≤ d ∧ d ≤ 57) ∧ value ds = n ∧ (ds.head? = some 48 → ds = [48])

/-- The standard streams to be tracked: each one whose variable is exactly "1" and that has a
descriptor, in the order stdout, stderr, stdin; name, descriptor and size. -/
def wanted (env : Env) (io : Stdio) : List (List Nat × Int × Nat) :=
  ([(stdoutVar, io.stdoutFd, devStdout), (stderrVar, io.stderrFd, devStderr),
    (stdinVar, io.stdinFd, devStdin)].filter fun x => env x.1 = some [49] ∧ 0 ≤ x.2.1).map
    fun x => (x.2.2, x.2.1, (io.size x.2.2).getD unknownSize)

/-- Argument `i` of a command line, given as addresses and lengths, is the last one that contains the
byte at address `a`. (Arguments do not usually overlap.) -/
def LastArg (args : List (Nat × Nat)) (i a : Nat) : Prop :=
  (∃ p n, args[i]? = some (p, n) ∧ p ≤ a ∧ a < p + n) ∧
  ∀ j p n, i < j → args[j]? = some (p, n) → ¬ (p ≤ a ∧ a < p + n)

/-- Between two histories nothing was read, written or reported. -/
structure Still (h h' : Trace) : Prop where
  read : ∀ i, readPos h' i = readPos h i
  write : ∀ i, writePos h' i = writePos h i
  written : written h' = written h
  functions : functions h' = functions h
  cf : cfEvents h' = cfEvents h

theorem Still.trans {a b c : Trace} (x : Still a b) (y : Still b c) : Still a c :=
  ⟨fun i => (y.read i).trans (x.read i), fun i => (y.write i).trans (x.write i), y.written.trans x.written,
    y.functions.trans x.functions, y.cf.trans x.cf⟩

/-- The tracker call an entry point stands for. -/
def Entry.call : Entry → Option Call
  | .funcEntry name => some (.fnEntry name)
  | .funcExit i => some (.fnExit i)
  | .unionTable l r => some (.union l r)
  | .condBranch l => if 0 < l then some (.mark l) else none
  | .taintedCf _ fid l => if 0 < l then some (.cf (.tainted fid l)) else none
  | .enter fid => some (.cf (.enter fid))
  | .leave fid => some (.cf (.leave fid))
  | .argv _ _ => none

/-- What it is to answer, given the tracker's result. -/
def Entry.answer : Entry → Option Ret → Answer
  | .funcEntry _, some (.index i) => ⟨i, none⟩
  | .unionTable _ _, some (.label u) => ⟨some u, none⟩
  | .taintedCf cond _ l, _ => ⟨some cond, some l⟩
  | _, _ => ⟨none, none⟩

/-! ### Decimal notation -/

theorem value_append (a b : List Nat) (d : Nat) (hb : b = [d]) : value (a ++ b) = 10 * value a + (d - 48) := by
  subst hb; simp [value]

theorem decimalF_spec : ∀ (fuel n : Nat), n < 10 ^ (fuel + 1) → IsDecimal n (decimalF fuel n) := by
  intro fuel
  induction fuel with
  | zero =>
    intro n hn
    have hn : n < 10 := by simpa using hn
    refine ⟨by simp [decimalF], ?_, ?_, ?_⟩
    · intro d hd; simp only [decimalF, List.mem_singleton] at hd; omega
    · simp only [decimalF, value, List.foldl_cons, List.foldl_nil]; omega
    · intro h; simp only [decimalF, List.head?_cons, Option.some.injEq] at h ⊢; rw [h]
  | succ f ih =>
    intro n hn
    simp only [decimalF]
    split
    · rename_i h
      refine ⟨by simp, ?_, ?_, ?_⟩
      · intro d hd; simp only [List.mem_singleton] at hd; omega
      · simp only [value, List.foldl_cons, List.foldl_nil]; omega
      · intro h; simp only [List.head?_cons, Option.some.injEq] at h ⊢; rw [h]
    · rename_i h
      have hlt : n / 10 < 10 ^ (f + 1) := by
        rw [Nat.div_lt_iff_lt_mul (by decide)]
        rw [Nat.pow_succ] at hn; exact hn
      obtain ⟨h1, h2, h3, h4⟩ := ih (n / 10) hlt
      refine ⟨by simp, ?_, ?_, ?_⟩
      · intro d hd
        simp only [List.mem_append, List.mem_singleton] at hd
        rcases hd with hd | rfl
        · exact h2 d hd
        · omega
      · rw [value_append _ _ _ rfl, h3]; omega
      · intro hh
        have : (decimalF f (n / 10)).head? = some 48 := by
          cases hc : decimalF f (n / 10) with
          | nil => exact absurd hc h1
          | cons x xs => rw [hc] at hh; simpa using hh
        have h5 := h4 this
        rw [h5] at h3
        simp only [value, List.foldl_cons, List.foldl_nil] at h3
        omega

theorem decimalF_length : ∀ (fuel n : Nat), (decimalF fuel n).length ≤ fuel + 1 := by
  intro fuel
  induction fuel with
  | zero => intro n; simp [decimalF]
  | succ f ih =>
    intro n
    simp only [decimalF]
    split
    · simp
    · have := ih (n / 10); simp only [List.length_append, List.length_cons, List.length_nil]; omega

theorem decimalF_byte : ∀ (fuel n d : Nat), d ∈ decimalF fuel n → d < 256 := by
  intro fuel
  induction fuel with
  | zero => intro n d hd; simp only [decimalF, List.mem_singleton] at hd; omega
  | succ f ih =>
    intro n d hd
    simp only [decimalF] at hd
    split at hd
    · simp only [List.mem_singleton] at hd; omega
    · simp only [List.mem_append, List.mem_singleton] at hd
      rcases hd with hd | rfl
      · exact ih _ _ hd
      · omega

theorem argName_byte (i d : Nat) (hd : d ∈ argName i) : d < 256 := by
  simp only [argName, List.mem_append] at hd
  rcases hd with (hd | hd) | hd
  · revert hd; simp [chars]; omega
  · exact decimalF_byte _ _ _ hd
  · revert hd; simp [chars]; omega

theorem argName_length (i : Nat) : (argName i).length ≤ 16 := by
  have := decimalF_length 9 i
  simp only [argName, decimal, List.length_append, chars, List.length_map, List.length_cons, List.length_nil]
  omega

/-! ### Registering -/

theorem allocatedLen_eq (n : Nat) : StrTab.allocatedLen n = (n + 3) / 2 * 2 := by
  have h2 : StrTab.lenSize = 2 := rfl
  simp only [StrTab.allocatedLen]
  split <;> omega

/-- With room in both tables a source is accepted. -/
theorem addSource_room {c : Config} {h : Trace} {T : Tracker} (hs : Sim c h T) {name : List Nat} {fd : Int}
    {size : Nat} (hlen : name.length ≤ 65535) (hroom : (registered h).length < c.srcCap)
    (hstr : T.strings.size + (name.length + 3) / 2 * 2 ≤ c.strSize) :
    ∃ T' i, T.addSource name fd size = .ok (T', some i) ∧
      T'.strings.size = T.strings.size + (name.length + 3) / 2 * 2 ∧
      T'.labels = T.labels ∧ T'.index = T.index ∧ T'.shadow = T.shadow := by
  obtain ⟨ss, ht⟩ := hs.tab
  have hsz := ht.size
  simp only [Section.size] at hstr
  rcases StrTab.addString_spec ht.strs (s := name) (hlen) with ⟨-, S', h1, h2, h3, h4⟩ | ⟨h0, -⟩
  · refine ⟨{ T with strings := S', sources := T.sources ++ [{ nameOff := T.strings.pos, fd := fd, size := size }] }, T.sources.length % 256, ?_, ?_, rfl, rfl, rfl⟩
    · simp only [addSource, h1, Res.bind_ok, Res.pure_eq]
      rw [if_pos (by rw [hs.cfg, ht.srcLen]; omega)]
    · simp only [Section.size]
      rw [h2.pos, ht.strs.pos]
      simp only [List.flatMap_append, List.length_append, List.flatMap_cons, List.flatMap_nil, List.append_nil]
      rw [StrTab.block_length, allocatedLen_eq]
  · rw [allocatedLen_eq] at h0; omega

/-- Without room in the source table it is refused, silently. -/
theorem addSource_full {c : Config} {h : Trace} {T : Tracker} (hs : Sim c h T) {name : List Nat} {fd : Int}
    {size : Nat} (hlen : name.length ≤ 65535) (hfull : c.srcCap ≤ (registered h).length) :
    ∃ T', T.addSource name fd size = .ok (T', none) ∧
      T'.labels = T.labels ∧ T'.index = T.index ∧ T'.shadow = T.shadow ∧ T'.sources = T.sources := by
  obtain ⟨ss, ht⟩ := hs.tab
  rcases StrTab.addString_spec ht.strs (s := name) (hlen) with ⟨-, S', h1, -⟩ | ⟨-, h1⟩
  · refine ⟨{ T with strings := S' }, ?_, rfl, rfl, rfl, rfl⟩
    simp only [addSource, h1, Res.bind_ok, Res.pure_eq]
    rw [if_neg (by rw [hs.cfg, ht.srcLen]; omega)]
  · exact ⟨T, by simp only [addSource, h1, Res.bind_ok, Res.pure_eq], rfl, rfl, rfl, rfl⟩

/-- Opening a stream when there is room. -/
theorem openFile_room {c : Config} {base : Nat} (hc : c.Ok base) {h : Trace} {T : Tracker}
    (hr : Reach c base h T) {name : List Nat} {fd : Int} {size : Option Nat} (hlen : name.length ≤ 65535)
    (ha : T.Allowed (.openFile fd name size)) (hroom : (registered h).length < c.srcCap)
    (hstr : T.strings.size + (name.length + 3) / 2 * 2 ≤ c.strSize) :
    ∃ T' i h', T.openFile fd name size = .ok (T', some i) ∧ Reach c base h' T' ∧
      registered h' = registered h ++ [(name, fd, size.getD unknownSize)] ∧ Still h h' ∧
      T'.strings.size = T.strings.size + (name.length + 3) / 2 * 2 ∧
      T'.labels = T.labels ∧ T'.shadow = T.shadow ∧ labelEvents h' = labelEvents h := by
  obtain ⟨T', i, h1, h2, h3, -, h5⟩ := addSource_room (hr.sim hc) (fd := fd)
    (size := size.getD invalidSize) hlen hroom hstr
  have he : T.exec (.openFile fd name size) = .ok (T', .index (some i)) := by
    simp only [exec, openFile, h1, Res.bind_ok, Res.pure_eq]
  exact ⟨T', i, _, h1, hr.snoc ha he, rfl, ⟨fun _ => rfl, fun _ => rfl, rfl, rfl, rfl⟩, h2, h3, h5, rfl⟩

/-- Declaring an input when there is room. -/
theorem input_room {c : Config} {base : Nat} (hc : c.Ok base) {h : Trace} {T : Tracker}
    (hr : Reach c base h T) {name : List Nat} {p len : Nat} (hlen : name.length ≤ 65535)
    (hb : ∀ b ∈ name, b < 256) (hroom : (registered h).length < c.srcCap)
    (hstr : T.strings.size + (name.length + 3) / 2 * 2 ≤ c.strSize) (hpos : 0 < len)
    (hlab : T.labels.words.length + len ≤ c.labelCap) :
    ∃ T' rng h', T.createTaintSource name p len = .ok (T', some rng) ∧ Reach c base h' T' ∧
      registered h' = registered h ++ [(name, -1, unknownSize)] ∧
      T'.strings.size = T.strings.size + (name.length + 3) / 2 * 2 ∧
      T'.labels.words.length = T.labels.words.length + len ∧
      Still h h' ∧
      labelEvents h' = labelEvents h ++ [.source (registered h).length 0 len T.labels.words.length] ∧
      (∀ x, T'.shadow x = if p ≤ x ∧ x < p + len then T.labels.words.length + (x - p) else T.shadow x) ∧
      ∀ l b, Denotes T'.labels.graph l b ↔
        if T.labels.words.length ≤ l ∧ l < T.labels.words.length + len
        then b = ((registered h).length, l - T.labels.words.length) else Denotes T.labels.graph l b := by
  have hs := hr.sim hc
  obtain ⟨T1, i, h1, h2, h3, h4, h5⟩ := addSource_room hs (fd := invalidFd) (size := invalidSize) hlen hroom hstr
  have hl1 : LabSim c (labelEvents h) T1.labels T1.index := by rw [h3, h4]; exact hs.lab
  rcases createSourceTaint_total hc hl1 i (some p) len 0 with ⟨-, -, ⟨T2, rng⟩, hp⟩ | ⟨hn, -⟩
  · have he : T.createTaintSource name p len = .ok (T2, some rng) := by
      simp only [createTaintSource, h1, Res.bind_ok, hp, Res.pure_eq]
    have hex : T.exec (.input name p len) = .ok (T2, .range (some rng)) := by
      simp only [exec, he, Res.bind_ok, Res.pure_eq]
    have ha : T.Allowed (.input name p len) := hb
    have hr' := hr.snoc ha hex
    have hs' := hr'.sim hc
    have hstr2 : T2.strings = T1.strings := by
      simp only [createSourceTaint, Res.bind_eq_ok, Res.pure_eq] at hp
      obtain ⟨⟨L, r⟩, -, B, -, hp⟩ := hp
      cases hp; rfl
    rcases hr.input hc ha hex with hbad | ⟨-, hrng, hw, -, -⟩
    · cases hbad
    · simp only [Ret.range.injEq, Option.some.injEq] at hrng
      subst hrng
      refine ⟨T2, _, _, he, hr', rfl, by rw [hstr2, h2], hw, ⟨fun _ => rfl, fun _ => rfl, rfl, rfl, rfl⟩, rfl, ?_, ?_⟩
      · intro x
        rw [hs'.shadow x, hs.shadow x]
        rfl
      · intro l b
        rw [hs'.lab.reach.meaning hc.lab0 hc.lab]
        simp only [labelEvents]
        rw [Labels.Meaning_snoc, after]
        split
        · rw [Nat.zero_add]
        · rw [hs.lab.reach.meaning hc.lab0 hc.lab]
  · exact absurd ⟨hpos, by rw [h3]; exact hlab⟩ hn

/-- The events of giving labels to the command line: the first argument becomes source `i`, labels from `f` on. -/
def argEvents : Nat → Nat → List (Nat × Nat) → List Event
  | _, _, [] => []
  | i, f, (_, n) :: rest => .source i 0 n f :: argEvents (i + 1) (f + n) rest

/-- Arguments from number `i` on: addresses and lengths. -/
theorem argvLoop_spec {c : Config} {base : Nat} (hc : c.Ok base) (m : Mem) (argv : List Nat) :
    ∀ (rest : List (Nat × Nat)) (i : Nat) (h : Trace) (T : Tracker), Reach c base h T →
    (∀ (j p n : Nat), rest[j]? = some (p, n) → argv[i + j]? = some p ∧ IsStr m p n ∧ 0 < n ∧ n < 2 ^ 64) →
    (registered h).length + rest.length ≤ c.srcCap →
    T.strings.size + 18 * rest.length ≤ c.strSize →
    T.labels.words.length + (rest.map (·.2)).sum ≤ c.labelCap →
    ∃ T' h', argvLoop m argv i rest.length T = .ok T' ∧ Reach c base h' T' ∧
      registered h' = registered h ++ (List.range rest.length).map (fun j => (argName (i + j), -1, unknownSize)) ∧
      Still h h' ∧ T.labels.words.length ≤ T'.labels.words.length ∧
      (∀ a, (∀ (j p n : Nat), rest[j]? = some (p, n) → ¬ (p ≤ a ∧ a < p + n)) → T'.shadow a = T.shadow a) ∧
      (∀ a j p n, LastArg rest j a → rest[j]? = some (p, n) → T.labels.words.length ≤ T'.shadow a ∧
        ∀ b, Denotes T'.labels.graph (T'.shadow a) b ↔ b = ((registered h).length + j, a - p)) ∧
      (∀ l b, l < T.labels.words.length → (Denotes T'.labels.graph l b ↔ Denotes T.labels.graph l b)) ∧
      labelEvents h' = labelEvents h ++ argEvents (registered h).length T.labels.words.length rest := by
  intro rest
  induction rest with
  | nil =>
    intro i h T hr _ _ _ _
    exact ⟨T, h, rfl, hr, by simp, ⟨fun _ => rfl, fun _ => rfl, rfl, rfl, rfl⟩, Nat.le_refl _, fun _ _ => rfl, fun a j p n _ hj => by simp at hj,
      fun _ _ _ => Iff.rfl, by simp [argEvents]⟩
  | cons x rest ih =>
    obtain ⟨p, n⟩ := x
    intro i h T hr harg hsrc hstr hlab
    simp only [List.length_cons, List.map_cons, List.sum_cons] at hsrc hstr hlab
    obtain ⟨g1, g2, g3, g4⟩ := harg 0 p n rfl
    have hnl := argName_length i
    obtain ⟨T1, rng, h1, e1, r1, k1, k2, k3, kq, ke, k4, k5⟩ := input_room hc hr (name := argName i) (p := p) (len := n)
      (by omega) (argName_byte i) (by omega) (by omega) g3 (by omega)
    obtain ⟨T', h', e2, r2, q1, qq, q2, q3, q4, q5, q6⟩ := ih (i + 1) h1 T1 r1
      (fun j p n hj => by
        have := harg (j + 1) p n (by simpa using hj)
        rwa [show i + (j + 1) = i + 1 + j by omega] at this)
      (by rw [k1]; simp; omega) (by omega) (by omega)
    refine ⟨T', h', ?_, r2, ?_, kq.trans qq, by omega, ?_, ?_, ?_, ?_⟩
    · simp only [List.length_cons, argvLoop, getRes]
      rw [show i = i + 0 from rfl, g1]
      simp only [Res.bind_ok]
      rw [DfsanMem.strlen_str g2 g4]
      simp only [Res.bind_ok, Nat.add_zero, e1]
      exact e2
    · rw [q1, k1, List.length_cons, List.range_succ_eq_map]
      simp only [List.map_cons, List.map_map, List.append_assoc, List.cons_append, List.nil_append, Nat.add_zero]
      congr 2
      apply List.map_congr_left
      intro j _
      simp only [Function.comp]
      rw [show i + 1 + j = i + j.succ by omega]
    · intro a ha
      rw [q3 a (fun j p n hj => ha (j + 1) p n (by simpa using hj)), k4, if_neg (ha 0 p n rfl)]
    · intro a j p' n' hl hj
      cases j with
      | zero =>
        simp only [List.getElem?_cons_zero, Option.some.injEq] at hj
        cases hj
        obtain ⟨⟨p2, n2, hx, h1, h2⟩, hlast⟩ := hl
        simp only [List.getElem?_cons_zero, Option.some.injEq] at hx
        cases hx
        have hsh : T'.shadow a = T.labels.words.length + (a - p) := by
          rw [q3 a (fun j p n hj => hlast (j + 1) p n (by omega) (by simpa using hj)), k4, if_pos ⟨h1, h2⟩]
        refine ⟨by omega, fun b => ?_⟩
        rw [hsh, q5 _ _ (by omega), k5, if_pos (by omega), Nat.add_zero, Nat.add_sub_cancel_left]
      | succ j =>
        have hl' : LastArg rest j a := by
          obtain ⟨⟨p2, n2, hx, h1⟩, hlast⟩ := hl
          exact ⟨⟨p2, n2, by simpa using hx, h1⟩, fun j2 p2 n2 hlt h2 => hlast (j2 + 1) p2 n2 (by omega) (by simpa using h2)⟩
        obtain ⟨z1, z2⟩ := q4 a j p' n' hl' (by simpa using hj)
        refine ⟨by omega, fun b => ?_⟩
        rw [z2, k1]
        simp only [List.length_append, List.length_cons, List.length_nil]
        rw [show (registered h).length + (0 + 1) + j = (registered h).length + (j + 1) by omega]
    · intro l b hl
      rw [q5 l b (by omega), k5, if_neg (by omega)]
    · rw [q6, ke, k1, k3, List.append_assoc]
      simp [argEvents]

end Startup
open Startup

/-- Every field of the settings, for every environment. -/
theorem C55_settings (env : Env) :
    (getSettings env).dbName =
      (if (env polydb).getD [] = [] then "polytracker.tdag".toList.map Char.toNat else (env polydb).getD []) ∧
    (getSettings env).stdoutSink = (env stdoutVar).getD [] ∧
    (getSettings env).stderrSink = (env stderrVar).getD [] ∧
    (getSettings env).stdinSource = (env stdinVar).getD [] ∧
    ((getSettings env).taintArgv = true ↔ ∃ v, env argvVar = some (49 :: v)) := by
  have key : ∀ s : Settings, (setDefaults s).stdoutSink = s.stdoutSink ∧ (setDefaults s).stderrSink = s.stderrSink ∧
      (setDefaults s).stdinSource = s.stdinSource ∧ (setDefaults s).taintArgv = s.taintArgv ∧
      (setDefaults s).dbName = if s.dbName = [] then defaultName else s.dbName := by
    intro s; unfold setDefaults; split <;> simp [*]
  obtain ⟨k1, k2, k3, k4, k5⟩ := key (parseEnv env .initial)
  unfold getSettings
  rw [k1, k2, k3, k4, k5]
  refine ⟨?_, ?_, ?_, ?_, ?_⟩
  · unfold parseEnv
    cases env polydb <;> cases env stdoutVar <;> cases env stderrVar <;> cases env stdinVar <;>
      cases env argvVar <;> rfl
  · unfold parseEnv
    cases env polydb <;> cases env stdoutVar <;> cases env stderrVar <;> cases env stdinVar <;>
      cases env argvVar <;> rfl
  · unfold parseEnv
    cases env polydb <;> cases env stdoutVar <;> cases env stderrVar <;> cases env stdinVar <;>
      cases env argvVar <;> rfl
  · unfold parseEnv
    cases env polydb <;> cases env stdoutVar <;> cases env stderrVar <;> cases env stdinVar <;>
      cases env argvVar <;> rfl
  · have : (parseEnv env .initial).taintArgv = (match env argvVar with | some v => v.headD 0 == 49 | none => false) := by
      unfold parseEnv
      cases env polydb <;> cases env stdoutVar <;> cases env stderrVar <;> cases env stdinVar <;>
        cases env argvVar <;> rfl
    rw [this]
    cases env argvVar with
    | none => simp
    | some v =>
      cases v with
      | nil => simp
      | cons x xs => simp

/-- Start-up with a fresh tracker that has room for three names. -/
theorem Startup.streams_spec (c : Config) (base : Nat) (hc : c.Ok base) (T₀ : Tracker) (h0 : init c base = .ok T₀)
    (env : Env) (io : Stdio) (hsrc : 3 ≤ c.srcCap) (hstr : 40 ≤ c.strSize)
    (hfd : io.stdinFd < 2 ^ 31 ∧ io.stdoutFd < 2 ^ 31 ∧ io.stderrFd < 2 ^ 31)
    (hsz : ∀ n s, io.size n = some s → s < 2 ^ 64) :
    ∃ s T h, taintStart env io c base = .ok (s, T) ∧ s = getSettings env ∧ Reach c base h T ∧
      registered h = wanted env io ∧ Still [] h ∧ (∀ a, T.shadow a = 0) ∧ T.strings.size ≤ 40 ∧
      T.labels = Labels.init c.labelCap ∧ labelEvents h = [] ∧ ∀ l b, ¬ Denotes T.labels.graph l b := by
  obtain ⟨-, s1, s2, s3, -⟩ := C55_settings env
  have hr0 : Reach c base [] T₀ := ⟨T₀, h0, .nil⟩
  have hl0 : T₀.labels = Labels.init c.labelCap ∧ T₀.shadow = (fun _ => 0) ∧ T₀.strings.size = 0 := by
    unfold init at h0
    split at h0
    · cases h0
    · simp only [Res.bind_eq_ok, Res.pure_eq] at h0
      obtain ⟨S, hS, h0⟩ := h0
      unfold StrTab.new at hS
      split at hS
      · cases hS
      · cases hS; cases h0; exact ⟨rfl, rfl, rfl⟩
  have hone : ∀ v : List Nat, ∀ o : Option (List Nat), o.getD [] = [49] ↔ o = some [49] := by
    intro _ o; cases o <;> simp
  have d1 : ∀ b ∈ devStdout, b < 256 := by decide +kernel
  have d2 : ∀ b ∈ devStderr, b < 256 := by decide +kernel
  have d3 : ∀ b ∈ devStdin, b < 256 := by decide +kernel
  have n1 : devStdout.length = 11 := by decide +kernel
  have n2 : devStderr.length = 11 := by decide +kernel
  have n3 : devStdin.length = 10 := by decide +kernel
  -- one stream
  have one : ∀ (v name : List Nat) (fd : Int) (h : Trace) (T : Tracker), Reach c base h T → fd < 2 ^ 31 →
      (∀ b ∈ name, b < 256) → name.length ≤ 12 → (registered h).length < c.srcCap →
      T.strings.size + (name.length + 3) / 2 * 2 ≤ c.strSize →
      ∃ T' h', openStream io fd ((env v).getD []) name T = .ok T' ∧ Reach c base h' T' ∧
        registered h' = registered h ++ (([(v, fd, name)].filter fun x => env x.1 = some [49] ∧ 0 ≤ x.2.1).map
          fun x => (x.2.2, x.2.1, (io.size x.2.2).getD unknownSize)) ∧
        Still h h' ∧ T'.strings.size ≤ T.strings.size + (name.length + 3) / 2 * 2 ∧
        T'.labels = T.labels ∧ T'.shadow = T.shadow ∧ labelEvents h' = labelEvents h := by
    intro v name fd h T hr hf hb hn hroom hs
    by_cases hon : 0 ≤ fd ∧ (env v).getD [] = [49]
    · obtain ⟨T', i, h', e1, e2, e3, eq, e4, e5, e6, e7⟩ := openFile_room hc hr (fd := fd) (size := io.size name)
        (by omega) ⟨by omega, hf, hb, fun s h => hsz _ _ h⟩ hroom hs
      refine ⟨T', h', ?_, e2, ?_, eq, by omega, e5, e6, e7⟩
      · unfold openStream; rw [if_pos hon, e1]; rfl
      · rw [e3]
        have := (hone [] (env v)).1 hon.2
        simp [List.filter, this, hon.1]
    · refine ⟨T, h, if_neg hon, hr, ?_, ⟨fun _ => rfl, fun _ => rfl, rfl, rfl, rfl⟩, by omega, rfl, rfl, rfl⟩
      have : ¬ (env v = some [49] ∧ 0 ≤ fd) := fun hx => hon ⟨hx.2, (hone [] _).2 hx.1⟩
      simp only [List.filter, decide_eq_false this, List.map_nil, List.append_nil]
  have hw : wanted env io =
      (([(stdoutVar, io.stdoutFd, devStdout)].filter fun x => env x.1 = some [49] ∧ 0 ≤ x.2.1).map
          fun x => (x.2.2, x.2.1, (io.size x.2.2).getD unknownSize)) ++
      (([(stderrVar, io.stderrFd, devStderr)].filter fun x => env x.1 = some [49] ∧ 0 ≤ x.2.1).map
          fun x => (x.2.2, x.2.1, (io.size x.2.2).getD unknownSize)) ++
      (([(stdinVar, io.stdinFd, devStdin)].filter fun x => env x.1 = some [49] ∧ 0 ≤ x.2.1).map
          fun x => (x.2.2, x.2.1, (io.size x.2.2).getD unknownSize)) := by
    unfold wanted
    rw [← List.map_append, ← List.filter_append, ← List.map_append, ← List.filter_append]
    rfl
  have flen : ∀ x : List Nat × Int × List Nat,
      ((([x].filter fun x => env x.1 = some [49] ∧ 0 ≤ x.2.1)).map
          fun x => (x.2.2, x.2.1, (io.size x.2.2).getD unknownSize)).length ≤ 1 := by
    intro x; rw [List.length_map]; exact List.length_filter_le _ [x]
  obtain ⟨T1, h1, e1, r1, g1, q1, z1, l1, w1, v1⟩ := one stdoutVar devStdout io.stdoutFd [] T₀ hr0 hfd.2.1 d1
    (by omega) (by simp [registered]; omega) (by omega)
  have b1 : (registered h1).length ≤ 1 := by rw [g1]; simpa [registered] using flen _
  obtain ⟨T2, h2, e2, r2, g2, q2, z2, l2, w2, v2⟩ := one stderrVar devStderr io.stderrFd h1 T1 r1 hfd.2.2 d2
    (by omega) (by omega) (by omega)
  have b2 : (registered h2).length ≤ 2 := by
    rw [g2, List.length_append]
    have := flen (stderrVar, io.stderrFd, devStderr); omega
  obtain ⟨T3, h3, e3, r3, g3, q3, z3, l3, w3, v3⟩ := one stdinVar devStdin io.stdinFd h2 T2 r2 hfd.1 d3
    (by omega) (by omega) (by omega)
  refine ⟨_, T3, h3, ?_, rfl, r3, ?_, (q1.trans q2).trans q3, ?_, by omega, by rw [l3, l2, l1, hl0.1],
    by rw [v3, v2, v1]; rfl, ?_⟩
  · unfold taintStart
    rw [h0, Res.bind_ok]
    unfold sinkStreams stdinSource
    simp only [s1, s2, s3]
    rw [e1, Res.bind_ok, e2, Res.bind_ok, e3, Res.bind_ok]
    rfl
  · rw [g3, g2, g1, hw]; simp [registered]
  · intro a; rw [w3, w2, w1, hl0.2.1]
  · intro l b hd
    rw [l3, l2, l1] at hd
    have hs := hr0.sim hc
    rw [hs.lab.reach.meaning hc.lab0 hc.lab] at hd
    exact hd

/-- Start-up with a fresh tracker that has room for three names: it succeeds, the registered files
are exactly the standard streams whose variable is "1" and that have a descriptor, in order, and no
byte of the program is tainted and no label exists; nothing is recorded as read, written or reported. -/
theorem C55_streams (c : Config) (base : Nat) (hc : c.Ok base) (T₀ : Tracker) (h0 : init c base = .ok T₀)
    (env : Env) (io : Stdio) (hsrc : 3 ≤ c.srcCap) (hstr : 40 ≤ c.strSize)
    (hfd : io.stdinFd < 2 ^ 31 ∧ io.stdoutFd < 2 ^ 31 ∧ io.stderrFd < 2 ^ 31)
    (hsz : ∀ n s, io.size n = some s → s < 2 ^ 64) :
    ∃ s T h, taintStart env io c base = .ok (s, T) ∧ s = getSettings env ∧ Reach c base h T ∧
      registered h = wanted env io ∧ Still [] h ∧ (∀ a, T.shadow a = 0) ∧ ∀ l b, ¬ Denotes T.labels.graph l b := by
  obtain ⟨s, T, h, k1, k2, k3, k4, k5, k6, -, -, -, k7⟩ := streams_spec c base hc T₀ h0 env io hsrc hstr hfd hsz
  exact ⟨s, T, h, k1, k2, k3, k4, k5, k6, k7⟩

/-- The name of argument `i` is "argv[", the decimal notation of `i` and "]"; different arguments have
different names. -/
theorem C55_names (i : Nat) (hi : i < 10 ^ 10) :
    (∃ ds, argName i = "argv[".toList.map Char.toNat ++ ds ++ "]".toList.map Char.toNat ∧ IsDecimal i ds) ∧
    ∀ j, j < 10 ^ 10 → argName i = argName j → i = j := by
  have h1 := decimalF_spec 9 i hi
  refine ⟨⟨decimal i, rfl, h1⟩, ?_⟩
  intro j hj he
  have h2 := decimalF_spec 9 j hj
  simp only [argName] at he
  have he := List.append_cancel_left (List.append_cancel_right he)
  have e1 := h1.2.2.1
  have e2 := h2.2.2.1
  rw [← e1, ← e2]
  exact congrArg value he

/-- Switched off, or without arguments, nothing happens. -/
theorem C55_argv_off (m : Mem) (argc : Int) (argv : List Nat) (flag : Bool) (T : Tracker)
    (h : flag = false ∨ argc ≤ 0) : taintArgv flag m argc argv T = .ok T := by
  unfold taintArgv
  split
  · rfl
  · rename_i hf
    rcases h with h | h
    · exact absurd h hf
    · rw [if_pos h]

/-- The command line is tainted: whatever happened before, with room in the tables and no empty
argument, `taint_argv` succeeds; each argument `i` becomes an input "argv[i]"; byte `k` of argument
`i` gets a fresh label that denotes exactly byte `k` of that input; all other bytes, the terminators
among them, keep their label, and the labels that existed keep their meaning; nothing is recorded as read,
written or reported. Missing: empty
arguments and full tables (refuted below). -/
theorem C55_argv_partial (c : Config) (base : Nat) (hc : c.Ok base) (h : Trace) (T : Tracker)
    (hr : Reach c base h T) (m : Mem) (argv : List Nat) (args : List (Nat × Nat))
    (harg : ∀ (i p n : Nat), args[i]? = some (p, n) → argv[i]? = some p ∧ IsStr m p n ∧ 0 < n ∧ n < 2 ^ 64)
    (hsrc : (registered h).length + args.length ≤ c.srcCap)
    (hstr : T.strings.size + 18 * args.length ≤ c.strSize)
    (hlab : T.labels.words.length + (args.map (·.2)).sum ≤ c.labelCap) :
    ∃ T' h', taintArgv true m args.length argv T = .ok T' ∧ Reach c base h' T' ∧
      registered h' = registered h ++
        (List.range args.length).map (fun i => (argName i, -1, unknownSize)) ∧ Still h h' ∧
      (∀ a i p n, LastArg args i a → args[i]? = some (p, n) → T.labels.graph (T'.shadow a) = none ∧
        ∀ b, Denotes T'.labels.graph (T'.shadow a) b ↔ b = ((registered h).length + i, a - p)) ∧
      (∀ a, (∀ (i p n : Nat), args[i]? = some (p, n) → ¬ (p ≤ a ∧ a < p + n)) → T'.shadow a = T.shadow a) ∧
      ∀ l b, T.labels.graph l ≠ none → (Denotes T'.labels.graph l b ↔ Denotes T.labels.graph l b) := by
  obtain ⟨T', h', e1, r1, q1, qq, -, q3, q4, q5, -⟩ := argvLoop_spec hc m argv args 0 h T hr
    (fun j p n hj => by rw [Nat.zero_add]; exact harg j p n hj) hsrc hstr hlab
  refine ⟨T', h', ?_, r1, by simpa using q1, qq, ?_, q3, ?_⟩
  · unfold taintArgv
    simp only [Bool.true_eq_false, if_false]
    split
    · rename_i h0
      have : args.length = 0 := by omega
      rw [this] at e1
      cases e1; rfl
    · simpa using e1
  · intro a i p n hl hi
    obtain ⟨z1, z2⟩ := q4 a i p n hl hi
    exact ⟨Labels.graph_none_of_ge z1, z2⟩
  · intro l b hl
    refine q5 l b ?_
    apply Classical.byContradiction
    intro hge
    exact hl (Labels.graph_none_of_ge (by omega))

/-- An empty argument is undefined behaviour: for every history with room, if argument `k` is the
first empty one, `taint_argv` runs into it. -/
theorem C55_empty_refuted (c : Config) (base : Nat) (hc : c.Ok base) (h : Trace) (T : Tracker)
    (hr : Reach c base h T) (m : Mem) (argv : List Nat) (args : List (Nat × Nat)) (q argc : Nat)
    (harg : ∀ (i p n : Nat), args[i]? = some (p, n) → argv[i]? = some p ∧ IsStr m p n ∧ 0 < n ∧ n < 2 ^ 64)
    (hq : argv[args.length]? = some q) (hempty : IsStr m q 0) (hk : args.length < argc)
    (hsrc : (registered h).length + args.length < c.srcCap)
    (hstr : T.strings.size + 18 * args.length + 18 ≤ c.strSize)
    (hlab : T.labels.words.length + (args.map (·.2)).sum ≤ c.labelCap) :
    taintArgv true m argc argv T = .ub := by
  have key : ∀ (rest : List (Nat × Nat)) (i n : Nat) (h : Trace) (T : Tracker), Reach c base h T →
      (∀ (j p n : Nat), rest[j]? = some (p, n) → argv[i + j]? = some p ∧ IsStr m p n ∧ 0 < n ∧ n < 2 ^ 64) →
      argv[i + rest.length]? = some q → rest.length < n →
      (registered h).length + rest.length < c.srcCap →
      T.strings.size + 18 * rest.length + 18 ≤ c.strSize →
      T.labels.words.length + (rest.map (·.2)).sum ≤ c.labelCap →
      argvLoop m argv i n T = .ub := by
    intro rest
    induction rest with
    | nil =>
      intro i n h T hr _ hq hn hsrc hstr hlab
      obtain ⟨n, rfl⟩ : ∃ k, n = k + 1 := ⟨n - 1, by simp at hn; omega⟩
      have hs := hr.sim hc
      have hnl := argName_length i
      simp only [List.length_nil, Nat.add_zero, Nat.mul_zero] at hsrc hstr hq
      obtain ⟨T1, k, h1, h2, h3, h4, h5⟩ := addSource_room hs (name := argName i) (fd := invalidFd)
        (size := invalidSize) (by omega) (by omega) (by omega)
      have hl1 : LabSim c (labelEvents h) T1.labels T1.index := by rw [h3, h4]; exact hs.lab
      simp only [argvLoop, getRes, hq, Res.bind_ok, DfsanMem.strlen_str hempty (by decide)]
      rcases createSourceTaint_total hc hl1 k (some q) 0 0 with ⟨hbad, -⟩ | ⟨-, hp⟩
      · exact absurd hbad (by omega)
      · simp [createTaintSource, h1, hp]
    | cons x rest ih =>
      obtain ⟨p, len⟩ := x
      intro i n h T hr harg hq hn hsrc hstr hlab
      simp only [List.length_cons, List.map_cons, List.sum_cons] at hn hsrc hstr hlab hq
      obtain ⟨n, rfl⟩ : ∃ k, n = k + 1 := ⟨n - 1, by omega⟩
      obtain ⟨g1, g2, g3, g4⟩ := harg 0 p len rfl
      have hnl := argName_length i
      obtain ⟨T1, rng, h1, e1, r1, k1, k2, k3, kq, ke, k4, k5⟩ := input_room hc hr (name := argName i) (p := p) (len := len)
        (by omega) (argName_byte i) (by omega) (by omega) g3 (by omega)
      have := ih (i + 1) n h1 T1 r1
        (fun j p n hj => by
          have := harg (j + 1) p n (by simpa using hj)
          rwa [show i + (j + 1) = i + 1 + j by omega] at this)
        (by rw [← hq]; congr 1; omega) (by omega) (by rw [k1]; simp; omega) (by omega) (by omega)
      simp only [argvLoop, getRes]
      rw [show i = i + 0 from rfl, g1]
      simp only [Res.bind_ok]
      rw [DfsanMem.strlen_str g2 g4]
      simp only [Res.bind_ok, Nat.add_zero, e1]
      exact this
  unfold taintArgv
  simp only [Bool.true_eq_false, if_false]
  rw [if_neg (by omega)]
  simpa using key args 0 argc h T hr (fun j p n hj => by rw [Nat.zero_add]; exact harg j p n hj)
    (by rw [Nat.zero_add]; exact hq) hk hsrc hstr hlab

/-- Once the source table is full (255 inputs and outputs in the shipped configuration) all further
arguments stay untainted, silently: no label of any byte changes and no input appears. -/
theorem C55_full_refuted (c : Config) (base : Nat) (hc : c.Ok base) (m : Mem) (argv : List Nat) :
    ∀ (n i : Nat) (h : Trace) (T : Tracker), Reach c base h T → (registered h).length = c.srcCap →
    (∀ j, j < n → ∃ p len, argv[i + j]? = some p ∧ IsStr m p len ∧ len < 2 ^ 64) →
    ∃ T' h', argvLoop m argv i n T = .ok T' ∧ Reach c base h' T' ∧ registered h' = registered h ∧
      (∀ a, T'.shadow a = T.shadow a) ∧ T'.labels.graph = T.labels.graph := by
  intro n
  induction n with
  | zero => intro i h T hr _ _; exact ⟨T, h, rfl, hr, rfl, fun _ => rfl, rfl⟩
  | succ n ih =>
    intro i h T hr hfull harg
    obtain ⟨p, len, g1, g2, g3⟩ := harg 0 (by omega)
    have hnl := argName_length i
    obtain ⟨T1, e1, e2, e3, e4, -⟩ := addSource_full (hr.sim hc) (name := argName i) (fd := invalidFd)
      (size := invalidSize) (by omega) (by omega)
    have he : T.createTaintSource (argName i) p len = .ok (T1, none) := by
      simp only [createTaintSource, e1, Res.bind_ok, Res.pure_eq]
    have hex : T.exec (.input (argName i) p len) = .ok (T1, .range none) := by
      simp only [exec, he, Res.bind_ok, Res.pure_eq]
    have hr1 := hr.snoc (cl := .input (argName i) p len) (argName_byte i) hex
    obtain ⟨T', h', q1, q2, q3, q4, q5⟩ := ih (i + 1) _ T1 hr1 hfull (fun j hj => by
      have := harg (j + 1) (by omega)
      rwa [show i + (j + 1) = i + 1 + j by omega] at this)
    refine ⟨T', h', ?_, q2, q3, ?_, ?_⟩
    · simp only [argvLoop, getRes]
      rw [show i = i + 0 from rfl, g1]
      simp only [Res.bind_ok]
      rw [DfsanMem.strlen_str g2 g3]
      simp only [Res.bind_ok, Nat.add_zero, he]
      exact q1
    · intro a; rw [q4, e4]
    · rw [q5, e2]

/-- The switch for the command line looks at one character only, unlike those for the streams: the
value "10" switches on the former and not the latter. -/
theorem C55_flag_refuted : ∃ env : Env, env argvVar = some [49, 48] ∧ env stdinVar = some [49, 48] ∧
    (getSettings env).taintArgv = true ∧
    ∀ io : Stdio, ∀ T, stdinSource (getSettings env) io T = .ok T := by
  refine ⟨fun _ => some [49, 48], rfl, rfl, rfl, ?_⟩
  intro io T
  unfold stdinSource openStream
  rw [if_neg]
  rintro ⟨-, h⟩
  have : (getSettings fun _ => some [49, 48]).stdinSource = [49, 48] := rfl
  rw [this] at h
  cases h

/-- Before start-up no entry point has an effect: whatever is called, the process is as before and
all results are 0. -/
theorem C55_before (es : List (Mem × Entry)) :
    ∃ as, steps Proc.fresh es = .ok (Proc.fresh, as) ∧ ∀ a ∈ as, a.value.getD 0 = 0 ∧ a.retLabel = none := by
  induction es with
  | nil => exact ⟨[], rfl, by simp⟩
  | cons x es ih =>
    obtain ⟨m, e⟩ := x
    obtain ⟨as, h1, h2⟩ := ih
    have : ∃ a, step m Proc.fresh e = .ok (Proc.fresh, a) ∧ a.value.getD 0 = 0 ∧ a.retLabel = none := by
      cases e <;> exact ⟨_, rfl, rfl, rfl⟩
    obtain ⟨a, e1, e2⟩ := this
    refine ⟨a :: as, by simp [steps, e1, h1], ?_⟩
    intro x hx
    rcases List.mem_cons.1 hx with rfl | hx
    · exact e2
    · exact h2 x hx

/-- After start-up each entry point other than that for the command line makes exactly its call to the
tracker, and answers with its result; with label 0 branch reports make none. -/
theorem C55_entry (c : Config) (base : Nat) (m : Mem) (P P' : Proc) (e : Entry) (a : Answer)
    (h : Trace) (T : Tracker) (hi : P.init = true) (hT : P.tracker = some T) (hr : Reach c base h T)
    (hne : ∀ n v, e ≠ .argv n v) (ha : ∀ cl, e.call = some cl → T.Allowed cl)
    (hs : step m P e = .ok (P', a)) :
    P'.init = true ∧ P'.settings = P.settings ∧
    ((e.call = none ∧ P'.tracker = some T ∧ a = e.answer none) ∨
     ∃ cl r T', e.call = some cl ∧ P'.tracker = some T' ∧ Reach c base ((cl, r) :: h) T' ∧
       a = e.answer (some r)) := by
  have hg : P.get = .ok T := by simp [Proc.get, hT]
  cases e with
  | argv n v => exact absurd rfl (hne n v)
  | funcEntry name =>
    simp only [step, hi, Bool.true_eq_false, if_false, hg, Res.bind_ok, Res.bind_eq_ok, Res.pure_eq] at hs
    obtain ⟨⟨T1, i⟩, h1, h2⟩ := hs
    cases h2
    refine ⟨rfl, rfl, Or.inr ⟨_, .index (some i), T1, rfl, rfl, hr.snoc (ha _ rfl) ?_, rfl⟩⟩
    simp [exec, h1]
  | funcExit i =>
    simp only [step, hi, Bool.true_eq_false, if_false, hg, Res.bind_ok, Res.bind_eq_ok, Res.pure_eq] at hs
    obtain ⟨T1, h1, h2⟩ := hs
    cases h2
    refine ⟨rfl, rfl, Or.inr ⟨_, .unit, T1, rfl, rfl, hr.snoc (ha _ rfl) ?_, rfl⟩⟩
    simp [exec, h1]
  | unionTable l r =>
    simp only [step, hi, Bool.true_eq_false, if_false, hg, Res.bind_ok, Res.bind_eq_ok, Res.pure_eq] at hs
    obtain ⟨⟨T1, i⟩, h1, h2⟩ := hs
    cases h2
    refine ⟨rfl, rfl, Or.inr ⟨_, .label i, T1, rfl, rfl, hr.snoc (ha _ rfl) ?_, rfl⟩⟩
    simp [exec, h1]
  | condBranch l =>
    simp only [step, hi, Bool.true_eq_false, if_false] at hs
    by_cases hl : 0 < l
    · simp only [gt_iff_lt, hl, if_true, hg, Res.bind_ok, Res.bind_eq_ok, Res.pure_eq] at hs
      obtain ⟨T1, h1, h2⟩ := hs
      cases h2
      have hcl : (Entry.condBranch l).call = some (.mark l) := by simp [Entry.call, hl]
      refine ⟨rfl, rfl, Or.inr ⟨_, .unit, T1, hcl, rfl, hr.snoc (ha _ hcl) ?_, rfl⟩⟩
      simp [exec, h1]
    · simp only [gt_iff_lt, hl, if_false] at hs
      cases hs
      exact ⟨hi, rfl, Or.inl ⟨by simp [Entry.call, hl], hT, rfl⟩⟩
  | taintedCf cond fid l =>
    simp only [step, hi, Bool.true_eq_false, if_false] at hs
    by_cases hl : 0 < l
    · simp only [gt_iff_lt, hl, if_true, hg, Res.bind_ok, Res.bind_eq_ok, Res.pure_eq] at hs
      obtain ⟨T1, h1, h2⟩ := hs
      cases h2
      have hcl : (Entry.taintedCf cond fid l).call = some (.cf (.tainted fid l)) := by simp [Entry.call, hl]
      refine ⟨rfl, rfl, Or.inr ⟨_, .unit, T1, hcl, rfl, hr.snoc (ha _ hcl) ?_, rfl⟩⟩
      simp [exec, h1]
    · simp only [gt_iff_lt, hl, if_false] at hs
      cases hs
      exact ⟨hi, rfl, Or.inl ⟨by simp [Entry.call, hl], hT, rfl⟩⟩
  | enter fid =>
    simp only [step, hi, Bool.true_eq_false, if_false, hg, Res.bind_ok, Res.bind_eq_ok, Res.pure_eq] at hs
    obtain ⟨T1, h1, h2⟩ := hs
    cases h2
    refine ⟨rfl, rfl, Or.inr ⟨_, .unit, T1, rfl, rfl, hr.snoc (ha _ rfl) ?_, rfl⟩⟩
    simp [exec, h1]
  | leave fid =>
    simp only [step, hi, Bool.true_eq_false, if_false, hg, Res.bind_ok, Res.bind_eq_ok, Res.pure_eq] at hs
    obtain ⟨T1, h1, h2⟩ := hs
    cases h2
    refine ⟨rfl, rfl, Or.inr ⟨_, .unit, T1, rfl, rfl, hr.snoc (ha _ rfl) ?_, rfl⟩⟩
    simp [exec, h1]

/-- Code instrumented by the control-flow pass does not behave like the original when it runs before
start-up (constructors of shared libraries, for example): the value that the pass puts in the place
of a branch condition, switch value or index (tainted_control_flow.cpp 98-144) is 0 whatever the
original is, and its label is not set. -/
theorem C55_early_branch_refuted (m : Mem) (cond fid label : Nat) :
    step m Proc.fresh (.taintedCf cond fid label) = .ok (Proc.fresh, ⟨some 0, none⟩) := rfl

/-! ### Examples -/

/-- Environment: everything on but stderr. -/
def exEnv : Env := fun n =>
  if n = argvVar then some [49] else if n = stdoutVar then some [49] else if n = stdinVar then some [49]
  else if n = stderrVar then some [48] else none

def exStdio : Stdio := { stdinFd := 0, stdoutFd := 1, stderrFd := 2, size := fun _ => none }

/-- Memory with the arguments "ab" at 100 and "c" at 103, and the empty string at 105. -/
def exMem : Mem := fun a => if a = 100 then 97 else if a = 101 then 98 else if a = 103 then 99 else 0

/-- Start-up and command line together, with streams already registered. -/
example : (match taintStart exEnv exStdio { exCfg with strSize := 128 } 4096 with
    | .ok (s, T) => match taintArgv s.taintArgv exMem 2 [100, 103, 105] T with
      | .ok T' => ((List.range 6).map fun k => T'.shadow (100 + k), T'.sources.map (·.fd), T'.strings.size)
      | _ => ([], [], 0)
    | _ => ([], [], 0)) = ([1, 2, 0, 3, 0, 0], [1, 0, -1, -1], 46) := by decide +kernel

/-- With the empty argument. -/
example : (match taintStart exEnv exStdio { exCfg with strSize := 128, srcCap := 9 } 4096 with
    | .ok (s, T) => match taintArgv s.taintArgv exMem 3 [100, 103, 105] T with
      | .ub => true
      | _ => false
    | _ => false) = true := by decide +kernel

/-- The hypotheses of C55_argv_partial are met by these two arguments. -/
example : ∀ (i p n : Nat), ([(100, 2), (103, 1)] : List (Nat × Nat))[i]? = some (p, n) →
    ([100, 103, 105] : List Nat)[i]? = some p ∧ IsStr exMem p n ∧ 0 < n ∧ n < 2 ^ 64 := by
  intro i p n hi
  match i with
  | 0 =>
    cases hi
    refine ⟨rfl, ⟨rfl, ?_⟩, by decide, by decide⟩
    intro i hi
    match i with
    | 0 => decide
    | 1 => decide
    | i + 2 => omega
  | 1 =>
    cases hi
    refine ⟨rfl, ⟨rfl, ?_⟩, by decide, by decide⟩
    intro i hi
    match i with
    | 0 => decide
    | i + 1 => omega
  | i + 2 => simp at hi

example : LastArg [(100, 2), (103, 1)] 0 101 := by
  refine ⟨⟨100, 2, rfl, by decide, by decide⟩, ?_⟩
  intro j p n hj hp
  match j with
  | 0 => omega
  | 1 => cases hp; omega
  | j + 2 => simp at hp

example : wanted exEnv exStdio = [(devStdout, 1, unknownSize), (devStdin, 0, unknownSize)] := by decide +kernel

end Verif
