import Verif.Props.C53
import Verif.Props.C55
import Verif.Props.C30
/-
C66: the command line from the start of the process to what Python computes. The bytes of the arguments are
labelled before `main` runs; the mapping relates byte `k` of "argv[i]" to a byte of the output exactly if that
byte of the output of the original program depends on it.
-/
namespace Verif
namespace C66
open Ir PassIr CfPass Spec Labels DfsanMem Tracker EndToEnd Linked TwoPass Py File Startup

/-- The taint of memory by a command line given as addresses and lengths: byte `k` of argument `i` is tainted by
byte `k` of the source `first + i`, nothing else is tainted. -/
def argTaint (first : Nat) (args : List (Nat × Nat)) (a : Nat) (b : Nat × Nat) : Prop :=
  ∃ i p n, LastArg args i a ∧ args[i]? = some (p, n) ∧ b = (first + i, a - p)

/-- The memory of the process after the tracker has labelled it: the bytes of the program are those of `mem`,
their labels are those of the tracker. -/
structure After (mem mem' : Mem) (T : Tracker) : Prop where
  bytes : Spec.IsBytes mem'
  same : ∀ a, IsApp a → mem' a = mem a
  label : ∀ a, IsApp a → labelOf mem' a = T.shadow a

/-- There is such a memory, whatever the labels. -/
theorem after_mem {mem : Mem} (hm : ∀ a, IsApp a → mem a < 256) {T : Tracker} (hT : ∀ a, T.shadow a < 2 ^ 32) :
    After mem (fun x => if 0x700000008000 ≤ x ∧ x < 0x800000000000 then mem x
      else T.shadow (0x700000000000 + x / 4) / 2 ^ (8 * (x % 4)) % 256) T := by
  refine ⟨?_, ?_, ?_⟩
  · intro x
    show ite _ _ _ < 256
    split
    · rename_i h; exact hm x h
    · omega
  · intro a ha
    exact if_pos ha
  · intro a ha
    have ha' := ha
    unfold IsApp at ha'
    unfold labelOf Mem.read32
    rw [shadowFor_app (by omega) (by omega)]
    have key : ∀ i, i < 4 → ¬ (0x700000008000 ≤ 4 * (a - 0x700000000000) + i ∧
        4 * (a - 0x700000000000) + i < 0x800000000000) := by
      intro i hi; omega
    have hd : ∀ i, i < 4 → 0x700000000000 + (4 * (a - 0x700000000000) + i) / 4 = a ∧
        (4 * (a - 0x700000000000) + i) % 4 = i := by
      intro i hi; omega
    rw [show 4 * (a - 0x700000000000) = 4 * (a - 0x700000000000) + 0 from (Nat.add_zero _).symm]
    simp only [Nat.add_assoc, Nat.zero_add]
    rw [if_neg (key 0 (by omega)), if_neg (key 1 (by omega)), if_neg (key 2 (by omega)), if_neg (key 3 (by omega)),
      (hd 0 (by omega)).1, (hd 1 (by omega)).1, (hd 2 (by omega)).1, (hd 3 (by omega)).1,
      (hd 0 (by omega)).2, (hd 1 (by omega)).2, (hd 2 (by omega)).2, (hd 3 (by omega)).2]
    have := hT a
    omega

/-! ### Names -/

theorem argName_char (i d : Nat) (hd : d ∈ argName i) : d < 128 ∧ d ≠ 47 := by
  simp only [argName, List.mem_append] at hd
  have key : ∀ (f n d : Nat), d ∈ decimalF f n → 48 ≤ d ∧ d < 58 := by
    intro f
    induction f with
    | zero => intro n d hd; simp only [decimalF, List.mem_singleton] at hd; omega
    | succ f ih =>
      intro n d hd
      simp only [decimalF] at hd
      split at hd
      · simp only [List.mem_singleton] at hd; omega
      · rcases List.mem_append.1 hd with hd | hd
        · exact ih _ _ hd
        · simp only [List.mem_singleton] at hd; omega
  rcases hd with (hd | hd) | hd
  · revert hd; revert d; decide
  · have := key _ _ _ hd; omega
  · revert hd; revert d; decide

theorem argName_path (i : Nat) : pathStr (argName i) = argName i := by
  have h1 : (argName i).length ≠ 0 ∧ (argName i).length ≠ 1 := by
    simp [argName, chars]
  refine (C30_plain_names [argName i] ⟨by simp, ?_⟩).1
  intro w hw
  rw [List.mem_singleton] at hw
  subst hw
  refine ⟨fun e => ?_, fun e => ?_, fun e => (argName_char i _ e).2 rfl⟩
  · rw [e] at h1; exact h1.1 rfl
  · rw [e] at h1; exact h1.2 rfl

theorem utf8_ascii : ∀ (s : List Nat), (∀ d ∈ s, d < 128) → utf8 s = true
  | [], _ => rfl
  | a :: s, h => by
    unfold utf8
    rw [if_pos (h a (by simp))]
    exact utf8_ascii s (fun d hd => h d (by simp [hd]))

theorem meaning_src (es : List Event) {l i o : Nat} (hm : Meaning es l (i, o)) :
    ∃ o' n f, Event.source i o' n f ∈ es := by
  obtain ⟨r, rfl⟩ : ∃ r : List Event, es = r.reverse := ⟨es.reverse, by simp⟩
  induction r generalizing l with
  | nil => exact hm.elim
  | cons e r ih =>
    rw [List.reverse_cons, Meaning_snoc] at hm
    have old : ∀ {l}, Meaning r.reverse l (i, o) → ∃ o' n f, Event.source i o' n f ∈ (e :: r).reverse := by
      intro l h
      obtain ⟨o', n, f, k⟩ := ih h
      exact ⟨o', n, f, by simp only [List.reverse_cons, List.mem_append]; exact Or.inl k⟩
    cases e with
    | source s off n f =>
      simp only [after] at hm
      split at hm
      · cases hm
        exact ⟨off, n, f, by simp⟩
      · exact old hm
    | union a b u =>
      simp only [after] at hm
      split at hm
      · rcases hm with hm | hm <;> exact old hm
      · exact old hm
    | mark a => exact old hm

theorem owner_args {h h' : Trace} {n : Nat}
    (hr : registered h' = registered h ++ (List.range n).map (fun i => (argName i, -1, unknownSize)))
    {fd : Int} (hfd : fd ≠ -1) : owner h' fd = owner h fd := by
  rw [owner_eq, owner_eq, hr]
  clear hr
  induction n with
  | zero => simp
  | succ n ih =>
    rw [List.range_succ, List.map_append, ← List.append_assoc, List.map_singleton, lastIdx_snoc,
      if_neg (fun e => hfd e.symm), ih]

/-! ### The labels before `main` -/

variable {c : Config} {base : Nat} {h : Trace} {T : Tracker}

/-- What `taint_argv` leaves. -/
theorem argv_ready (hc : c.Ok base) (hr : Tracker.Reach c base h T) (hT : ∀ a, T.shadow a = 0)
    (hu : ∀ n ∈ names h, utf8 n = true) {io : Io} {src snk : Nat} (hS : Streams h io src snk)
    (hfd : io.fdIn ≠ -1 ∧ io.fdOut ≠ -1) {mem : Mem} {argv : List Nat} {args : List (Nat × Nat)}
    (harg : ∀ (i p n : Nat), args[i]? = some (p, n) → argv[i]? = some p ∧ IsStr mem p n ∧ 0 < n ∧ n < 2 ^ 64)
    (hsrc : (registered h).length + args.length ≤ c.srcCap)
    (hstr : T.strings.size + 18 * args.length ≤ c.strSize)
    (hlab : T.labels.words.length + (args.map (·.2)).sum ≤ c.labelCap) :
    ∃ T' h', taintArgv true mem args.length argv T = .ok T' ∧ Tracker.Reach c base h' T' ∧
      registered h' = registered h ++ (List.range args.length).map (fun i => (argName i, -1, unknownSize)) ∧
      Spec.written h' = Spec.written h ∧ (∀ n ∈ names h', utf8 n = true) ∧ Streams h' io src snk ∧
      (∀ p o q r, C52.Before h' p o q r ↔ C52.Before h p o q r) ∧
      labelEvents h' = labelEvents h ++ argEvents (registered h).length T.labels.words.length args ∧
      cfEvents h' = cfEvents h ∧ ∀ mem', After mem mem' T' → TaintedBy T'.labels mem' (argTaint (registered h).length args) := by
  obtain ⟨T', h', e1, r1, q1, qq, -, q3, q4, q5, q6⟩ := argvLoop_spec hc mem argv args 0 h T hr
    (fun j p n hj => by rw [Nat.zero_add]; exact harg j p n hj) hsrc hstr hlab
  simp only [Nat.zero_add] at q1
  have hs := hr.sim hc
  have hs' := r1.sim hc
  refine ⟨T', h', ?_, r1, q1, qq.written, ?_, ?_, ?_, q6, qq.cf, ?_⟩
  · unfold taintArgv
    simp only [Bool.true_eq_false, if_false]
    split
    · rename_i h0
      have : args.length = 0 := by omega
      rw [this] at e1
      cases e1; rfl
    · simpa using e1
  · intro n hn
    rw [names, q1, qq.functions, List.map_append] at hn
    rcases List.mem_append.1 hn with hn | hn
    · rcases List.mem_append.1 hn with hn | hn
      · exact hu n (List.mem_append_left _ hn)
      · simp only [List.map_map, List.mem_map, Function.comp] at hn
        obtain ⟨i, -, rfl⟩ := hn
        exact utf8_ascii _ (fun d hd => (argName_char i d hd).1)
    · exact hu n (List.mem_append_right _ hn)
  · exact ⟨by rw [owner_args q1 hfd.1]; exact hS.input, by rw [owner_args q1 hfd.2]; exact hS.output,
      fun k => by rw [qq.read]; exact hS.unread k, fun k => by rw [qq.write]; exact hS.unwritten k⟩
  · have hlen : (registered h).length ≤ (registered h').length := by rw [q1, List.length_append]; omega
    have hold : ∀ i, i < (registered h).length → (registered h')[i]? = (registered h)[i]? := fun i hi => by
      rw [q1, List.getElem?_append_left hi]
    have hmean : ∀ w ∈ Spec.written h, ∀ b, Meaning (labelEvents h') w.label b ↔ Meaning (labelEvents h) w.label b := by
      intro w hw b
      rw [← hs'.lab.reach.meaning hc.lab0 hc.lab, ← hs.lab.reach.meaning hc.lab0 hc.lab]
      exact q5 _ _ (hs.sinkOk w hw).2.1
    intro p o q r
    unfold C52.Before
    rw [qq.written]
    constructor
    · rintro ⟨w, i, e, e', k1, k2, k3, k4, k5, k6, k7⟩
      have k3 := (hmean w k1 _).1 k3
      obtain ⟨_, _, _, k8⟩ := meaning_src _ k3
      rw [hold i (labelEvents_src h k8)] at k4
      rw [hold _ (hs.sinkOk w k1).2.2.2] at k6
      exact ⟨w, i, e, e', k1, k2, k3, k4, k5, k6, k7⟩
    · rintro ⟨w, i, e, e', k1, k2, k3, k4, k5, k6, k7⟩
      obtain ⟨_, _, _, k8⟩ := meaning_src _ k3
      rw [← hold i (labelEvents_src h k8)] at k4
      rw [← hold _ (hs.sinkOk w k1).2.2.2] at k6
      exact ⟨w, i, e, e', k1, k2, (hmean w k1 _).2 k3, k4, k5, k6, k7⟩
  · intro mem' hm a ha
    rw [hm.label a ha]
    refine ⟨hs'.shadowOk a, fun b => ?_⟩
    by_cases hin : ∃ i p n, LastArg args i a ∧ args[i]? = some (p, n)
    · obtain ⟨i, p, n, h1, h2⟩ := hin
      rw [(q4 a i p n h1 h2).2 b]
      constructor
      · rintro rfl
        exact ⟨i, p, n, h1, h2, rfl⟩
      · rintro ⟨j, p', n', h3, h4, rfl⟩
        rcases Nat.lt_trichotomy i j with hlt | rfl | hlt
        · obtain ⟨⟨p1, n1, k1, k2⟩, -⟩ := h3
          exact absurd k2 (h1.2 j p1 n1 hlt k1)
        · rw [h2] at h4; cases h4; rfl
        · obtain ⟨⟨p1, n1, k1, k2⟩, -⟩ := h1
          exact absurd k2 (h3.2 i p1 n1 hlt k1)
    · have hout : ∀ (j p n : Nat), args[j]? = some (p, n) → ¬ (p ≤ a ∧ a < p + n) := by
        -- otherwise there is a last one
        intro j0 p0 n0 hj0 hx0
        have : ∀ m j p n, args.length ≤ j + m → args[j]? = some (p, n) → (p ≤ a ∧ a < p + n) →
            ∃ i p n, LastArg args i a ∧ args[i]? = some (p, n) := by
          intro m
          induction m with
          | zero =>
            intro j p n hle hj _
            have := (List.getElem?_eq_some_iff.1 hj).1
            omega
          | succ m ih =>
            intro j p n hle hj hx
            by_cases hlast : ∀ j' p n, j < j' → args[j']? = some (p, n) → ¬ (p ≤ a ∧ a < p + n)
            · exact ⟨j, p, n, ⟨⟨p, n, hj, hx⟩, hlast⟩, hj⟩
            · simp only [not_forall, not_not] at hlast
              obtain ⟨j', p', n', hlt, hj', hx'⟩ := hlast
              exact ih j' p' n' (by omega) hj' hx'
        exact hin (this args.length j0 p0 n0 (by omega) hj0 hx0)
      rw [q3 a hout, hT a]
      constructor
      · exact fun hd => absurd hd (denotes_zero (hs'.lab.reach.good hc.lab0 hc.lab) b)
      · rintro ⟨i, p, n, h1, h2, -⟩
        exact absurd ⟨i, p, n, h1, h2⟩ hin

/-- The original program's taint only has bytes it reads and bytes its memory was tainted with. -/
theorem taint_within {P : Prog} {inp : World} {src fn sp n : Nat} {args : List Nat} {mem : Mem}
    {tm : Nat → Nat × Nat → Prop} {X : Nat × Nat → Prop} (hX : ∀ o, X (src, o)) (htm : ∀ a b, tm a b → X b)
    {o : Out (Nat × Nat → Prop)} {gs : Glob (Nat × Nat → Prop)}
    (hs : Ir.run (sets src) P inp n (start (sets src) fn args mem sp tm) = o) (ho : globAfter o = some gs) :
    ∀ y ∈ gs.out, ∀ b, y.2 b → X b := by
  have hh : (sets src).Hom (sets src) (fun t b => t b ∧ X b) := by
    refine ⟨?_, fun x y => ?_, fun o => ?_⟩
    · funext b; simp [sets]
    · funext b
      apply propext
      simp only [sets]
      exact or_and_right
    · funext b
      apply propext
      simp only [sets]
      exact ⟨fun k => k.1, fun k => ⟨k, k ▸ hX o⟩⟩
  have e := run_map hh P inp n (start (sets src) fn args mem sp tm)
  rw [start_map hh, show (fun a b => tm a b ∧ X b) = tm from by
    funext a b; exact propext ⟨fun k => k.1, fun k => ⟨k, htm a b k⟩⟩, hs] at e
  intro y hy b hb
  have key : gs.out = gs.out.map (pmap (fun t b => t b ∧ X b)) := by
    cases o with
    | stuck => cases ho
    | next s =>
      cases ho
      simp only [Out.map, Out.next.injEq] at e
      exact congrArg (fun s => s.glob.out) e
    | done v g =>
      cases ho
      simp only [Out.map, Out.done.injEq] at e
      exact congrArg (fun g => g.out) e.2
  rw [key] at hy
  obtain ⟨z, -, rfl⟩ := List.mem_map.1 hy
  exact hb.2

/-- C66 (mapping): the runtime is in any state it can be in without labels in memory (history `h`), with the
streams of the program registered as input `src` and output `snk`. `taint_argv` labels the command line, then
the program, with the reports of the taint-tracking pass, instrumented and linked, is run on any input to any
moment. Unless there is no room for the labels, it does what the original program does; and if it is ended
there, the mapping Python reads relates byte `o` of `p` to byte `r` of `q` exactly if it did before, or `q` is the
output, and byte `r` of what the original program wrote depends on byte `o` of a registered file `p`, or `p` is
"argv[i]" and it depends on byte `o` of argument `i`. -/
theorem C66_mapping (c : Config) (base : Nat) (hc : c.Ok base) (h : Trace) (T : Tracker)
    (hr : Tracker.Reach c base h T) (hT : ∀ a, T.shadow a = 0) (hu : ∀ n ∈ names h, utf8 n = true)
    (dom : Nat → Nat → Nat → Bool) (P : Prog) (hP : C47.Accepted dom P) (hP2 : C49.Accepted P)
    (hN : C49.NoHooks P) (C : Nat → Marks) (hC : ∀ f, ∃ lg cd, C f = taintTracking lg cd)
    (io : Io) (src snk : Nat) (hS : Streams h io src snk) (hfd : io.fdIn ≠ -1 ∧ io.fdOut ≠ -1)
    (mem : Mem) (argv : List Nat) (args : List (Nat × Nat))
    (harg : ∀ (i p n : Nat), args[i]? = some (p, n) → argv[i]? = some p ∧ IsStr mem p n ∧ 0 < n ∧ n < 2 ^ 64)
    (hsrc : (registered h).length + args.length ≤ c.srcCap)
    (hstr : T.strings.size + 18 * args.length ≤ c.strSize)
    (hlab : T.labels.words.length + (args.map (·.2)).sum ≤ c.labelCap) :
    ∃ T', taintArgv true mem args.length argv T = .ok T' ∧
      ∀ (mem' : Mem), After mem mem' T' →
      ∀ (inp : World) (fn : Nat) (F : Func), P[fn]? = some F → F.blocks ≠ [] →
      ∀ (params : List Nat) (sp n : Nat) (o : Out (Nat × Nat → Prop)) (gs : Glob (Nat × Nat → Prop)),
        Ir.run (sets src) P inp n
          (start (sets src) fn params mem' sp (argTaint (registered h).length args)) = o →
        globAfter o = some gs → gs.pos < 2 ^ 54 → (∀ y ∈ gs.out, y.1 < 256) → gs.out.length < 2 ^ 54 →
        (Spec.written h).length + gs.out.length ≤ c.sinkCap →
        ∃ k, C52.Does c (runCost plain P inp n (start plain fn params mem' sp)) T'
          (trun dom (pass C P) inp io k (istart (passFunc (C fn) F) fn params mem' sp T'.labels) T')
          (fun x => ∃ g, Stands o x.1 g ∧ g.out.map (·.1) = gs.out.map (·.1) ∧
            (x.2.labels.words.length + 64 ≤ c.indexCap → ∀ pads, ∃ D N d,
              parse (closed pads c base x.2) = some D ∧ (∀ fuel, N ≤ fuel → mapping D fuel = some d) ∧
              ∀ p o q r, Maps d (p, ((o : Nat) : Int)) (q, r) ↔ C52.Before h p o q r ∨
                ∃ (j : Nat) (y : Nat × (Nat × Nat → Prop)) (e' : List Nat × Int × Nat), (j : Int) = r ∧
                  gs.out[j]? = some y ∧ (registered h)[snk]? = some e' ∧ q = pathStr e'.1 ∧
                  ((∃ e, (registered h)[src]? = some e ∧ p = pathStr e.1 ∧ y.2 (src, o)) ∨
                    ∃ i, i < args.length ∧ p = argName i ∧ y.2 ((registered h).length + i, o)))) := by
  obtain ⟨T', h', e1, r1, q1, q2, q3, q4, q5, -, -, q6⟩ := argv_ready hc hr hT hu hS hfd harg hsrc hstr hlab
  refine ⟨T', e1, ?_⟩
  intro mem' hm inp fn F hF hne params sp n o gs hs ho hpos hbytes hlen hlog
  obtain ⟨k, hk⟩ := C52.C52_mapping c base hc h' T' r1 q3 dom P hP hP2 hN C hC io src snk q4 inp fn F hF hne params
    mem' hm.bytes (q6 mem' hm) sp n o gs hs ho hpos hbytes hlen (by rw [q2]; exact hlog)
  have hwithin := taint_within (X := fun b => b.1 = src ∨ ∃ i, i < args.length ∧ b.1 = (registered h).length + i)
    (fun _ => Or.inl rfl) (by
      rintro a b ⟨i, p, n, h1, h2, rfl⟩
      exact Or.inr ⟨i, (List.getElem?_eq_some_iff.1 h2).1, rfl⟩) hs ho
  have hsk := owner_lt hS.output
  have hsr := owner_lt hS.input
  have hold : ∀ i, i < (registered h).length → (registered h')[i]? = (registered h)[i]? := fun i hi => by
    rw [q1, List.getElem?_append_left hi]
  have hnew : ∀ i, i < args.length → (registered h')[(registered h).length + i]? =
      some (argName i, -1, unknownSize) := fun i hi => by
    rw [q1, List.getElem?_append_right (by omega), Nat.add_sub_cancel_left, List.getElem?_map,
      List.getElem?_range hi]
    rfl
  refine ⟨k, ?_⟩
  rcases hk with ⟨x, hx, g, k1, k2, k3⟩ | hk
  · refine Or.inl ⟨x, hx, g, k1, k2, fun hroom pads => ?_⟩
    obtain ⟨D, N, d, d1, d2, d3⟩ := k3 hroom pads
    refine ⟨D, N, d, d1, d2, fun p o q r => ?_⟩
    rw [d3, q5]
    refine or_congr Iff.rfl ?_
    constructor
    · rintro ⟨j, y, i, e, e', j1, j2, j3, j4, rfl, j5, rfl⟩
      rw [hold _ hsk] at j5
      refine ⟨j, y, e', j1, j2, j5, rfl, ?_⟩
      rcases hwithin y (List.mem_of_getElem? j2) _ j3 with rfl | ⟨i', hi', rfl⟩
      · rw [hold _ hsr] at j4
        exact Or.inl ⟨e, j4, rfl, j3⟩
      · rw [hnew i' hi'] at j4
        cases j4
        exact Or.inr ⟨i', hi', argName_path i', j3⟩
    · rintro ⟨j, y, e', j1, j2, j5, rfl, ⟨e, j4, rfl, j3⟩ | ⟨i, hi, rfl, j3⟩⟩
      · exact ⟨j, y, src, e, e', j1, j2, j3, by rw [hold _ hsr]; exact j4, rfl, by rw [hold _ hsk]; exact j5, rfl⟩
      · exact ⟨j, y, _, _, e', j1, j2, j3, hnew i hi, argName_path i, by rw [hold _ hsk]; exact j5, rfl⟩
  · exact Or.inr hk

/-- The standard streams at start-up. -/
theorem std_streams {env : Env} {sio : Stdio} (hin : env stdinVar = some [49]) (hout : env stdoutVar = some [49])
    (h1 : 0 ≤ sio.stdinFd) (h2 : 0 ≤ sio.stdoutFd) (h3 : sio.stdinFd ≠ sio.stdoutFd)
    (h4 : sio.stderrFd ≠ sio.stdoutFd) {h : Trace} (hr : registered h = wanted env sio) (hs : Still [] h)
    (si so : Bool) :
    Streams h ⟨sio.stdinFd, sio.stdoutFd, si, so⟩ ((wanted env sio).length - 1) 0 ∧
      (wanted env sio)[(wanted env sio).length - 1]? =
        some (devStdin, sio.stdinFd, (sio.size devStdin).getD unknownSize) ∧
      (wanted env sio)[0]? = some (devStdout, sio.stdoutFd, (sio.size devStdout).getD unknownSize) ∧
      1 ≤ (wanted env sio).length ∧ ∀ i e, (wanted env sio)[i]? = some e → e.1 = devStdout ∨ e.1 = devStderr ∨
        (i + 1 = (wanted env sio).length ∧ e.1 = devStdin) := by
  have hw : ∃ mid : List (List Nat × Int × Nat), wanted env sio =
      (devStdout, sio.stdoutFd, (sio.size devStdout).getD unknownSize) :: mid ++
        [(devStdin, sio.stdinFd, (sio.size devStdin).getD unknownSize)] ∧
      (mid = [] ∨ ∃ e, mid = [e] ∧ e.2.1 = sio.stderrFd ∧ e.1 = devStderr) := by
    unfold wanted
    by_cases he : env stderrVar = some [49] ∧ 0 ≤ sio.stderrFd
    · exact ⟨[(devStderr, sio.stderrFd, (sio.size devStderr).getD unknownSize)], by simp [hin, hout, h1, h2, he],
        Or.inr ⟨_, rfl, rfl, rfl⟩⟩
    · refine ⟨[], ?_, Or.inl rfl⟩
      simp only [List.filter_cons, List.filter_nil, hin, hout, h1, h2, decide_true, and_self, if_true,
        decide_eq_false he, Bool.false_eq_true, if_false]
      rfl
  obtain ⟨mid, hw, hmid⟩ := hw
  rw [hw] at hr ⊢
  refine ⟨⟨?_, ?_, fun _ => hs.read _, fun _ => hs.write _⟩, ?_, by simp, by simp, ?_⟩
  · show owner h sio.stdinFd = _
    rw [owner_eq, hr, lastIdx_snoc, if_pos rfl]
    simp
  · show owner h sio.stdoutFd = _
    rw [owner_eq, hr, lastIdx_snoc, if_neg h3]
    rcases hmid with rfl | ⟨e, rfl, he, -⟩
    · rw [show [(devStdout, sio.stdoutFd, (sio.size devStdout).getD unknownSize)] =
        [] ++ [(devStdout, sio.stdoutFd, (sio.size devStdout).getD unknownSize)] from rfl, lastIdx_snoc, if_pos rfl]
      rfl
    · rw [show (devStdout, sio.stdoutFd, (sio.size devStdout).getD unknownSize) :: [e] =
        ([] ++ [(devStdout, sio.stdoutFd, (sio.size devStdout).getD unknownSize)]) ++ [e] from rfl, lastIdx_snoc,
        if_neg (by rw [he]; exact h4), lastIdx_snoc, if_pos rfl]
      rfl
  · simp
  · intro i e hi
    rcases hmid with rfl | ⟨e', rfl, -, he⟩
    · match i with
      | 0 => cases hi; exact Or.inl rfl
      | 1 => cases hi; exact Or.inr (Or.inr ⟨rfl, rfl⟩)
      | i + 2 => simp at hi
    · match i with
      | 0 => cases hi; exact Or.inl rfl
      | 1 => cases hi; exact Or.inr (Or.inl he)
      | 2 => cases hi; exact Or.inr (Or.inr ⟨rfl, rfl⟩)
      | i + 3 => simp at hi

theorem std_names {env : Env} {sio : Stdio} {h : Trace} (g1 : registered h = wanted env sio) (g2 : Still [] h) :
    ∀ n ∈ names h, utf8 n = true := by
  intro n hn
  rw [names, g1, g2.functions] at hn
  have : n ∈ (wanted env sio).map (·.1) := by
    simpa [functions] using hn
  unfold wanted at this
  simp only [List.map_map, List.mem_map, List.mem_filter, List.mem_cons, List.not_mem_nil, or_false] at this
  have e1 : utf8 devStdout = true := by decide +kernel
  have e2 : utf8 devStderr = true := by decide +kernel
  have e3 : utf8 devStdin = true := by decide +kernel
  obtain ⟨x, ⟨rfl | rfl | rfl, -⟩, rfl⟩ := this
  · exact e1
  · exact e2
  · exact e3

/-- C66 (process): a process from its start. With the variables POLYTRACKER_STDIN_SOURCE,
POLYTRACKER_STDOUT_SINK set to "1" and POLYTRACKER_TAINT_ARGV to a value that begins with "1", and room in the
tables for the command line: start-up and `taint_argv` succeed; the program then does what the original program
does, unless there is no room for its labels; and if it is ended at any moment, the mapping Python reads from
the trace relates byte `o` of `p` to byte `r` of `q` exactly if `q` is "/dev/stdout" and byte `r` of what the
original program has written depends on byte `o` of its standard input (`p` is "/dev/stdin") or on byte `o` of
its argument `i` (`p` is "argv[i]"). -/
theorem C66_process (c : Config) (base : Nat) (hc : c.Ok base) (T₀ : Tracker) (h0 : init c base = .ok T₀)
    (env : Env) (sio : Stdio) (hin : env stdinVar = some [49]) (hout : env stdoutVar = some [49])
    (v : List Nat) (hav : env argvVar = some (49 :: v))
    (h1 : 0 ≤ sio.stdinFd ∧ sio.stdinFd < 2 ^ 31) (h2 : 0 ≤ sio.stdoutFd ∧ sio.stdoutFd < 2 ^ 31)
    (h3 : sio.stdinFd ≠ sio.stdoutFd) (h4 : sio.stderrFd ≠ sio.stdoutFd ∧ sio.stderrFd < 2 ^ 31)
    (hsz : ∀ n s, sio.size n = some s → s < 2 ^ 64)
    (dom : Nat → Nat → Nat → Bool) (P : Prog) (hP : C47.Accepted dom P) (hP2 : C49.Accepted P)
    (hN : C49.NoHooks P) (C : Nat → Marks) (hC : ∀ f, ∃ lg cd, C f = taintTracking lg cd)
    (seekIn seekOut : Bool) (mem : Mem) (argv : List Nat) (args : List (Nat × Nat))
    (harg : ∀ (i p n : Nat), args[i]? = some (p, n) → argv[i]? = some p ∧ IsStr mem p n ∧ 0 < n ∧ n < 2 ^ 64)
    (hsrc : 3 + args.length ≤ c.srcCap) (hstr : 40 + 18 * args.length ≤ c.strSize)
    (hlab : 1 + (args.map (·.2)).sum ≤ c.labelCap) :
    ∃ s T T', taintStart env sio c base = .ok (s, T) ∧ taintArgv s.taintArgv mem args.length argv T = .ok T' ∧
      ∀ (mem' : Mem), After mem mem' T' →
      ∀ (inp : World) (fn : Nat) (F : Func), P[fn]? = some F → F.blocks ≠ [] →
      ∀ (params : List Nat) (sp n src : Nat) (o : Out (Nat × Nat → Prop)) (gs : Glob (Nat × Nat → Prop)),
        src + 1 = (wanted env sio).length →
        Ir.run (sets src) P inp n (start (sets src) fn params mem' sp (argTaint (src + 1) args)) = o →
        globAfter o = some gs → gs.pos < 2 ^ 54 → (∀ y ∈ gs.out, y.1 < 256) → gs.out.length < 2 ^ 54 →
        gs.out.length ≤ c.sinkCap →
        ∃ k, C52.Does c (runCost plain P inp n (start plain fn params mem' sp)) T'
          (trun dom (pass C P) inp ⟨sio.stdinFd, sio.stdoutFd, seekIn, seekOut⟩ k
            (istart (passFunc (C fn) F) fn params mem' sp T'.labels) T')
          (fun x => ∃ g, Stands o x.1 g ∧ g.out.map (·.1) = gs.out.map (·.1) ∧
            (x.2.labels.words.length + 64 ≤ c.indexCap → ∀ pads, ∃ D N d,
              parse (closed pads c base x.2) = some D ∧ (∀ fuel, N ≤ fuel → mapping D fuel = some d) ∧
              ∀ p o q r, Maps d (p, ((o : Nat) : Int)) (q, r) ↔ q = devStdout ∧
                ∃ (j : Nat) (y : Nat × (Nat × Nat → Prop)), (j : Int) = r ∧ gs.out[j]? = some y ∧
                  ((p = devStdin ∧ y.2 (src, o)) ∨
                    ∃ i, i < args.length ∧ p = argName i ∧ y.2 (src + 1 + i, o)))) := by
  obtain ⟨s, T, h, e1, e2, r1, g1, g2, g3, g4, g5, -, -⟩ := streams_spec c base hc T₀ h0 env sio (by omega) (by omega)
    ⟨h1.2, h2.2, h4.2⟩ hsz
  have hflag : s.taintArgv = true := by
    rw [e2]
    exact (C55_settings env).2.2.2.2.2 ⟨v, hav⟩
  obtain ⟨w1, w2, w3, -, -⟩ := std_streams hin hout h1.1 h2.1 h3 h4.1 g1 g2 seekIn seekOut
  have hwl : (wanted env sio).length ≤ 3 := by
    unfold wanted
    rw [List.length_map]
    exact List.length_filter_le _ _
  have hnames := std_names g1 g2
  obtain ⟨T', q1, q2⟩ := C66_mapping c base hc h T r1 g3 hnames dom P hP hP2 hN C hC _ _ _ w1
    ⟨by have := h1.1; show sio.stdinFd ≠ -1; omega, by have := h2.1; show sio.stdoutFd ≠ -1; omega⟩ mem argv args harg
    (by rw [g1]; omega) (by omega) (by rw [g5, (Labels.init_words hc.lab0).1]; simpa using hlab)
  refine ⟨s, T, T', e1, by rw [hflag]; exact q1, ?_⟩
  intro mem' hm inp fn F hF hne params sp n src o gs hsx hs ho hpos hbytes hlen hlog
  have hsx' : (wanted env sio).length - 1 = src := by omega
  rw [g1, hsx', ← hsx] at q2
  obtain ⟨k, hk⟩ := q2 mem' hm inp fn F hF hne params sp n o gs hs ho hpos hbytes hlen
    (by rw [g2.written]; simpa [Spec.written] using hlog)
  refine ⟨k, ?_⟩
  rcases hk with ⟨x, hx, g, k1, k2, k3⟩ | hk
  · refine Or.inl ⟨x, hx, g, k1, k2, fun hroom pads => ?_⟩
    obtain ⟨D, N, d, d1, d2, d3⟩ := k3 hroom pads
    refine ⟨D, N, d, d1, d2, fun p o q r => ?_⟩
    have hp1 : pathStr devStdin = devStdin := by decide +kernel
    have hp2 : pathStr devStdout = devStdout := by decide +kernel
    rw [hsx'] at w2
    rw [d3, w2, w3]
    constructor
    · rintro (⟨w, i, e, e', b1, -⟩ | ⟨j, y, e', j1, j2, j3, rfl, j4⟩)
      · rw [g2.written] at b1; cases b1
      · cases j3
        refine ⟨hp2, j, y, j1, j2, ?_⟩
        rcases j4 with ⟨e, j5, rfl, j6⟩ | j4
        · cases j5; exact Or.inl ⟨hp1, j6⟩
        · exact Or.inr j4
    · rintro ⟨rfl, j, y, j1, j2, j4⟩
      refine Or.inr ⟨j, y, _, j1, j2, rfl, hp2.symm, ?_⟩
      rcases j4 with ⟨rfl, j6⟩ | j4
      · exact Or.inl ⟨_, rfl, hp1.symm, j6⟩
      · exact Or.inr j4
  · exact Or.inr hk

/-! ### Both passes -/

theorem argEvents_mem : ∀ (args : List (Nat × Nat)) (i0 f0 : Nat) (e : Event), e ∈ argEvents i0 f0 args →
    ∃ i p n f, args[i]? = some (p, n) ∧ e = .source (i0 + i) 0 n f
  | [], _, _, _, h => by simp [argEvents] at h
  | (p, n) :: rest, i0, f0, e, h => by
    simp only [argEvents, List.mem_cons] at h
    rcases h with rfl | h
    · exact ⟨0, p, n, f0, rfl, rfl⟩
    · obtain ⟨i, p', n', f, h1, h2⟩ := argEvents_mem rest _ _ e h
      exact ⟨i + 1, p', n', f, by simpa using h1, by rw [h2]; congr 1; omega⟩

theorem mem_argEvents : ∀ (args : List (Nat × Nat)) (i0 f0 i p n : Nat), args[i]? = some (p, n) →
    ∃ f, Event.source (i0 + i) 0 n f ∈ argEvents i0 f0 args
  | [], _, _, _, _, _, h => by simp at h
  | (p', n') :: rest, i0, f0, i, p, n, h => by
    simp only [argEvents, List.mem_cons]
    cases i with
    | zero =>
      simp only [List.getElem?_cons_zero, Option.some.injEq] at h
      cases h
      exact ⟨f0, Or.inl rfl⟩
    | succ i =>
      obtain ⟨f, hf⟩ := mem_argEvents rest (i0 + 1) (f0 + n') i p n (by simpa using h)
      exact ⟨f, Or.inr (by rw [show i0 + (i + 1) = i0 + 1 + i by omega]; exact hf)⟩

theorem given_args {h : Trace} {i0 f0 : Nat} {args : List (Nat × Nat)} (he : labelEvents h = argEvents i0 f0 args)
    (i o : Nat) : Given h (i, o) ↔ ∃ j p n, args[j]? = some (p, n) ∧ i = i0 + j ∧ o < n := by
  unfold Given GivenTo
  rw [he]
  constructor
  · rintro ⟨l, s, o', n, f, hm, h1, h2, h3⟩
    obtain ⟨j, p, n', f', k1, k2⟩ := argEvents_mem _ _ _ _ hm
    cases k2
    cases h3
    exact ⟨j, p, n, k1, rfl, by omega⟩
  · rintro ⟨j, p, n, k1, rfl, k2⟩
    obtain ⟨f, hf⟩ := mem_argEvents args i0 f0 j p n k1
    exact ⟨f + o, _, _, _, _, hf, by omega, by omega, by rw [Nat.add_sub_cancel_left, Nat.zero_add]⟩

theorem argName_dev (i : Nat) : argName i ≠ devStdout ∧ argName i ≠ devStderr ∧ argName i ≠ devStdin := by
  have h : ∀ d : List Nat, d.head? = some 47 → argName i ≠ d := by
    intro d hd e
    rw [← e] at hd
    simp [argName, chars] at hd
  exact ⟨h _ (by decide +kernel), h _ (by decide +kernel), h _ (by decide +kernel)⟩

/-- C66 (both passes): a process from its start, as in `C66_process`, instrumented by the control-flow pass (any
choice `C` of decisions), the taint-tracking pass (any choice `D`, which is `D'` after the first pass) and the
DFSan pass. Unless there is no room for the labels or the log, it does what the original program does. If it is
ended at any moment and its trace is read by Python, then
(1) byte `o` of `p` maps to byte `r` of `q` exactly if `q` is "/dev/stdout" and byte `r` of the output of the original
program depends on byte `o` of its standard input (`p` is "/dev/stdin") or of its argument `i` (`p` is "argv[i]");
(2) the log is exactly the calls, returns and decisions on tainted data of the original program, followed by
leaving the functions still being executed;
(3) exactly the standard input, if something was read, and the arguments have cavities, and they are the maximal
runs of their bytes on which no decision and no output of the original program depends. -/
theorem C66_pipeline (c : Config) (base : Nat) (hc : c.Ok base) (T₀ : Tracker) (h0 : init c base = .ok T₀)
    (env : Env) (sio : Stdio) (hin : env stdinVar = some [49]) (hout : env stdoutVar = some [49])
    (v : List Nat) (hav : env argvVar = some (49 :: v))
    (h1 : 0 ≤ sio.stdinFd ∧ sio.stdinFd < 2 ^ 31) (h2 : 0 ≤ sio.stdoutFd ∧ sio.stdoutFd < 2 ^ 31)
    (h3 : sio.stdinFd ≠ sio.stdoutFd) (h4 : sio.stderrFd ≠ sio.stdoutFd ∧ sio.stderrFd < 2 ^ 31)
    (hsz : ∀ n s, sio.size n = some s → s < 2 ^ 64)
    (dom : Nat → Nat → Nat → Bool) (P : Prog) (hP : C47.Accepted dom P) (hP2 : C49.Accepted P)
    (hN : C49.NoHooks P) (hsize : P.length ≤ 2 ^ 32) (C D D' : Nat → Marks)
    (hC : ∀ f, ∃ lg cd, C f = controlFlow f lg cd) (hD : ∀ f, ∃ lg cd, D f = taintTracking lg cd)
    (hD' : ∀ f, ∃ lg cd, D' f = taintTracking lg cd) (hsame : Same C P D D')
    (seekIn seekOut : Bool) (mem : Mem) (argv : List Nat) (args : List (Nat × Nat))
    (harg : ∀ (i p n : Nat), args[i]? = some (p, n) → argv[i]? = some p ∧ IsStr mem p n ∧ 0 < n ∧ n < 2 ^ 64)
    (hargc : args.length < 10 ^ 10)
    (hsrc : 3 + args.length ≤ c.srcCap) (hstr : 40 + 18 * args.length ≤ c.strSize)
    (hlab : 1 + (args.map (·.2)).sum ≤ c.labelCap) :
    ∃ s T T', taintStart env sio c base = .ok (s, T) ∧ taintArgv s.taintArgv mem args.length argv T = .ok T' ∧
      ∀ (mem' : Mem), After mem mem' T' →
      ∀ (inp : World) (fn : Nat) (F : Func), P[fn]? = some F → F.blocks ≠ [] →
      ∀ (params : List Nat) (sp n src : Nat) (o : Out (Nat × Nat → Prop)) (gs : Glob (Nat × Nat → Prop)),
        src + 1 = (wanted env sio).length →
        Ir.run (sets src) P inp n (start (sets src) fn params mem' sp (argTaint (src + 1) args)) = o →
        globAfter o = some gs → gs.pos < 2 ^ 54 → (∀ y ∈ gs.out, y.1 < 256) → gs.out.length < 2 ^ 54 →
        gs.out.length ≤ c.sinkCap →
        ∃ k, C53.Does c (runCost plain P inp n (start plain fn params mem' sp))
          (observeFrom (sets src) C P inp fn n
            (start (sets src) fn params mem' sp (argTaint (src + 1) args))).length T'
          (trun dom (pass D' (pass C P)) inp ⟨sio.stdinFd, sio.stdoutFd, seekIn, seekOut⟩ k
            (istart (passFunc (D' fn) (passFunc (C fn) F)) fn params mem' sp T'.labels) T')
          (fun x => ∃ g, Stands o x.1 g ∧ g.out.map (·.1) = gs.out.map (·.1) ∧
            (x.2.labels.words.length + 64 ≤ c.indexCap → ∀ pads, ∃ G, parse (closed pads c base x.2) = some G ∧
              (∃ N d, (∀ fuel, N ≤ fuel → mapping G fuel = some d) ∧
                ∀ p o q r, Maps d (p, ((o : Nat) : Int)) (q, r) ↔ q = devStdout ∧
                  ∃ (j : Nat) (y : Nat × (Nat × Nat → Prop)), (j : Int) = r ∧ gs.out[j]? = some y ∧
                    ((p = devStdin ∧ y.2 (src, o)) ∨
                      ∃ i, i < args.length ∧ p = argName i ∧ y.2 (src + 1 + i, o))) ∧
              (∃ items, G.cfItems = some (items ++ drain (C53.executing o), false) ∧
                Told (Denotes x.2.labels.graph)
                  (observeFrom (sets src) C P inp fn n
                    (start (sets src) fn params mem' sp (argTaint (src + 1) args))) [] items (C53.executing o) ∧
                ∀ l, G.readNode l = x.2.labels.words[l]?) ∧
              (∃ N d, (∀ fuel, N ≤ fuel → fileCavities G fuel = some d) ∧
                (∀ p, (∃ rs, d.get p = some rs) ↔
                  (0 < gs.pos ∧ p = devStdin) ∨ ∃ i, i < args.length ∧ p = argName i) ∧
                (∀ rs, d.get devStdin = some rs → MaximalRuns rs fun b =>
                  b < C52.extent ((sio.size devStdin).getD unknownSize) gs.pos ∧
                  ¬ C51.Decided D P inp src n
                    (start (sets src) fn params mem' sp (argTaint (src + 1) args)) (src, b) ∧
                  ∀ y ∈ gs.out, ¬ y.2 (src, b)) ∧
                ∀ i p m rs, args[i]? = some (p, m) → d.get (argName i) = some rs → MaximalRuns rs fun b =>
                  b < m ∧
                  ¬ C51.Decided D P inp src n
                    (start (sets src) fn params mem' sp (argTaint (src + 1) args)) (src + 1 + i, b) ∧
                  ∀ y ∈ gs.out, ¬ y.2 (src + 1 + i, b)))) := by
  obtain ⟨s, T, h, e1, e2, r1, g1, g2, g3, g4, g5, g6, -⟩ := streams_spec c base hc T₀ h0 env sio (by omega) (by omega)
    ⟨h1.2, h2.2, h4.2⟩ hsz
  have hflag : s.taintArgv = true := by
    rw [e2]
    exact (C55_settings env).2.2.2.2.2 ⟨v, hav⟩
  obtain ⟨w1, w2, w3, w4, w5⟩ := std_streams hin hout h1.1 h2.1 h3 h4.1 g1 g2 seekIn seekOut
  have hwl : (wanted env sio).length ≤ 3 := by
    unfold wanted
    rw [List.length_map]
    exact List.length_filter_le _ _
  obtain ⟨T', h', a1, a2, a3, a4, a5, a6, a7, a8, a9, a10⟩ := argv_ready hc r1 g3 (std_names g1 g2) w1
    ⟨by have := h1.1; show sio.stdinFd ≠ -1; omega, by have := h2.1; show sio.stdoutFd ≠ -1; omega⟩ harg
    (by rw [g1]; omega) (by omega) (by rw [g5, (Labels.init_words hc.lab0).1]; simpa using hlab)
  refine ⟨s, T, T', e1, by rw [hflag]; exact a1, ?_⟩
  intro mem' hm inp fn F hF hne params sp n src o gs hsx hs ho hpos hbytes hlen hlog
  have hsx' : (wanted env sio).length - 1 = src := by omega
  have hreg : (registered h).length = src + 1 := by rw [g1]; omega
  rw [hsx'] at w2 a6
  rw [hreg] at a8 a10
  rw [g6, List.nil_append] at a8
  have hwr : Spec.written h' = [] := by rw [a4, g2.written]; rfl
  have hcf : cfEvents h' = [] := by rw [a9, g2.cf]; rfl
  obtain ⟨k, hk⟩ := C53.C53_pipeline c base hc h' T' a2 a5 hcf dom P hP hP2 hN hsize C D D' hC hD hD' hsame _ src 0 a6
    inp fn F hF hne params mem' hm.bytes (a10 mem' hm) sp n o gs hs ho hpos hbytes hlen
    (by rw [hwr]; simpa using hlog)
  refine ⟨k, ?_⟩
  rcases hk with ⟨x, hx, g, k1, k2, k3⟩ | hk
  swap
  · exact Or.inr hk
  refine Or.inl ⟨x, hx, g, k1, k2, fun hroom pads => ?_⟩
  obtain ⟨G, b1, ⟨N, d, b2, b3⟩, b4, ⟨N', d', b5, b6, b7, -⟩⟩ := k3 hroom pads
  have hp1 : pathStr devStdin = devStdin := by decide +kernel
  have hp2 : pathStr devStdout = devStdout := by decide +kernel
  have hp3 : pathStr devStderr = devStderr := by decide +kernel
  have hn1 : devStdout ≠ devStdin := by decide +kernel
  have hn2 : devStderr ≠ devStdin := by decide +kernel
  have hold : ∀ i, i < src + 1 → (registered h')[i]? = (wanted env sio)[i]? := fun i hi => by
    rw [a3, List.getElem?_append_left (by omega), g1]
  have hnew : ∀ i, i < args.length → (registered h')[src + 1 + i]? = some (argName i, -1, unknownSize) := fun i hi => by
    rw [a3, List.getElem?_append_right (by omega), hreg, Nat.add_sub_cancel_left, List.getElem?_map,
      List.getElem?_range hi]
    rfl
  have hrest : ∀ i e, (registered h')[src + 1 + i]? = some e → i < args.length := by
    intro i e hi
    have := (List.getElem?_eq_some_iff.1 hi).1
    rw [a3, List.length_append, hreg, List.length_map, List.length_range] at this
    omega
  -- which entry has which path
  have hent : ∀ i e, (registered h')[i]? = some e →
      (i ≤ src ∧ pathStr e.1 = e.1 ∧ (e.1 = devStdout ∨ e.1 = devStderr ∨ (i = src ∧ e.1 = devStdin))) ∨
      ∃ j, i = src + 1 + j ∧ j < args.length ∧ e = (argName j, -1, unknownSize) := by
    intro i e hi
    by_cases hlt : i < src + 1
    · rw [hold i hlt] at hi
      refine Or.inl ⟨by omega, ?_⟩
      rcases w5 i e hi with hx | hx | ⟨hx, hy⟩
      · exact ⟨by rw [hx, hp2], Or.inl hx⟩
      · exact ⟨by rw [hx, hp3], Or.inr (Or.inl hx)⟩
      · exact ⟨by rw [hy, hp1], Or.inr (Or.inr ⟨by omega, hy⟩)⟩
    · obtain ⟨j, rfl⟩ : ∃ j, i = src + 1 + j := ⟨i - (src + 1), by omega⟩
      have hj := hrest j e hi
      rw [hnew j hj] at hi
      cases hi
      exact Or.inr ⟨j, rfl, hj, rfl⟩
  have hpin : ∀ i e, (registered h')[i]? = some e → devStdin = pathStr e.1 → i = src := by
    intro i e hi hpe
    rcases hent i e hi with ⟨-, q1, q2 | q2 | q2⟩ | ⟨j, -, -, rfl⟩
    · rw [q1, q2] at hpe; exact absurd hpe.symm hn1
    · rw [q1, q2] at hpe; exact absurd hpe.symm hn2
    · exact q2.1
    · rw [argName_path] at hpe; exact absurd hpe.symm (argName_dev j).2.2
  have hparg : ∀ l i e, l < args.length → (registered h')[i]? = some e → argName l = pathStr e.1 →
      i = src + 1 + l := by
    intro l i e hl hi hpe
    rcases hent i e hi with ⟨-, q1, q2 | q2 | q2⟩ | ⟨j, rfl, hj, rfl⟩
    · rw [q1, q2] at hpe; exact absurd hpe (argName_dev l).1
    · rw [q1, q2] at hpe; exact absurd hpe (argName_dev l).2.1
    · rw [q1, q2.2] at hpe; exact absurd hpe (argName_dev l).2.2
    · rw [argName_path] at hpe
      rw [(C55_names l (by omega)).2 j (by omega) hpe]
  have hreadin : ∀ o, C52.HasRead h' src gs.pos (src, o) ↔ o < gs.pos := by
    intro o
    unfold C52.HasRead
    rw [given_args a8]
    constructor
    · rintro (⟨j, p, n, -, q, -⟩ | q)
      · omega
      · exact q.2
    · exact fun q => Or.inr ⟨rfl, q⟩
  have hreadarg : ∀ i p m, args[i]? = some (p, m) → ∀ o, C52.HasRead h' src gs.pos (src + 1 + i, o) ↔ o < m := by
    intro i p m hi o
    unfold C52.HasRead
    rw [given_args a8]
    constructor
    · rintro (⟨j, p, n, q1, q, q2⟩ | q)
      · obtain rfl : i = j := by omega
        rw [hi] at q1; cases q1; exact q2
      · have := q.1; simp only at this; omega
    · exact fun q => Or.inl ⟨i, p, m, hi, rfl, q⟩
  have hmat : ∀ X b, C52.Mattered h' X gs.out b ↔ X b ∨ ∃ y ∈ gs.out, y.2 b := by
    intro X b
    unfold C52.Mattered
    rw [hwr]
    constructor
    · rintro (⟨bf, l, rest, q, -⟩ | q | ⟨w, q, -⟩ | q)
      · have : Event.mark l ∈ argEvents (src + 1) T.labels.words.length args := by rw [← a8, q]; simp
        obtain ⟨_, _, _, _, -, q⟩ := argEvents_mem _ _ _ _ this
        cases q
      · exact Or.inl q
      · cases q
      · exact Or.inr q
    · rintro (q | q)
      · exact Or.inr (Or.inl q)
      · exact Or.inr (Or.inr (Or.inr q))
  have hidle : ∀ (p : List Nat) (i0 : Nat) (e0 : List Nat × Int × Nat) (m : Nat) (X : Nat × Nat → Prop),
      (registered h')[i0]? = some e0 → p = pathStr e0.1 →
      (∀ i e, (registered h')[i]? = some e → p = pathStr e.1 → i = i0) →
      (∀ o, C52.HasRead h' src gs.pos (i0, o) ↔ o < m) → 0 < m →
      C52.Idle h' (C52.HasRead h' src gs.pos) (C52.Mattered h' X gs.out) p =
        fun b => b < C52.extent e0.2.2 m ∧ ¬ X (i0, b) ∧ ∀ y ∈ gs.out, ¬ y.2 (i0, b) := by
    intro p i0 e0 m X q1 q2 q3 q4 q5
    funext b
    apply propext
    unfold C52.Idle
    have hx := C52.isExtent_prefix (size := e0.2.2) (n := m) (Q := fun o => C52.HasRead h' src gs.pos (i0, o)) q4
    constructor
    · rintro ⟨u1, u2⟩
      have u3 := u2 i0 e0 q1 q2
      rw [hmat] at u3
      exact ⟨u1 i0 e0 _ ⟨q1, q2, 0, (q4 0).2 q5⟩ ((hx _).2 rfl), fun u => u3 (Or.inl u),
        fun y hy u => u3 (Or.inr ⟨y, hy, u⟩)⟩
    · rintro ⟨u1, u2, u3⟩
      refine ⟨?_, ?_⟩
      · rintro i e L ⟨u4, u5, -⟩ u6
        obtain rfl := q3 i e u4 u5
        rw [q1] at u4
        cases u4
        rw [(hx _).1 u6]; exact u1
      · intro i e u4 u5 u6
        obtain rfl := q3 i e u4 u5
        rcases (hmat _ _).1 u6 with u6 | ⟨y, hy, u6⟩
        · exact u2 u6
        · exact u3 y hy u6
  have hlist : ∀ p, (∃ rs, d'.get p = some rs) ↔
      (0 < gs.pos ∧ p = devStdin) ∨ ∃ i, i < args.length ∧ p = argName i := by
    intro p
    rw [b6]
    constructor
    · rintro ⟨i, e, q1, rfl, o, q2⟩
      rcases q2 with q2 | ⟨rfl, q2⟩
      · obtain ⟨j, p, m, q3, rfl, q4⟩ := (given_args a8 i o).1 q2
        have hj := (List.getElem?_eq_some_iff.1 q3).1
        rw [hnew j hj] at q1
        cases q1
        exact Or.inr ⟨j, hj, argName_path j⟩
      · rw [hold i (by omega), w2] at q1
        cases q1
        exact Or.inl ⟨by simp only at q2; omega, hp1⟩
    · rintro (⟨q1, rfl⟩ | ⟨i, q1, rfl⟩)
      · exact ⟨src, _, (hold src (by omega)).trans w2, hp1.symm, 0, (hreadin 0).2 q1⟩
      · have hi := List.getElem?_eq_getElem q1
        exact ⟨src + 1 + i, _, hnew i q1, (argName_path i).symm, 0,
          (hreadarg i args[i].1 args[i].2 hi 0).2 (harg i _ _ hi).2.2.1⟩
  have hwithin := taint_within (X := fun b => b.1 = src ∨ ∃ i, i < args.length ∧ b.1 = src + 1 + i)
    (fun _ => Or.inl rfl) (by
      rintro a b ⟨i, p, n, q1, q2, rfl⟩
      exact Or.inr ⟨i, (List.getElem?_eq_some_iff.1 q2).1, rfl⟩) hs ho
  refine ⟨G, b1, ⟨N, d, b2, fun p o q r => ?_⟩, b4, ⟨N', d', b5, hlist, ?_, ?_⟩⟩
  · rw [b3]
    constructor
    · rintro (⟨w, i, e, e', q1, -⟩ | ⟨j, y, i, e, e', j1, j2, j3, j4, rfl, j5, rfl⟩)
      · rw [hwr] at q1; cases q1
      · rw [hold 0 (by omega), w3] at j5
        cases j5
        refine ⟨hp2, j, y, j1, j2, ?_⟩
        rcases hwithin y (List.mem_of_getElem? j2) _ j3 with rfl | ⟨i', hi', rfl⟩
        · rw [hold _ (by omega), w2] at j4
          cases j4
          exact Or.inl ⟨hp1, j3⟩
        · rw [hnew i' hi'] at j4
          cases j4
          exact Or.inr ⟨i', hi', argName_path i', j3⟩
    · rintro ⟨rfl, j, y, j1, j2, ⟨rfl, j3⟩ | ⟨i, hi, rfl, j3⟩⟩
      · exact Or.inr ⟨j, y, src, _, _, j1, j2, j3, (hold src (by omega)).trans w2, hp1,
          (hold 0 (by omega)).trans w3, hp2⟩
      · exact Or.inr ⟨j, y, _, _, _, j1, j2, j3, hnew i hi, argName_path i, (hold 0 (by omega)).trans w3, hp2⟩
  · intro rs hrs
    have hpos : 0 < gs.pos := by
      rcases (hlist devStdin).1 ⟨rs, hrs⟩ with q | ⟨i, -, q⟩
      · exact q.1
      · exact absurd q.symm (argName_dev i).2.2
    have := b7 _ rs hrs
    rwa [hidle devStdin src _ gs.pos _ ((hold src (by omega)).trans w2) hp1.symm hpin hreadin hpos] at this
  · intro i p m rs hi hrs
    have hlt := (List.getElem?_eq_some_iff.1 hi).1
    have := b7 _ rs hrs
    rw [hidle (argName i) (src + 1 + i) _ m _ (hnew i hlt) (argName_path i).symm
      (fun i' e q1 q2 => hparg i i' e hlt q1 q2) (hreadarg i p m hi) (harg i p m hi).2.2.1] at this
    simpa only [C52.extent, if_true] using this

/-! ### Example -/

/-- Reads a byte, writes it plus byte 1 of argument 0, then writes byte 0 of argument 1. -/
def mainF : Func where
  nparams := 0
  void := false
  blocks := [⟨[], [.getc, .load (.const (C47.a0 + 1)) 1, .op (fun xs => xs.sum % 256) [.reg (.ins 0 0), .reg (.ins 0 1)],
    .putc (.reg (.ins 0 2)), .load (.const (C47.a0 + 3)) 1, .putc (.reg (.ins 0 4))], .ret (some (.const 0))⟩]

/-- The command line "ab", "c". -/
def exMem : Mem := fun a =>
  if a = C47.a0 then 97 else if a = C47.a0 + 1 then 98 else if a = C47.a0 + 3 then 99 else 0

def exArgs : List (Nat × Nat) := [(C47.a0, 2), (C47.a0 + 3, 1)]

def exC : Config := { exCfg with strSize := 128, srcCap := 9 }

/-- `exMem` with the labels of the tracker. -/
def exMem' (T : Tracker) : Mem := fun x =>
  if 0x700000008000 ≤ x ∧ x < 0x800000000000 then exMem x
  else T.shadow (0x700000000000 + x / 4) / 2 ^ (8 * (x % 4)) % 256

/-- What Python computes from the trace of the process, on the input `5`. -/
def answer : Option (List ((List Nat × Int) × List (List Nat × Int))) :=
  match taintStart exEnv exStdio exC 4096 with
  | .ok (s, T) => match taintArgv s.taintArgv exMem 2 [C47.a0, C47.a0 + 3] T with
    | .ok T' => match trun C47.dom0 (pass C51.marks [mainF]) (.file [5]) ⟨0, 1, false, false⟩ 30
          (istart (passFunc (C51.marks 0) mainF) 0 [] (exMem' T') 0 T'.labels) T' with
      | .ok (.done _ _ _, T'') => (parse (closed zeroPads exC 4096 T'')).bind fun F => mapping F 20
      | _ => none
    | _ => none
  | _ => none

/-- Byte 0 of the input and byte 1 of "argv[0]" go to byte 0 of the output, byte 0 of "argv[1]" to byte 1. -/
example : answer = some [((argName 0, 1), [(devStdout, 0)]), ((devStdin, 0), [(devStdout, 0)]),
    ((argName 1, 0), [(devStdout, 1)])] := by
  decide +kernel

theorem mainF_accepted : C47.Accepted C47.dom0 [mainF] := by
  intro fn F hF
  match fn, hF with
  | 0, hF => cases hF; exact ⟨(Func.check_valid (by decide)).1, by decide, C47.dom0_sound 0 _⟩
  | n + 1, hF => cases hF

theorem mainF_ok : C49.Accepted [mainF] ∧ C49.NoHooks [mainF] := by
  constructor
  · intro f F hF b B hB
    match f, hF with
    | 0, hF =>
      cases hF
      match b, hB with
      | 0, hB => cases hB; decide
      | n + 1, hB => cases hB
    | n + 1, hF => cases hF
  · intro f F b B j k v hF hB h
    have hm := List.mem_of_getElem? h
    match f, hF with
    | 0, hF =>
      cases hF
      match b, hB with
      | 0, hB => cases hB; simp at hm
      | n + 1, hB => cases hB
    | n + 1, hF => cases hF

theorem exArgs_ok : ∀ (i p n : Nat), exArgs[i]? = some (p, n) →
    ([C47.a0, C47.a0 + 3] : List Nat)[i]? = some p ∧ IsStr exMem p n ∧ 0 < n ∧ n < 2 ^ 64 := by
  intro i p n hi
  match i with
  | 0 =>
    cases hi
    refine ⟨rfl, ⟨by decide, ?_⟩, by decide, by decide⟩
    intro i hi
    match i with
    | 0 => decide
    | 1 => decide
    | i + 2 => omega
  | 1 =>
    cases hi
    refine ⟨rfl, ⟨by decide, ?_⟩, by decide, by decide⟩
    intro i hi
    match i with
    | 0 => decide
    | i + 1 => omega
  | i + 2 => simp [exArgs] at hi

/-- The hypotheses of `C66_process` are met by the example; the original program, run to its end, writes two bytes,
the first of which depends on the input and on byte 1 of argument 0. -/
example : exC.Ok 4096 ∧ (∃ T₀, init exC 4096 = .ok T₀) ∧ exEnv stdinVar = some [49] ∧ exEnv stdoutVar = some [49] ∧
    exEnv argvVar = some (49 :: []) ∧ C47.Accepted C47.dom0 [mainF] ∧ C49.Accepted [mainF] ∧ C49.NoHooks [mainF] ∧
    (∀ f, ∃ lg cd, C51.marks f = taintTracking lg cd) ∧
    (∀ (i p n : Nat), exArgs[i]? = some (p, n) →
      ([C47.a0, C47.a0 + 3] : List Nat)[i]? = some p ∧ IsStr exMem p n ∧ 0 < n ∧ n < 2 ^ 64) ∧
    3 + exArgs.length ≤ exC.srcCap ∧ 40 + 18 * exArgs.length ≤ exC.strSize ∧
    1 + (exArgs.map (·.2)).sum ≤ exC.labelCap ∧ 1 + 1 = (wanted exEnv exStdio).length ∧
    (∀ T : Tracker, (∀ a, T.shadow a < 2 ^ 32) → After exMem (exMem' T) T) ∧
    ∀ mem', (∀ a, IsApp a → mem' a = exMem a) →
      ∃ v gs, Ir.run (sets 1) [mainF] (.file [5]) 20 (start (sets 1) 0 [] mem' 0 (argTaint 2 exArgs)) = .done v gs ∧
        globAfter (.done v gs) = some gs ∧ gs.pos < 2 ^ 54 ∧ (∀ y ∈ gs.out, y.1 < 256) ∧ gs.out.length ≤ exC.sinkCap ∧
        gs.out.map (·.1) = [103, 99] ∧
        ∃ y, gs.out[0]? = some y ∧ y.2 (1, 0) ∧ y.2 (2 + 0, 1) ∧ ¬ y.2 (2 + 1, 0) := by
  refine ⟨?_, ?_, by decide +kernel, by decide +kernel, by decide +kernel, mainF_accepted, mainF_ok.1, mainF_ok.2, ?_,
    exArgs_ok, by decide, by decide, by decide, by decide +kernel, ?_, ?_⟩
  · refine ⟨?_, ?_, ?_, ?_, ?_, ?_, ?_, ?_⟩ <;> decide
  · exact ⟨_, rfl⟩
  · intro f; exact ⟨_, _, rfl⟩
  · intro T hT
    exact after_mem (fun a _ => by unfold exMem; split <;> (try split) <;> (try split) <;> decide) hT
  · intro mem' hm
    have h1 : mem' (C47.a0 + 1) = 98 := by rw [hm _ (by unfold IsApp C47.a0; omega)]; decide
    have h3 : mem' (C47.a0 + 3) = 99 := by rw [hm _ (by unfold IsApp C47.a0; omega)]; decide
    have r1 : readInt mem' (C47.a0 + 1) 1 = 98 := by simp [readInt, h1]
    have r3 : readInt mem' (C47.a0 + 3) 1 = 99 := by simp [readInt, h3]
    have ho : ∃ v gs t1 t2, Ir.run (sets 1) [mainF] (.file [5]) 20
          (start (sets 1) 0 [] mem' 0 (argTaint 2 exArgs)) = .done v gs ∧ gs.pos = 1 ∧
        gs.out = [(([5, readInt mem' (C47.a0 + 1) 1].sum) % 256, t1), (readInt mem' (C47.a0 + 3) 1, t2)] ∧
        t1 = (sets 1).all [(sets 1).src 0, (sets 1).join ((sets 1).all [argTaint 2 exArgs (C47.a0 + 1)])
          (sets 1).zero] := ⟨_, _, _, _, rfl, rfl, rfl, rfl⟩
    obtain ⟨v, gs, t1, t2, ho, hp, hg, ht⟩ := ho
    rw [r1, r3] at hg
    refine ⟨v, gs, ho, rfl, by rw [hp]; decide, ?_, by rw [hg]; exact (by decide : 2 ≤ 5), by rw [hg]; rfl, _, by rw [hg]; rfl, ?_, ?_, ?_⟩
    · rw [hg]; simp
    · rw [ht]; simp [sets, Alg.all]
    · rw [ht]
      have : argTaint 2 exArgs (C47.a0 + 1) (2, 1) :=
        ⟨0, C47.a0, 2, ⟨⟨C47.a0, 2, rfl, by omega, by omega⟩, by
          intro j p n hj hp
          match j with
          | 1 => cases hp; omega
          | j + 2 => simp [exArgs] at hp⟩, rfl, by rw [Nat.add_sub_cancel_left]⟩
      simp [sets, Alg.all, this]
    · rw [ht]
      have : ¬ argTaint 2 exArgs (C47.a0 + 1) (3, 0) := by
        rintro ⟨i, p, n, ⟨⟨p', n', k1, k2, k3⟩, -⟩, k4, k5⟩
        match i with
        | 0 => simp at k5
        | 1 => cases k1; omega
        | i + 2 => simp [exArgs] at k4
      simp [sets, Alg.all, this]

/-- The control-flow pass reports the byte of argument 0 in the sum. -/
def cmarks (f : Nat) : Marks := controlFlow f (fun b j i => b == 0 && j == 2 && i == 1) (fun _ => false)

/-- The taint-tracking pass reports the byte of the input in the sum. -/
def tmarks (_ : Nat) : Marks := taintTracking (fun b j i => b == 0 && j == 2 && i == 0) (fun _ => false)

/-- The same after the control-flow pass. -/
def tmarks' (_ : Nat) : Marks := taintTracking (fun b j i => b == 0 && j == 4 && i == 0) (fun _ => false)

theorem same : Same cmarks [mainF] tmarks tmarks' := by
  intro f F hF
  refine ⟨fun b => rfl, fun b B j i hB => ?_⟩
  match f, hF with
  | 0, hF =>
    cases hF
    match b, hB with
    | 0, hB =>
      cases hB
      simp only [tmarks, tmarks', taintTracking]
      by_cases hj : j = 2
      · subst hj; rfl
      · have : (posOf (cmarks 0) 0 ⟨[], [.getc, .load (.const (C47.a0 + 1)) 1,
            .op (fun xs => xs.sum % 256) [.reg (.ins 0 0), .reg (.ins 0 1)],
            .putc (.reg (.ins 0 2)), .load (.const (C47.a0 + 3)) 1, .putc (.reg (.ins 0 4))],
            .ret (some (.const 0))⟩ j == 4) = false := by
          rw [beq_eq_false_iff_ne]
          intro e
          exact hj (posOf_inj (e.trans rfl))
        rw [this, beq_eq_false_iff_ne.2 hj]
    | b + 1, hB => simp [tmarks, tmarks', taintTracking]
  | f + 1, hF => cases hF

/-- The hypotheses of `C66_pipeline` that are not among those of `C66_process`. -/
example : Same cmarks [mainF] tmarks tmarks' ∧ (∀ f, ∃ lg cd, cmarks f = controlFlow f lg cd) ∧
    (∀ f, ∃ lg cd, tmarks f = taintTracking lg cd) ∧ (∀ f, ∃ lg cd, tmarks' f = taintTracking lg cd) :=
  ⟨same, fun _ => ⟨_, _, rfl⟩, fun _ => ⟨_, _, rfl⟩, fun _ => ⟨_, _, rfl⟩⟩

/-- The trace with both passes on the input `5`, as parsed by Python. -/
def parsed : Option TDFile :=
  match taintStart exEnv exStdio exC 4096 with
  | .ok (s, T) => match taintArgv s.taintArgv exMem 2 [C47.a0, C47.a0 + 3] T with
    | .ok T' => match trun C47.dom0 (pass tmarks' (pass cmarks [mainF])) (.file [5]) ⟨0, 1, false, false⟩ 40
          (istart (passFunc (tmarks' 0) (passFunc (cmarks 0) mainF)) 0 [] (exMem' T') 0 T'.labels) T' with
      | .ok (.done _ _ _, T'') => parse (closed zeroPads exC 4096 T'')
      | _ => none
    | _ => none
  | _ => none

/-- Byte 0 of "argv[0]" is not used; everything else is. -/
example : (parsed.bind fun F => fileCavities F 20) =
    some [(argName 0, [(0, 1)]), (argName 1, []), (devStdin, [])] := by
  decide +kernel

end C66
end Verif
