import Verif.FtraceMain
import Verif.Props.C50
import Verif.Props.C53
import Verif.Props.C67
/-
C71: function tracing. A program instrumented by all passes reports the calls of its functions and the returns
from them: from the trace it leaves, Python gets exactly the calls and returns of the original program, in
order and with the names of the functions, and nothing else in the trace is changed.
-/
namespace Verif
namespace C71
open Ir PassIr CfPass Spec Labels DfsanMem Tracker EndToEnd Linked TwoPass Py File Ftrace

/-! ### Calls and returns are nested -/

theorem unwind_append : ∀ (a b : List (Bool × Nat)) (st st' : List Nat), unwind st a = some st' →
    unwind st (a ++ b) = unwind st' b
  | [], _, _, _, h => by cases h; rfl
  | (true, f) :: a, b, st, st', h => unwind_append a b (f :: st) st' h
  | (false, f) :: a, b, [], st', h => by cases h
  | (false, f) :: a, b, g :: st, st', h => by
    simp only [unwind] at h
    simp only [List.cons_append, unwind]
    split at h
    · rename_i e; rw [if_pos e]; exact unwind_append a b st st' h
    · cases h

theorem nested_run {τ : Type} {A : Alg τ} {P : Prog} (hP : C49.Accepted P) {inp : World} (keep : Nat → Bool) :
    ∀ (n : Nat) (s : State τ), s.frames ≠ [] → Ir.run A P inp n s ≠ .stuck →
    unwind ((s.frames.map (·.fn)).filter keep) ((callsRun A P inp n s).filter (fun x => keep x.2)) =
      some ((C53.executing (Ir.run A P inp n s)).filter keep)
  | 0, s, _, _ => rfl
  | n + 1, s, hne, h => by
    obtain ⟨frs, g⟩ := s
    cases frs with
    | nil => exact absurd rfl hne
    | cons fr rest =>
      have hsh := step_shape (A := A) (inp := inp) hP fr rest g
      unfold Ir.run at h ⊢
      unfold callsRun
      cases e : step A P inp ⟨fr :: rest, g⟩ with
      | stuck => rw [e] at h; exact absurd rfl h
      | done v g' =>
        rw [e] at hsh
        cases hsh with
        | done _ _ _ hc =>
          subst hc
          cases hk : keep fr.fn <;> simp [State.top, C53.executing, unwind, hk]
      | next s' =>
        rw [e] at hsh h
        dsimp only at h ⊢
        have hne' : s'.frames ≠ [] := by cases hsh <;> simp
        rw [List.filter_append, unwind_append _ _ _ _ ?_]
        · exact nested_run hP keep n s' hne' h
        · cases hsh with
          | same fr' g' hr hf hn => simp [callStep, unwind, hf]
          | call fr' g' hr hn hp =>
            cases hk : keep fr'.fn <;> simp [callStep, unwind, State.top, hk]
          | ret c c' r g' hr hc hf hn =>
            subst hc
            have hlt : ¬ (r.length + 1 < r.length) := by omega
            cases hk : keep fr.fn <;> simp [callStep, unwind, State.top, hk, hf, hlt]

/-- Calls are of functions of the program. -/
theorem calls_lt {τ : Type} {A : Alg τ} {P : Prog} (hP : C49.Accepted P) {inp : World} :
    ∀ (n : Nat) (s : State τ), s.frames ≠ [] → (∀ fr ∈ s.frames, fr.fn < P.length) →
    ∀ x ∈ callsRun A P inp n s, x.2 < P.length
  | 0, s, _, _, x, hx => by cases hx
  | n + 1, s, hne, h, x, hx => by
    obtain ⟨frs, g⟩ := s
    cases frs with
    | nil => exact absurd rfl hne
    | cons fr rest =>
      have hsh := step_shape (A := A) (inp := inp) hP fr rest g
      have hfr : fr.fn < P.length := h fr (List.mem_cons_self ..)
      unfold callsRun at hx
      cases e : step A P inp ⟨fr :: rest, g⟩ with
      | stuck => rw [e] at hx; cases hx
      | done v g' =>
        rw [e] at hx
        rw [List.mem_singleton.1 hx]
        exact hfr
      | next s' =>
        rw [e] at hsh hx
        dsimp only at hx
        have hne' : s'.frames ≠ [] := by cases hsh <;> simp
        have hall : (∀ fr ∈ s'.frames, fr.fn < P.length) ∧ ∀ y ∈ callStep ⟨fr :: rest, g⟩ s', y.2 < P.length := by
          cases hsh with
          | same fr' g' hr hf hn =>
            refine ⟨?_, by simp [callStep]⟩
            intro f hm
            rcases List.mem_cons.1 hm with rfl | hm
            · rw [hf]; exact hfr
            · exact h f (List.mem_cons_of_mem _ hm)
          | call fr' g' hr hn hp =>
            refine ⟨?_, by simp [callStep, State.top, hp]⟩
            intro f hm
            rcases List.mem_cons.1 hm with rfl | hm
            · exact hp
            · exact h f hm
          | ret c c' r g' hr hc hf hn =>
            subst hc
            have hlt : ¬ (r.length + 1 < r.length) := by omega
            refine ⟨?_, by simp [callStep, State.top, hfr, hlt]⟩
            intro f hm
            rcases List.mem_cons.1 hm with rfl | hm
            · rw [hf]; exact h c (by simp)
            · exact h f (by simp [hm])
        rcases List.mem_append.1 hx with hx | hx
        · exact hall.2 x hx
        · exact calls_lt hP n s' hne' hall.1 x hx

/-- C71, nesting: the calls and returns of a run, and those of any set of functions, are nested: a function that is
left is the innermost one that was entered and not left. What remains are the functions being executed. -/
theorem C71_nested {τ : Type} (A : Alg τ) (P : Prog) (hP : C49.Accepted P) (inp : World) (keep : Nat → Bool) (fn : Nat)
    (args : List Nat) (mem : Nat → Nat) (tm : Nat → τ) (sp n : Nat)
    (hs : Ir.run A P inp n (start A fn args mem sp tm) ≠ .stuck) :
    unwind [] ((callsFrom A P inp fn n (start A fn args mem sp tm)).filter (fun x => keep x.2)) =
      some ((C53.executing (Ir.run A P inp n (start A fn args mem sp tm))).filter keep) := by
  rw [← nested_run hP keep n (start A fn args mem sp tm) (by simp [start]) hs]
  unfold callsFrom
  cases hk : keep fn <;> simp [start, newFrame, hk, unwind]

/-! ### The trace -/

/-- What Python reads from the file: the events are those of the given calls (kind 0) and returns (kind 1), in
order, and the headers of functions give the names. -/
def Says (N : Fns) (G : TDFile) (l : List (Bool × Nat)) : Prop :=
  ∃ evs, G.events = some evs ∧ List.Forall₂ (fun (e : Nat × Nat) (x : Bool × Nat) =>
    e.1 = (if x.1 then 0 else 1) ∧ ∃ off, G.fnHeaders[e.2]? = some (N.name x.2, off)) evs l

/-- How a run may end: as `Q` says; or it is stopped because the store has no room for `k` labels more than it
had; or because the log of the control flow has no room for `m` events. -/
def Does {α : Type} (c : Config) (k m : Nat) (T : Tracker) (r : Res α) (Q : α → Prop) : Prop :=
  (∃ x, r = .ok x ∧ Q x) ∨ ((r = .fatal ∨ r = .ub) ∧ c.labelCap < T.labels.words.length + k) ∨
    (r = .fatal ∧ c.logSize < 11 * m)

/-- The names of the functions that are not ignored. -/
def listed (N : Fns) (P : Prog) : List (List Nat) :=
  ((List.range P.length).map N.name).filter (fun n => decide (n ∉ N.ignore))

theorem passed_short {N : Fns} {f : Nat} (h : (N.name f).length < 2 ^ 16) : N.passed f = N.name f := by
  unfold Fns.passed
  rw [Nat.mod_eq_of_lt h, List.take_length]

theorem names_listed {N : Fns} {P : Prog} (h : ∀ f, f < P.length → (N.name f).length < 2 ^ 16) :
    Ftrace.names N P = listed N P := by
  unfold Ftrace.names listed
  rw [List.filter_map]
  refine List.map_congr_left ?_
  intro f hf
  exact passed_short (h f (List.mem_range.1 (List.mem_filter.1 hf).1))

/-- Everything Python computes from a trace, apart from the trace of functions, is the same. -/
def SameElse (G G' : TDFile) : Prop :=
  G.fdHeaders = G'.fdHeaders ∧ G.cfItems = G'.cfItems ∧ G.sinks = G'.sinks ∧ G.inputLabels = G'.inputLabels ∧
  (∀ l, G.readNode l = G'.readNode l) ∧ (∀ fuel, mapping G fuel = mapping G' fuel) ∧
  ∀ fuel, fileCavities G fuel = fileCavities G' fuel

theorem mapM_snd {α β γ : Type} {f : α → Option β} {g : β → γ} {k : α → γ} (hg : ∀ a b, f a = some b → g b = k a) :
    ∀ {l : List α} {r : List β}, l.mapM f = some r → r.map g = l.map k
  | [], r, h => by simp at h; subst h; rfl
  | a :: l, r, h => by
    rw [List.mapM_cons] at h
    simp only [Option.bind_eq_bind, Option.bind_eq_some_iff, pure, Option.some.injEq] at h
    obtain ⟨b, h1, r', h2, rfl⟩ := h
    simp only [List.map_cons, hg a b h1, mapM_snd hg h2]

theorem dfs_same {F F' : TDFile} (hn : ∀ l, F.decodeNode l = F'.decodeNode l) {σ : Type}
    (body : σ → List Nat → Nat → Node → Option (σ × List Nat)) :
    ∀ (k : Nat) (st seen : List Nat) (s : σ), dfs F body k st seen s = dfs F' body k st seen s
  | 0, _, _, _ => rfl
  | _ + 1, [], _, _ => rfl
  | k + 1, l :: st, seen, s => by
    unfold dfs
    rw [hn l, dfs_same hn body k st seen s]
    simp only [dfs_same hn body k]

theorem cavities_same {F F' : TDFile} (hn : ∀ l, F.readNode l = F'.readNode l) (hf : F.fdHeaders = F'.fdHeaders)
    (hs : F.sinks = F'.sinks) (hi : F.inputLabels = F'.inputLabels) (fuel : Nat) :
    fileCavities F fuel = fileCavities F' fuel := by
  have hd : ∀ l, F.decodeNode l = F'.decodeNode l := by
    intro l
    unfold TDFile.decodeNode
    rw [hn]
  have h1 : ∀ (ls : List Nat) m, sweep F ls m = sweep F' ls m := by
    intro ls
    induction ls with
    | nil => intro m; rfl
    | cons l ls ih =>
      intro m
      unfold sweep sweepStep markerOf
      rw [hd l, hf]
      simp only [ih]
  have h2 : ∀ (ss : List Sink) m seen, cavSinks F fuel ss m seen = cavSinks F' fuel ss m seen := by
    intro ss
    induction ss with
    | nil => intro m seen; rfl
    | cons l ls ih =>
      intro m seen
      unfold cavSinks cavSink
      rw [hd l.label]
      simp only [ih, dfs_same hd]
  have h3 : ∀ (ms : Dict Nat (List Nat)) r, merge F ms r = merge F' ms r := by
    intro ms
    induction ms with
    | nil => intro r; rfl
    | cons l ls ih =>
      intro r
      unfold merge
      rw [hf]
      simp only [ih]
  unfold fileCavities
  rw [hs, hi]
  simp only [h1, h2, h3]

theorem mapping_same {F F' : TDFile} (hn : ∀ l, F.readNode l = F'.readNode l) (hf : F.fdHeaders = F'.fdHeaders)
    (hs : F.sinks = F'.sinks) (fuel : Nat) : mapping F fuel = mapping F' fuel := by
  have hd : ∀ l, F.decodeNode l = F'.decodeNode l := by
    intro l
    unfold TDFile.decodeNode
    rw [hn]
  have h1 : ∀ (ss : List Sink) d, mapSinks F fuel ss d = mapSinks F' fuel ss d := by
    intro ss
    induction ss with
    | nil => intro m; rfl
    | cons l ls ih =>
      intro m
      unfold mapSinks
      have hb : mapBody F l = mapBody F' l := by
        funext d seen i n
        unfold mapBody
        rw [hf]
      simp only [ih, dfs_same hd, hb]
  unfold mapping
  rw [hs]
  simp only [h1]

theorem same_else {c : Config} {base : Nat} (hc : c.Ok base) {h hU : Trace} {T U : Tracker}
    (hr : Tracker.Reach c base h T) (hrU : Tracker.Reach c base hU U) (X : Tracker) (hX : U = over X T)
    (hreg : registered h = registered hU)
    (hroom : T.labels.words.length + 64 ≤ c.indexCap) (hu : ∀ n ∈ Spec.names h, utf8 n = true)
    (hu' : ∀ n ∈ Spec.names hU, utf8 n = true) (pads : Pads) :
    ∃ G G', parse (closed pads c base T) = some G ∧ parse (closed pads c base U) = some G' ∧ Recovered c h T G ∧
      SameElse G G' := by
  have hroom' : U.labels.words.length + 64 ≤ c.indexCap := by rw [hX]; exact hroom
  obtain ⟨G, h1, h2⟩ := (parse_reach hc hr hroom pads).1 hu
  obtain ⟨G', h3, h4⟩ := (parse_reach hc hrU hroom' pads).1 hu'
  refine ⟨G, G', h1, h3, h2, ?_⟩
  have hi : ∀ {h : Trace} {T : Tracker}, Tracker.Reach c base h T → T.labels.words.length + 64 ≤ c.indexCap →
      T.index.used ≤ T.index.buckets.length := by
    intro h T hr hroom
    have hs := hr.sim hc
    have h1 := hs.lab.used
    have h2 := (hs.fits hc).idx
    have h3 : Bitmap.bucketCount 64 c.indexCap = (c.indexCap + 64 - 1) / 64 := rfl
    have h4 := (hs.lab.reach.good hc.lab0 hc.lab).wf.nonempty
    omega
  have hsrc : T.sources = U.sources := by rw [hX]; rfl
  rw [parse_closed hc ((hr.sim hc).fits hc) (hi hr hroom)] at h1
  rw [parse_closed hc ((hrU.sim hc).fits hc) (hi hrU hroom')] at h3
  simp only [Option.bind_eq_bind, Option.bind_eq_some_iff, pure, Option.some.injEq] at h1 h3
  obtain ⟨fd, a1, fn, a2, rfl⟩ := h1
  obtain ⟨fd', b1, fn', b2, rfl⟩ := h3
  have hfd : fd = fd' := by
    have e1 := h2.sources
    have e2 := h4.sources
    rw [hreg, ← e2] at e1
    simp only at e1
    simp only [readFdHeaders, fileOf, used, Option.bind_eq_bind, Option.bind_some, Option.bind_eq_some_iff] at a1 b1
    obtain ⟨hs, c1, c2⟩ := a1
    obtain ⟨hs', d1, d2⟩ := b1
    rw [hsrc, d1] at c1
    cases c1
    have f1 := mapM_snd (g := Prod.snd) (k := id) (by
      intro a b hb
      simp only [Option.bind_eq_some_iff, pure, Option.some.injEq] at hb
      obtain ⟨n, -, rfl⟩ := hb
      rfl) c2
    have f2 := mapM_snd (g := Prod.snd) (k := id) (by
      intro a b hb
      simp only [Option.bind_eq_some_iff, pure, Option.some.injEq] at hb
      obtain ⟨n, -, rfl⟩ := hb
      rfl) d2
    have f3 : fd.map Prod.fst = fd'.map Prod.fst := by
      have := congrArg (List.map Prod.fst) e1
      simpa [List.map_map, Function.comp_def] using this
    have f4 := f1.trans f2.symm
    rw [← List.zip_unzip fd, ← List.zip_unzip fd', List.unzip_eq_map, List.unzip_eq_map]
    simp only [f3, f4]
  subst hfd
  subst hX
  exact ⟨rfl, rfl, rfl, rfl, fun _ => rfl, mapping_same (fun _ => rfl) rfl rfl,
    cavities_same (fun _ => rfl) rfl rfl rfl⟩

variable {dom : Nat → Nat → Nat → Bool} {P : Prog} {c : Config} {base src snk : Nat} {inp : World} {io : Io}
  {h : Trace} {C D : Nat → Marks} {N : Fns}

/-- C71: take any program accepted by the verifier and any names of its functions, of which those not ignored have
less than 65536 bytes; insert the reports of the control-flow pass (any choice `C` of decisions), of the
taint-tracking pass (any choice `D`) and of function tracing; instrument the result, link it with the runtime in any
state in which no function was entered yet (history `h`), with its streams registered as input `src` and output
`snk`, and run it on any input, to any moment, with room for the names and the events. Unless there is no room for
labels or the log of the control flow, it does what the original program does. If it is ended there and its
trace is read by Python, then
(1) the trace of functions is exactly the calls and returns of functions that are not ignored, in order, by name;
only the entry of the function that is just being called may be missing;
(2) run without function tracing for the same number of steps, it ends in the same way, and everything else
Python computes from the trace is the same. -/
theorem C71_trace_partial (c : Config) (base : Nat) (hc : c.Ok base) (h : Trace) (T : Tracker)
    (hr : Tracker.Reach c base h T) (hu : ∀ n ∈ Spec.names h, utf8 n = true) (hfresh : fnEvents h = [])
    (dom : Nat → Nat → Nat → Bool) (P : Prog) (hP : C47.Accepted dom P) (hP2 : C49.Accepted P)
    (hN : C49.NoHooks P) (hsize : P.length ≤ 2 ^ 32) (C D : Nat → Marks)
    (hC : ∀ f, ∃ lg cd, C f = controlFlow f lg cd) (hD : ∀ f, ∃ lg cd, D f = taintTracking lg cd)
    (N : Fns) (hshort : ∀ f, f < P.length → (N.name f).length < 2 ^ 16)
    (hbyte : ∀ f, f < P.length → ∀ b ∈ N.name f, b < 256) (hutf : ∀ f, f < P.length → utf8 (N.name f) = true)
    (io : Io) (src snk : Nat) (hS : Streams h io src snk) (inp : World) (fn : Nat) (F : Func)
    (hF : P[fn]? = some F) (hne : F.blocks ≠ []) (args : List Nat) (mem : Mem) (hm : Spec.IsBytes mem)
    {tm : Nat → Nat × Nat → Prop} (hz : TaintedBy T.labels mem tm) (sp n : Nat) (o : Out (Nat × Nat → Prop))
    (gs : Glob (Nat × Nat → Prop)) (hs : Ir.run (sets src) P inp n (start (sets src) fn args mem sp tm) = o)
    (ho : globAfter o = some gs) (hpos : gs.pos < 2 ^ 54) (hbytes : ∀ y ∈ gs.out, y.1 < 256)
    (hlen : gs.out.length < 2 ^ 54)
    (hstr : T.strings.pos + ((listed N P).map (fun n => StrTab.allocatedLen n.length)).sum ≤ c.strSize)
    (hfns : (listed N P).length ≤ c.fnCap)
    (hev : ((callsFrom (sets src) P inp fn n (start (sets src) fn args mem sp tm)).filter
      (fun x => decide (N.name x.2 ∉ N.ignore))).length ≤ c.evCap) :
    ∃ k, Does c (runCost plain P inp n (start plain fn args mem sp))
      ((cfEvents h).length + (observeFrom (sets src) C P inp fn n (start (sets src) fn args mem sp tm)).length) T
      (ftrun N dom (pass D (pass C P)) inp io k
        (istart (passFunc (D fn) (passFunc (C fn) F)) fn args mem sp T.labels) [0] T)
      (fun x => ∃ g, Stands o x.1 g ∧ g.out.map (·.1) = gs.out.map (·.1) ∧
        (x.2.2.labels.words.length + 64 ≤ c.indexCap → ∀ pads, ∃ G, parse (closed pads c base x.2.2) = some G ∧
          (∃ done, Told done (callsFrom (sets src) P inp fn n (start (sets src) fn args mem sp tm)) o ∧
            Says N G (done.filter (fun x => decide (N.name x.2 ∉ N.ignore)))) ∧
          ∃ U G', trun dom (pass D (pass C P)) inp io k
              (istart (passFunc (D fn) (passFunc (C fn) F)) fn args mem sp T.labels) T = .ok (x.1, U) ∧
            parse (closed pads c base U) = some G' ∧ SameElse G G')) := by
  have hf0 : functions h = [] := by
    rw [List.eq_nil_iff_forall_not_mem]
    intro nm hnm
    obtain ⟨-, k2, k3⟩ := C25_index c base hc h T hr
    obtain ⟨r, hm⟩ := (k2 nm).1 hnm
    obtain ⟨i, rfl, -⟩ := k3 _ _ hm
    have := C25_events c base hc h T hr
    rw [hfresh] at this
    have hmem : (true, i) ∈ ([] : List (Bool × Nat)) := by
      rw [this]
      exact List.mem_filterMap.2 ⟨_, List.mem_reverse.2 hm, rfl⟩
    cases hmem
  have hnames := names_listed hshort
  obtain ⟨k, hk⟩ := traced (N := N) (dom := dom) (inp := inp) hP hP2 hN hsize hC hD (fun f hf _ => hbyte f hf) hc hr hS hF
    hne hm hz hs ho hpos hbytes hlen (by rw [hnames]; exact hstr) (by rw [hnames, hf0]; simpa using hfns)
    (by rw [hfresh, List.length_nil, Nat.zero_add]; exact hev)
  refine ⟨k, ?_⟩
  have himp : ∀ {r Q R}, TGoes c (runCost plain P inp n (start plain fn args mem sp)) T.labels (cfEvents h).length
      (observeFrom (sets src) C P inp fn n (start (sets src) fn args mem sp tm)).length r Q → (∀ x, Q x → R x) →
      Does c (runCost plain P inp n (start plain fn args mem sp)) ((cfEvents h).length +
      (observeFrom (sets src) C P inp fn n (start (sets src) fn args mem sp tm)).length) T (α := IOut × List Nat × Tracker) r R := by
    intro r Q R hd hq
    rcases hd with ⟨x, h1, h2⟩ | h1 | ⟨h1, -, h2⟩
    · exact Or.inl ⟨x, h1, hq x h2⟩
    · exact Or.inr (Or.inl h1)
    · exact Or.inr (Or.inr ⟨h1, h2⟩)
  refine himp hk ?_
  rintro ⟨x, sv, T'⟩ ⟨g, h', hv, done, ev, hU, hst, hg, hl, hb, hi, htold, hrun, hlU⟩
  refine ⟨g, hst, ?_, ?_⟩
  · have := hg.out
    simp only at this
    generalize gs.out = ys at this
    generalize g.out = xs at this
    induction this with
    | nil => rfl
    | cons a _ ih => simp only [List.map_cons, a.1, ih]
  intro hroom pads
  simp only at hroom hl hi hrun hlU ⊢
  have hu1 : ∀ n ∈ Spec.names h', utf8 n = true := by
    intro n hn
    rcases List.mem_append.1 hn with hn | hn
    · rw [hl.reg, hb.reg] at hn
      exact hu n (List.mem_append_left _ hn)
    · rcases hi.only n hn with hn | hn
      · exact hu n (List.mem_append_right _ hn)
      · rw [hnames] at hn
        obtain ⟨f, hf, rfl⟩ := List.mem_map.1 (List.mem_filter.1 hn).1
        exact hutf f (List.mem_range.1 hf)
  obtain ⟨G, G', h1, h2, h3, h4⟩ := same_else hc hl.reach hlU.reach T rfl (by rw [hl.reg, hb.reg, hlU.reg]) hroom hu1
    (by rw [hlU.names]; exact hu) pads
  refine ⟨G, h1, ⟨done, htold, ?_⟩, _, G', hrun, h2, h4⟩
  obtain ⟨evs, e1, e2⟩ := hi.said
  rw [hfresh, List.nil_append] at e1
  refine ⟨_, h3.events, ?_⟩
  rw [e1]
  rw [List.forall₂_map_left_iff]
  -- every call is of a function of the program
  have hlt : ∀ x ∈ done.filter (fun x => N.traced x.2), x.2 < P.length := by
    intro x hx
    have hx := (List.mem_filter.1 hx).1
    have hin : x ∈ callsFrom (sets src) P inp fn n (start (sets src) fn args mem sp tm) := by
      cases o with
      | stuck => exact htold.elim
      | done v g => rw [← show done = _ from htold]; exact hx
      | next s =>
        rcases htold with e | e <;> rw [← e]
        · exact hx
        · exact List.mem_append_left _ hx
    have hfn := (List.getElem?_eq_some_iff.1 hF).1
    rcases List.mem_cons.1 hin with rfl | hin
    · exact hfn
    · refine calls_lt hP2 n _ ?_ ?_ x hin
      · simp [start]
      · intro fr hfr
        simp only [start, List.mem_singleton] at hfr
        subst hfr
        exact hfn
  have : ∀ (a : List (Bool × Nat)) (b : List (Bool × Nat)), List.Forall₂ (Tells N (functions h')) a b →
      (∀ x ∈ b, x.2 < P.length) → List.Forall₂ (fun (e : Bool × Nat) (x : Bool × Nat) =>
        (if e.1 then 0 else 1) = (if x.1 then 0 else 1) ∧ ∃ off, G.fnHeaders[e.2]? = some (N.name x.2, off)) a b := by
    intro a b hab
    induction hab with
    | nil => intro _; exact .nil
    | @cons e x a b hx _ ih =>
      intro hb
      refine .cons ⟨by rw [hx.1], ?_⟩ (ih (fun y hy => hb y (List.mem_cons_of_mem _ hy)))
      have := hx.2
      rw [passed_short (hshort _ (hb x (List.mem_cons_self ..))), ← h3.fns, List.getElem?_map] at this
      cases hy : G.fnHeaders[e.2]? with
      | none => rw [hy] at this; cases this
      | some p =>
        rw [hy] at this
        exact ⟨p.2, by rw [← Option.some.inj this]⟩
  exact this evs _ e2 hlt

/-- C71 for a run that ends, with room for everything: the program ends with the same value and output, and from its
trace Python gets exactly the calls and returns, which are nested and complete. -/
theorem C71_finished_partial (c : Config) (base : Nat) (hc : c.Ok base) (h : Trace) (T : Tracker)
    (hr : Tracker.Reach c base h T) (hu : ∀ n ∈ Spec.names h, utf8 n = true) (hfresh : fnEvents h = [])
    (dom : Nat → Nat → Nat → Bool) (P : Prog) (hP : C47.Accepted dom P) (hP2 : C49.Accepted P)
    (hN : C49.NoHooks P) (hsize : P.length ≤ 2 ^ 32) (C D : Nat → Marks)
    (hC : ∀ f, ∃ lg cd, C f = controlFlow f lg cd) (hD : ∀ f, ∃ lg cd, D f = taintTracking lg cd)
    (N : Fns) (hshort : ∀ f, f < P.length → (N.name f).length < 2 ^ 16)
    (hbyte : ∀ f, f < P.length → ∀ b ∈ N.name f, b < 256) (hutf : ∀ f, f < P.length → utf8 (N.name f) = true)
    (io : Io) (src snk : Nat) (hS : Streams h io src snk) (inp : World) (fn : Nat) (F : Func)
    (hF : P[fn]? = some F) (hne : F.blocks ≠ []) (args : List Nat) (mem : Mem) (hm : Spec.IsBytes mem)
    {tm : Nat → Nat × Nat → Prop} (hz : TaintedBy T.labels mem tm) (sp n : Nat) (v : Nat × (Nat × Nat → Prop))
    (gs : Glob (Nat × Nat → Prop)) (hs : Ir.run (sets src) P inp n (start (sets src) fn args mem sp tm) = .done v gs)
    (hpos : gs.pos < 2 ^ 54) (hbytes : ∀ y ∈ gs.out, y.1 < 256)
    (hlen : gs.out.length < 2 ^ 54)
    (hstr : T.strings.pos + ((listed N P).map (fun n => StrTab.allocatedLen n.length)).sum ≤ c.strSize)
    (hfns : (listed N P).length ≤ c.fnCap)
    (hev : ((callsFrom (sets src) P inp fn n (start (sets src) fn args mem sp tm)).filter
      (fun x => decide (N.name x.2 ∉ N.ignore))).length ≤ c.evCap)
    (hlab : T.labels.words.length + runCost plain P inp n (start plain fn args mem sp) ≤ c.labelCap)
    (hlog : 11 * ((cfEvents h).length +
      (observeFrom (sets src) C P inp fn n (start (sets src) fn args mem sp tm)).length) ≤ c.logSize) :
    ∃ k l g sv T', ftrun N dom (pass D (pass C P)) inp io k
        (istart (passFunc (D fn) (passFunc (C fn) F)) fn args mem sp T.labels) [0] T = .ok (.done v.1 l g, sv, T') ∧
      g.out.map (·.1) = gs.out.map (·.1) ∧
      unwind [] ((callsFrom (sets src) P inp fn n (start (sets src) fn args mem sp tm)).filter
        (fun x => decide (N.name x.2 ∉ N.ignore))) = some [] ∧
      (T'.labels.words.length + 64 ≤ c.indexCap → ∀ pads, ∃ G, parse (closed pads c base T') = some G ∧
        Says N G ((callsFrom (sets src) P inp fn n (start (sets src) fn args mem sp tm)).filter
          (fun x => decide (N.name x.2 ∉ N.ignore)))) := by
  obtain ⟨k, hk⟩ := C71_trace_partial c base hc h T hr hu hfresh dom P hP hP2 hN hsize C D hC hD N hshort hbyte hutf io src snk
    hS inp fn F hF hne args mem hm hz sp n _ gs hs rfl hpos hbytes hlen hstr hfns hev
  rcases hk with ⟨⟨x, sv, T'⟩, h1, g, h2, h3, h4⟩ | ⟨-, h1⟩ | ⟨-, h1⟩
  · cases x with
    | next i => exact h2.elim
    | stuck => exact h2.elim
    | done w l g' =>
      obtain ⟨rfl, rfl, -⟩ := h2
      refine ⟨k, l, g', sv, T', h1, h3, ?_, ?_⟩
      · have := C71_nested (sets src) P hP2 inp (fun f => decide (N.name f ∉ N.ignore)) fn args mem tm sp n
          (by rw [hs]; simp)
        rw [hs] at this
        exact this
      · intro hroom pads
        obtain ⟨G, k1, ⟨done, k2, k3⟩, -⟩ := h4 hroom pads
        cases k2
        exact ⟨G, k1, k3⟩
  · omega
  · omega

/-- C71, what is left alone, without any assumption on the program: if the run with function tracing goes well then the
run without it goes in the same way, and the tracker is the same but for strings, functions and events. -/
theorem C71_apart (N : Fns) (dom : Nat → Nat → Nat → Bool) (P : Prog) (inp : World) (io : Io) (k : Nat) (s : IState)
    (saved saved' : List Nat) (T T' : Tracker) (o : IOut)
    (h : ftrun N dom P inp io k s saved T = .ok (o, saved', T')) :
    ∃ U, trun dom P inp io k s T = .ok (o, U) ∧ U.labels = T'.labels ∧ U.index = T'.index ∧ U.sources = T'.sources ∧
      U.sinks = T'.sinks ∧ U.cflog = T'.cflog ∧ U.rd = T'.rd ∧ U.wr = T'.wr ∧ U.shadow = T'.shadow ∧ U.cfg = T'.cfg :=
  ⟨over T T', ftrun_over k h T, rfl, rfl, rfl, rfl, rfl, rfl, rfl, rfl, rfl⟩

/-! ### An example -/

/-- The program of C49: reads two bytes and, depending on them, calls a function. -/
def cfg : Config := { exCfg with logSize := 100 }

theorem cfg_ok : cfg.Ok 4096 := by
  refine ⟨?_, ?_, ?_, ?_, ?_, ?_, ?_, ?_⟩ <;> decide

/-- The functions are "main" and "f". -/
def exN : Fns := ⟨fun f => if f = 0 then [109, 97, 105, 110] else [102], []⟩

/-- Only "f" is traced. -/
def exN' : Fns := ⟨exN.name, [[109, 97, 105, 110]]⟩

def tmarks (_ : Nat) : Marks := taintTracking (fun _ _ _ => false) (fun _ => true)

/-- What Python reads from the trace on the input `1, 1`. -/
def parsed (N : Fns) : Option TDFile :=
  (Tracker.run cfg 4096 C52.opens).bind fun p =>
    match ftrun N C47.dom0 (pass tmarks (pass C49.marks C49.prog)) (.file [1, 1]) C52.exIo 40
        (istart (passFunc (tmarks 0) (passFunc (C49.marks 0) C49.mainF)) 0 [] (fun _ => 0) 0 p.1.labels) [0] p.1 with
    | .ok (.done _ _ _, _, T) => parse (closed zeroPads cfg 4096 T)
    | _ => none

/-- Function 0 is "main" and function 1 is "f"; main is entered, f is entered, f is left, main is left. -/
example : (parsed exN).map (fun F => F.fnHeaders.map (·.1)) = some [[109, 97, 105, 110], [102]] ∧
    (parsed exN).bind (·.events) = some [(0, 0), (0, 1), (1, 1), (1, 0)] := by decide +kernel

/-- If main is ignored, only the call of f is there. -/
example : (parsed exN').map (fun F => F.fnHeaders.map (·.1)) = some [[102]] ∧
    (parsed exN').bind (·.events) = some [(0, 0), (1, 0)] := by decide +kernel

example : callsFrom plain C49.prog (.file [1, 1]) 0 20 (start plain 0 [] (fun _ => 0) 0) =
    [(true, 0), (true, 1), (false, 1), (false, 0)] ∧
    callsFrom plain C49.prog (.file [1, 1]) 0 6 (start plain 0 [] (fun _ => 0) 0) = [(true, 0), (true, 1)] := by
  decide +kernel

/-- The hypotheses are met by the example. -/
example : ∃ (h : Trace) (T : Tracker), cfg.Ok 4096 ∧ Tracker.Reach cfg 4096 h T ∧
    (∀ n ∈ Spec.names h, utf8 n = true) ∧ fnEvents h = [] ∧ C47.Accepted C47.dom0 C49.prog ∧ C49.Accepted C49.prog ∧
    C49.NoHooks C49.prog ∧ (∀ f, ∃ lg cd, C49.marks f = controlFlow f lg cd) ∧
    (∀ f, ∃ lg cd, tmarks f = taintTracking lg cd) ∧
    (∀ f, f < C49.prog.length → (exN.name f).length < 2 ^ 16 ∧ (∀ b ∈ exN.name f, b < 256) ∧ utf8 (exN.name f) = true) ∧
    Streams h C52.exIo 0 1 ∧ TaintedBy T.labels (fun _ => 0) (fun _ _ => False) ∧
    T.strings.pos + ((listed exN C49.prog).map (fun n => StrTab.allocatedLen n.length)).sum ≤ cfg.strSize ∧
    (listed exN C49.prog).length ≤ cfg.fnCap ∧
    T.labels.words.length + runCost plain C49.prog (.file [1, 1]) 20 (start plain 0 [] (fun _ => 0) 0) ≤ cfg.labelCap ∧
    ∃ v gs, Ir.run (sets 0) C49.prog (.file [1, 1]) 20 (start (sets 0) 0 [] (fun _ => 0) 0) = .done v gs ∧
      gs.pos < 2 ^ 54 ∧ (∀ y ∈ gs.out, y.1 < 256) ∧ gs.out.length < 2 ^ 54 ∧
      ((callsFrom (sets 0) C49.prog (.file [1, 1]) 0 20 (start (sets 0) 0 [] (fun _ => 0) 0)).filter
        (fun x => decide (exN.name x.2 ∉ exN.ignore))).length ≤ cfg.evCap ∧
      11 * ((cfEvents h).length + (observeFrom (sets 0) C49.marks C49.prog (.file [1, 1]) 0 20
        (start (sets 0) 0 [] (fun _ => 0) 0)).length) ≤ cfg.logSize := by
  have hrun : (Tracker.run cfg 4096 C52.opens).isSome = true := by decide +kernel
  obtain ⟨⟨T, h⟩, hx⟩ := Option.isSome_iff_exists.1 hrun
  have key : (match Tracker.run cfg 4096 C52.opens with
      | none => false
      | some (T, h) => decide ((∀ n ∈ Spec.names h, utf8 n = true) ∧ fnEvents h = [] ∧ owner h 3 = some 0 ∧
        owner h 4 = some 1 ∧ writePos h 1 = 0 ∧ cfEvents h = [] ∧ T.strings.pos + ((listed exN C49.prog).map
          (fun n => StrTab.allocatedLen n.length)).sum ≤ cfg.strSize ∧ T.labels.words.length +
          runCost plain C49.prog (.file [1, 1]) 20 (start plain 0 [] (fun _ => 0) 0) ≤ cfg.labelCap)) = true := by
    decide +kernel
  rw [hx] at key
  simp only [decide_eq_true_eq] at key
  obtain ⟨k1, k2, k3, k4, k5, k6, k7, k8⟩ := key
  obtain ⟨v, gs, h1, h2, h3⟩ : ∃ v gs, Ir.run (sets 0) C49.prog (.file [1, 1]) 20 (start (sets 0) 0 [] (fun _ => 0) 0) =
      .done v gs ∧ gs.pos = 2 ∧ gs.out.map (·.1) = [3] := ⟨_, _, rfl, rfl, rfl⟩
  have h4 : gs.out.length = 1 := by simpa using congrArg List.length h3
  refine ⟨h, T, cfg_ok, run_reach hx, k1, k2, C50.prog_accepted, C49.prog_accepted, C49.prog_noHooks, C49.marks_ok,
    fun _ => ⟨_, _, rfl⟩, ?_, ⟨k3, k4, (by intro h; cases h), fun _ => k5⟩, ?_, k7, by decide, k8, v, gs, h1, by omega, ?_,
    by omega, ?_, ?_⟩
  · intro f hf
    match f, hf with
    | 0, _ => decide
    | 1, _ => decide
  · have hsim := (run_reach hx).sim cfg_ok
    exact fun a _ => Store.den_zero
      ⟨hsim.lab.reach.good cfg_ok.lab0 cfg_ok.lab, hsim.lab.reach.cap cfg_ok.lab0 cfg_ok.lab⟩
  · intro y hy
    have : y.1 ∈ gs.out.map (·.1) := List.mem_map.2 ⟨y, hy, rfl⟩
    rw [h3, List.mem_singleton] at this
    omega
  · show List.length (List.filter _ [(true, 0), (true, 1), (false, 1), (false, 0)]) ≤ 4
    decide
  · rw [k6]
    decide +kernel

/-! ### Where it is false -/

/-- Only the names that the runtime gets count. -/
theorem ftrun_names {N N' : Fns} (ht : ∀ f, N.traced f = N'.traced f) (hp : ∀ f, N.passed f = N'.passed f)
    (dom : Nat → Nat → Nat → Bool) (P : Prog) (inp : World) (io : Io) : ∀ (n : Nat) (s : IState) (saved : List Nat) (T : Tracker),
    ftrun N dom P inp io n s saved T = ftrun N' dom P inp io n s saved T
  | 0, _, _, _ => rfl
  | n + 1, s, saved, T => by
    have h : ftstep N dom P inp io s saved T = ftstep N' dom P inp io s saved T := by
      unfold ftstep enters leaves
      simp only [ht, hp]
    unfold ftrun
    rw [h]
    simp only [ftrun_names ht hp dom P inp io n]

/-- Two functions with different names of 65536 bytes. -/
def longN : Fns := ⟨fun f => List.replicate 65536 (97 + f), []⟩

/-- The length of a name is passed as a number of 16 bits: of a name of 65536 bytes nothing is left. -/
def emptyN : Fns := ⟨fun _ => [], []⟩

theorem long_empty (f : Nat) : longN.passed f = emptyN.passed f := by
  unfold Fns.passed longN emptyN
  simp only [List.length_replicate]
  rfl

/-- C71 is false of functions with names of 65536 bytes or more: both functions of the example, with names that
differ, are found as one function without a name. -/
theorem C71_long_refuted : ∃ G, parsed longN = some G ∧ G.fnHeaders.map (·.1) = [[]] ∧
    G.events = some [(0, 0), (0, 0), (1, 0), (1, 0)] ∧ longN.name 0 ≠ longN.name 1 ∧
    ¬ Says longN G (callsFrom plain C49.prog (.file [1, 1]) 0 20 (start plain 0 [] (fun _ => 0) 0)) := by
  have e : parsed longN = parsed emptyN := by
    unfold parsed
    simp only [ftrun_names (N := longN) (N' := emptyN) (fun f => rfl) long_empty]
  have hx : (parsed emptyN).isSome = true := by decide +kernel
  obtain ⟨G, hG⟩ := Option.isSome_iff_exists.1 hx
  have key : (match parsed emptyN with
      | none => false
      | some F => decide (F.fnHeaders.map (·.1) = [[]] ∧ F.events = some [(0, 0), (0, 0), (1, 0), (1, 0)])) = true := by
    decide +kernel
  rw [hG] at key
  simp only [decide_eq_true_eq] at key
  refine ⟨G, e.trans hG, key.1, key.2, ?_, ?_⟩
  · intro h
    have h0 : 97 + 0 ∈ longN.name 0 := List.mem_replicate.2 ⟨by decide, rfl⟩
    rw [h] at h0
    exact absurd (List.mem_replicate.1 h0).2 (by decide)
  · rintro ⟨evs, h1, h2⟩
    rw [key.2] at h1
    cases h1
    have hc : callsFrom plain C49.prog (.file [1, 1]) 0 20 (start plain 0 [] (fun _ => 0) 0) =
      [(true, 0), (true, 1), (false, 1), (false, 0)] := by decide +kernel
    rw [hc] at h2
    cases h2 with
    | cons h3 _ =>
      obtain ⟨-, off, h4⟩ := h3
      have h5 := congrArg (Option.map (·.1)) h4
      rw [← List.getElem?_map, key.1] at h5
      have h6 := congrArg List.length (Option.some.inj h5)
      rw [show (longN.name 0).length = 65536 from List.length_replicate] at h6
      exact absurd h6 (by decide)

section
open Lifetime

/-- Only the calls inserted by function tracing, and no start of the tracker. -/
def Alone (as : List Act) : Prop :=
  ∀ a ∈ as, (∃ l v, a = .hook .funcEntry l v ∨ a = .hook .funcExit l v) ∨ (∃ f, a = .atexit f) ∨ a = .exit

theorem alone_acts {E : Setup} : ∀ {as : List Act} {s : PState}, Alone as → s.flag = false → s.log = [] →
    .ours ∉ s.handlers → (runActs E as s).1.flag = false ∧ (runActs E as s).1.log = [] ∧
    .ours ∉ (runActs E as s).1.handlers
  | [], s, _, h1, h2, h3 => ⟨h1, h2, h3⟩
  | a :: as, s, ha, h1, h2, h3 => by
    have ha' : Alone as := fun b hb => ha b (List.mem_cons_of_mem _ hb)
    rcases ha a (List.mem_cons_self ..) with ⟨l, v, rfl | rfl⟩ | ⟨f, rfl⟩ | rfl
    · refine alone_acts (s := hook s .funcEntry l v) ha' ?_ ?_ ?_ <;> simp [hook, PState.useIf, h1, h2, h3]
    · refine alone_acts (s := hook s .funcExit l v) ha' ?_ ?_ ?_ <;> simp [hook, PState.useIf, h1, h2, h3]
    · exact alone_acts (s := { s with handlers := .user f :: s.handlers }) ha' h1 h2 (by simp [h3])
    · exact ⟨h1, h2, h3⟩

theorem alone_all {E : Setup} : ∀ {cs : List (List Act)} {s : PState}, (∀ c ∈ cs, Alone c) → s.flag = false →
    s.log = [] → .ours ∉ s.handlers → (runAll E cs s).1.flag = false ∧ (runAll E cs s).1.log = [] ∧
    .ours ∉ (runAll E cs s).1.handlers
  | [], s, _, h1, h2, h3 => ⟨h1, h2, h3⟩
  | c :: cs, s, hc, h1, h2, h3 => by
    have k := alone_acts (E := E) (hc c (List.mem_cons_self ..)) h1 h2 h3
    unfold runAll
    cases e : runActs E c s with
    | mk s' b =>
      rw [e] at k
      cases b with
      | true => exact alone_all (fun d hd => hc d (List.mem_cons_of_mem _ hd)) k.1 k.2.1 k.2.2
      | false => exact k

theorem alone_handlers {E : Setup} {P : Lifetime.Prog} (hb : ∀ f, Alone (P.body f)) : ∀ (n : Nat) {s : PState},
    s.flag = false → s.log = [] → .ours ∉ s.handlers → (handlers E P n s).1.flag = false ∧
    (handlers E P n s).1.log = [] ∧ .ours ∉ (handlers E P n s).1.handlers
  | 0, s, h1, h2, h3 => ⟨h1, h2, h3⟩
  | n + 1, s, h1, h2, h3 => by
    unfold handlers
    cases e : s.handlers with
    | nil => exact ⟨h1, h2, by rw [e]; simp⟩
    | cons x hs =>
      rw [e] at h3
      cases x with
      | ours => simp at h3
      | user f =>
        have k := alone_acts (E := E) (s := { s with handlers := hs }) (hb f) h1 h2 (by simp at h3; exact h3)
        exact alone_handlers hb n k.1 k.2.1 k.2.2

/-- C71 is false of a program instrumented with function tracing only, which is offered (build.py 199-203): the tracker
is started by a constructor that only the taint-tracking pass adds, so whatever the program does, no tracker is
ever constructed or used. -/
theorem C71_alone_refuted (E : Setup) (P : Lifetime.Prog) (n : Nat) (hc : ∀ c ∈ P.ctors, Alone c.2) (hm : Alone P.main)
    (hb : ∀ f, Alone (P.body f)) (hf : ∀ c ∈ P.fini, Alone c) : (process E P n).1.log = [] := by
  have hall : ∀ c ∈ (ctorOrder P.ctors).map (·.2) ++ [P.main], Alone c := by
    intro c hmem
    rcases List.mem_append.1 hmem with h | h
    · obtain ⟨d, hd, rfl⟩ := List.mem_map.1 h
      have : ∀ l : List (Nat × List Act), d ∈ ctorOrder l → d ∈ l := by
        intro l
        induction l with
        | nil => intro h; exact h
        | cons x l ih =>
          intro h
          rcases C67.insertCtor_mem h with rfl | h
          · exact List.mem_cons_self ..
          · exact List.mem_cons_of_mem _ (ih h)
      exact hc d (this _ hd)
    · rw [List.mem_singleton.1 h]; exact hm
  obtain ⟨k1, k2, k3⟩ := alone_all (E := E) (s := .init) hall rfl rfl (by simp [PState.init])
  obtain ⟨m1, m2, m3⟩ := alone_handlers (E := E) hb n k1 k2 k3
  unfold process
  simp only
  cases e : handlers E P n (runAll E ((ctorOrder P.ctors).map (·.2) ++ [P.main]) .init).1 with
  | mk s b =>
    rw [e] at m1 m2 m3
    cases b with
    | false => exact m2
    | true =>
      have : ∀ (cs : List (List Act)) (s : PState), (∀ c ∈ cs, Alone c) → s.flag = false → s.log = [] →
          .ours ∉ s.handlers → (fini E cs s).log = [] := by
        intro cs
        induction cs with
        | nil => intro s _ _ h _; exact h
        | cons c cs ih =>
          intro s hcs h1 h2 h3
          obtain ⟨a1, a2, a3⟩ := alone_acts (E := E) (hcs c (List.mem_cons_self ..)) h1 h2 h3
          exact ih _ (fun d hd => hcs d (List.mem_cons_of_mem _ hd)) a1 a2 a3
      exact this _ _ hf m1 m2 m3

/-- Such a program: main is entered and left. With taint tracking the tracker is used for both. -/
example : (∃ P : Lifetime.Prog, P.main = [.hook .funcEntry 0 0, .hook .funcExit 0 0] ∧ (∀ c ∈ P.ctors, Alone c.2) ∧
    Alone P.main ∧ (∀ f, Alone (P.body f)) ∧ (∀ c ∈ P.fini, Alone c) ∧
    (process ⟨false, 0, 0⟩ (instrument P) 5).1.log = [.construct, .use, .use, .destroy]) := by
  refine ⟨⟨[], [.hook .funcEntry 0 0, .hook .funcExit 0 0], fun _ => [], []⟩, rfl, by simp, ?_, ?_, by simp, by decide⟩
  · intro a ha
    simp only [List.mem_cons, List.not_mem_nil, or_false] at ha
    rcases ha with rfl | rfl
    · exact Or.inl ⟨_, _, Or.inl rfl⟩
    · exact Or.inl ⟨_, _, Or.inr rfl⟩
  · intro f a ha; cases ha

end

end C71
end Verif
