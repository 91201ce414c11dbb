import Verif.Utf8Lemmas
import Verif.ReadBack
import Verif.Props.C17
/- C30: what was written is what is read. -/
namespace Verif
open Spec Py File Tracker

/-- For every run that ends in an orderly way, parsing the bytes of the trace file gives back what was
recorded: every label word, every source (name, descriptor, size), every sink record, every function
name, every event, every control-flow record, and the set of source labels (`Recovered`). Missing
compared with the property: names must be UTF-8 and come back as normalised paths; the last 64 labels
must not be used up. All three are necessary, see below. -/
theorem C30_roundtrip_partial (c : Config) (base : Nat) (hc : c.Ok base) (h : Trace) (T : Tracker)
    (hr : Reach c base h T) (hroom : T.labels.words.length + 64 ≤ c.indexCap)
    (hu : ∀ n ∈ names h, utf8 n = true) (pads : Pads) :
    ∃ F, parse (closed pads c base T) = some F ∧
      F.filemeta = ⟨[84, 68, 65, 71], 44, 8⟩ ∧
      F.labelCount = some T.labels.words.length ∧
      (∀ l, F.readNode l = T.labels.words[l]?) ∧
      F.fdHeaders.map (fun p => (p.1, p.2.fd, p.2.size)) =
        (registered h).map (fun e => (pathStr e.1, e.2.1, e.2.2)) ∧
      F.sinks = some (((written h).take c.sinkCap).map fun o => ⟨o.offset, o.label, o.out⟩) ∧
      F.fnHeaders.map (·.1) = functions h ∧
      F.events = some ((fnEvents h).map fun e => (if e.1 then 0 else 1, e.2)) ∧
      F.cfItems = some (replay (cfEvents h) []) ∧
      ∃ ls, F.inputLabels = some ls ∧ ls.Pairwise (· < ·) ∧ ∀ l, l ∈ ls ↔ ∃ b, GivenTo (labelEvents h) l b := by
  obtain ⟨F, hF, k⟩ := (parse_reach hc hr hroom pads).1 hu
  exact ⟨F, hF, k.head, k.count, k.node, k.sources, k.sinks, k.fns, k.events, k.cf, k.index⟩

/-- Components of a path that are kept as they are: not empty, not ".". -/
def Plain (ws : List (List Nat)) : Prop := ws ≠ [] ∧ ∀ w ∈ ws, w ≠ [] ∧ w ≠ [46] ∧ 47 ∉ w

theorem splitSlash_join (w : List Nat) (ws : List (List Nat)) (hw : 47 ∉ w) (hws : ∀ x ∈ ws, 47 ∉ x) :
    splitSlash (joinSlash (w :: ws)) = w :: ws := by
  have hone : ∀ (w : List Nat), 47 ∉ w → splitSlash w = [w] := by
    intro w
    induction w with
    | nil => intro _; rfl
    | cons b w ih =>
      intro h
      rw [splitSlash, if_neg (fun e => h (by simp [e])), ih (fun k => h (by simp [k]))]
  have happ : ∀ (w r : List Nat), 47 ∉ w → splitSlash (w ++ 47 :: r) = w :: splitSlash r := by
    intro w r
    induction w with
    | nil => intro _; rw [List.nil_append, splitSlash, if_pos rfl]
    | cons b w ih =>
      intro h
      rw [List.cons_append, splitSlash, if_neg (fun e => h (by simp [e])), ih (fun k => h (by simp [k]))]
  induction ws generalizing w with
  | nil => exact hone w hw
  | cons x ws ih =>
    rw [joinSlash, happ w _ hw, ih x (hws x (by simp)) (fun y hy => hws y (by simp [hy]))]
    · simp

theorem plain_head {ws : List (List Nat)} (h : Plain ws) :
    ∃ b r, joinSlash ws = b :: r ∧ b ≠ 47 := by
  obtain ⟨h1, h2⟩ := h
  match ws, h1 with
  | [w], _ =>
    obtain ⟨k1, k2, k3⟩ := h2 w (by simp)
    match w, k1 with
    | b :: w, _ => exact ⟨b, w, rfl, fun e => k3 (by simp [e])⟩
  | w :: x :: ws, _ =>
    obtain ⟨k1, k2, k3⟩ := h2 w (by simp)
    match w, k1 with
    | b :: w, _ => exact ⟨b, _, rfl, fun e => k3 (by simp [e])⟩

/-- Plain relative and absolute names come back unchanged. -/
theorem C30_plain_names (ws : List (List Nat)) (h : Plain ws) :
    pathStr (joinSlash ws) = joinSlash ws ∧ pathStr (47 :: joinSlash ws) = 47 :: joinSlash ws := by
  obtain ⟨b, r, hb, hne⟩ := plain_head h
  have hsplit : splitSlash (joinSlash ws) = ws := by
    match ws, h.1 with
    | w :: ws, _ => exact splitSlash_join w ws (h.2 w (by simp)).2.2 (fun x hx => (h.2 x (by simp [hx])).2.2)
  have hfil : ws.filter (fun w => decide (w ≠ [] ∧ w ≠ [46])) = ws := by
    rw [List.filter_eq_self]
    intro w hw
    obtain ⟨k1, k2, -⟩ := h.2 w hw
    simp [k1, k2]
  have ht : (b :: r).takeWhile (fun x => decide (x = 47)) = [] := by simp [hne]
  have hd : (b :: r).dropWhile (fun x => decide (x = 47)) = b :: r := by simp [hne]
  constructor
  · simp only [pathStr]
    rw [hb] at hsplit ⊢
    simp only [ht, hd, hsplit, hfil, hb]
    simp
  · simp only [pathStr]
    rw [hb] at hsplit ⊢
    have ht' : (47 :: b :: r).takeWhile (fun x => decide (x = 47)) = [47] := by
      rw [List.takeWhile_cons]; simp [hne]
    have hd' : (47 :: b :: r).dropWhile (fun x => decide (x = 47)) = b :: r := by
      rw [List.dropWhile_cons]; simp [hne]
    simp only [ht', hd', hsplit, hfil, hb]
    simp

/-- A name that is not UTF-8 (legal for POSIX files) makes the whole file unreadable. -/
theorem C30_names_refuted (c : Config) (base : Nat) (hc : c.Ok base) (h : Trace) (T : Tracker)
    (hr : Reach c base h T) (hroom : T.labels.words.length + 64 ≤ c.indexCap)
    (n : List Nat) (hn : n ∈ names h) (hu : utf8 n = false) (pads : Pads) :
    parse (closed pads c base T) = none := (parse_reach hc hr hroom pads).2 ⟨n, hn, hu⟩

/-- The names the reader accepts (hypothesis `utf8` above) are exactly the UTF-8 encodings of texts. -/
theorem C30_utf8 (n : List Nat) : utf8 n = true ↔ Spec.IsUtf8 n := utf8_iff n

/-- "aé" is a text; an encoded surrogate is not. -/
example : Spec.IsUtf8 [97, 0xC3, 0xA9] ∧ ¬ Spec.IsUtf8 [0xED, 0xA0, 0x80] := by
  rw [← C30_utf8, ← C30_utf8]; decide

/-- Such a run. -/
example : ∃ T, Reach exCfg 4096 (histOf exCfg 4096 [.openFile 3 [97, 255] none]) T ∧
    [97, 255] ∈ names (histOf exCfg 4096 [.openFile 3 [97, 255] none]) ∧ utf8 [97, 255] = false := by
  obtain ⟨T, hT⟩ := reach_of (c := exCfg) (base := 4096) (cs := [.openFile 3 [97, 255] none]) (by decide +kernel)
  exact ⟨T, hT, by decide +kernel, by decide⟩

/-- Different names may come back equal: "./a" is read as "a". -/
theorem C30_path_refuted : pathStr [46, 47, 97] = [97] ∧ pathStr [97] = [97] ∧ utf8 [46, 47, 97] = true := by
  decide

/-- A configuration with room for 64 labels. -/
def smallCfg : Config :=
  { srcCap := 4, labelCap := 64, strSize := 64, sinkCap := 5, indexCap := 64, fnCap := 3, evCap := 4,
    logSize := 40 }

/-- When the label store fills up, the recorded size of the source-label index exceeds its section by
one bucket, and the reader takes bytes of the function table for source labels: here it reports a
source label 67, though there are only 64 labels. -/
theorem C30_index_refuted : ∃ (c : Config) (base : Nat) (h : Trace) (T : Tracker) (F : TDFile) (ls : List Nat),
    c.Ok base ∧ Reach c base h T ∧ (∀ n ∈ names h, utf8 n = true) ∧
      parse (closed zeroPads c base T) = some F ∧ F.inputLabels = some ls ∧
      67 ∈ ls ∧ F.labelCount = some 64 := by
  let calls : List Call := [.openFile 3 [97] none, .read 3 (some 1000) none 63, .openFile 4 [98] none,
    .fnEntry [102]]
  have hrun : (run smallCfg 4096 calls).isSome = true := by decide +kernel
  obtain ⟨⟨T, h⟩, hx⟩ := Option.isSome_iff_exists.1 hrun
  have key : (match run smallCfg 4096 calls with
      | none => false
      | some (T, h) => match parse (closed zeroPads smallCfg 4096 T) with
        | none => false
        | some F => decide ((∀ n ∈ names h, utf8 n = true) ∧ 67 ∈ F.inputLabels.getD [] ∧
            F.labelCount = some 64)) = true := by decide +kernel
  rw [hx] at key
  simp only at key
  cases hp : parse (closed zeroPads smallCfg 4096 T) with
  | none => rw [hp] at key; cases key
  | some F =>
    rw [hp] at key
    simp only [decide_eq_true_eq] at key
    obtain ⟨k1, k2, k3⟩ := key
    cases hl : F.inputLabels with
    | none => rw [hl] at k2; simp at k2
    | some ls =>
      rw [hl] at k2
      refine ⟨smallCfg, 4096, h, T, F, ls, ?_, run_reach hx, k1, hp, hl, k2, k3⟩
      refine ⟨?_, ?_, ?_, ?_, ?_, ?_, ?_, ?_⟩ <;> decide

/-- The hypotheses of the round trip hold of the example run. -/
example : ∃ T, Reach exCfg 4096 (histOf exCfg 4096 exCalls) T ∧
    T.labels.words.length + 64 ≤ exCfg.indexCap ∧ ∀ n ∈ names (histOf exCfg 4096 exCalls), utf8 n = true := by
  have hrun : (run exCfg 4096 exCalls).isSome = true := by decide +kernel
  obtain ⟨⟨T, h⟩, hx⟩ := Option.isSome_iff_exists.1 hrun
  refine ⟨T, by simpa [histOf, hx] using run_reach hx, ?_, by decide +kernel⟩
  have key : (match run exCfg 4096 exCalls with
      | none => false
      | some (T, _) => decide (T.labels.words.length + 64 ≤ exCfg.indexCap)) = true := by decide +kernel
  rw [hx] at key
  simpa using key
example : Plain [[97], [98, 46, 99]] := by unfold Plain; decide

end Verif
