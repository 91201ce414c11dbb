import Verif.ReadBack
import Verif.Examples.Run
/- C25: function names and trace events are recovered exactly. -/
namespace Verif
open Spec Py File Tracker

namespace Tracker

theorem functions_prefix (h2 h1 : Trace) : ∃ more, functions (h2 ++ h1) = functions h1 ++ more := by
  induction h2 with
  | nil => exact ⟨[], by simp⟩
  | cons x h2 ih =>
    obtain ⟨more, ih⟩ := ih
    rw [List.cons_append]
    obtain ⟨cl, r⟩ := x
    cases cl with
    | fnEntry name =>
      simp only [functions]
      split
      · exact ⟨more, ih⟩
      · exact ⟨more ++ [name], by rw [ih, List.append_assoc]⟩
    | _ => exact ⟨more, ih⟩

theorem exec_fnEntry_ret {c : Config} {base : Nat} (hc : c.Ok base) {h : Trace} {T T' : Tracker} {r : Ret}
    {name : List Nat} (hr : Reach c base h T) (ha : T.Allowed (.fnEntry name))
    (he : T.exec (.fnEntry name) = .ok (T', r)) :
    r = .index (some ((functions ((.fnEntry name, r) :: h)).idxOf name)) := by
  have hs := hr.sim hc
  simp only [exec, functionEntry, Res.bind_eq_ok, Res.pure_eq] at he
  obtain ⟨⟨T1, i⟩, ⟨⟨T2, oi⟩, h1, h2⟩, h3⟩ := he
  cases h3
  cases oi with
  | none => cases h2
  | some j =>
    simp only [Res.bind_eq_ok] at h2
    obtain ⟨T3, h4, h5⟩ := h2
    cases h5
    obtain ⟨ss, ht⟩ := hs.tab
    obtain ⟨S, f, m, rfl, ss', ht', hj, hj16⟩ := addMapping_spec hs.cfg hc.fn ht ha h1
    exact congrArg (fun x => Ret.index (some x)) hj

end Tracker

/-- Every entry of a function was answered with the position of its name in the list of the different
names in order of their first entry; the list has no duplicates and consists of names that were
entered. So equal names get equal indices, different names different ones, and the indices used are
0, 1, 2, … -/
theorem C25_index (c : Config) (base : Nat) (hc : c.Ok base) (h : Trace) (T : Tracker)
    (hr : Reach c base h T) :
    (functions h).Nodup ∧
    (∀ name, name ∈ functions h ↔ ∃ r, (.fnEntry name, r) ∈ h) ∧
    (∀ name r, (.fnEntry name, r) ∈ h → ∃ i, r = .index (some i) ∧ (functions h)[i]? = some name) := by
  refine ⟨?_, ?_, ?_⟩
  · obtain ⟨ss, ht⟩ := (hr.sim hc).tab
    exact ht.nodup
  · intro name
    clear hr
    induction h with
    | nil => simp [functions]
    | cons x h ih =>
      obtain ⟨cl, r⟩ := x
      have other : (∀ n, cl ≠ .fnEntry n) → functions ((cl, r) :: h) = functions h →
          (name ∈ functions ((cl, r) :: h) ↔ ∃ r', (Call.fnEntry name, r') ∈ (cl, r) :: h) := by
        intro hne heq
        rw [heq, ih]
        constructor
        · rintro ⟨r', h'⟩; exact ⟨r', List.mem_cons_of_mem _ h'⟩
        · rintro ⟨r', h'⟩
          rcases List.mem_cons.1 h' with h' | h'
          · cases h'; exact absurd rfl (hne name)
          · exact ⟨r', h'⟩
      cases cl with
      | fnEntry n =>
        simp only [functions]
        by_cases hn : name = n
        · subst hn
          refine ⟨fun _ => ⟨r, by simp⟩, fun _ => ?_⟩
          split <;> simp_all
        · have : (∃ r', (Call.fnEntry name, r') ∈ (Call.fnEntry n, r) :: h) ↔ ∃ r', (Call.fnEntry name, r') ∈ h := by
            constructor
            · rintro ⟨r', h'⟩
              rcases List.mem_cons.1 h' with h' | h'
              · cases h'; exact absurd rfl hn
              · exact ⟨r', h'⟩
            · rintro ⟨r', h'⟩; exact ⟨r', List.mem_cons_of_mem _ h'⟩
          rw [this, ← ih]
          split
          · rfl
          · rw [List.mem_append, List.mem_singleton]
            exact ⟨fun k => k.resolve_right hn, Or.inl⟩
      | _ => exact other (fun n hn => by cases hn) rfl
  · intro name r hm
    obtain ⟨s, t, rfl⟩ := List.append_of_mem hm
    obtain ⟨T1, h1⟩ := Reach.suffix s hr
    obtain ⟨T0, h0, ha, he⟩ := Reach.cons_inv h1
    have hret := exec_fnEntry_ret hc h0 ha he
    have hmem : name ∈ functions ((.fnEntry name, r) :: t) := by
      simp only [functions]
      split
      · assumption
      · simp
    have hlt := List.idxOf_lt_length_of_mem hmem
    refine ⟨_, hret, ?_⟩
    obtain ⟨more, hmore⟩ := functions_prefix s ((.fnEntry name, r) :: t)
    rw [hmore, List.getElem?_append_left hlt, List.getElem?_eq_getElem hlt, List.getElem_idxOf hlt]

/-- Consequence: two entries get the same index exactly when they have the same name, however far
apart they are. -/
theorem C25_same (c : Config) (base : Nat) (hc : c.Ok base) (h : Trace) (T : Tracker)
    (hr : Reach c base h T) (n1 n2 : List Nat) (i1 i2 : Nat)
    (h1 : (.fnEntry n1, .index (some i1)) ∈ h) (h2 : (.fnEntry n2, .index (some i2)) ∈ h) :
    i1 = i2 ↔ n1 = n2 := by
  obtain ⟨k1, -, k3⟩ := C25_index c base hc h T hr
  obtain ⟨j1, e1, g1⟩ := k3 _ _ h1
  obtain ⟨j2, e2, g2⟩ := k3 _ _ h2
  cases e1; cases e2
  constructor
  · rintro rfl
    rw [g1] at g2; exact Option.some.inj g2
  · rintro rfl
    obtain ⟨l1, e1⟩ := List.getElem?_eq_some_iff.1 g1
    obtain ⟨l2, e2⟩ := List.getElem?_eq_some_iff.1 g2
    exact (List.getElem_inj k1).1 (e1.trans e2.symm)

/-- Entering a function is refused (the program is stopped) only when a section is full or the name is
too long; otherwise it succeeds. -/
theorem C25_enter (c : Config) (base : Nat) (hc : c.Ok base) (h : Trace) (T : Tracker)
    (hr : Reach c base h T) (name : List Nat) (hev : (fnEvents h).length < c.evCap)
    (hroom : name ∈ functions h ∨ (name.length ≤ 65535 ∧ (functions h).length < c.fnCap ∧
      T.strings.pos + StrTab.allocatedLen name.length ≤ c.strSize)) :
    ∃ T', T.exec (.fnEntry name) =
      .ok (T', .index (some ((functions ((.fnEntry name, .unit) :: h)).idxOf name))) := by
  have hs := hr.sim hc
  obtain ⟨ss, ht⟩ := hs.tab
  have hev' : T.events.length + 1 ≤ c.evCap := by rw [hs.events, List.length_map]; omega
  suffices ∃ T1, T.addMapping name = .ok (T1, some ((functions ((.fnEntry name, .unit) :: h)).idxOf name)) ∧
      T1.events = T.events ∧ T1.cfg = c by
    obtain ⟨T1, h1, h2, h3⟩ := this
    exact ⟨_, by
      simp only [exec, functionEntry, h1, Res.bind_ok, logEvent, h2, h3]
      rw [if_pos hev']
      rfl⟩
  unfold addMapping
  rw [ht.fnMap, findFn_zipIdx]
  simp only [functions]
  by_cases hmem : name ∈ functions h
  · simp only [hmem, if_true, Nat.zero_add]
    exact ⟨T, rfl, rfl, hs.cfg⟩
  · obtain ⟨r1, r2, r3⟩ := hroom.resolve_left hmem
    simp only [hmem, if_false]
    rcases StrTab.addString_spec ht.strs (s := name) r1 with ⟨-, S', h1, -⟩ | ⟨h1, -⟩
    · simp only [h1, Res.bind_ok]
      have hcap : T.fns.length + 1 ≤ T.cfg.fnCap := by rw [hs.cfg, ht.fnLen]; omega
      have hmod : T.fns.length % 2 ^ 16 = (functions h).length := by
        have := hc.fn
        rw [Nat.mod_eq_of_lt (by rw [ht.fnLen]; omega), ht.fnLen]
      rw [if_pos hcap, hmod]
      have hidx : (functions h ++ [name]).idxOf name = (functions h).length := by
        rw [List.idxOf_append]; simp [hmem]
      rw [hidx]
      exact ⟨_, rfl, rfl, hs.cfg⟩
    · have := ht.size; omega

/-- A reader recovers from the finished file the name of every index and the sequence of enter (0) and
leave (1) events with their function indices. (Names must be UTF-8 and the source-label index must be
within its section, as in C30.) -/
theorem C25_read (c : Config) (base : Nat) (hc : c.Ok base) (h : Trace) (T : Tracker)
    (hr : Reach c base h T) (hroom : T.labels.words.length + 64 ≤ c.indexCap)
    (hu : ∀ n ∈ names h, utf8 n = true) (pads : Pads) :
    ∃ F, parse (closed pads c base T) = some F ∧
      (∀ (name : List Nat) (i : Nat), (.fnEntry name, .index (some i)) ∈ h →
        ∃ o, F.fnHeaders[i]? = some (name, o)) ∧
      F.fnHeaders.length = (functions h).length ∧
      F.events = some ((fnEvents h).map fun e => (if e.1 then 0 else 1, e.2)) := by
  obtain ⟨F, hF, hrec⟩ := (parse_reach hc hr hroom pads).1 hu
  refine ⟨F, hF, ?_, ?_, hrec.events⟩
  · intro name i hm
    obtain ⟨j, hj, hg⟩ := (C25_index c base hc h T hr).2.2 _ _ hm
    cases hj
    rw [← hrec.fns, List.getElem?_map] at hg
    cases hx : F.fnHeaders[i]? with
    | none => rw [hx] at hg; cases hg
    | some p =>
      rw [hx] at hg
      exact ⟨p.2, by rw [← Option.some.inj hg]⟩
  · rw [← hrec.fns, List.length_map]

/-- The sequence of logged events: each entry with the index that was returned, each exit with the
index that was passed. -/
theorem C25_events (c : Config) (base : Nat) (hc : c.Ok base) (h : Trace) (T : Tracker)
    (hr : Reach c base h T) :
    fnEvents h = h.reverse.filterMap fun x => match x with
      | (.fnEntry _, .index (some i)) => some (true, i)
      | (.fnExit i, _) => some (false, i)
      | _ => none := by
  induction h generalizing T with
  | nil => rfl
  | cons x h ih =>
    obtain ⟨cl, r⟩ := x
    obtain ⟨T0, h0, ha, he⟩ := Reach.cons_inv hr
    rw [List.reverse_cons, List.filterMap_append, ← ih T0 h0]
    cases cl with
    | fnEntry name =>
      have hret := exec_fnEntry_ret hc h0 ha he
      rw [hret]
      rfl
    | fnExit i => rfl
    | _ => simp [fnEvents]

/-- Example: three names, entered repeatedly. -/
example : ∃ T, Reach exCfg 4096 (histOf exCfg 4096 exCalls) T := exReach
example : functions (histOf exCfg 4096 exCalls) = [[102], [103]] ∧
    fnEvents (histOf exCfg 4096 exCalls) = [(true, 0), (true, 1), (false, 1), (true, 0)] := by decide +kernel
example : ∀ n ∈ names (histOf exCfg 4096 exCalls), utf8 n = true := by decide +kernel

end Verif
