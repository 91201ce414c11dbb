import Verif.TraceLemmas
/- C19: bytes are attributed to the file that is open on the descriptor. -/
namespace Verif
open Spec Tracker

/-- The most recent open of a descriptor: name, size if known, and whether it was registered. -/
def Spec.lastOpen : Trace → Int → Option (List Nat × Option Nat × Bool)
  | [], _ => none
  | (.openFile fd name size, r) :: h, fd' =>
    if fd = fd' then some (name, size, match r with | .index (some _) => true | _ => false)
    else lastOpen h fd'
  | _ :: h, fd => lastOpen h fd

theorem lastOpen_cons_other {x : Call × Ret} {h : Trace} {fd : Int}
    (hx : ∀ fd' name size, x.1 ≠ .openFile fd' name size) : lastOpen (x :: h) fd = lastOpen h fd := by
  obtain ⟨cl, r⟩ := x
  cases cl with
  | openFile fd' name size => exact absurd rfl (hx fd' name size)
  | _ => rfl

/-- The descriptor table follows the most recent registered open. -/
theorem owner_lastOpen {fd : Int} (hfd : fd ≠ -1) : ∀ h : Trace,
    (lastOpen h fd = none → owner h fd = none) ∧
    (∀ name size, lastOpen h fd = some (name, size, true) →
      ∃ i, owner h fd = some i ∧ (registered h)[i]? = some (name, fd, size.getD unknownSize)) := by
  intro h
  induction h with
  | nil => exact ⟨fun _ => rfl, fun _ _ h => by cases h⟩
  | cons x h ih =>
    rw [owner_eq] at ih ⊢
    rcases registered_cons x h with hr | ⟨fd', name', size', j, rfl, hr⟩ | ⟨name', addr, len, p, rfl, hr⟩
    · -- nothing registered by this call
      rw [hr]
      by_cases hx : ∃ fd' name size, x.1 = .openFile fd' name size
      · obtain ⟨fd', name', size', hx⟩ := hx
        obtain ⟨cl, r⟩ := x
        simp only at hx
        subst hx
        simp only [lastOpen]
        by_cases hf : fd' = fd
        · simp only [hf, if_true]
          refine ⟨fun h => (by cases h), fun name size h => ?_⟩
          simp only [Option.some.injEq, Prod.mk.injEq] at h
          obtain ⟨-, -, h⟩ := h
          split at h
          · rename_i k
            exfalso
            have := congrArg List.length hr
            simp [registered] at this
          · cases h
        · simp only [hf, if_false]; exact ih
      · rw [lastOpen_cons_other (fun a b c e => hx ⟨a, b, c, e⟩)]; exact ih
    · rw [hr, lastIdx_snoc]
      simp only [lastOpen]
      by_cases hf : fd' = fd
      · subst hf
        simp only [if_true]
        refine ⟨fun h => (by cases h), fun name size h => ?_⟩
        simp only [Option.some.injEq, Prod.mk.injEq, and_true] at h
        obtain ⟨rfl, rfl⟩ := h
        exact ⟨_, rfl, by simp⟩
      · simp only [hf, if_false]
        refine ⟨ih.1, fun name size h => ?_⟩
        obtain ⟨i, h1, h2⟩ := ih.2 name size h
        exact ⟨i, h1, by rw [List.getElem?_append_left (List.getElem?_eq_some_iff.1 h2).1]; exact h2⟩
    · rw [hr, lastIdx_snoc, if_neg (fun e => hfd e.symm)]
      have hlo : lastOpen ((Call.input name' addr len, Ret.range (some p)) :: h) fd = lastOpen h fd := rfl
      rw [hlo]
      refine ⟨ih.1, fun name size h => ?_⟩
      obtain ⟨i, h1, h2⟩ := ih.2 name size h
      exact ⟨i, h1, by rw [List.getElem?_append_left (List.getElem?_eq_some_iff.1 h2).1]; exact h2⟩

/-- Entry `i` of the source table has this name, descriptor and size. -/
def Tracker.SourceIs (T : Tracker) (i : Nat) (name : List Nat) (fd : Int) (size : Nat) : Prop :=
  ∃ e, T.sources[i]? = some e ∧ StrTab.fromOffset T.strings e.nameOff = .ok name ∧ e.fd = fd ∧
    e.size = size

theorem sourceIs_of_registered {c : Config} {h : Trace} {T : Tracker} (hs : Sim c h T) {i : Nat}
    {name : List Nat} {fd : Int} {size : Nat} (hr : (registered h)[i]? = some (name, fd, size)) :
    T.SourceIs i name fd size := by
  obtain ⟨ss, ht⟩ := hs.tab
  have hlt := (List.getElem?_eq_some_iff.1 hr).1
  have hlt' : i < T.sources.length := by rw [ht.srcLen]; exact hlt
  obtain ⟨nm, h1, h2⟩ := ht.src i T.sources[i] (List.getElem?_eq_getElem hlt')
  rw [hr] at h1
  simp only [Option.some.injEq, Prod.mk.injEq] at h1
  obtain ⟨rfl, h3, h4⟩ := h1
  exact ⟨T.sources[i], List.getElem?_eq_getElem hlt', h2.lookup ht.strs, h3.symm, h4.symm⟩

/-- A read from a descriptor whose most recent open was registered: the source table has an entry
with the name, descriptor and size of that open, and every byte read gets a label denoting a byte of
that entry. Missing compared with the property: opens that could not be registered (see the
refutations below), and reading from a descriptor after it was closed. -/
theorem C19_attributed_partial (c : Config) (base : Nat) (hc : c.Ok base) (h : Trace) (T T' : Tracker)
    (hr : Reach c base h T) (fd : Int) (hfd : fd ≠ -1) (name : List Nat) (size : Option Nat)
    (ho : lastOpen h fd = some (name, size, true)) (addr off : Option Nat) (len : Nat) (r : Ret)
    (ha : T.Allowed (.read fd addr off len)) (he : T.exec (.read fd addr off len) = .ok (T', r)) :
    ∃ i first last, T'.SourceIs i name fd (size.getD unknownSize) ∧ r = .range (some (first, last)) ∧
      last = first + len - 1 ∧
      ∀ k, k < len → ∃ o, ∀ b, Denotes T'.labels.graph (first + k) b ↔ b = (i, o) := by
  obtain ⟨i, h1, h2⟩ := (owner_lastOpen hfd h).2 name size ho
  have hr' := hr.snoc ha he
  rcases hr.read hc ha he with ⟨h3, -⟩ | ⟨j, h3, h4, h5, -, h7⟩
  · rw [h1] at h3; cases h3
  · rw [h1] at h3; cases h3
    refine ⟨i, _, _, sourceIs_of_registered (hr'.sim hc) ?_, h5, rfl, fun k hk => ⟨_, (hr'.given hc (h7 k hk)).2.2⟩⟩
    obtain ⟨more, hm⟩ := registered_prefix [(.read fd addr off len, r)] h
    rw [List.cons_append, List.nil_append] at hm
    rw [hm, List.getElem?_append_left (List.getElem?_eq_some_iff.1 h2).1]
    exact h2

/-- Entries of the source table are never changed or removed. -/
theorem C19_stable (c : Config) (base : Nat) (hc : c.Ok base) (h h' : Trace) (T T' : Tracker)
    (hr : Reach c base h T) (hr' : Reach c base (h' ++ h) T') (i : Nat) (name : List Nat) (fd : Int)
    (size : Nat) (hi : T.SourceIs i name fd size) : T'.SourceIs i name fd size := by
  obtain ⟨e, h1, h2, h3, h4⟩ := hi
  obtain ⟨ss, ht⟩ := (hr.sim hc).tab
  obtain ⟨nm, k1, k2⟩ := ht.src i e h1
  rw [k2.lookup ht.strs] at h2
  cases h2
  subst h3 h4
  obtain ⟨more, hm⟩ := registered_prefix h' h
  refine sourceIs_of_registered (hr'.sim hc) ?_
  rw [hm, List.getElem?_append_left (List.getElem?_eq_some_iff.1 k1).1]
  exact k1

/-- A read from a descriptor that no open returned is not attributed and has no effect. -/
theorem C19_untracked (c : Config) (base : Nat) (hc : c.Ok base) (h : Trace) (T : Tracker)
    (hr : Reach c base h T) (fd : Int) (hfd : fd ≠ -1) (ho : lastOpen h fd = none)
    (addr off : Option Nat) (len : Nat) :
    T.exec (.read fd addr off len) = .ok (T, .range none) := by
  obtain ⟨ss, ht⟩ := (hr.sim hc).tab
  have hm := ht.mapping hc.src fd
  rw [(owner_lastOpen hfd h).1 ho] at hm
  simp [exec, sourceTaint, hm]

/-- Instead of the most recent open a former one is used when the source table is full: the open of
"e" on descriptor 3 is dropped silently and the bytes read are attributed to "a". -/
theorem C19_full_refuted : ∃ h T T', Reach exCfg 4096 h T ∧
    lastOpen h 3 = some ([101], none, false) ∧
    T.Allowed (.read 3 none none 1) ∧ T.exec (.read 3 none none 1) = .ok (T', .range (some (1, 1))) ∧
    T'.SourceIs 0 [97] 3 unknownSize ∧ ∀ b, Denotes T'.labels.graph 1 b ↔ b = (0, 0) := by
  let cs : List Call := [.openFile 3 [97] none, .openFile 4 [98] none, .openFile 5 [99] none,
    .openFile 6 [100] none, .openFile 3 [101] none]
  have h1 : (run exCfg 4096 (cs ++ [.read 3 none none 1])).isSome = true := by decide +kernel
  obtain ⟨T', hT'⟩ := reach_of h1
  have hh : histOf exCfg 4096 (cs ++ [.read 3 none none 1]) =
      (.read 3 none none 1, .range (some (1, 1))) :: histOf exCfg 4096 cs := by decide +kernel
  rw [hh] at hT'
  obtain ⟨T, hT, ha, he⟩ := hT'.cons_inv
  refine ⟨_, T, T', hT, by decide +kernel, ha, he, ?_, ?_⟩
  · exact sourceIs_of_registered (hT'.sim exCfg_ok) (by decide +kernel)
  · exact (hT'.given exCfg_ok (l := 1) (b := (0, 0)) ⟨0, 0, 1, 1, by decide +kernel, by decide,
      by decide, rfl⟩).2.2

/-- Closing is not recorded: data read from descriptor 3 after the file was closed (and the number
reused by something that is not tracked, such as a socket) is attributed to the closed file. -/
theorem C19_closed_refuted : ∃ h T T', Reach exCfg 4096 h T ∧
    h = [(.closeFile 3, .unit), (.openFile 3 [97] none, .index (some 0))] ∧
    T.exec (.read 3 none none 1) = .ok (T', .range (some (1, 1))) ∧
    T'.SourceIs 0 [97] 3 unknownSize ∧ ∀ b, Denotes T'.labels.graph 1 b ↔ b = (0, 0) := by
  have h1 : (run exCfg 4096 [.openFile 3 [97] none, .closeFile 3, .read 3 none none 1]).isSome = true := by
    decide +kernel
  obtain ⟨T', hT'⟩ := reach_of h1
  have hh : histOf exCfg 4096 [.openFile 3 [97] none, .closeFile 3, .read 3 none none 1] =
      [(.read 3 none none 1, .range (some (1, 1))), (.closeFile 3, .unit),
       (.openFile 3 [97] none, .index (some 0))] := by decide +kernel
  rw [hh] at hT'
  obtain ⟨T, hT, ha, he⟩ := hT'.cons_inv
  refine ⟨_, T, T', hT, rfl, he, ?_, ?_⟩
  · exact sourceIs_of_registered (hT'.sim exCfg_ok) (by decide +kernel)
  · exact (hT'.given exCfg_ok (l := 1) (b := (0, 0)) ⟨0, 0, 1, 1, by decide +kernel, by decide,
      by decide, rfl⟩).2.2

/-- Descriptor -1, which is never open, is attributed to the latest command-line argument, because
those are registered with descriptor -1. -/
theorem C19_invalid_fd_refuted : ∃ h T T' p, Reach exCfg 4096 h T ∧ lastOpen h (-1) = none ∧
    T.exec (.read (-1) none none 1) = .ok (T', .range (some p)) := by
  have h1 : (run exCfg 4096 [.input [97] 1000 2, .read (-1) none none 1]).isSome = true := by
    decide +kernel
  obtain ⟨T', hT'⟩ := reach_of h1
  have hh : histOf exCfg 4096 [.input [97] 1000 2, .read (-1) none none 1] =
      [(.read (-1) none none 1, .range (some (3, 3))), (.input [97] 1000 2, .range (some (1, 2)))] := by
    decide +kernel
  rw [hh] at hT'
  obtain ⟨T, hT, ha, he⟩ := hT'.cons_inv
  exact ⟨_, T, T', _, hT, rfl, he⟩

/-- Hypotheses are met: in the example run descriptor 3 was opened twice. -/
example : lastOpen (histOf exCfg 4096 exCalls) 3 = some ([100, 100], some 7, true) ∧
    lastOpen (histOf exCfg 4096 exCalls) 9 = none ∧
    owner (histOf exCfg 4096 exCalls) 3 = some 2 := by decide +kernel

end Verif
