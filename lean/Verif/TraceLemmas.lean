import Verif.Props.C14
/- Consequences of the correspondence between tracker and specification. -/
namespace Verif
open Spec
namespace Tracker

theorem Reach.cons_inv {c : Config} {base : Nat} {h : Trace} {cl : Call} {r : Ret} {T' : Tracker}
    (hr : Reach c base ((cl, r) :: h) T') :
    ∃ T, Reach c base h T ∧ T.Allowed cl ∧ T.exec cl = .ok (T', r) := by
  obtain ⟨T₀, h0, h1⟩ := hr
  cases h1 with
  | cons hr ha he => exact ⟨_, ⟨T₀, h0, hr⟩, ha, he⟩

theorem Reach.snoc {c : Config} {base : Nat} {h : Trace} {cl : Call} {r : Ret} {T T' : Tracker}
    (hr : Reach c base h T) (ha : T.Allowed cl) (he : T.exec cl = .ok (T', r)) :
    Reach c base ((cl, r) :: h) T' := by
  obtain ⟨T₀, h0, h1⟩ := hr
  exact ⟨T₀, h0, .cons h1 ha he⟩

theorem Reach.suffix {c : Config} {base : Nat} : ∀ (h2 : Trace) {h1 : Trace} {T : Tracker},
    Reach c base (h2 ++ h1) T → ∃ T1, Reach c base h1 T1
  | [], _, T, hr => ⟨T, hr⟩
  | (_, _) :: h2, _, _, hr => by
    obtain ⟨T1, h, -⟩ := hr.cons_inv
    exact Reach.suffix h2 h

theorem labelEvents_cons (x : Call × Ret) (h : Trace) :
    labelEvents (x :: h) = labelEvents h ∨ ∃ e, labelEvents (x :: h) = labelEvents h ++ [e] := by
  obtain ⟨cl, r⟩ := x
  cases cl with
  | union a b =>
    cases r with
    | label u => exact Or.inr ⟨_, rfl⟩
    | unit => exact Or.inl rfl
    | range _ => exact Or.inl rfl
    | index _ => exact Or.inl rfl
  | mark l => exact Or.inr ⟨_, rfl⟩
  | read fd addr off len =>
    cases r with
    | range o =>
      cases o with
      | none => exact Or.inl rfl
      | some p =>
        obtain ⟨f, q⟩ := p
        simp only [labelEvents]
        cases owner h fd with
        | none => exact Or.inl rfl
        | some i => exact Or.inr ⟨_, rfl⟩
    | unit => exact Or.inl rfl
    | label _ => exact Or.inl rfl
    | index _ => exact Or.inl rfl
  | input name addr len =>
    cases r with
    | range o =>
      cases o with
      | none => exact Or.inl rfl
      | some p => exact Or.inr ⟨_, rfl⟩
    | unit => exact Or.inl rfl
    | label _ => exact Or.inl rfl
    | index _ => exact Or.inl rfl
  | _ => exact Or.inl rfl

theorem labelEvents_mem (h2 : Trace) {h1 : Trace} {e : Event} (he : e ∈ labelEvents h1) :
    e ∈ labelEvents (h2 ++ h1) := by
  induction h2 with
  | nil => exact he
  | cons x h2 ih =>
    rw [List.cons_append]
    rcases labelEvents_cons x (h2 ++ h1) with h | ⟨e', h⟩ <;> rw [h]
    · exact ih
    · exact List.mem_append_left _ ih

/-- A label given to a byte by a read denotes exactly that byte, in every later state. -/
theorem Reach.given {c : Config} {base : Nat} (hc : c.Ok base) {h : Trace} {T : Tracker}
    (hr : Reach c base h T) {l : Nat} {b : Nat × Nat} (hb : GivenTo (labelEvents h) l b) :
    0 < l ∧ l < T.labels.words.length ∧ ∀ b', Denotes T.labels.graph l b' ↔ b' = b := by
  have hs := hr.sim hc
  obtain ⟨k1, k2⟩ := hs.lab.reach.kinds hc.lab0 hc.lab
  obtain ⟨l0, ll⟩ := k1 l b hb
  refine ⟨l0, ll, fun b' => ?_⟩
  rcases k2 l l0 ll with ⟨x, cf, hx, g⟩ | ⟨hn, -⟩
  · rw [denotes_iff g, (hx b).1 hb]; rfl
  · exact absurd hb (hn b)

/-! ### The latest registration -/

/-- Position of the last entry for a descriptor. -/
def lastIdx (l : List (List Nat × Int × Nat)) (fd : Int) : Option Nat :=
  (List.range l.length).reverse.find? fun i => (l[i]?.map fun e => e.2.1) == some fd

theorem owner_eq (h : Trace) (fd : Int) : owner h fd = lastIdx (registered h) fd := rfl

theorem lastIdx_snoc (l : List (List Nat × Int × Nat)) (e : List Nat × Int × Nat) (fd : Int) :
    lastIdx (l ++ [e]) fd = if e.2.1 = fd then some l.length else lastIdx l fd := by
  unfold lastIdx
  rw [List.length_append, List.length_singleton, List.range_succ, List.reverse_append]
  simp only [List.reverse_cons, List.reverse_nil, List.nil_append, List.cons_append,
    List.find?_cons]
  rw [List.getElem?_append_right (Nat.le_refl _), Nat.sub_self]
  by_cases hfd : e.2.1 = fd
  · simp [hfd]
  · have h1 : (Option.map (fun e : List Nat × Int × Nat => e.2.1) ([e] : List (List Nat × Int × Nat))[0]? == some fd) = false := by
      simp [hfd]
    rw [h1, if_neg hfd]
    simp only []
    have : ∀ (ks : List Nat), (∀ k ∈ ks, k < l.length) →
        ks.find? (fun i => ((l ++ [e])[i]?.map fun e => e.2.1) == some fd) =
        ks.find? (fun i => (l[i]?.map fun e => e.2.1) == some fd) := by
      intro ks
      induction ks with
      | nil => intro _; rfl
      | cons k ks ih =>
        intro hk
        rw [List.find?_cons, List.find?_cons, ih (fun j hj => hk j (by simp [hj])),
          List.getElem?_append_left (hk k (by simp))]
    exact this _ (fun k hk => by simpa using hk)

theorem lastIdx_spec {l : List (List Nat × Int × Nat)} {fd : Int} {i : Nat} (h : lastIdx l fd = some i) :
    ∃ e, l[i]? = some e ∧ e.2.1 = fd := by
  have := List.find?_some h
  simp only [beq_iff_eq, Option.map_eq_some_iff] at this
  exact this

theorem registered_cons (x : Call × Ret) (h : Trace) : registered (x :: h) = registered h ∨
    (∃ fd name size j, x = (.openFile fd name size, .index (some j)) ∧
      registered (x :: h) = registered h ++ [(name, fd, size.getD unknownSize)]) ∨
    (∃ name addr len p, x = (.input name addr len, .range (some p)) ∧
      registered (x :: h) = registered h ++ [(name, -1, unknownSize)]) := by
  obtain ⟨cl, r⟩ := x
  cases cl with
  | openFile fd name size =>
    cases r with
    | index o =>
      cases o with
      | none => exact Or.inl rfl
      | some p => exact Or.inr (Or.inl ⟨fd, name, size, p, rfl, rfl⟩)
    | unit => exact Or.inl rfl
    | label _ => exact Or.inl rfl
    | range _ => exact Or.inl rfl
  | input name addr len =>
    cases r with
    | range o =>
      cases o with
      | none => exact Or.inl rfl
      | some p => exact Or.inr (Or.inr ⟨name, addr, len, p, rfl, rfl⟩)
    | unit => exact Or.inl rfl
    | label _ => exact Or.inl rfl
    | index _ => exact Or.inl rfl
  | _ => exact Or.inl rfl

/-- Registrations are never changed. -/
theorem registered_prefix (h2 h1 : Trace) : ∃ more, registered (h2 ++ h1) = registered h1 ++ more := by
  induction h2 with
  | nil => exact ⟨[], by simp⟩
  | cons x h2 ih =>
    obtain ⟨more, ih⟩ := ih
    rw [List.cons_append]
    rcases registered_cons x (h2 ++ h1) with h | ⟨_, _, _, _, -, h⟩ | ⟨_, _, _, _, -, h⟩ <;> rw [h, ih]
    · exact ⟨more, rfl⟩
    · exact ⟨more ++ _, List.append_assoc ..⟩
    · exact ⟨more ++ _, List.append_assoc ..⟩

/-- What a successful read returns, and its effects. -/
theorem Reach.read {c : Config} {base : Nat} (hc : c.Ok base) {h : Trace} {T T' : Tracker} {r : Ret}
    (hr : Reach c base h T) {fd : Int} {addr off : Option Nat} {len : Nat}
    (ha : T.Allowed (.read fd addr off len)) (he : T.exec (.read fd addr off len) = .ok (T', r)) :
    (owner h fd = none ∧ r = .range none ∧ T' = T) ∨
    ∃ i, owner h fd = some i ∧ 0 < len ∧
      r = .range (some (T.labels.words.length, T.labels.words.length + len - 1)) ∧
      T'.labels.words.length = T.labels.words.length + len ∧
      (∀ k, k < len → GivenTo (labelEvents ((.read fd addr off len, r) :: h)) (T.labels.words.length + k)
        (i, off.getD (readPos h i) + k)) := by
  have hs := hr.sim hc
  simp only [exec, sourceTaint, Res.bind_eq_ok, Res.pure_eq] at he
  obtain ⟨⟨T1, i⟩, h1, h3⟩ := he
  cases h3
  obtain ⟨ss, ht⟩ := hs.tab
  have hm := ht.mapping hc.src fd
  simp only [Allowed] at ha
  rw [hm] at h1 ha
  cases ho : owner h fd with
  | none =>
    rw [ho] at h1
    cases h1
    exact Or.inl ⟨rfl, rfl, rfl⟩
  | some k =>
    rw [ho] at h1 ha
    have ha := ha k rfl
    simp only [Res.bind_eq_ok] at h1
    obtain ⟨⟨T2, o⟩, h2, ⟨T3, rng⟩, h4, h5⟩ := h1
    cases h5
    have hk := owner_lt ho
    have hk2 : k < 256 := by
      have := ht.srcLen; have := ht.srcCap; have := hc.src; omega
    have hoff : T2.labels = T.labels ∧ T2.index = T.index ∧ o = off.getD (readPos h k) := by
      cases off with
      | some o' => cases h2; exact ⟨rfl, rfl, rfl⟩
      | none =>
        simp only [sourceOffset, Res.bind_eq_ok] at h2
        obtain ⟨⟨rd, o'⟩, h6, h7⟩ := h2
        cases h7
        have ha' : T.rd k + len ≤ 2 ^ 54 := by simpa using ha
        obtain ⟨rfl, -⟩ := increase_ok h6 (by omega)
        exact ⟨rfl, rfl, by simp [hs.rd k]⟩
    obtain ⟨hlab, hidx, rfl⟩ := hoff
    have hle : off.getD (readPos h k) + len ≤ 2 ^ 54 := by rw [← hs.rd k]; exact ha
    obtain ⟨L, B, rfl, -, hrng, hpos, hlen⟩ := createSourceTaint_spec hc (T := T2)
      (by rw [hlab, hidx]; exact hs.lab) hk2 hle h4
    rw [hlab] at hrng hlen
    refine Or.inr ⟨k, rfl, hpos, by rw [hrng], hlen, ?_⟩
    intro j hj
    refine ⟨k, off.getD (readPos h k), len, T.labels.words.length, ?_, by omega, by omega, ?_⟩
    · rw [hrng]; simp only [labelEvents, ho]; simp
    · rw [Nat.add_sub_cancel_left]

/-- What a successful declaration of an input returns. -/
theorem Reach.input {c : Config} {base : Nat} (hc : c.Ok base) {h : Trace} {T T' : Tracker} {r : Ret}
    (hr : Reach c base h T) {name : List Nat} {addr len : Nat}
    (ha : T.Allowed (.input name addr len)) (he : T.exec (.input name addr len) = .ok (T', r)) :
    r = .range none ∨
    0 < len ∧ r = .range (some (T.labels.words.length, T.labels.words.length + len - 1)) ∧
      T'.labels.words.length = T.labels.words.length + len ∧
      registered ((.input name addr len, r) :: h) = registered h ++ [(name, -1, unknownSize)] ∧
      ∀ k, k < len → GivenTo (labelEvents ((.input name addr len, r) :: h)) (T.labels.words.length + k)
        ((registered h).length, k) := by
  have hs := hr.sim hc
  simp only [exec, createTaintSource, Res.bind_eq_ok, Res.pure_eq] at he
  obtain ⟨⟨T1, i⟩, ⟨⟨T2, oi⟩, h1, h2⟩, h3⟩ := he
  cases h3
  obtain ⟨ss, ht⟩ := hs.tab
  obtain ⟨S, src, rfl, hcase⟩ := addSource_spec hs.cfg hc.src ht ha (by decide) (by decide) h1
  rcases hcase with ⟨rfl, ht'⟩ | ⟨rfl, ht'⟩
  · cases h2; exact Or.inl rfl
  · simp only [Res.bind_eq_ok] at h2
    obtain ⟨⟨T3, rng⟩, h4, h5⟩ := h2
    cases h5
    have hk2 : (registered h).length < 256 := by
      have := ht.srcLen; have := ht.srcCap; have := hc.src; omega
    have hcap : len ≤ 2 ^ 54 := by
      simp only [createSourceTaint, Res.bind_eq_ok] at h4
      obtain ⟨⟨L, r⟩, h5, -⟩ := h4
      simp only [Labels.createSourceLabels] at h5
      have := hs.lab.reach.cap hc.lab0 hc.lab
      have := hc.lab
      split at h5
      · cases h5
      · split at h5
        · omega
        · cases h5
    obtain ⟨L, B, rfl, hl, hrng, hpos, hlen⟩ := createSourceTaint_spec hc
      (T := { T with strings := S, sources := src }) hs.lab hk2 (by omega) h4
    refine Or.inr ⟨hpos, by rw [hrng], hlen, rfl, ?_⟩
    intro j hj
    refine ⟨(registered h).length, 0, len, T.labels.words.length, ?_, by omega, by omega, ?_⟩
    · rw [hrng]; simp only [labelEvents]; simp
    · rw [Nat.add_sub_cancel_left, Nat.zero_add]

end Tracker
end Verif
