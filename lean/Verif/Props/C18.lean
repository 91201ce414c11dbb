import Verif.StringTableLemmas
/- C18: stored names come back unchanged. -/
namespace Verif
namespace StrTab

/-- Adding names one after the other; the answers in order. -/
def addAll (S : Section) : List (List Nat) → Res (Section × List (Option Nat))
  | [] => .ok (S, [])
  | s :: rest => do
    let (S, o) ← addString S s
    let (S, os) ← addAll S rest
    return (S, o :: os)

/-- The names whose addition was answered with an offset. -/
def accepted : List (List Nat) → List (Option Nat) → List (List Nat)
  | s :: ss, some _ :: os => s :: accepted ss os
  | _ :: ss, none :: os => accepted ss os
  | _, _ => []

theorem addAll_spec : ∀ (names : List (List Nat)) {S : Section} {ss : List (List Nat)}, Holds S ss →
    (∀ s ∈ names, s.length ≤ maxLen) →
    ∃ S' os, addAll S names = .ok (S', os) ∧ os.length = names.length ∧
      Holds S' (ss ++ accepted names os) ∧ S'.mem.length = S.mem.length ∧
      ∀ (i : Nat) (s : List Nat) (o : Nat), names[i]? = some s → os[i]? = some (some o) →
        ∃ pre post : List (List Nat), ss ++ accepted names os = ss ++ pre ++ s :: post ∧
          o = ((ss ++ pre).flatMap block).length := by
  intro names
  induction names with
  | nil => intro S ss h _; exact ⟨S, [], rfl, rfl, by simpa [accepted] using h, rfl, by simp⟩
  | cons s rest ih =>
    intro S ss h hl
    have hs := hl s (by simp)
    have hl' : ∀ s ∈ rest, s.length ≤ maxLen := fun x hx => hl x (by simp [hx])
    rcases addString_spec h hs with ⟨-, S1, h1, h2, -, h4⟩ | ⟨-, h1⟩
    · obtain ⟨S2, os, g1, g2, g3, g4, g5⟩ := ih h2 hl'
      refine ⟨S2, some S.pos :: os, by simp [addAll, h1, g1], by simp [g2], by simpa [accepted] using g3,
        by omega, ?_⟩
      intro i x o hx ho
      cases i with
      | zero =>
        simp only [List.getElem?_cons_zero, Option.some.injEq] at hx ho
        subst hx ho
        refine ⟨[], accepted rest os, by simp [accepted], ?_⟩
        rw [h.pos]; simp
      | succ i =>
        obtain ⟨pre, post, e1, e2⟩ := g5 i x o (by simpa using hx) (by simpa using ho)
        refine ⟨s :: pre, post, ?_, by simpa using e2⟩
        simpa [accepted] using e1
    · obtain ⟨S2, os, g1, g2, g3, g4, g5⟩ := ih h hl'
      refine ⟨S2, none :: os, by simp [addAll, h1, g1], by simp [g2], by simpa [accepted] using g3,
        by omega, ?_⟩
      intro i x o hx ho
      cases i with
      | zero => simp at ho
      | succ i => exact g5 i x o (by simpa using hx) (by simpa using ho)

end StrTab
open StrTab

/-- Whatever names (of at most 65535 bytes each) are added to a fresh table, in whatever order:
all additions are answered, and every name that was answered with an offset is returned byte for
byte by a lookup of that offset in the final table. -/
theorem C18_lookup (base size : Nat) (hb : base + size < 2 ^ 64) (S₀ : Section)
    (hnew : new base size = .ok S₀) (names : List (List Nat)) (hn : ∀ s ∈ names, s.length ≤ 65535) :
    ∃ S os, addAll S₀ names = .ok (S, os) ∧ os.length = names.length ∧
      ∀ (i : Nat) (s : List Nat) (o : Nat), names[i]? = some s → os[i]? = some (some o) →
        fromOffset S o = .ok s := by
  obtain ⟨h0, -, -⟩ := new_holds hb hnew
  obtain ⟨S, os, h1, h2, h3, -, h5⟩ := addAll_spec names h0 hn
  refine ⟨S, os, h1, h2, ?_⟩
  intro i s o hs ho
  obtain ⟨pre, post, e1, rfl⟩ := h5 i s o hs ho
  rw [e1] at h3
  simp only [List.nil_append] at h3
  exact h3.deref

/-- Iterating over the final table yields the accepted names, in order of insertion. -/
theorem C18_iterate (base size : Nat) (hb : base + size < 2 ^ 64) (S₀ : Section)
    (hnew : new base size = .ok S₀) (names : List (List Nat)) (hn : ∀ s ∈ names, s.length ≤ 65535)
    (S : Section) (os : List (Option Nat)) (hadd : addAll S₀ names = .ok (S, os)) :
    strings S = .ok ((names.zip os).filterMap fun p => p.2.map fun _ => p.1) := by
  obtain ⟨h0, -, -⟩ := new_holds hb hnew
  obtain ⟨S', os', h1, -, h3, -, -⟩ := addAll_spec names h0 hn
  rw [hadd] at h1; cases h1
  rw [h3.strings]
  simp only [List.nil_append]
  congr 1
  clear hadd h3 hn
  induction names generalizing os with
  | nil => cases os <;> simp [accepted]
  | cons s rest ih =>
    cases os with
    | nil => simp [accepted]
    | cons o os => cases o <;> simp [accepted, ih]

/-- A name that is too long ends the program. A name that is refused leaves the table exactly as it
was, and refusal happens only when the name, with its two-byte length and rounded up to an even
size, exceeds the room left. -/
theorem C18_refuse (base size : Nat) (hb : base + size < 2 ^ 64) (S₀ : Section)
    (hnew : new base size = .ok S₀) (names : List (List Nat)) (hn : ∀ s ∈ names, s.length ≤ 65535)
    (S : Section) (os : List (Option Nat)) (hadd : addAll S₀ names = .ok (S, os)) (s : List Nat) :
    (addString S s = .fatal ↔ 65535 < s.length) ∧
    (∀ S', addString S s = .ok (S', none) → S' = S) ∧
    (s.length ≤ 65535 →
      ((∃ S', addString S s = .ok (S', none)) ↔ size < S.size + ((s.length + 3) / 2 * 2))) := by
  obtain ⟨h0, -, hm⟩ := new_holds hb hnew
  obtain ⟨S', os', h1, -, h3, h4, -⟩ := addAll_spec names h0 hn
  rw [hadd] at h1; cases h1
  have hml : maxLen = 65535 := rfl
  have hal : allocatedLen s.length = (s.length + 3) / 2 * 2 := by
    have h2 : lenSize = 2 := rfl
    simp only [allocatedLen]
    split <;> omega
  by_cases hs : s.length ≤ maxLen
  · rcases addString_spec h3 hs with ⟨hf, S1, e, -⟩ | ⟨hf, e⟩
    · refine ⟨by rw [e]; simp; omega, fun S' h => (by rw [e] at h; cases h), fun _ => ?_⟩
      rw [e, Section.size]
      constructor
      · rintro ⟨S', h⟩; cases h
      · intro h; omega
    · refine ⟨by rw [e]; simp; omega, fun S' h => (by rw [e] at h; cases h; rfl), fun _ => ?_⟩
      rw [e, Section.size]
      exact ⟨fun _ => by omega, fun _ => ⟨_, rfl⟩⟩
  · have e : addString S s = .fatal := by unfold addString; rw [if_pos (by omega)]
    refine ⟨by rw [e]; simp; omega, fun S' h => (by rw [e] at h; cases h), fun h => by omega⟩

/-- Offsets are those of the entries laid out one after the other, hence even and distinct: two
accepted names at different positions have different offsets, the later one larger by at least
the size of the earlier one. -/
theorem C18_increasing (base size : Nat) (hb : base + size < 2 ^ 64) (S₀ : Section)
    (hnew : new base size = .ok S₀) (names : List (List Nat)) (hn : ∀ s ∈ names, s.length ≤ 65535)
    (S : Section) (os : List (Option Nat)) (hadd : addAll S₀ names = .ok (S, os))
    (i j : Nat) (s : List Nat) (o o' : Nat) (hij : i < j) (hs : names[i]? = some s)
    (hi : os[i]? = some (some o)) (hj : os[j]? = some (some o')) : o + 2 + s.length ≤ o' := by
  obtain ⟨h0, -, -⟩ := new_holds hb hnew
  clear hnew
  suffices ∀ (names : List (List Nat)) (S₀ : Section) (ss : List (List Nat)) (os : List (Option Nat)),
      Holds S₀ ss → (∀ s ∈ names, s.length ≤ maxLen) → addAll S₀ names = .ok (S, os) →
      (∀ (k o : Nat), os[k]? = some (some o) → S₀.pos ≤ o) ∧
      ∀ (i j o o' : Nat) (s : List Nat), i < j → names[i]? = some s → os[i]? = some (some o) →
        os[j]? = some (some o') → o + 2 + s.length ≤ o' from
    (this names S₀ [] os h0 hn hadd).2 i j o o' s hij hs hi hj
  clear hs hi hj hij hadd hn h0 os names o o' s i j
  intro names
  induction names with
  | nil => intro S₀ ss os h _ he; simp [addAll] at he; obtain ⟨-, rfl⟩ := he; simp
  | cons x rest ih =>
    intro S₀ ss os h hl he
    have hx := hl x (by simp)
    have hl' : ∀ s ∈ rest, s.length ≤ maxLen := fun y hy => hl y (by simp [hy])
    have hge := allocatedLen_ge x.length
    rcases addString_spec h hx with ⟨-, S1, h1, h2, h3, h4⟩ | ⟨-, h1⟩
    · obtain ⟨S2, os', g1, -⟩ := addAll_spec rest h2 hl'
      simp only [addAll, h1, Res.bind_ok, g1, Res.pure_eq, Res.ok.injEq, Prod.mk.injEq] at he
      obtain ⟨rfl, rfl⟩ := he
      obtain ⟨k1, k2⟩ := ih S1 _ os' h2 hl' g1
      have hp : S1.pos = S₀.pos + allocatedLen x.length := by
        rw [h2.pos, h.pos]; simp
      refine ⟨?_, ?_⟩
      · intro k o hk
        cases k with
        | zero => simp at hk; omega
        | succ k => have := k1 k o (by simpa using hk); omega
      · intro i j o o' s hij hs hi hj
        obtain ⟨j, rfl⟩ : ∃ k, j = k + 1 := ⟨j - 1, by omega⟩
        cases i with
        | zero =>
          simp only [List.getElem?_cons_zero, Option.some.injEq] at hs hi
          subst hs hi
          have := k1 j o' (by simpa using hj); omega
        | succ i => exact k2 i j o o' s (by omega) (by simpa using hs) (by simpa using hi) (by simpa using hj)
    · obtain ⟨S2, os', g1, -⟩ := addAll_spec rest h hl'
      simp only [addAll, h1, Res.bind_ok, g1, Res.pure_eq, Res.ok.injEq, Prod.mk.injEq] at he
      obtain ⟨rfl, rfl⟩ := he
      obtain ⟨k1, k2⟩ := ih _ _ os' h hl' g1
      refine ⟨?_, ?_⟩
      · intro k o hk
        cases k with
        | zero => simp at hk
        | succ k => exact k1 k o (by simpa using hk)
      · intro i j o o' s hij hs hi hj
        obtain ⟨j, rfl⟩ : ∃ k, j = k + 1 := ⟨j - 1, by omega⟩
        cases i with
        | zero => simp at hi
        | succ i => exact k2 i j o o' s (by omega) (by simpa using hs) (by simpa using hi) (by simpa using hj)

/-- A table of 12 bytes: "abc" (3 bytes, 6 with length and padding) and the empty name fit, "xyz"
does not, "q" does. -/
example : ∃ S₀ S, new 64 12 = .ok S₀ ∧ addAll S₀ [[97, 98, 99], [], [120, 121, 122], [113]] =
      .ok (S, [some 0, some 6, none, some 8]) ∧
    S.mem = [3, 0, 97, 98, 99, 0, 0, 0, 1, 0, 113, 0] ∧ fromOffset S 0 = .ok [97, 98, 99] ∧
    strings S = .ok [[97, 98, 99], [], [113]] := by
  refine ⟨_, _, rfl, rfl, ?_⟩; decide

end Verif
