import Verif.PyForest
import Verif.Props.C26
/- What the reader gets to see of a label graph. -/
namespace Verif
open Spec Py File Tracker

/-- The file shows label graph `g` with labels `1 .. n-1`: the graph is well-formed with closed flags,
the reader decodes every label to the node of its taint value, every source and every sink has a
header, and the source-label index lists the source labels. -/
structure Py.TDFile.Shows (F : TDFile) (g : Graph) (n : Nat) : Prop where
  pos : 0 < n
  wf : WellFormed g n
  closed : FlagsClosed g
  count : F.labelCount = some n
  node : ∀ l, 0 < l → F.decodeNode l = (g l).map nodeOf
  header : ∀ l cf i o, g l = some (.source cf i o) → i < F.fdHeaders.length
  sinks : ∃ ss, F.sinks = some ss ∧ ∀ s ∈ ss, 0 < s.label ∧ s.label < n ∧ s.fdidx < F.fdHeaders.length
  index : ∃ ls, F.inputLabels = some ls ∧ ls.Pairwise (· < ·) ∧
    ∀ l, l ∈ ls ↔ ∃ cf i o, g l = some (.source cf i o)

/-- Sources of label-store events are registered. -/
theorem Spec.labelEvents_src (h : Trace) {i o n f : Nat} (he : Event.source i o n f ∈ labelEvents h) :
    i < (registered h).length := by
  induction h with
  | nil => simp [labelEvents] at he
  | cons x h ih =>
    have hmono : (registered h).length ≤ (registered (x :: h)).length := by
      obtain ⟨m, hm⟩ := registered_prefix [x] h
      simp only [List.singleton_append] at hm
      rw [hm]; simp
    obtain ⟨cl, r⟩ := x
    have old : Event.source i o n f ∈ labelEvents h → i < (registered ((cl, r) :: h)).length :=
      fun k => Nat.lt_of_lt_of_le (ih k) hmono
    cases cl with
    | union a b =>
      cases r with
      | label u =>
        simp only [labelEvents, List.mem_append, List.mem_singleton] at he
        rcases he with he | he
        · exact old he
        · cases he
      | _ => exact old (by simpa [labelEvents] using he)
    | mark a =>
      simp only [labelEvents, List.mem_append, List.mem_singleton] at he
      rcases he with he | he
      · exact old he
      · cases he
    | read fd addr off len =>
      cases r with
      | range p =>
        cases p with
        | none => exact old (by simpa [labelEvents] using he)
        | some p =>
          obtain ⟨first, last⟩ := p
          rw [labelEvents] at he
          cases ho : owner h fd with
          | none => rw [ho] at he; exact old he
          | some j =>
            rw [ho] at he
            simp only [List.mem_append, List.mem_singleton] at he
            rcases he with he | he
            · exact old he
            · cases he
              obtain ⟨e, h1, -⟩ := lastIdx_spec (owner_eq h fd ▸ ho)
              exact Nat.lt_of_lt_of_le (List.getElem?_eq_some_iff.1 h1).1 hmono
      | _ => exact old (by simpa [labelEvents] using he)
    | input name addr len =>
      cases r with
      | range p =>
        cases p with
        | none => exact old (by simpa [labelEvents] using he)
        | some p =>
          obtain ⟨first, last⟩ := p
          simp only [labelEvents, List.mem_append, List.mem_singleton] at he
          rcases he with he | he
          · exact old he
          · cases he
            simp [registered]
      | _ => exact old (by simpa [labelEvents] using he)
    | _ => exact old (by simpa [labelEvents] using he)

/-- Every run that ends in an orderly way leaves a file that shows its label graph. -/
theorem shows_reach (c : Config) (base : Nat) (hc : c.Ok base) (h : Trace) (T : Tracker)
    (hr : Reach c base h T) (hroom : T.labels.words.length + 64 ≤ c.indexCap)
    (hu : ∀ n ∈ names h, utf8 n = true) (pads : Pads) :
    ∃ F, parse (File.closed pads c base T) = some F ∧ F.Shows T.labels.graph T.labels.words.length ∧
      Recovered c h T F := by
  obtain ⟨F, hF, hrec⟩ := (parse_reach hc hr hroom pads).1 hu
  obtain ⟨F', hF', -, hnode⟩ := C26_file c base hc h T hr hroom hu pads
  rw [hF] at hF'; cases hF'
  have hs := hr.sim hc
  have hg := hs.lab.reach.good hc.lab0 hc.lab
  have hlen : F.fdHeaders.length = (registered h).length := by
    have := congrArg List.length hrec.sources
    simpa using this
  obtain ⟨k1, k2⟩ := hs.lab.reach.kinds hc.lab0 hc.lab
  have hkind : ∀ l, (∃ b, GivenTo (labelEvents h) l b) ↔
      ∃ cf i o, T.labels.graph l = some (.source cf i o) := by
    intro l
    constructor
    · rintro ⟨b, hb⟩
      obtain ⟨l0, ll⟩ := k1 l b hb
      rcases k2 l l0 ll with ⟨x, cf, -, g⟩ | ⟨hn, -⟩
      · exact ⟨cf, _, _, g⟩
      · exact absurd hb (hn b)
    · rintro ⟨cf, i, o, hgr⟩
      have hl : 0 < l ∧ l < T.labels.words.length := by
        by_cases hl : l = 0 ∨ T.labels.words.length ≤ l
        · rw [hg.wf.graph.none l hl] at hgr; cases hgr
        · omega
      rcases k2 l hl.1 hl.2 with ⟨b, cf', hb, -⟩ | ⟨-, x, y, hne, hx, hy⟩
      · exact ⟨b, (hb b).2 rfl⟩
      · rw [denotes_iff hgr] at hx hy
        exact absurd (hx.trans hy.symm) hne
  refine ⟨F, hF, ⟨?_, hg.wf.graph, hg.closed, hrec.count, hnode, ?_, ?_, ?_⟩, hrec⟩
  · exact hg.wf.nonempty
  · intro l cf i o hgr
    obtain ⟨b, hb⟩ := (hkind l).2 ⟨cf, i, o, hgr⟩
    have hd := (hr.given hc hb).2.2
    have hbi : (i, o) = b := (hd (i, o)).1 (.source hgr)
    obtain ⟨s, o', n, f, he, -, -, hbe⟩ := hb
    rw [hlen]
    have := labelEvents_src h he
    rw [hbe] at hbi
    cases hbi
    exact this
  · refine ⟨_, hrec.sinks, ?_⟩
    intro s hsm
    obtain ⟨o, ho, rfl⟩ := List.mem_map.1 hsm
    obtain ⟨-, h2, h3, h4⟩ := hs.sinkOk o (List.mem_of_mem_take ho)
    exact ⟨h3, h2, by rw [hlen]; exact h4⟩
  · obtain ⟨ls, h1, h2, h3⟩ := hrec.index
    exact ⟨ls, h1, h2, fun l => (h3 l).trans (hkind l)⟩

end Verif
