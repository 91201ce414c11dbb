import Verif.RegionLemmas
import Verif.Spec.Regions
/- C39: tainted byte offsets are grouped into exact maximal regions. -/
namespace Verif
open Spec Py

/-- A region as source, first offset and one past the last offset. -/
def Py.Region.bounds (r : Region) : InputRef × Nat × Nat := (r.source, r.offset, r.offset + r.length)

theorem bounds_mkRegion {i : InputRef} {r : Nat × Nat} (h : r.1 < r.2) : (mkRegion i r).bounds = (i, r) := by
  simp only [mkRegion, Region.bounds]
  rw [show r.1 + (r.2 - r.1) = r.2 by omega]

/-- What the grouping yields for a list that starts with the offsets of one input. -/
theorem toRegions_bounds (i : InputRef) (l : List Nat) (l2 : List ByteOffset) (hl : l ≠ []) (hp : l.Pairwise (· < ·))
    (h2 : ∀ o ∈ l2, o.source ≠ i) :
    (toRegions (l.map (fun o => ⟨i, o⟩) ++ l2) true).map Region.bounds =
      (chunkLoop none l).map (fun r => (i, r)) ++ l2.map (fun o => (o.source, o.offset, o.offset + 1)) := by
  rw [toRegions_eq i l l2 hl hp h2, List.map_append, List.map_map, List.map_map]
  congr 1
  apply List.map_congr_left
  intro r hr
  exact bounds_mkRegion ((chunkLoop_runs l (hp.imp Nat.le_of_lt)).nonempty r hr)

theorem toRegions_covers (i : InputRef) (l : List Nat) (l2 : List ByteOffset) (hl : l ≠ []) (hp : l.Pairwise (· < ·))
    (h2 : ∀ o ∈ l2, o.source ≠ i) (hn : l2.Nodup) :
    CoversOnce ((toRegions (l.map (fun o => ⟨i, o⟩) ++ l2) true).map Region.bounds)
      (fun s o => ⟨s, o⟩ ∈ l.map (fun o => (⟨i, o⟩ : ByteOffset)) ++ l2) := by
  rw [toRegions_bounds i l l2 hl hp h2]
  have hr := chunkLoop_runs l (hp.imp Nat.le_of_lt)
  refine ⟨?_, ?_, ?_⟩
  · intro r hr'
    rcases List.mem_append.1 hr' with h | h
    · obtain ⟨c, hc, rfl⟩ := List.mem_map.1 h
      exact hr.nonempty c hc
    · obtain ⟨c, hc, rfl⟩ := List.mem_map.1 h
      simp
  · rw [List.pairwise_append]
    refine ⟨?_, ?_, ?_⟩
    · rw [List.pairwise_map]
      refine hr.apart.imp ?_
      intro a b h _
      simp only
      omega
    · rw [List.pairwise_map]
      refine hn.imp ?_
      intro a b h e
      simp only at e ⊢
      have : a.offset ≠ b.offset := by
        intro e'
        apply h
        cases a; cases b
        simp_all
      omega
    · intro a ha b hb e
      obtain ⟨c, hc, rfl⟩ := List.mem_map.1 ha
      obtain ⟨o, ho, rfl⟩ := List.mem_map.1 hb
      exact absurd e.symm (h2 o ho)
  · intro s o
    simp only [List.mem_append, List.mem_map, ByteOffset.mk.injEq]
    constructor
    · rintro ⟨r, ⟨c, hc, rfl⟩ | ⟨c, hc, rfl⟩, h1, h3, h4⟩
      · left
        exact ⟨o, (hr.covers o).1 ⟨c, hc, h3, h4⟩, h1, rfl⟩
      · right
        simp only at h1 h3 h4
        have : c = ⟨s, o⟩ := by
          cases c
          simp only at h1 h3 h4
          rw [ByteOffset.mk.injEq]
          exact ⟨h1, by omega⟩
        rw [← this]
        exact hc
    · rintro (⟨x, hx, h1, rfl⟩ | h)
      · obtain ⟨c, hc, h3⟩ := (hr.covers x).2 hx
        exact ⟨(i, c), .inl ⟨c, hc, rfl⟩, h1, h3⟩
      · exact ⟨(s, o, o + 1), .inr ⟨_, h, rfl⟩, rfl, Nat.le_refl _, Nat.lt_succ_self _⟩

/-! ### Collections -/

/-- The first group of a collection and the rest of the offsets. -/
theorem iter_cons {l : List ByteOffset} {s : InputRef} {os : List ByteOffset} {t : Dict InputRef (List ByteOffset)}
    (h : IsTaints l ((s, os) :: t)) :
    (∀ o ∈ Taints.iter t, o.source ≠ s) ∧ (Taints.iter t).Nodup ∧
    ∀ o, o ∈ Taints.iter t ↔ o ∈ l ∧ o.source ≠ s := by
  have hk := h.keys
  simp only [Dict.keys, List.map_cons, List.nodup_cons] at hk
  have hmem : ∀ o, o ∈ Taints.iter t ↔ o ∈ l ∧ o.source ≠ s := by
    intro o
    simp only [Taints.iter, List.mem_flatMap]
    constructor
    · rintro ⟨p, hp, ho⟩
      obtain ⟨ns, _, _, e, hns⟩ := h.group p.1 p.2 (List.mem_cons_of_mem _ hp)
      rw [e] at ho
      obtain ⟨n, hn, rfl⟩ := List.mem_map.1 ho
      refine ⟨(hns n).1 hn, ?_⟩
      simp only
      intro e'
      exact hk.1 (List.mem_map.2 ⟨p, hp, e'⟩)
    · rintro ⟨ho, hne⟩
      have := h.all o ho
      simp only [Dict.keys, List.map_cons, List.mem_cons] at this
      rcases this with e | this
      · exact absurd e hne
      · obtain ⟨p, hp, e⟩ := List.mem_map.1 this
        refine ⟨p, hp, ?_⟩
        obtain ⟨ns, _, _, e', hns⟩ := h.group p.1 p.2 (List.mem_cons_of_mem _ hp)
        rw [e']
        refine List.mem_map.2 ⟨o.offset, (hns _).2 ?_, ?_⟩
        · rw [e]; exact ho
        · rw [e]
  refine ⟨fun o ho => ((hmem o).1 ho).2, ?_, hmem⟩
  have aux : ∀ t' : Dict InputRef (List ByteOffset), t'.keys.Nodup →
      (∀ p ∈ t', ∃ ns : List Nat, ns.Pairwise (· < ·) ∧ p.2 = ns.map (fun o => ⟨p.1, o⟩)) → (Taints.iter t').Nodup := by
    intro t'
    induction t' with
    | nil => intro _ _; simp [Taints.iter]
    | cons p t' ih =>
      intro h1 h2
      simp only [Dict.keys, List.map_cons, List.nodup_cons] at h1
      have hc : Taints.iter (p :: t') = p.2 ++ Taints.iter t' := rfl
      rw [hc, List.nodup_append]
      refine ⟨?_, ih h1.2 (fun q hq => h2 q (List.mem_cons_of_mem _ hq)), ?_⟩
      · obtain ⟨ns, hlt, e⟩ := h2 p List.mem_cons_self
        rw [e]
        refine List.Pairwise.map _ ?_ hlt
        intro a b hab e'
        cases e'
        omega
      · intro a ha b hb e
        subst e
        obtain ⟨ns, _, e1⟩ := h2 p List.mem_cons_self
        rw [e1] at ha
        obtain ⟨n, _, rfl⟩ := List.mem_map.1 ha
        simp only [Taints.iter, List.mem_flatMap] at hb
        obtain ⟨q, hq, hb⟩ := hb
        obtain ⟨ms, _, e2⟩ := h2 q (List.mem_cons_of_mem _ hq)
        rw [e2] at hb
        obtain ⟨m, _, e3⟩ := List.mem_map.1 hb
        exact h1.1 (List.mem_map.2 ⟨q, hq, congrArg ByteOffset.source e3⟩)
  apply aux t hk.2
  intro p hp
  obtain ⟨ns, _, hlt, e, _⟩ := h.group p.1 p.2 (List.mem_cons_of_mem _ hp)
  exact ⟨ns, hlt, e⟩

theorem taints_nil {l : List ByteOffset} (h : IsTaints l []) : l = [] := by
  cases l with
  | nil => rfl
  | cons o l =>
    have := h.all o List.mem_cons_self
    simp [Dict.keys] at this

/-- The regions of a collection cover exactly the given offsets, each once: any offsets of any inputs,
in any order and with repetitions. -/
theorem C39_covers (l : List ByteOffset) :
    CoversOnce ((Taints.regions (Taints.mk l)).map Region.bounds) (fun s o => ⟨s, o⟩ ∈ l) := by
  have h := taints_mk l
  cases ht : Taints.mk l with
  | nil =>
    rw [ht] at h
    rw [taints_nil h]
    refine ⟨?_, ?_, ?_⟩ <;> simp [Taints.regions, toRegions, Taints.iter, regionLoop]
  | cons p t =>
    obtain ⟨s, os⟩ := p
    rw [ht] at h
    obtain ⟨ns, hne, hlt, e, hns⟩ := h.group s os List.mem_cons_self
    obtain ⟨h1, h2, h3⟩ := iter_cons h
    have := toRegions_covers s ns (Taints.iter t) hne hlt h1 h2
    have hreg : Taints.regions ((s, os) :: t) = toRegions (ns.map (fun o => ⟨s, o⟩) ++ Taints.iter t) true := by
      rw [← e]; rfl
    rw [hreg]
    have hP : (fun s' o => (⟨s', o⟩ : ByteOffset) ∈ ns.map (fun o => (⟨s, o⟩ : ByteOffset)) ++ Taints.iter t) =
        (fun s' o => (⟨s', o⟩ : ByteOffset) ∈ l) := by
      funext s' o
      simp only [List.mem_append, h3, List.mem_map, ByteOffset.mk.injEq, eq_iff_iff]
      constructor
      · rintro (⟨x, hx, rfl, rfl⟩ | ⟨h, _⟩)
        · exact (hns _).1 hx
        · exact h
      · intro hin
        by_cases e : s' = s
        · subst e
          exact .inl ⟨o, (hns o).2 hin, rfl, rfl⟩
        · exact .inr ⟨hin, e⟩
    rw [hP] at this
    exact this

/-- The number of bytes of a collection and its iteration: every given offset once. -/
theorem C39_iterates (l : List ByteOffset) :
    (Taints.iter (Taints.mk l)).Nodup ∧ (∀ o, o ∈ Taints.iter (Taints.mk l) ↔ o ∈ l) ∧
    Taints.len (Taints.mk l) = (Taints.iter (Taints.mk l)).length := by
  refine ⟨?_, ?_, ?_⟩
  · have h := taints_mk l
    cases ht : Taints.mk l with
    | nil => simp [Taints.iter]
    | cons p t =>
      obtain ⟨s, os⟩ := p
      rw [ht] at h
      obtain ⟨ns, hne, hlt, e, hns⟩ := h.group s os List.mem_cons_self
      obtain ⟨h1, h2, h3⟩ := iter_cons h
      have hc : Taints.iter ((s, os) :: t) = os ++ Taints.iter t := rfl
      rw [hc, List.nodup_append]
      refine ⟨?_, h2, ?_⟩
      · rw [e]
        refine List.Pairwise.map _ ?_ hlt
        intro a b hab e'
        cases e'
        omega
      · intro a ha b hb e'
        subst e'
        rw [e] at ha
        obtain ⟨n, _, rfl⟩ := List.mem_map.1 ha
        exact h1 _ hb rfl
  · intro o
    have h := taints_mk l
    simp only [Taints.iter, List.mem_flatMap]
    constructor
    · rintro ⟨p, hp, ho⟩
      obtain ⟨ns, _, _, e, hns⟩ := h.group p.1 p.2 hp
      rw [e] at ho
      obtain ⟨n, hn, rfl⟩ := List.mem_map.1 ho
      exact (hns n).1 hn
    · intro ho
      obtain ⟨p, hp, e⟩ := List.mem_map.1 (h.all o ho)
      refine ⟨p, hp, ?_⟩
      obtain ⟨ns, _, _, e', hns⟩ := h.group p.1 p.2 hp
      rw [e', e]
      exact List.mem_map.2 ⟨o.offset, (hns _).2 (by rw [e]; exact ho), rfl⟩
  · simp [Taints.len, Taints.iter, List.length_flatMap]

theorem set_head {d : Dict InputRef (List ByteOffset)} {p : InputRef × List ByteOffset} (k : InputRef) (v : List ByteOffset) :
    ∃ w d', Dict.set (p :: d) k v = (p.1, w) :: d' := by
  obtain ⟨a, b⟩ := p
  simp only [Dict.set]
  split
  · rename_i e; subst e; exact ⟨_, _, rfl⟩
  · exact ⟨_, _, rfl⟩

theorem groupBySource_head : ∀ (l : List ByteOffset) (d : Dict InputRef (List ByteOffset)) (p : InputRef × List ByteOffset),
    ∃ w d', groupBySource l (p :: d) = (p.1, w) :: d' := by
  intro l
  induction l with
  | nil => intro d p; exact ⟨p.2, d, rfl⟩
  | cons o l ih =>
    intro d p
    obtain ⟨w, d', e⟩ := set_head (d := d) (p := p) o.source (addNew ((Dict.get (p :: d) o.source).getD []) o)
    simp only [groupBySource]
    rw [e]
    exact ih d' (p.1, w)

theorem mk_head (o : ByteOffset) (l : List ByteOffset) :
    ∃ os t, Taints.mk (o :: l) = (o.source, os) :: t := by
  obtain ⟨w, d', e⟩ := groupBySource_head l [] (o.source, addNew [] o)
  have h : groupBySource (o :: l) [] = groupBySource l [(o.source, addNew [] o)] := rfl
  simp only [Taints.mk, h, e, List.map_cons]
  exact ⟨_, _, rfl⟩

theorem filter_pair (i s : InputRef) (cs : List (Nat × Nat)) :
    ((cs.map (fun r => (i, r))).filter fun r => decide (r.1 = s)) = if i = s then cs.map (fun r => (i, r)) else [] := by
  split
  · rename_i h
    rw [List.filter_eq_self]
    intro a ha
    obtain ⟨r, _, rfl⟩ := List.mem_map.1 ha
    simpa using h
  · rename_i h
    rw [List.filter_eq_nil_iff]
    intro a ha
    obtain ⟨r, _, rfl⟩ := List.mem_map.1 ha
    simpa using h

/-- The regions of the input that comes first in the collection are its maximal runs.
Missing for the full claim: the other inputs (`C39_others_split`, `C39_maximal_refuted`). -/
theorem C39_first_partial (o : ByteOffset) (l : List ByteOffset) :
    MaximalFor ((Taints.regions (Taints.mk (o :: l))).map Region.bounds) (fun s x => ⟨s, x⟩ ∈ o :: l) o.source := by
  have h := taints_mk (o :: l)
  obtain ⟨os, t, ht⟩ := mk_head o l
  rw [ht] at h ⊢
  obtain ⟨ns, hne, hlt, e, hns⟩ := h.group _ os List.mem_cons_self
  obtain ⟨h1, h2, h3⟩ := iter_cons h
  have hreg : Taints.regions ((o.source, os) :: t) = toRegions (ns.map (fun x => ⟨o.source, x⟩) ++ Taints.iter t) true := by
    rw [← e]; rfl
  rw [hreg, toRegions_bounds _ ns _ hne hlt h1, MaximalFor, List.filter_append, filter_pair, if_pos rfl]
  rw [List.filter_eq_nil_iff.2 (by
    intro a ha
    obtain ⟨x, hx, rfl⟩ := List.mem_map.1 ha
    simpa using h1 x hx), List.append_nil, List.map_map]
  have hid : ((fun r : InputRef × Nat × Nat => r.2) ∘ fun r => (o.source, r)) = id := rfl
  simp only [hid, List.map_id]
  have := chunkLoop_runs ns (hlt.imp Nat.le_of_lt)
  have hP : (fun x => x ∈ ns) = (fun x => (⟨o.source, x⟩ : ByteOffset) ∈ o :: l) := by
    funext x
    exact propext (hns x)
  rw [hP] at this
  exact this

/-- Restricting a collection to one input first, as its documentation advises, gives exactly the maximal
runs of that input and no region of another input. -/
theorem C39_from_source (l : List ByteOffset) (s : InputRef) :
    MaximalFor ((Taints.regions (Taints.fromSource (Taints.mk l) s)).map Region.bounds) (fun s x => ⟨s, x⟩ ∈ l) s ∧
    ∀ r ∈ Taints.regions (Taints.fromSource (Taints.mk l) s), r.source = s := by
  have h := taints_mk l
  have hmem : ∃ os, ((Taints.mk l).get s).getD [] = os ∧ ∀ x, x ∈ os ↔ x ∈ l ∧ x.source = s := by
    cases hg : (Taints.mk l).get s with
    | none =>
      refine ⟨[], rfl, fun x => ?_⟩
      simp only [List.not_mem_nil, false_iff]
      rintro ⟨h1, rfl⟩
      exact (Dict.get_none_iff _ _).1 hg (h.all x h1)
    | some os =>
      refine ⟨os, rfl, fun x => ?_⟩
      obtain ⟨ns, _, _, e, hns⟩ := h.group s os (Dict.mem_of_get hg)
      rw [e, List.mem_map]
      constructor
      · rintro ⟨n, hn, rfl⟩; exact ⟨(hns n).1 hn, rfl⟩
      · rintro ⟨h1, rfl⟩; exact ⟨x.offset, (hns _).2 h1, rfl⟩
  obtain ⟨os, hos, hm⟩ := hmem
  rw [Taints.fromSource, hos]
  constructor
  · have hP : (fun x => (⟨s, x⟩ : ByteOffset) ∈ l) = (fun x => (⟨s, x⟩ : ByteOffset) ∈ os) := by
      funext x
      rw [hm]
      simp
    cases os with
    | nil =>
      rw [MaximalFor, hP]
      exact maximalRuns_of (by simp [Taints.regions, Taints.mk, groupBySource, Taints.iter, toRegions, regionLoop])
        (by simp [Taints.regions, Taints.mk, groupBySource, Taints.iter, toRegions, regionLoop])
        (by simp [Taints.regions, Taints.mk, groupBySource, Taints.iter, toRegions, regionLoop])
    | cons o os =>
      have hs : o.source = s := ((hm o).1 List.mem_cons_self).2
      have := C39_first_partial o os
      rw [MaximalFor, hs] at this
      rw [MaximalFor, hP]
      exact this
  · intro r hr
    have hc := C39_covers os
    have hb : r.bounds ∈ (Taints.regions (Taints.mk os)).map Region.bounds := List.mem_map.2 ⟨r, hr, rfl⟩
    have hlt := hc.nonempty _ hb
    have := (hc.covers r.source r.offset).1 ⟨_, hb, rfl, Nat.le_refl _, hlt⟩
    exact ((hm _).1 this).2

/-- Every region of an input other than the first one is a single byte. -/
theorem C39_others_split (o : ByteOffset) (l : List ByteOffset) :
    ∀ r ∈ Taints.regions (Taints.mk (o :: l)), r.source ≠ o.source → r.length = 1 := by
  have h := taints_mk (o :: l)
  obtain ⟨os, t, ht⟩ := mk_head o l
  rw [ht] at h ⊢
  obtain ⟨ns, hne, hlt, e, hns⟩ := h.group _ os List.mem_cons_self
  obtain ⟨h1, h2, h3⟩ := iter_cons h
  have hreg : Taints.regions ((o.source, os) :: t) = toRegions (ns.map (fun x => ⟨o.source, x⟩) ++ Taints.iter t) true := by
    rw [← e]; rfl
  rw [hreg, toRegions_eq _ ns _ hne hlt h1]
  intro r hr hs
  rcases List.mem_append.1 hr with h | h
  · obtain ⟨c, _, rfl⟩ := List.mem_map.1 h
    exact absurd rfl hs
  · obtain ⟨c, _, rfl⟩ := List.mem_map.1 h
    rfl

/-- So the claim is false for collections over several inputs: as soon as two consecutive bytes of an
input that is not the first one are present, its regions are not maximal. -/
theorem C39_maximal_refuted (o : ByteOffset) (l : List ByteOffset) (s : InputRef) (x : Nat) (hs : s ≠ o.source)
    (h1 : ⟨s, x⟩ ∈ l) (h2 : ⟨s, x + 1⟩ ∈ l) :
    ¬ MaximalFor ((Taints.regions (Taints.mk (o :: l))).map Region.bounds) (fun s x => ⟨s, x⟩ ∈ o :: l) s := by
  intro hm
  obtain ⟨c, hc, hx⟩ := (hm.covers x).2 (List.mem_cons_of_mem _ h1)
  obtain ⟨b, hb, rfl⟩ := List.mem_map.1 hc
  obtain ⟨hb, hbs⟩ := List.mem_filter.1 hb
  obtain ⟨r, hr, rfl⟩ := List.mem_map.1 hb
  have hbs : r.source = s := of_decide_eq_true hbs
  simp only [Region.bounds] at hx
  have hl := C39_others_split o l r hr (by rw [hbs]; exact hs)
  have := (hm.maximal _ hc).1
  apply this
  simp only [Region.bounds]
  rw [show r.offset + r.length = x + 1 by omega]
  exact List.mem_cons_of_mem _ h2

/-- Two inputs, the second with two consecutive bytes. -/
example : ∃ (o : ByteOffset) (l : List ByteOffset) (s : InputRef) (x : Nat), s ≠ o.source ∧ ⟨s, x⟩ ∈ l ∧ ⟨s, x + 1⟩ ∈ l :=
  ⟨⟨⟨3, [97]⟩, 0⟩, [⟨⟨4, [98]⟩, 7⟩, ⟨⟨4, [98]⟩, 8⟩], ⟨4, [98]⟩, 7, by decide, by decide, by decide⟩

/-! ### Lists of offsets and differences -/

theorem sorted_split : ∀ (l : List ByteOffset) (o : ByteOffset),
    (∀ a ∈ o :: l, ∀ b ∈ o :: l, a.source.uid = b.source.uid → a.source = b.source) →
    (o :: l).Pairwise (fun a b => a.le b = true) → (o :: l).Nodup →
    ∃ (ns : List Nat) (l2 : List ByteOffset), ns ≠ [] ∧ ns.Pairwise (· < ·) ∧
      o :: l = ns.map (fun x => ⟨o.source, x⟩) ++ l2 ∧ (∀ x ∈ l2, x.source ≠ o.source) := by
  intro l o hu hp hn
  let f : ByteOffset → Bool := fun x => decide (x.source = o.source)
  have hsplit : (o :: l).takeWhile f ++ (o :: l).dropWhile f = o :: l := List.takeWhile_append_dropWhile
  have hpre : ((o :: l).takeWhile f).Sublist (o :: l) := List.takeWhile_sublist f
  obtain ⟨e, hlt⟩ := sorted_source (s := o.source) (hn.sublist hpre)
    (fun x hx => of_decide_eq_true (List.all_eq_true.1 List.all_takeWhile x hx)) (hp.sublist hpre)
  refine ⟨_, (o :: l).dropWhile f, ?_, hlt, ?_, ?_⟩
  · simp [f]
  · rw [← e, hsplit]
  · have hsuf : ((o :: l).dropWhile f).Sublist (o :: l) := List.dropWhile_sublist f
    have hp2 := hp.sublist hsuf
    intro x hx
    cases hd : (o :: l).dropWhile f with
    | nil => rw [hd] at hx; cases hx
    | cons y ys =>
      have hy : f y = false := by
        have := List.head_dropWhile_not f (l := o :: l) (by rw [hd]; simp)
        simpa [hd] using this
      have hymem : y ∈ o :: l := hsuf.subset (by rw [hd]; exact List.mem_cons_self)
      have hxmem : x ∈ o :: l := hsuf.subset hx
      simp only [f, decide_eq_false_iff_not] at hy
      have hoy : o.le y = true := by
        rcases List.mem_cons.1 hymem with h | h
        · exact absurd (h ▸ rfl) hy
        · exact (List.pairwise_cons.1 hp).1 y h
      have hyx : y = x ∨ y.le x = true := by
        rw [hd] at hx hp2
        rcases List.mem_cons.1 hx with h | h
        · exact .inl h.symm
        · exact .inr ((List.pairwise_cons.1 hp2).1 x h)
      have huy : o.source.uid ≠ y.source.uid := fun h => hy (hu o List.mem_cons_self y hymem h).symm
      rcases hyx with rfl | hyx
      · exact hy
      · intro ex
        simp only [ByteOffset.le, Bool.or_eq_true, decide_eq_true_eq, Bool.and_eq_true, beq_iff_eq] at hoy hyx
        rw [ex] at hyx
        omega

theorem toRegions_sorted_covers (l : List ByteOffset)
    (hu : ∀ a ∈ l, ∀ b ∈ l, a.source.uid = b.source.uid → a.source = b.source)
    (hp : l.Pairwise (fun a b => a.le b = true)) (hn : l.Nodup) :
    CoversOnce ((toRegions l true).map Region.bounds) (fun s x => ⟨s, x⟩ ∈ l) := by
  cases l with
  | nil => refine ⟨?_, ?_, ?_⟩ <;> simp [toRegions, regionLoop]
  | cons o l =>
    obtain ⟨ns, l2, h1, h2, h3, h4⟩ := sorted_split l o hu hp hn
    rw [h3] at hn ⊢
    exact toRegions_covers o.source ns l2 h1 h2 h4 (List.nodup_append.1 hn).2.1

/-- Grouping a list of distinct offsets covers exactly those offsets if inputs with the same uid are the
same input. Missing for the full claim: maximality for every input, repetitions in the list, and inputs
that share a uid (`C39_shared_uid_refuted`). -/
theorem C39_to_regions_partial (l : List ByteOffset)
    (hu : ∀ a ∈ l, ∀ b ∈ l, a.source.uid = b.source.uid → a.source = b.source) (hn : l.Nodup) :
    CoversOnce ((toRegions l false).map Region.bounds) (fun s x => ⟨s, x⟩ ∈ l) := by
  have hperm := sortOffsets_perm l
  have := toRegions_sorted_covers (sortOffsets l)
    (fun a ha b hb => hu a (hperm.mem_iff.1 ha) b (hperm.mem_iff.1 hb)) (sortOffsets_sorted l) (hperm.nodup_iff.2 hn)
  have hP : (fun s x => (⟨s, x⟩ : ByteOffset) ∈ sortOffsets l) = (fun s x => ⟨s, x⟩ ∈ l) := by
    funext s x
    exact propext hperm.mem_iff
  rw [hP] at this
  exact this

/-- The difference of two collections: exactly the offsets in the first and not in the second, and, if
inputs with the same uid are the same input, the regions cover exactly those. -/
theorem C39_diff_partial (l1 l2 : List ByteOffset) :
    (∀ o, o ∈ TaintDiff.onlyInFirst (Taints.mk l1) (Taints.mk l2) ↔ o ∈ l1 ∧ o ∉ l2) ∧
    (TaintDiff.onlyInFirst (Taints.mk l1) (Taints.mk l2)).Nodup ∧
    ((∀ a ∈ l1, ∀ b ∈ l1, a.source.uid = b.source.uid → a.source = b.source) →
      CoversOnce ((TaintDiff.regionsOnlyInFirst (Taints.mk l1) (Taints.mk l2)).map Region.bounds)
        (fun s x => ⟨s, x⟩ ∈ l1 ∧ ⟨s, x⟩ ∉ l2)) := by
  obtain ⟨n1, m1, -⟩ := C39_iterates l1
  obtain ⟨-, m2, -⟩ := C39_iterates l2
  have hperm := sortOffsets_perm ((Taints.iter (Taints.mk l1)).filter fun o => decide (o ∉ Taints.iter (Taints.mk l2)))
  have hmem : ∀ o, o ∈ TaintDiff.onlyInFirst (Taints.mk l1) (Taints.mk l2) ↔ o ∈ l1 ∧ o ∉ l2 := by
    intro o
    rw [TaintDiff.onlyInFirst, hperm.mem_iff, List.mem_filter]
    simp only [decide_eq_true_eq, m1, m2]
  have hnd : (TaintDiff.onlyInFirst (Taints.mk l1) (Taints.mk l2)).Nodup := hperm.nodup_iff.2 (n1.filter _)
  refine ⟨hmem, hnd, fun hu => ?_⟩
  have := toRegions_sorted_covers (TaintDiff.onlyInFirst (Taints.mk l1) (Taints.mk l2))
    (fun a ha b hb => hu a ((hmem a).1 ha).1 b ((hmem b).1 hb).1) (sortOffsets_sorted _) hnd
  have hP : (fun s x => (⟨s, x⟩ : ByteOffset) ∈ TaintDiff.onlyInFirst (Taints.mk l1) (Taints.mk l2)) =
      (fun s x => ⟨s, x⟩ ∈ l1 ∧ ⟨s, x⟩ ∉ l2) := by
    funext s x
    exact propext (hmem _)
  rw [hP] at this
  exact this

/-- Two files that were open one after the other under the same descriptor have the same uid. Their
offsets are interleaved when sorted, and a region that starts in one file continues into the other: byte
5 of the second file is reported although only bytes 0 and 5 of the first and byte 4 of the second were
given, and byte 5 of the first is lost. -/
theorem C39_shared_uid_refuted : ∃ (l : List ByteOffset) (a b : InputRef), a.uid = b.uid ∧ a ≠ b ∧ l.Nodup ∧
    l.Pairwise (fun x y => x.le y = true) ∧
    (∃ r ∈ toRegions l true, r.source = b ∧ r.offset ≤ 5 ∧ 5 < r.offset + r.length) ∧ ⟨b, 5⟩ ∉ l ∧
    ⟨a, 5⟩ ∈ l ∧ ¬ ∃ r ∈ toRegions l true, r.source = a ∧ r.offset ≤ 5 ∧ 5 < r.offset + r.length :=
  ⟨[⟨⟨3, [97]⟩, 0⟩, ⟨⟨3, [98]⟩, 4⟩, ⟨⟨3, [97]⟩, 5⟩], ⟨3, [97]⟩, ⟨3, [98]⟩, by decide, by decide, by decide, by decide,
    by decide, by decide, by decide, by decide⟩

/-- Repeated offsets in a list are reported repeatedly. -/
theorem C39_repeated_refuted :
    ¬ CoversOnce ((toRegions [⟨⟨3, [97]⟩, 4⟩, ⟨⟨3, [97]⟩, 4⟩] true).map Region.bounds)
      (fun s x => ⟨s, x⟩ ∈ [(⟨⟨3, [97]⟩, 4⟩ : ByteOffset), ⟨⟨3, [97]⟩, 4⟩]) := by
  intro h
  exact absurd h.once (by decide)

/-- Three inputs with distinct uids and distinct offsets. -/
example : ∃ l : List ByteOffset, (∀ a ∈ l, ∀ b ∈ l, a.source.uid = b.source.uid → a.source = b.source) ∧ l.Nodup ∧
    l.length = 4 :=
  ⟨[⟨⟨3, [97]⟩, 1⟩, ⟨⟨5, [98]⟩, 0⟩, ⟨⟨3, [97]⟩, 0⟩, ⟨⟨-1, [99]⟩, 9⟩], by decide, by decide, rfl⟩

end Verif
