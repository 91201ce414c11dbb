import Verif.PyForestGraph
import Verif.Props.C27
import Mathlib.Algebra.BigOperators.Group.Finset.Basic
/- Lemmas on the export of the taint forest as a graph. -/
namespace Verif
open Spec Py File Tracker
namespace Py

namespace Dg

theorem addNode_nodes (G : Dg) (x y : Int) : y ∈ (G.addNode x).nodes ↔ y ∈ G.nodes ∨ y = x := by
  rw [addNode]
  split
  · rename_i h
    constructor
    · exact Or.inl
    · rintro (h' | rfl)
      · exact h'
      · exact h
  · simp

theorem addNode_edges (G : Dg) (x : Int) : (G.addNode x).edges = G.edges := by
  rw [addNode]; split <;> rfl

theorem addEdge_nodes (G : Dg) (x y z : Int) : z ∈ (G.addEdge x y).nodes ↔ z ∈ G.nodes ∨ z = x ∨ z = y := by
  have : (G.addEdge x y).nodes = ((G.addNode x).addNode y).nodes := by
    rw [addEdge]; split <;> rfl
  rw [this, addNode_nodes, addNode_nodes, or_assoc]

theorem addEdge_edges (G : Dg) (x y : Int) (e : Int × Int) :
    e ∈ (G.addEdge x y).edges ↔ e ∈ G.edges ∨ e = (x, y) := by
  rw [addEdge]
  split
  · rename_i h
    rw [addNode_edges, addNode_edges] at h ⊢
    constructor
    · exact Or.inl
    · rintro (h' | rfl)
      · exact h'
      · exact h
  · simp [addNode_edges]

theorem addNode_nodup (G : Dg) (x : Int) (h : G.nodes.Nodup) : (G.addNode x).nodes.Nodup := by
  rw [addNode]
  split
  · exact h
  · rename_i hx
    rw [List.nodup_append]
    refine ⟨h, by simp, ?_⟩
    intro a ha b hb e
    rw [List.mem_singleton] at hb
    subst hb; subst e
    exact hx ha

theorem addEdge_nodup (G : Dg) (x y : Int) (h : G.nodes.Nodup) (h' : G.edges.Nodup) :
    (G.addEdge x y).nodes.Nodup ∧ (G.addEdge x y).edges.Nodup := by
  have h1 := addNode_nodup _ y (addNode_nodup G x h)
  rw [addEdge]
  split
  · exact ⟨h1, by rw [addNode_edges, addNode_edges]; exact h'⟩
  · rename_i hx
    refine ⟨h1, ?_⟩
    dsimp only
    rw [List.nodup_append]
    refine ⟨by rw [addNode_edges, addNode_edges]; exact h', by simp, ?_⟩
    intro a ha b hb e
    rw [List.mem_singleton] at hb
    subst hb; subst e
    exact hx ha

theorem mem_roots (G : Dg) (x : Int) : x ∈ G.roots ↔ x ∈ G.nodes ∧ ∀ p, (p, x) ∉ G.edges := by
  rw [roots, List.mem_filter, decide_eq_true_eq, inDegree, List.length_eq_zero_iff, List.filter_eq_nil_iff]
  refine and_congr_right fun _ => ?_
  constructor
  · intro h p hp
    exact h (p, x) hp (by simp)
  · rintro h ⟨a, b⟩ he hx
    simp only [decide_eq_true_eq] at hx
    subst hx
    exact h a he

theorem mem_insertSorted (x : Int) (l : List Int) (y : Int) : y ∈ insertSorted x l ↔ y = x ∨ y ∈ l := by
  induction l with
  | nil => simp [insertSorted]
  | cons a l ih =>
    rw [insertSorted]
    split
    · simp
    · simp only [List.mem_cons, ih]; tauto

theorem mem_sorted (l : List Int) (y : Int) : y ∈ sorted l ↔ y ∈ l := by
  induction l with
  | nil => simp [sorted]
  | cons a l ih => rw [sorted, mem_insertSorted, ih, List.mem_cons]

theorem insertSorted_pairwise (x : Int) (l : List Int) (h : l.Pairwise (· < ·)) (hx : x ∉ l) :
    (insertSorted x l).Pairwise (· < ·) := by
  induction l with
  | nil => simp [insertSorted]
  | cons a l ih =>
    rw [List.pairwise_cons] at h
    rw [List.mem_cons, not_or] at hx
    rw [insertSorted]
    split
    · rename_i hle
      have hlt : x < a := by omega
      rw [List.pairwise_cons, List.pairwise_cons]
      refine ⟨?_, h⟩
      intro b hb
      rcases List.mem_cons.1 hb with rfl | hb
      · exact hlt
      · exact Int.lt_trans hlt (h.1 b hb)
    · rename_i hle
      rw [List.pairwise_cons]
      refine ⟨?_, ih h.2 hx.2⟩
      intro b hb
      rcases (mem_insertSorted x l b).1 hb with rfl | hb
      · omega
      · exact h.1 b hb

theorem sorted_pairwise (l : List Int) (h : l.Nodup) : (sorted l).Pairwise (· < ·) := by
  induction l with
  | nil => simp [sorted]
  | cons a l ih =>
    rw [List.nodup_cons] at h
    exact insertSorted_pairwise a _ (ih h.2) (by rw [mem_sorted]; exact h.1)

theorem mem_edgeView (G : Dg) (h : ∀ p x, (p, x) ∈ G.edges → p ∈ G.nodes) (e : Int × Int) :
    e ∈ G.edgeView ↔ e ∈ G.edges := by
  rw [edgeView, List.mem_flatMap]
  constructor
  · rintro ⟨x, -, hx⟩
    exact (List.mem_filter.1 hx).1
  · intro he
    exact ⟨e.1, h e.1 e.2 he, List.mem_filter.2 ⟨he, by simp⟩⟩

theorem edgeView_nodup (G : Dg) (hn : G.nodes.Nodup) (he : G.edges.Nodup) : G.edgeView.Nodup := by
  rw [edgeView, List.nodup_flatMap]
  refine ⟨fun x _ => he.filter _, ?_⟩
  refine List.Pairwise.imp ?_ hn
  intro a b hab e h1 h2
  have h1 := (List.mem_filter.1 h1).2
  have h2 := (List.mem_filter.1 h2).2
  simp only [decide_eq_true_eq] at h1 h2
  exact hab (h1.symm.trans h2)

end Dg

namespace Forest

/-- The number of synthetic nodes a label needs. -/
def extra (g : Graph) (l : Nat) : Nat :=
  match g l with
  | some (.range _ f t) => t - f - 1
  | _ => 0

/-- Synthetic nodes there are for a label. -/
def shown (g : Graph) (st : Forest) (l : Nat) : Nat :=
  match st.cache.get (l : Int) with
  | some (some _) => extra g l
  | _ => 0

/-- The number of synthetic nodes is that of the labels unfolded so far. -/
def Counted (g : Graph) (n : Nat) (st : Forest) : Prop :=
  -1 - st.cnt = ((∑ l ∈ Finset.range n, shown g st l : Nat) : Int)

theorem unfoldRange_cnt (cf : Bool) : ∀ (k : Nat) (c : Int) (m : Nat) (st : Forest),
    (unfoldRange cf k c m st).2.cnt = st.cnt - k := by
  intro k
  induction k with
  | zero => intro c m st; simp [unfoldRange]
  | succ k ih =>
    intro c m st
    simp only [unfoldRange, Forest.synth, ih]
    omega

/-- What a query changes. -/
theorem get_delta {F : TDFile} {g : Graph} {n : Nat} (hF : F.Shows g n) {st st' : Forest} (hi : Inv F g n st)
    {l : Int} {nd : FNode} (h : st.get F l = some (nd, st')) :
    (st' = st ∧ st.cache.get l = some (some nd)) ∨
    ∃ k : Nat, l = (k : Int) ∧ k < n ∧ st.cache.get l = some none ∧ st'.cache.get l = some (some nd) ∧
      st'.cnt = st.cnt - extra g k ∧ ∀ x : Int, 0 ≤ x → x ≠ l → st'.cache.get x = st.cache.get x := by
  obtain ⟨hl, -⟩ := get_some hF hi h
  obtain ⟨v, hv⟩ := (hi.key l).2 hl
  cases v with
  | some nd' =>
    rw [get, hv] at h
    cases h
    exact Or.inl ⟨rfl, hv⟩
  | none =>
    right
    have h0 := hi.empty l hv
    obtain ⟨l, rfl⟩ : ∃ k : Nat, l = (k : Int) := ⟨l.toNat, by omega⟩
    have hl0 : 0 < l := by omega
    obtain ⟨t, hg, hleg, hrefs⟩ := hF.wf.legal l hl0 (by omega)
    have hdec : F.decodeNode l = some (nodeOf t) := by rw [hF.node l hl0, hg]; rfl
    refine ⟨l, rfl, by omega, hv, ?_⟩
    have hget : st.get F (l : Int) = (create F st l).bind fun p =>
        some (p.1, { p.2 with cache := p.2.cache.set (l : Int) (some p.1) }) := by
      rw [get, hv]
      simp only [guard, show (0 : Int) ≤ (l : Int) by omega, Int.toNat_natCast]
      rfl
    have hcr : create F st l = match nodeOf t with
        | .source idx _ cf => (F.inputOf idx).bind fun inp => some (⟨(l : Int), some inp, cf, none⟩, st)
        | .union a b cf => some (⟨(l : Int), none, cf, some ((a : Int), (b : Int))⟩, st)
        | .range f b cf => some (⟨(l : Int), none, cf, some ((unfoldRange cf (b - (f + 1)) f (f + 1) st).1, (b : Int))⟩,
            (unfoldRange cf (b - (f + 1)) f (f + 1) st).2)
        | .untainted => none := by
      rw [create, hdec]
      cases t <;> rfl
    rw [hget, hcr] at h
    cases t with
    | source cf i o =>
      simp only [nodeOf] at h
      cases hin : F.inputOf i with
      | none => rw [hin] at h; cases h
      | some inp =>
        rw [hin] at h
        cases h
        refine ⟨Dict.get_set_eq _ _ _, by simp [extra, hg], ?_⟩
        intro x _ hx
        exact Dict.get_set_ne _ _ hx
    | union cf lo hi' =>
      cases h
      refine ⟨Dict.get_set_eq _ _ _, by simp [extra, hg], ?_⟩
      intro x _ hx
      exact Dict.get_set_ne _ _ hx
    | range cf f t =>
      have hcnt := unfoldRange_cnt cf (t - (f + 1)) f (f + 1) st
      cases hu : unfoldRange cf (t - (f + 1)) f (f + 1) st with
      | mk c st1 =>
        obtain ⟨h1, h2, h3, h4⟩ := unfoldRange_spec hg hF.pos (t - (f + 1)) f f st hi .base
          (by have := hleg.1; omega) c st1 hu
        rw [hu] at hcnt
        simp only [nodeOf, Option.bind_some, hu] at h
        cases h
        refine ⟨Dict.get_set_eq _ _ _, ?_, ?_⟩
        · have := hleg.1
          simp only [extra, hg]
          simp only at hcnt
          rw [hcnt]
          omega
        · intro x hx0 hx
          show Dict.get (Dict.set _ _ _) x = _
          rw [Dict.get_set_ne _ _ hx, h4 x hx0]

theorem Counted.get {F : TDFile} {g : Graph} {n : Nat} (hF : F.Shows g n) {st st' : Forest} (hi : Inv F g n st)
    (hc : Counted g n st) {l : Int} {nd : FNode} (h : st.get F l = some (nd, st')) : Counted g n st' := by
  rcases get_delta hF hi h with ⟨rfl, -⟩ | ⟨k, rfl, hk, h1, h2, h3, h4⟩
  · exact hc
  · have hkm : k ∈ Finset.range n := Finset.mem_range.2 hk
    have e1 := Finset.add_sum_erase (Finset.range n) (shown g st) hkm
    have e2 := Finset.add_sum_erase (Finset.range n) (shown g st') hkm
    have e3 : ∑ x ∈ (Finset.range n).erase k, shown g st' x = ∑ x ∈ (Finset.range n).erase k, shown g st x := by
      apply Finset.sum_congr rfl
      intro x hx
      rw [Finset.mem_erase] at hx
      rw [shown, shown, h4 (x : Int) (by omega) (by omega)]
    have e4 : shown g st k = 0 := by rw [shown, h1]
    have e5 : shown g st' k = extra g k := by rw [shown, h2]
    unfold Counted at hc ⊢
    rw [h3]
    omega

theorem new_counted {F : TDFile} {g : Graph} {n : Nat} (hF : F.Shows g n) {st : Forest} (h : new F = some st) :
    Counted g n st := by
  have hcnt := hF.count
  rw [new, hcnt] at h
  cases h
  unfold Counted
  rw [Finset.sum_eq_zero]
  · rfl
  · intro l hl
    have hn := hF.wf.none 0 (Or.inl rfl)
    by_cases h0 : l = 0
    · subst h0
      simp [shown, extra, hn, Dict.get]
    · rw [shown]
      have : Dict.get ((0, some ⟨0, none, false, none⟩) ::
        ((List.range' 1 (n - 1)).map fun (i : Nat) => ((i : Int), (none : Option FNode)))) (l : Int) = some none ∨
        Dict.get ((0, some ⟨0, none, false, none⟩) ::
        ((List.range' 1 (n - 1)).map fun (i : Nat) => ((i : Int), (none : Option FNode)))) (l : Int) = none := by
        rw [Dict.get, if_neg (by omega), get_range'_map]
        split <;> simp
      rcases this with h | h <;> simp [h]

theorem Reachable.counted {F : TDFile} {g : Graph} {n : Nat} (hF : F.Shows g n) {st : Forest}
    (h : Reachable F st) : Counted g n st := by
  induction h with
  | new h => exact new_counted hF h
  | query h1 h2 ih => exact ih.get hF (h1.inv hF) h2

end Forest
end Py
end Verif
