import Verif.PyDigraphSpec
/- `vertex_induced_subgraph`, `contract`, and that networkx can do what it promises. -/
namespace Verif.PyGraph
open Verif.Spec

/-- A node further up. -/
def Above (E : Nat → Nat → Prop) (a v : Nat) : Prop := ∃ p, Linked E a p ∧ E p v

theorem joined_or_above {E : Nat → Nat → Prop} {a v : Nat} (h : Linked E a v) : a = v ∨ Above E a v := by
  obtain ⟨l, hl⟩ := h
  cases hl with
  | nil => exact .inl rfl
  | snoc hw he => exact .inr ⟨_, ⟨_, hw⟩, he⟩

theorem Above.linked {E : Nat → Nat → Prop} {a v : Nat} (h : Above E a v) : Linked E a v := by
  obtain ⟨p, h1, h2⟩ := h; exact h1.step h2

theorem Above.up {E : Nat → Nat → Prop} {a b v : Nat} (h : Above E a b) (hv : E b v) : Above E a v :=
  ⟨b, h.linked, hv⟩

theorem preds_removeEdge {g : G} {a b n : Nat} (hn : n ≠ b) : (g.removeEdge a b).preds n = g.preds n := by
  simp only [G.preds, G.removeEdge, List.filter_filter]
  congr 1
  apply List.filter_congr
  rintro ⟨x, y⟩ _
  by_cases hy : y = n
  · subst hy
    simp [hn]
  · simp [hy]

theorem preds_addEdge {g : G} {a b n : Nat} (hn : n ≠ b) : (g.addEdge a b).preds n = g.preds n := by
  unfold G.addEdge
  simp only
  split
  · simp only [G.preds, addNode_edges]
  · simp only [G.preds, addNode_edges, List.filter_append, List.map_append]
    simp [Ne.symm hn]

/-- What the inner loop does in a forest. -/
theorem up_spec {g : G} {vs : List Nat} {rank : Nat → Nat} (hone : ∀ n, (g.preds n).length ≤ 1)
    (hrank : ∀ a b, g.E a b → rank a < rank b) (k node : Nat) (parent : Option Nat) (hk : rank node < k) :
    (up g vs k node parent = .vertex ∧ ∃ u ∈ vs, Above g.E u node) ∨
    ((∀ u ∈ vs, ¬ Above g.E u node) ∧ (∀ p, ¬ g.E p node) ∧ up g vs k node parent = .top node parent) ∨
    ((∀ u ∈ vs, ¬ Above g.E u node) ∧ ∃ n a, up g vs k node parent = .top n (some (parent.getD a)) ∧ g.E a node ∧
      Above g.E n node) := by
  induction k generalizing node parent with
  | zero => omega
  | succ k ih =>
    have hlen := hone node
    have hm : ∀ p, p ∈ g.preds node ↔ g.E p node := fun p => mem_preds
    rw [up]
    revert hlen hm
    generalize g.preds node = l
    intro hlen hm
    match l, hlen, hm with
    | [], _, hm =>
      have hno : ∀ p, ¬ g.E p node := fun p hp => by have := (hm p).2 hp; simp at this
      refine .inr (.inl ⟨?_, hno, rfl⟩)
      rintro u _ ⟨p, _, hp⟩
      exact hno p hp
    | [a], _, hm =>
      have ha : g.E a node := (hm a).1 (by simp)
      have hall : ∀ p, g.E p node → p = a := fun p hp => by simpa using (hm p).2 hp
      simp only
      by_cases hav : a ∈ vs
      · rw [if_pos hav]
        exact .inl ⟨rfl, a, hav, a, .refl, ha⟩
      · rw [if_neg hav]
        have hr := hrank a node ha
        have hup : ∀ u ∈ vs, Above g.E u node ↔ Above g.E u a := by
          intro u hu
          refine ⟨?_, fun h => h.up ha⟩
          rintro ⟨p, h1, h2⟩
          have := hall p h2
          subst this
          rcases joined_or_above h1 with rfl | h
          · exact absurd hu hav
          · exact h
        rcases ih a (some (parent.getD a)) (by omega) with ⟨h1, u, hu, h2⟩ | ⟨h1, h2, h3⟩ | ⟨h1, n, b, h2, h3, h4⟩
        · exact .inl ⟨h1, u, hu, (hup u hu).2 h2⟩
        · exact .inr (.inr ⟨fun u hu h => h1 u hu ((hup u hu).1 h), a, a, h3, ha, a, .refl, ha⟩)
        · exact .inr (.inr ⟨fun u hu h => h1 u hu ((hup u hu).1 h), n, a, h2, ha, h4.up ha⟩)
    | _ :: _ :: _, hlen, _ => simp at hlen

/-- The inner loop looks only at nodes that have not been changed. -/
theorem up_congr {g sub : G} {vs done : List Nat} (hd : ∀ x ∈ done, x ∈ vs) (h : ∀ n, n ∉ done → sub.preds n = g.preds n)
    (k : Nat) (node : Nat) (parent : Option Nat) (hn : node ∉ done) : up sub vs k node parent = up g vs k node parent := by
  induction k generalizing node parent with
  | zero => rfl
  | succ k ih =>
    rw [up, up, h node hn]
    match g.preds node with
    | [] => rfl
    | [a] =>
      simp only
      split
      · rfl
      · rename_i ha
        exact ih a _ (fun hx => ha (hd a hx))
    | _ :: _ :: _ => rfl

/-- What is true between rounds of the outer loop. -/
structure Inv (g : G) (vs done : List Nat) (sub : G) (rem : List Nat) : Prop where
  nodes : ∀ x, x ∈ sub.nodes ↔ x ∈ g.nodes
  same : ∀ n, n ∉ done → sub.preds n = g.preds n
  cut : ∀ p n, n ∈ done → sub.E p n → p ∉ vs ∨ n ∈ rem
  rem : ∀ x, x ∈ g.nodes → (x ∈ rem ↔ x ∉ vs ∨ (x ∈ done ∧ ∃ u ∈ vs, Above g.E u x))
  wf : sub.Wf

theorem induceLoop_spec {g : G} {vs : List Nat} {rank : Nat → Nat} (hg : g.Wf) (hone : ∀ n, (g.preds n).length ≤ 1)
    (hrank : ∀ a b, g.E a b → rank a < rank b) (hvs : ∀ v ∈ vs, v ∈ g.nodes) (k : Nat) (hk : ∀ v ∈ vs, rank v < k)
    (todo done : List Nat) (sub : G) (rem : List Nat) (hall : ∀ x, x ∈ vs ↔ x ∈ done ∨ x ∈ todo) (hnd : todo.Nodup)
    (hdis : ∀ x ∈ todo, x ∉ done) (hi : Inv g vs done sub rem) :
    ∃ s, induceLoop vs k todo (sub, rem) = some s ∧ Inv g vs vs s.1 s.2 := by
  induction todo generalizing done sub rem with
  | nil =>
    refine ⟨(sub, rem), rfl, ⟨hi.nodes, fun n hn => hi.same n (fun h => hn ((hall n).2 (.inl h))), fun p n hn => hi.cut p n ?_, fun x hx => ?_, hi.wf⟩⟩
    · simpa using (hall n).1 hn
    · rw [hi.rem x hx, hall x]; simp
  | cons v todo ih =>
    have hv : v ∈ vs := (hall v).2 (.inr (by simp))
    have hvd : v ∉ done := hdis v (by simp)
    rw [List.nodup_cons] at hnd
    have hup := up_congr (g := g) (sub := sub) (done := done) (fun x hx => (hall x).2 (.inl hx)) hi.same k v none hvd
    have hall' : ∀ x, x ∈ vs ↔ x ∈ (v :: done) ∨ x ∈ todo := by
      intro x; rw [hall x]; simp only [List.mem_cons]
      constructor
      · rintro (h | h | h)
        · exact .inl (.inr h)
        · exact .inl (.inl h)
        · exact .inr h
      · rintro ((h | h) | h)
        · exact .inr (.inl h)
        · exact .inl h
        · exact .inr (.inr h)
    have hdis' : ∀ x ∈ todo, x ∉ v :: done := by
      intro x hx h
      rcases List.mem_cons.1 h with rfl | h
      · exact hnd.1 hx
      · exact hdis x (by simp [hx]) h
    have hdn : ∀ n, n ∉ v :: done → n ≠ v ∧ n ∉ done := fun n hn => ⟨fun h => hn (by simp [h]), fun h => hn (by simp [h])⟩
    have hremv : ∀ (P : Prop), (P ↔ ∃ u ∈ vs, Above g.E u v) → ∀ x, x ∈ g.nodes →
        ((x ∈ rem ∨ (x = v ∧ P)) ↔ x ∉ vs ∨ (x ∈ v :: done ∧ ∃ u ∈ vs, Above g.E u x)) := by
      intro P hP x hx
      rw [hi.rem x hx]
      by_cases hxv : x = v
      · subst hxv
        simp [hv, hvd, hP]
      · simp [hxv]
    unfold induceLoop
    rw [if_neg (by rw [hi.nodes]; exact fun h => h (hvs v hv)), hup]
    rcases up_spec (vs := vs) hone hrank k v none (hk v hv) with ⟨h1, h2⟩ | ⟨h1, h2, h3⟩ | ⟨h1, n, a, h2, h3, h4⟩
    · rw [h1]
      refine ih (v :: done) sub (rem ++ [v]) hall' hnd.2 hdis' ⟨hi.nodes, fun n hn => hi.same n (hdn n hn).2, fun p n hn he => ?_, fun x hx => ?_, hi.wf⟩
      · rcases List.mem_cons.1 hn with rfl | hn
        · simp
        · rcases hi.cut p n hn he with h | h
          · exact .inl h
          · simp [h]
      · rw [← hremv True (by simpa using h2) x hx]; simp
    · rw [h3]
      refine ih (v :: done) sub rem hall' hnd.2 hdis' ⟨hi.nodes, fun n hn => hi.same n (hdn n hn).2, fun p n hn he => ?_, fun x hx => ?_, hi.wf⟩
      · rcases List.mem_cons.1 hn with rfl | hn
        · have := mem_preds.2 he
          rw [hi.same n hvd] at this
          exact absurd (mem_preds.1 this) (h2 p)
        · exact hi.cut p n hn he
      · rw [← hremv False (by simpa using h1) x hx]; simp
    · rw [h2]
      simp only [Option.getD_none]
      have hnv : n ∈ g.nodes := by
        obtain ⟨q, hq1, hq2⟩ := h4
        obtain ⟨l, hl⟩ := hq1
        have key : ∀ (y : Nat) (l : List Nat), Walk g.E n y l → y ∈ g.nodes → n ∈ g.nodes := by
          intro y l hl
          induction hl with
          | nil => exact id
          | snoc _ he ih => exact fun _ => ih (hg.ends _ _ he).1
        exact key q l hl (hg.ends _ _ hq2).1
      have hsp : sub.preds v = [a] := by
        rw [hi.same v hvd]
        have hl := hone v
        have ha := mem_preds.2 h3
        match hq : g.preds v, hl, ha with
        | [], _, ha => simp at ha
        | [b], _, ha => simp at ha; subst ha; rfl
        | _ :: _ :: _, hl, _ => simp at hl
      refine ih (v :: done) _ rem hall' hnd.2 hdis' ⟨fun x => ?_, fun m hm => ?_, fun p m hm he => ?_, fun x hx => ?_, (hi.wf.removeEdge _ _).addEdge _ _⟩
      · rw [mem_addEdge_nodes]
        show x ∈ sub.nodes ∨ _ ↔ _
        rw [hi.nodes]
        constructor
        · rintro (h | rfl | rfl)
          · exact h
          · exact hnv
          · exact hvs _ hv
        · exact .inl
      · rw [preds_addEdge (hdn m hm).1, preds_removeEdge (hdn m hm).1]
        exact hi.same m (hdn m hm).2
      · rcases mem_addEdge_edges.1 he with he | he
        · simp only [G.removeEdge, List.mem_filter, decide_eq_true_eq] at he
          rcases List.mem_cons.1 hm with rfl | hm
          · have := mem_preds.2 (show sub.E p m from he.1)
            rw [hsp] at this
            simp only [List.mem_singleton] at this
            subst this
            exact absurd rfl he.2
          · exact hi.cut p m hm he.1
        · cases he
          exact .inl fun h => h1 n h h4
      · rw [← hremv False (by simpa using h1) x hx]; simp

theorem induce_spec {g : G} {vs : List Nat} {rank : Nat → Nat} (hg : g.Wf) (hone : ∀ a b n, g.E a n → g.E b n → a = b)
    (hrank : ∀ a b, g.E a b → rank a < rank b) (hnd : vs.Nodup) (hvs : ∀ v ∈ vs, v ∈ g.nodes) (k : Nat)
    (hk : ∀ v ∈ vs, rank v < k) :
    ∃ h, induce g vs k = some h ∧ h.edges = [] ∧ ∀ x, x ∈ h.nodes ↔ x ∈ vs ∧ ∀ u ∈ vs, u ≠ x → ¬ Linked g.E u x := by
  have hone' : ∀ n, (g.preds n).length ≤ 1 := by
    intro n
    have hn := preds_nodup hg n
    have hm : ∀ p, p ∈ g.preds n → g.E p n := fun p => mem_preds.1
    revert hn hm
    generalize g.preds n = l
    intro hn hm
    match l, hn, hm with
    | [], _, _ => simp
    | [_], _, _ => simp
    | a :: b :: l, hn, hm =>
      have := hone a b n (hm a (by simp)) (hm b (by simp))
      subst this
      simp at hn
  have hlt : ∀ a b, Linked g.E a b → rank a ≤ rank b := by
    rintro a b ⟨l, hl⟩
    induction hl with
    | nil => exact Nat.le_refl _
    | snoc _ he ih => have := hrank _ _ he; omega
  obtain ⟨⟨sub, rem⟩, h1, h2⟩ := induceLoop_spec hg hone' hrank hvs k hk vs [] g (g.nodes.filter (fun n => decide (n ∉ vs)))
    (by simp) hnd (by simp) ⟨fun x => Iff.rfl, fun n _ => rfl, by simp, fun x hx => by simp [hx], hg⟩
  refine ⟨sub.removeNodes rem, by rw [induce, h1]; rfl, ?_, fun x => ?_⟩
  · rw [List.eq_nil_iff_forall_not_mem]
    rintro ⟨p, n⟩ he
    simp only [G.removeNodes, List.mem_filter, decide_eq_true_eq] at he
    obtain ⟨he, hp, hn⟩ := he
    have hends := h2.wf.ends p n he
    have hpv : p ∈ vs := by
      apply Classical.byContradiction; intro h
      exact hp ((h2.rem p ((h2.nodes p).1 hends.1)).2 (.inl h))
    have hnv : n ∈ vs := by
      apply Classical.byContradiction; intro h
      exact hn ((h2.rem n ((h2.nodes n).1 hends.2)).2 (.inl h))
    rcases h2.cut p n hnv he with h | h
    · exact h hpv
    · exact hn h
  · simp only [G.removeNodes, List.mem_filter, decide_eq_true_eq, h2.nodes]
    constructor
    · rintro ⟨hx, hr⟩
      rw [h2.rem x hx] at hr
      have hxv : x ∈ vs := Classical.byContradiction fun h => hr (.inl h)
      refine ⟨hxv, fun u hu hne hj => hr (.inr ⟨hxv, u, hu, ?_⟩)⟩
      rcases joined_or_above hj with h | h
      · exact absurd h hne
      · exact h
    · rintro ⟨hxv, h⟩
      have hx := hvs x hxv
      refine ⟨hx, fun hr => ?_⟩
      rcases (h2.rem x hx).1 hr with h' | ⟨_, u, hu, p, hp, he⟩
      · exact h' hxv
      · refine h u hu ?_ (hp.step he)
        rintro rfl
        have := hrank _ _ he
        have := hlt _ _ hp
        omega

/-- With new nodes for merged ones, `contract` raises. -/
theorem contractU_raises {g : G} {union : Nat → Nat → Nat} {pick : List Nat → Nat} (hp : ∀ l, l ≠ [] → pick l ∈ l)
    (hu : ∀ p n, union p n ∉ g.nodes) (hg : g.Wf) (k : Nat) (nodes : List Nat) (ret : G) (hk : nodes.length ≤ k)
    (h : ∃ n ∈ nodes, n ∉ g.nodes ∨ g.onePred n = true) : contractU g union pick k nodes ret = none := by
  induction k generalizing nodes ret with
  | zero =>
    obtain ⟨n, hn, _⟩ := h
    have : nodes = [] := List.length_eq_zero_iff.1 (by omega)
    subst this; simp at hn
  | succ k ih =>
    obtain ⟨w, hw, hw'⟩ := h
    have hne : nodes ≠ [] := by rintro rfl; simp at hw
    have hpm := hp nodes hne
    rw [contractU, if_neg hne]
    generalize pick nodes = n at hpm ⊢
    simp only
    have hlen : (nodes.filter (fun x => decide (x ≠ n))).length < nodes.length := by
      apply List.length_filter_lt_length_iff_exists.2
      exact ⟨n, hpm, by simp⟩
    by_cases hn : n ∉ g.nodes
    · rw [if_pos hn]
    · rw [if_neg hn]
      have hn' : n ∈ g.nodes := Classical.not_not.1 hn
      by_cases ho : g.onePred n = true
      · rw [if_pos ho]
        match hq : g.preds n with
        | [] => rfl
        | p :: _ =>
          simp only
          have hpg : p ∈ g.nodes := (hg.ends p n (mem_preds.1 (by simp [hq]))).1
          have hmp : union p n ≠ p := fun h => hu p n (by rw [h]; exact hpg)
          rw [if_neg hmp]
          by_cases hpr : p ∉ nodes.filter (fun x => decide (x ≠ n))
          · rw [if_pos hpr]
          · rw [if_neg hpr]
            have hpr' := Classical.not_not.1 hpr
            have hlen2 : ((nodes.filter (fun x => decide (x ≠ n))).filter (fun x => decide (x ≠ p))).length <
                (nodes.filter (fun x => decide (x ≠ n))).length := by
              apply List.length_filter_lt_length_iff_exists.2
              exact ⟨p, hpr', by simp⟩
            apply ih
            · split
              · omega
              · simp only [List.length_append, List.length_singleton]; omega
            · refine ⟨union p n, ?_, .inl (hu p n)⟩
              split
              · assumption
              · simp
      · rw [if_neg ho]
        apply ih
        · omega
        · refine ⟨w, List.mem_filter.2 ⟨hw, ?_⟩, hw'⟩
          simp only [ne_eq, decide_eq_true_eq]
          rintro rfl
          rcases hw' with h | h
          · exact h hn'
          · exact ho h

/-- There is a spanning tree. -/
theorem parent_exists {E : Nat → Nat → Prop} {r c : Nat} (h : Linked E r c) (hc : c ≠ r) : ∃ p, E p c ∧ Linked E r p ∧ p ≠ c := by
  obtain ⟨d, ⟨l, hl, hd⟩, hmin⟩ := h.dist
  cases hl with
  | nil => exact absurd rfl hc
  | @snoc b _ l hw he =>
    refine ⟨b, he, ⟨_, hw⟩, ?_⟩
    rintro rfl
    have := hmin l hw
    simp only [List.length_cons] at hd
    omega

theorem joined_mem {g : G} (hg : g.Wf) {a b : Nat} (ha : a ∈ g.nodes) (h : Linked g.E a b) : b ∈ g.nodes := by
  obtain ⟨l, hl⟩ := h
  cases hl with
  | nil => exact ha
  | snoc _ he => exact (hg.ends _ _ he).2

/-- The assumptions about networkx can be met. -/
theorem nx_exists : ∃ X : Nx, X.Ok := by
  classical
  let dist : G → Nat → Nat → Option Nat := fun g a b => if h : ∃ d, a ∈ g.nodes ∧ Dist g.E a b d then some h.choose else none
  have hdist : ∀ g a b d, dist g a b = some d ↔ a ∈ g.nodes ∧ Dist g.E a b d := by
    intro g a b d
    simp only [dist]
    split
    · rename_i h
      simp only [Option.some.injEq]
      constructor
      · intro h'; subst h'; exact h.choose_spec
      · intro h'; exact h.choose_spec.2.unique h'.2
    · rename_i h
      simp only [reduceCtorEq, false_iff]
      exact fun h' => h ⟨d, h'⟩
  let par : G → Nat → Nat → Nat := fun g r c => if h : Linked g.E r c ∧ c ≠ r then (parent_exists h.1 h.2).choose else 0
  refine ⟨⟨dist, fun g n => g.nodes.filterMap (fun x => (dist g x n).map (fun d => (x, d))),
    fun g r => (g.nodes.map (fun p => (p, g.nodes.filter (fun c => decide ((Linked g.E r c ∧ c ≠ r) ∧ par g r c = p))))).filter
      (fun q => decide (q.2 ≠ [])),
    fun g r => (g.nodes.flatMap (fun n => g.nodes.map (fun d => (n, d)))).filter
      (fun q => decide ((q.1 = r ∧ q.2 = r) ∨ IDom g.E r q.2 q.1))⟩, ⟨fun g _ => hdist g, ?_, ?_, ?_⟩⟩
  · intro g hg n _
    refine ⟨?_, fun x d => ?_⟩
    · have hs : ∀ l : List Nat, ((l.filterMap (fun x => (dist g x n).map (fun d => (x, d)))).map Prod.fst).Sublist l := by
        intro l
        induction l with
        | nil => simp
        | cons a l ih =>
          rw [List.filterMap_cons]
          cases h : dist g a n with
          | none => simp only [Option.map_none]; exact ih.cons _
          | some d => simp only [Option.map_some, List.map_cons]; exact ih.cons_cons _
      exact hg.nodes.sublist (hs _)
    · simp only [List.mem_filterMap, Option.map_eq_some_iff, Prod.mk.injEq]
      constructor
      · rintro ⟨y, hy, e, he, rfl, rfl⟩
        exact (hdist g y n e).1 he
      · rintro h
        exact ⟨x, h.1, d, (hdist g x n d).2 h, rfl, rfl⟩
  · intro g hg r hr
    have hpar : ∀ c, Linked g.E r c → c ≠ r → g.E (par g r c) c ∧ Linked g.E r (par g r c) ∧ par g r c ≠ c := by
      intro c h1 h2
      simp only [par, dif_pos (And.intro h1 h2)]
      exact (parent_exists h1 h2).choose_spec
    refine ⟨fun p cs h => ?_, fun c hc hne => ?_⟩
    · simp only [List.mem_filter, List.mem_map, Prod.mk.injEq, decide_eq_true_eq] at h
      obtain ⟨⟨q, hq, rfl, rfl⟩, hne⟩ := h
      refine ⟨hne, fun c hc => ?_⟩
      simp only [List.mem_filter, decide_eq_true_eq] at hc
      obtain ⟨hcn, ⟨h1, h2⟩, rfl⟩ := hc
      obtain ⟨h3, h4, h5⟩ := hpar c h1 h2
      exact ⟨h3, h4, fun h => h5 h.symm, h2⟩
    · obtain ⟨h3, h4, h5⟩ := hpar c hc hne
      have hm : c ∈ g.nodes.filter (fun c' => decide ((Linked g.E r c' ∧ c' ≠ r) ∧ par g r c' = par g r c)) :=
        List.mem_filter.2 ⟨joined_mem hg hr hc, by simp [hc, hne]⟩
      refine ⟨par g r c, _, List.mem_filter.2 ⟨List.mem_map.2 ⟨par g r c, joined_mem hg hr h4, rfl⟩, ?_⟩, hm⟩
      simp only [decide_eq_true_eq]
      intro h
      rw [h] at hm
      simp at hm
  · intro g hg r hr n d
    simp only [List.mem_filter, List.mem_flatMap, List.mem_map, Prod.mk.injEq, decide_eq_true_eq]
    constructor
    · rintro ⟨_, h⟩; exact h
    · intro h
      refine ⟨?_, h⟩
      rcases h with ⟨rfl, rfl⟩ | h
      · exact ⟨_, hr, _, hr, rfl, rfl⟩
      · exact ⟨n, joined_mem hg hr h.1.1, d, joined_mem hg hr h.1.linked_left, rfl, rfl⟩

end Verif.PyGraph
