import Verif.PyTreeLemmas
/-
`simplify` of a parse tree in memory: what the tree is afterwards.
-/
namespace Verif.PyTree
open Verif.Spec

theorem val_node {V : Type} (v : V) (cs : List (Tree V)) : (Tree.node v cs).val = v := rfl

theorem children_node {V : Type} (v : V) (cs : List (Tree V)) : (Tree.node v cs).children = cs := rfl

/-- A tree in memory: every node has an identity and a value. -/
abbrev Obj := Tree (Nat × Val)

/-- The identities of the nodes of a tree. -/
def ids (d : Obj) : List Nat := d.pre.map (fun n => n.val.1)

/-- The identities of the nodes of a list of trees. -/
def idsL (ds : List Obj) : List Nat := (Tree.preL ds).map (fun n => n.val.1)

/-- The memory holds these nodes. -/
def HoldsN (h : Heap) (ns : List Obj) : Prop :=
  ∀ n ∈ ns, h.val n.val.1 = n.val.2 ∧ h.kids n.val.1 = n.children.map (fun c => c.val.1)

/-- The memory holds the tree `d`. -/
def Holds (h : Heap) (d : Obj) : Prop := HoldsN h d.pre

/-- One node of `simplify`, on values. -/
def contract (v : Nat × Val) : List Obj → Obj
  | [.node w [g]] => if w.2.isBB then .node v [g] else .node v [.node w [g]]
  | cs => .node v cs

mutual
/-- `simplify`, on values, bottom up. -/
def simp : Obj → Obj
  | .node v cs => contract v (simpL cs)
def simpL : List Obj → List Obj
  | [] => []
  | t :: ts => simp t :: simpL ts
end

theorem contract_val (v : Nat × Val) (cs : List Obj) : (contract v cs).val = v := by
  unfold contract
  split
  · split <;> rfl
  · rfl

theorem simp_val (d : Obj) : (simp d).val = d.val := by
  cases d with
  | node v cs => simp only [simp, contract_val, val_node]

theorem simpL_ids (ds : List Obj) : (simpL ds).map (fun c => c.val.1) = ds.map (fun c => c.val.1) := by
  induction ds with
  | nil => rfl
  | cons d ds ih => simp [simpL, simp_val, ih]

/-- Either nothing happens, or the only child is skipped. -/
theorem contract_cases (v : Nat × Val) (cs : List Obj) :
    (contract v cs = .node v cs ∧ ∀ w g, cs = [.node w [g]] → w.2.isBB = false) ∨
    ∃ w g, cs = [.node w [g]] ∧ w.2.isBB = true ∧ contract v cs = .node v [g] := by
  unfold contract
  split
  · next w g =>
    split
    · next hw => exact .inr ⟨w, g, rfl, hw, rfl⟩
    · next hw =>
      refine .inl ⟨rfl, fun w' g' e => ?_⟩
      simp only [List.cons.injEq, Tree.node.injEq, and_true] at e
      rw [← e.1]
      simpa using hw
  · next hne =>
    refine .inl ⟨rfl, fun w g e => absurd e (hne w g)⟩

mutual
theorem simp_sub : ∀ (d : Obj), ∀ n ∈ (simp d).pre, n.val.1 ∈ ids d
  | .node v cs, n, hn => by
    have hl := simpL_sub cs
    simp only [simp] at hn
    simp only [ids, Tree.pre, List.map_cons, val_node, List.mem_cons]
    rcases contract_cases v (simpL cs) with ⟨e, _⟩ | ⟨w, g, e, _, e'⟩
    · rw [e] at hn
      simp only [Tree.pre, List.mem_cons] at hn
      rcases hn with rfl | hn
      · exact .inl rfl
      · exact .inr (hl n hn)
    · rw [e'] at hn
      simp only [Tree.pre, Tree.preL, List.append_nil, List.mem_cons] at hn
      rcases hn with rfl | hn
      · exact .inl rfl
      · refine .inr (hl n ?_)
        rw [e]
        simp only [Tree.preL, Tree.pre, List.append_nil, List.mem_cons]
        exact .inr hn
theorem simpL_sub : ∀ (ds : List Obj), ∀ n ∈ Tree.preL (simpL ds), n.val.1 ∈ idsL ds
  | [], n, hn => by simp [simpL, Tree.preL] at hn
  | d :: ds, n, hn => by
    simp only [simpL, Tree.preL, List.mem_append] at hn
    simp only [idsL, Tree.preL, List.map_append, List.mem_append]
    rcases hn with hn | hn
    · exact .inl (simp_sub d n hn)
    · exact .inr (simpL_sub ds n hn)
end

theorem HoldsN.mono {h h' : Heap} {ns : List Obj} (hh : HoldsN h ns) (hv : h'.val = h.val)
    (hk : ∀ n ∈ ns, h'.kids n.val.1 = h.kids n.val.1) : HoldsN h' ns := by
  intro n hn
  rw [hv, hk n hn]
  exact hh n hn

theorem HoldsN.append {h : Heap} {a b : List Obj} : HoldsN h (a ++ b) ↔ HoldsN h a ∧ HoldsN h b := by
  unfold HoldsN
  simp only [List.mem_append]
  exact ⟨fun hh => ⟨fun n hn => hh n (.inl hn), fun n hn => hh n (.inr hn)⟩,
    fun hh n hn => hn.elim (hh.1 n) (hh.2 n)⟩

/-- What the body of the loop does to a node whose subtrees are done. -/
theorem visit_holds {h : Heap} {v : Nat × Val} {cs : List Obj} (hv : h.val v.1 = v.2)
    (hk : h.kids v.1 = cs.map (fun c => c.val.1)) (hcs : HoldsN h (Tree.preL cs)) (hn : v.1 ∉ idsL cs) :
    Holds (visit h v.1) (contract v cs) ∧ (visit h v.1).val = h.val ∧
      ∀ i, i ≠ v.1 → (visit h v.1).kids i = h.kids i := by
  rcases contract_cases v cs with ⟨e, he⟩ | ⟨w, g, e, hw, e'⟩
  · have hid : visit h v.1 = h := by
      unfold visit
      split
      · next c hc =>
        rw [hk] at hc
        match cs, hc with
        | [.node w ws], hc =>
          simp only [List.map_cons, List.map_nil, val_node, List.cons.injEq, and_true] at hc
          have hwn := hcs (.node w ws) (by simp [Tree.preL, Tree.pre])
          simp only [val_node, children_node] at hwn
          split
          · next hbb =>
            split
            · next g hg =>
              rw [← hc, hwn.2] at hg
              match ws, hg with
              | [g'], _ =>
                have := he w g' rfl
                rw [← hc, hwn.1, this] at hbb
                cases hbb
            · rfl
          · rfl
      · rfl
    rw [hid, e]
    refine ⟨?_, rfl, fun _ _ => rfl⟩
    intro n hn'
    simp only [Tree.pre, List.mem_cons] at hn'
    rcases hn' with rfl | hn'
    · exact ⟨hv, hk⟩
    · exact hcs n hn'
  · subst e
    have hwn := hcs (.node w [g]) (by simp [Tree.preL, Tree.pre])
    simp only [val_node, children_node, List.map_cons, List.map_nil] at hwn
    have hvis : visit h v.1 = { h with kids := fun m => if m = v.1 then [g.val.1] else h.kids m } := by
      unfold visit
      rw [hk]
      simp only [List.map_cons, List.map_nil, val_node, hwn.1, hw, if_true, hwn.2]
    rw [hvis, e']
    refine ⟨?_, rfl, fun i hi => by simp [hi]⟩
    intro n hn'
    simp only [Tree.pre, Tree.preL, List.append_nil, List.mem_cons] at hn'
    rcases hn' with rfl | hn'
    · exact ⟨hv, by simp [val_node, children_node]⟩
    · have hin : n ∈ Tree.preL [Tree.node w [g]] := by
        simp only [Tree.preL, Tree.pre, List.append_nil, List.mem_cons]
        exact .inr hn'
      have hne : n.val.1 ≠ v.1 := by
        intro he
        exact hn (he ▸ List.mem_map.2 ⟨n, hin, rfl⟩)
      simp only [if_neg hne]
      exact hcs n hin

theorem nodup_append_left {a b : List Nat} (h : (a ++ b).Nodup) : a.Nodup := (List.nodup_append.1 h).1

mutual
theorem simplify_node : ∀ (d : Obj) (h : Heap), Holds h d → (ids d).Nodup →
    ∃ n h', n ≤ 2 * size d ∧
      (∀ m s, simplifyLoop (n + m) h ((false, d.val.1) :: s) = simplifyLoop m h' s) ∧
      Holds h' (simp d) ∧ h'.val = h.val ∧ ∀ i, i ∉ ids d → h'.kids i = h.kids i
  | .node v [], h, hh, _ => by
    have hr := hh (.node v []) (by simp [Tree.pre])
    simp only [val_node, children_node, List.map_nil] at hr
    obtain ⟨hv, hval, hkids⟩ := visit_holds (h := h) (v := v) (cs := []) hr.1 hr.2
      (by intro n hn; simp [Tree.preL] at hn) (by simp [idsL, Tree.preL])
    refine ⟨1, visit h v.1, by simp [size, sizes], fun m s => ?_, ?_, hval, fun i hi => hkids i ?_⟩
    · rw [Nat.add_comm 1 m]
      simp [simplifyLoop, hr.2, val_node]
    · simpa [simp, simpL] using hv
    · intro he
      exact hi (by simp [ids, Tree.pre, val_node, he])
  | .node v (c :: cs), h, hh, hd => by
    have hr := hh (.node v (c :: cs)) (by simp [Tree.pre])
    simp only [val_node, children_node] at hr
    have hd' : v.1 ∉ idsL (c :: cs) ∧ (idsL (c :: cs)).Nodup := by
      simpa only [ids, idsL, Tree.pre, List.map_cons, val_node, List.nodup_cons] using hd
    obtain ⟨n, h', hn, hrun, hhold, hval, hkids⟩ := simplify_list (c :: cs) h
      (fun x hx => hh x (by simp only [Tree.pre, List.mem_cons]; exact .inr hx)) hd'.2
    obtain ⟨hv, hval', hkids'⟩ := visit_holds (h := h') (v := v) (cs := simpL (c :: cs))
      (by rw [hval]; exact hr.1) (by rw [hkids _ hd'.1, simpL_ids]; exact hr.2) hhold
      (by
        intro hin
        obtain ⟨x, hx, hxe⟩ := List.mem_map.1 hin
        exact hd'.1 (hxe ▸ simpL_sub (c :: cs) x hx))
    refine ⟨1 + n + 1, visit h' v.1, by simp only [size]; omega, fun m s => ?_, ?_, hval'.trans hval,
      fun i hi => ?_⟩
    · have e : 1 + n + 1 + m = (n + (m + 1)) + 1 := by omega
      rw [e]
      conv => lhs; unfold simplifyLoop
      simp only [val_node, hr.2, List.map_cons, List.isEmpty_cons, Bool.not_false, Bool.and_self, if_true]
      have := hrun (m + 1) ((true, v.1) :: s)
      simp only [List.map_cons] at this
      rw [this]
      conv => lhs; unfold simplifyLoop
      simp
    · simpa only [simp] using hv
    · have hi' : i ≠ v.1 ∧ i ∉ idsL (c :: cs) := by
        simpa only [ids, idsL, Tree.pre, List.map_cons, val_node, List.mem_cons, not_or, ne_eq] using hi
      rw [hkids' i hi'.1, hkids i hi'.2]
theorem simplify_list : ∀ (ds : List Obj) (h : Heap), HoldsN h (Tree.preL ds) → (idsL ds).Nodup →
    ∃ n h', n ≤ 2 * sizes ds ∧
      (∀ m s, simplifyLoop (n + m) h ((ds.map (fun c => c.val.1)).map (false, ·) ++ s) =
        simplifyLoop m h' s) ∧
      HoldsN h' (Tree.preL (simpL ds)) ∧ h'.val = h.val ∧ ∀ i, i ∉ idsL ds → h'.kids i = h.kids i
  | [], h, _, _ => ⟨0, h, by simp, fun m s => by simp, by intro n hn; simp [simpL, Tree.preL] at hn, rfl,
      fun _ _ => rfl⟩
  | d :: ds, h, hh, hd => by
    have hd' : (ids d ++ idsL ds).Nodup := by
      simpa only [idsL, Tree.preL, List.map_append, ids] using hd
    have hdis : ∀ x, x ∈ ids d → x ∉ idsL ds := fun x hx hx' =>
      (List.nodup_append.1 hd').2.2 x hx x hx' rfl
    simp only [Tree.preL] at hh
    rw [HoldsN.append] at hh
    obtain ⟨n, h1, hn, hrun, hhold, hval, hkids⟩ := simplify_node d h hh.1 (List.nodup_append.1 hd').1
    obtain ⟨n', h2, hn', hrun', hhold', hval', hkids'⟩ := simplify_list ds h1
      (hh.2.mono hval (fun x hx => hkids _ (fun hin =>
        hdis _ hin (List.mem_map.2 ⟨x, hx, rfl⟩)))) (List.nodup_append.1 hd').2.1
    refine ⟨n + n', h2, by simp only [sizes]; omega, fun m s => ?_, ?_, hval'.trans hval, fun i hi => ?_⟩
    · rw [Nat.add_assoc]
      simp only [List.map_cons, List.cons_append]
      rw [hrun, hrun']
    · simp only [simpL, Tree.preL]
      rw [HoldsN.append]
      exact ⟨hhold.mono hval' (fun x hx => hkids' _ (hdis _ (simp_sub d x hx))), hhold'⟩
    · have hi' : i ∉ ids d ∧ i ∉ idsL ds := by
        simpa only [idsL, Tree.preL, List.map_append, List.mem_append, not_or, ids] using hi
      rw [hkids' i hi'.2, hkids i hi'.1]
end

/-! ### What the simplified tree is like -/

/-- No node has an only child that is a basic block with an only child. -/
def Irreducible (ns : List Obj) : Prop :=
  ∀ n ∈ ns, ∀ w g, n.children = [.node w [g]] → w.2.isBB = false

/-- The nodes that are not basic blocks, from left to right, a node before its children. -/
def keep (ns : List Obj) : List (Nat × Val) := (ns.map Tree.val).filter (fun v => !v.2.isBB)

theorem keep_append (a b : List Obj) : keep (a ++ b) = keep a ++ keep b := by simp [keep]

mutual
theorem simp_fringe : ∀ (d : Obj), (simp d).fringe = d.fringe
  | .node v [] => by simp [simp, simpL, contract, Tree.fringe]
  | .node v (c :: cs) => by
    have hl := simpL_fringe (c :: cs)
    simp only [simp]
    rcases contract_cases v (simpL (c :: cs)) with ⟨e, _⟩ | ⟨w, g, e, _, e'⟩
    · rw [e]
      simpa [simpL, Tree.fringe, Tree.fringeL] using hl
    · rw [e']
      rw [e] at hl
      simpa [Tree.fringe, Tree.fringeL] using hl
theorem simpL_fringe : ∀ (ds : List Obj), Tree.fringeL (simpL ds) = Tree.fringeL ds
  | [] => rfl
  | d :: ds => by simp [simpL, Tree.fringeL, simp_fringe d, simpL_fringe ds]
end

mutual
theorem simp_keep : ∀ (d : Obj), keep (simp d).pre = keep d.pre
  | .node v cs => by
    have hl := simpL_keep cs
    simp only [simp]
    rcases contract_cases v (simpL cs) with ⟨e, _⟩ | ⟨w, g, e, hw, e'⟩
    · rw [e]
      simp only [Tree.pre, keep, List.map_cons, val_node, List.filter_cons] at hl ⊢
      rw [hl]
    · rw [e']
      rw [e] at hl
      simp only [Tree.pre, Tree.preL, keep, List.map_cons, val_node, List.filter_cons, hw, List.append_nil,
        Bool.not_true] at hl ⊢
      simp only [Bool.false_eq_true, if_false] at hl
      rw [hl]
theorem simpL_keep : ∀ (ds : List Obj), keep (Tree.preL (simpL ds)) = keep (Tree.preL ds)
  | [] => rfl
  | d :: ds => by simp [simpL, Tree.preL, keep_append, simp_keep d, simpL_keep ds]
end

mutual
theorem simp_irreducible : ∀ (d : Obj), Irreducible (simp d).pre
  | .node v cs => by
    have hl := simpL_irreducible cs
    simp only [simp]
    rcases contract_cases v (simpL cs) with ⟨e, he⟩ | ⟨w, g, e, hw, e'⟩
    · rw [e]
      intro n hn
      simp only [Tree.pre, List.mem_cons] at hn
      rcases hn with rfl | hn
      · exact he
      · exact hl n hn
    · rw [e']
      rw [e] at hl
      intro n hn
      simp only [Tree.pre, Tree.preL, List.append_nil, List.mem_cons] at hn
      rcases hn with rfl | hn
      · intro w' g' hg
        simp only [children_node] at hg
        exact hl (.node w [g]) (by simp [Tree.preL, Tree.pre]) w' g' (by simpa [children_node] using hg)
      · exact hl n (by simp only [Tree.preL, Tree.pre, List.append_nil, List.mem_cons]; exact .inr hn)
theorem simpL_irreducible : ∀ (ds : List Obj), Irreducible (Tree.preL (simpL ds))
  | [] => by intro n hn; simp [simpL, Tree.preL] at hn
  | d :: ds => by
    intro n hn
    simp only [simpL, Tree.preL, List.mem_append] at hn
    rcases hn with hn | hn
    · exact simp_irreducible d n hn
    · exact simpL_irreducible ds n hn
end

end Verif.PyTree
