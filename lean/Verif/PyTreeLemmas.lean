import Verif.PyTree
/-
Lemmas about the parse trees: the loops with explicit stacks do what the recursive definitions say.
-/
namespace Verif.PyTree
open Verif.Spec

section
variable {V : Type}

theorem sizes_append (a b : List (Tree V)) : sizes (a ++ b) = sizes a + sizes b := by
  induction a with
  | nil => simp [sizes]
  | cons t ts ih => simp [sizes, ih]; omega

theorem preL_append (a b : List (Tree V)) : Tree.preL (a ++ b) = Tree.preL a ++ Tree.preL b := by
  induction a with
  | nil => simp [Tree.preL]
  | cons t ts ih => simp [Tree.preL, ih]

theorem preLoop_eq : ∀ (fuel : Nat) (s : List (Tree V)), sizes s ≤ fuel → preLoop fuel s = Tree.preL s := by
  intro fuel
  induction fuel with
  | zero =>
    intro s hs
    cases s with
    | nil => simp [preLoop, Tree.preL]
    | cons t ts => cases t; simp [sizes, size] at hs
  | succ n ih =>
    intro s hs
    cases s with
    | nil => simp [preLoop, Tree.preL]
    | cons t ts =>
      cases t with
      | node v cs =>
        simp only [preLoop, Tree.preL, Tree.pre, Tree.children]
        rw [ih _ (by simp [sizes_append]; simp [sizes, size] at hs; omega), preL_append]
        simp

theorem preorder_eq (t : Tree V) : preorder t = t.pre := by
  unfold preorder
  rw [preLoop_eq _ _ (by simp [sizes])]
  simp [Tree.preL]

mutual
theorem postLoop_node : ∀ (t : Tree V) (s : List (Bool × Tree V)), ∃ n, n ≤ 2 * size t ∧
    ∀ m, postLoop (n + m) ((false, t) :: s) = t.post ++ postLoop m s
  | .node v [], s => ⟨1, by simp [size, sizes], fun m => by
      rw [Nat.add_comm 1 m]
      simp [postLoop, Tree.children, Tree.post, Tree.postL]⟩
  | .node v (c :: cs), s => by
    obtain ⟨n, hn, h⟩ := postLoop_list (c :: cs) ((true, .node v (c :: cs)) :: s)
    refine ⟨1 + n + 1, by simp only [size]; omega, fun m => ?_⟩
    have e : 1 + n + 1 + m = (n + (m + 1)) + 1 := by omega
    rw [e]
    conv => lhs; unfold postLoop
    simp only [Tree.children, Bool.not_false, List.isEmpty_cons, Bool.and_self, if_true]
    rw [h (m + 1)]
    conv => lhs; rhs; unfold postLoop
    simp [Tree.post]
theorem postLoop_list : ∀ (ts : List (Tree V)) (s : List (Bool × Tree V)), ∃ n, n ≤ 2 * sizes ts ∧
    ∀ m, postLoop (n + m) (ts.map (false, ·) ++ s) = Tree.postL ts ++ postLoop m s
  | [], s => ⟨0, by simp, fun m => by simp [Tree.postL]⟩
  | t :: ts, s => by
    obtain ⟨n, hn, h⟩ := postLoop_node t (ts.map (false, ·) ++ s)
    obtain ⟨n', hn', h'⟩ := postLoop_list ts s
    refine ⟨n + n', by simp only [sizes]; omega, fun m => ?_⟩
    rw [Nat.add_assoc]
    simp only [List.map_cons, List.cons_append]
    rw [h, h']
    simp [Tree.postL]
end

theorem postLoop_nil (n : Nat) : postLoop (V := V) n [] = [] := by
  cases n <;> simp [postLoop]

theorem postorder_eq (t : Tree V) : postorder t = t.post := by
  obtain ⟨n, hn, h⟩ := postLoop_node t []
  unfold postorder
  rw [← Nat.add_sub_cancel' hn, h, postLoop_nil]
  simp

mutual
theorem leaves_node : ∀ (t : Tree V),
    (t.pre.filter (fun n => n.children.isEmpty)).map Tree.val = t.fringe
  | .node v [] => by simp [Tree.pre, Tree.preL, Tree.fringe, Tree.children, Tree.val]
  | .node v (c :: cs) => by
    have h := leaves_list (c :: cs)
    rw [Tree.pre, List.filter_cons_of_neg (by simp [Tree.children]), h]
    simp [Tree.fringe, Tree.fringeL]
theorem leaves_list : ∀ (ts : List (Tree V)),
    ((Tree.preL ts).filter (fun n => n.children.isEmpty)).map Tree.val = Tree.fringeL ts
  | [] => by simp [Tree.preL, Tree.fringeL]
  | t :: ts => by
    simp [Tree.preL, Tree.fringeL, leaves_node t, leaves_list ts]
end

theorem leaves_eq (t : Tree V) : (leaves t).map Tree.val = t.fringe := by
  unfold leaves
  rw [preorder_eq, leaves_node]

/-! ### clone -/

theorem appendChild_at {f : Frame V} {s : List (Frame V)} {l : List (Tree V)} (hf : f.children = some l)
    (us : List (Frame V)) (t : Tree V) :
    appendChild (us ++ f :: s) s.length t = some (us ++ { f with children := some (l ++ [t]) } :: s) := by
  induction us with
  | nil => simp [appendChild, hf]
  | cons u us ih =>
    simp only [List.cons_append, appendChild]
    rw [if_neg (by simp; omega), ih]
    simp

mutual
theorem cloneLoop_node : ∀ (t : Tree V) (f : Frame V) (us s : List (Frame V)) (l : List (Tree V)),
    f.children = some l → ∃ n, n ≤ 2 * size t ∧
    ∀ m, cloneLoop (n + m) (⟨t, none, some s.length⟩ :: us ++ f :: s) =
      cloneLoop m (us ++ { f with children := some (l ++ [t]) } :: s)
  | .node v cs, f, us, s, l, hf => by
    obtain ⟨n, hn, h⟩ := cloneLoop_list cs ⟨.node v cs, some [], some s.length⟩ (us ++ f :: s) [] rfl
    refine ⟨1 + n + 1, by simp only [size]; omega, fun m => ?_⟩
    have e : 1 + n + 1 + m = (n + (m + 1)) + 1 := by omega
    rw [e]
    conv => lhs; unfold cloneLoop
    simp only [Tree.children, List.cons_append]
    rw [h (m + 1)]
    conv => lhs; unfold cloneLoop
    simp only [List.nil_append, appendChild_at hf, Tree.val]
theorem cloneLoop_list : ∀ (ts : List (Tree V)) (f : Frame V) (s : List (Frame V)) (l : List (Tree V)),
    f.children = some l → ∃ n, n ≤ 2 * sizes ts ∧
    ∀ m, cloneLoop (n + m) (ts.map (fun c => ⟨c, none, some s.length⟩) ++ f :: s) =
      cloneLoop m ({ f with children := some (l ++ ts) } :: s)
  | [], f, s, l, hf => ⟨0, by simp, fun m => by cases f; simp_all⟩
  | t :: ts, f, s, l, hf => by
    obtain ⟨n, hn, h⟩ := cloneLoop_node t f (ts.map (fun c => ⟨c, none, some s.length⟩)) s l hf
    obtain ⟨n', hn', h'⟩ := cloneLoop_list ts { f with children := some (l ++ [t]) } s (l ++ [t]) rfl
    refine ⟨n + n', by simp only [sizes]; omega, fun m => ?_⟩
    rw [Nat.add_assoc]
    simp only [List.map_cons]
    rw [h, h']
    simp
end

theorem clone_eq (t : Tree V) : clone t = some t := by
  cases t with
  | node v cs =>
    obtain ⟨n, hn, h⟩ := cloneLoop_list cs ⟨.node v cs, some [], none⟩ [] [] rfl
    unfold clone
    have e : 2 * size (.node v cs) = (n + ((2 * sizes cs - n) + 1)) + 1 := by simp only [size]; omega
    rw [e]
    conv => lhs; unfold cloneLoop
    simp only [Tree.children]
    rw [h]
    conv => lhs; unfold cloneLoop
    simp [Tree.val]

end

/-! ### terminals, matches, verify -/

/-- The bytes of a list of values, if all of them are terminals. -/
def bytesOf : List Val → Option (List (List Nat))
  | [] => some []
  | .term b :: vs => (bytesOf vs).map (b :: ·)
  | _ :: _ => none

theorem terminalsOf_eq (ts : List (Tree Val)) : terminalsOf ts = bytesOf (ts.map Tree.val) := by
  induction ts with
  | nil => rfl
  | cons t ts ih =>
    cases h : t.val <;> simp [terminalsOf, bytesOf, h, ih]

theorem terminals_eq (t : Tree Val) : terminals t = bytesOf t.fringe := by
  unfold terminals
  rw [terminalsOf_eq, leaves_eq]

theorem bytesOf_append (a b : List Val) : bytesOf (a ++ b) =
    (bytesOf a).bind (fun x => (bytesOf b).map (x ++ ·)) := by
  induction a with
  | nil => cases h : bytesOf b <;> simp [bytesOf, h]
  | cons v a ih =>
    cases v with
    | term x =>
      simp only [List.cons_append, bytesOf, ih]
      cases bytesOf a <;> cases bytesOf b <;> simp
    | start => simp [bytesOf]
    | bb n => simp [bytesOf]
    | fn n => simp [bytesOf]

theorem bytesOf_eq_some {vs : List Val} {bs : List (List Nat)} :
    bytesOf vs = some bs ↔ vs = bs.map Val.term := by
  induction vs generalizing bs with
  | nil => cases bs <;> simp [bytesOf]
  | cons v vs ih =>
    cases v with
    | term x =>
      cases bs with
      | nil => simp [bytesOf]
      | cons b bs =>
        simp only [bytesOf, Option.map_eq_some_iff, List.map_cons, List.cons.injEq, Val.term.injEq]
        constructor
        · rintro ⟨a, ha, rfl, rfl⟩
          exact ⟨rfl, ih.1 ha⟩
        · rintro ⟨rfl, h⟩
          exact ⟨bs, ih.2 h, rfl, rfl⟩
    | start => cases bs <;> simp [bytesOf]
    | bb n => cases bs <;> simp [bytesOf]
    | fn n => cases bs <;> simp [bytesOf]

theorem dropPrefix_eq_some {p b r : List Nat} : dropPrefix p b = some r ↔ b = p ++ r := by
  induction p generalizing b with
  | nil => simp [dropPrefix]
  | cons x p ih =>
    cases b with
    | nil => simp [dropPrefix]
    | cons y b =>
      by_cases h : x = y
      · subst h; simp [dropPrefix, ih]
      · simp [dropPrefix, h, Ne.symm h]

theorem verifyLoop_append (a b : List (Tree Val)) (r : List Nat) :
    verifyLoop (a ++ b) r = (verifyLoop a r).bind (verifyLoop b) := by
  induction a generalizing r with
  | nil => simp [verifyLoop]
  | cons t a ih =>
    cases h : t.val with
    | term x =>
      simp only [List.cons_append, verifyLoop, h]
      cases dropPrefix x r <;> simp [ih]
    | start => simp only [List.cons_append, verifyLoop, h]; exact ih r
    | bb n => simp only [List.cons_append, verifyLoop, h]; exact ih r
    | fn n => simp only [List.cons_append, verifyLoop, h]; exact ih r

/-- Terminals, and only terminals, have no children. -/
def Terminated (t : Tree Val) : Prop :=
  ∀ n ∈ t.pre, (n.children = [] ↔ ∃ b, n.val = .term b)

mutual
theorem mem_pre_self : ∀ (t : Tree Val), t ∈ t.pre
  | .node v cs => by simp [Tree.pre]
theorem mem_preL : ∀ (ts : List (Tree Val)) (t : Tree Val), t ∈ ts → ∀ n ∈ t.pre, n ∈ Tree.preL ts
  | [], _, h => by simp at h
  | u :: us, t, h => fun n hn => by
    simp only [Tree.preL, List.mem_append]
    rcases List.mem_cons.1 h with rfl | h
    · exact .inl hn
    · exact .inr (mem_preL us t h n hn)
end

theorem Terminated.child {v : Val} {cs : List (Tree Val)} (h : Terminated (.node v cs)) {c : Tree Val}
    (hc : c ∈ cs) : Terminated c := by
  intro n hn
  refine h n ?_
  simp only [Tree.pre, List.mem_cons]
  exact .inr (mem_preL cs c hc n hn)

mutual
theorem verify_node : ∀ (t : Tree Val), Terminated t → ∃ bs, bytesOf t.fringe = some bs ∧
    ∀ r, verifyLoop t.pre r = dropPrefix bs.flatten r
  | .node v [], h => by
    have hs := (h (.node v []) (by simp [Tree.pre])).1 rfl
    obtain ⟨b, hb⟩ := hs
    simp only [Tree.val] at hb
    subst hb
    refine ⟨[b], by simp [Tree.fringe, bytesOf], fun r => ?_⟩
    simp only [Tree.pre, Tree.preL, verifyLoop, Tree.val, List.flatten_cons, List.flatten_nil,
      List.append_nil]
    cases dropPrefix b r <;> simp
  | .node v (c :: cs), h => by
    obtain ⟨bs, hb, hv⟩ := verify_list (c :: cs) (fun t ht => h.child ht)
    refine ⟨bs, by simpa [Tree.fringe, Tree.fringeL] using hb, fun r => ?_⟩
    have hs : ¬ ∃ b, v = .term b := by
      intro hb'
      have := (h (.node v (c :: cs)) (by simp [Tree.pre])).2 hb'
      simp [Tree.children] at this
    cases v with
    | term b => exact absurd ⟨b, rfl⟩ hs
    | start => simp only [Tree.pre, verifyLoop, Tree.val]; exact hv r
    | bb n => simp only [Tree.pre, verifyLoop, Tree.val]; exact hv r
    | fn n => simp only [Tree.pre, verifyLoop, Tree.val]; exact hv r
theorem verify_list : ∀ (ts : List (Tree Val)), (∀ t ∈ ts, Terminated t) →
    ∃ bs, bytesOf (Tree.fringeL ts) = some bs ∧ ∀ r, verifyLoop (Tree.preL ts) r = dropPrefix bs.flatten r
  | [], _ => ⟨[], by simp [Tree.fringeL, bytesOf], fun r => by simp [Tree.preL, verifyLoop, dropPrefix]⟩
  | t :: ts, h => by
    obtain ⟨b, hb, hv⟩ := verify_node t (h t (by simp))
    obtain ⟨bs, hbs, hvs⟩ := verify_list ts (fun t ht => h t (by simp [ht]))
    refine ⟨b ++ bs, by simp [Tree.fringeL, bytesOf_append, hb, hbs], fun r => ?_⟩
    simp only [Tree.preL, verifyLoop_append, hv, List.flatten_append]
    cases hd : dropPrefix b.flatten r with
    | none =>
      simp only [Option.bind_none]
      symm
      cases hd' : dropPrefix (b.flatten ++ bs.flatten) r with
      | none => rfl
      | some q =>
        rw [dropPrefix_eq_some, List.append_assoc] at hd'
        rw [dropPrefix_eq_some.2 hd'] at hd
        cases hd
    | some q =>
      simp only [Option.bind_some, hvs]
      rw [dropPrefix_eq_some] at hd
      subst hd
      apply Option.ext
      intro z
      simp [dropPrefix_eq_some]
end

end Verif.PyTree
