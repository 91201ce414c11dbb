import Verif.PyEarley
import Verif.PyGrammarTerm
/- The recogniser on grammars without empty rules: what one call of `add` and one step do. -/
namespace Verif.PyEarley
open Verif.Spec Verif.PyGrammar

/-- The grammars for which the recogniser works: nothing empty, the start is not used in rules, every
production leads to terminals, and no two productions have the same rules. -/
structure Clean (g : Gram) (S : Nat) : Prop where
  sane : Sane g
  order : g.order.Nodup
  acc : Accurate g
  known : Known g
  start : S ∈ g.order
  fresh : ∀ a q, q ∈ g.cfg a → .nt S ∉ q
  nonempty : ∀ a q, q ∈ g.cfg a → q ≠ [] ∧ .term [] ∉ q
  leads : ∀ a ∈ g.order, g.cfg.LeadsToTerminal a
  distinct : ∀ a b, a ∈ g.order → b ∈ g.order → (∀ q, q ∈ g.cfg a ↔ q ∈ g.cfg b) → a = b

theorem sameProd_iff {g g' : Gram} {S : Nat} (h : Clean g S) (ha : Alike g g') {a b : Nat} :
    sameProd g' a b = true ↔ a = b := by
  constructor
  · intro hs
    unfold sameProd at hs
    rw [Bool.or_eq_true, decide_eq_true_eq] at hs
    rcases hs with e | hs
    · exact e
    · cases h1 : g'.prod a with
      | none => rw [h1] at hs; cases hs
      | some p =>
        cases h2 : g'.prod b with
        | none => rw [h1, h2] at hs; cases hs
        | some q =>
          rw [h1, h2] at hs
          simp only at hs
          rw [same_iff] at hs
          have e1 := cfg_of_prod h1
          have e2 := cfg_of_prod h2
          rw [ha.cfg] at e1 e2
          refine h.distinct a b ?_ ?_ ?_
          · rw [h.sane.mem_order, ← ha.isSome, h1]; rfl
          · rw [h.sane.mem_order, ← ha.isSome, h2]; rfl
          · intro s; rw [e1, e2]; exact hs s
  · rintro rfl
    simp [sameProd]

theorem same_eq {g g' : Gram} {S : Nat} (h : Clean g S) (ha : Alike g g') {s t : EState} :
    s.same g' t = true ↔ s = t := by
  have hk : ∀ k l : Kind, k.same g' l = true ↔ k = l := by
    intro k l
    cases k <;> cases l <;> simp [Kind.same, sameProd_iff h ha]
  unfold EState.same
  simp only [Bool.and_eq_true, decide_eq_true_eq, hk, sameProd_iff h ha]
  constructor
  · rintro ⟨⟨⟨⟨⟨⟨h1, h2⟩, h3⟩, h4⟩, h5⟩, h6⟩, h7⟩
    cases s; cases t
    simp_all
  · rintro rfl
    simp

/-- What `add` does if nothing was completed in the queue. -/
structure Added (st : PS) (k : Nat) (s : EState) (st' : PS) : Prop where
  g : st'.g = st.g
  last : st'.last = st.last
  other : ∀ j, j ≠ k → st'.q j = st.q j
  queue : (st'.q k).queue = if s ∈ (st.q k).queue then (st.q k).queue else (st.q k).queue ++ [s]
  completed : (st'.q k).completed = (st.q k).completed
  waiting : ∀ x t, t ∈ (st'.q k).waiting x ↔
    t ∈ (st.q k).waiting x ∨ (t = s ∧ ∃ rest, s.expected = .nt x :: rest)

theorem add_added {σ : EIter} {g : Gram} {S : Nat} (h : Clean g S) {st : PS} (ha : Alike g st.g) {k : Nat}
    (hc : ∀ x, (st.q k).completed x = []) (s : EState) : Added st k s (st.add σ k s) := by
  have hfound : ((st.q k).queue.find? (s.same st.g)) = if s ∈ (st.q k).queue then some s else none := by
    split
    · rename_i hin
      cases hf : (st.q k).queue.find? (s.same st.g) with
      | none =>
        rw [List.find?_eq_none] at hf
        exact absurd ((same_eq h ha).2 rfl) (hf s hin)
      | some t =>
        have := List.find?_some hf
        rw [same_eq h ha] at this
        rw [this]
    · rename_i hin
      rw [List.find?_eq_none]
      intro t ht hs
      rw [same_eq h ha] at hs
      exact hin (hs ▸ ht)
  unfold PS.add
  have hst1 : ∃ st1 : PS, st1 = (if s ∈ (st.q k).queue then st else st.setQ k { st.q k with queue := (st.q k).queue ++ [s] }) ∧
      st1.g = st.g ∧ st1.last = st.last ∧ (∀ j, j ≠ k → st1.q j = st.q j) ∧
      (st1.q k).queue = (if s ∈ (st.q k).queue then (st.q k).queue else (st.q k).queue ++ [s]) ∧
      (st1.q k).completed = (st.q k).completed ∧ (st1.q k).waiting = (st.q k).waiting := by
    refine ⟨_, rfl, ?_⟩
    split
    · exact ⟨rfl, rfl, fun _ _ => rfl, rfl, rfl, rfl⟩
    · refine ⟨rfl, rfl, fun j hj => by simp [PS.setQ, hj], by simp [PS.setQ], by simp [PS.setQ], by simp [PS.setQ]⟩
  obtain ⟨st1, e1, hg1, hl1, ho1, hq1, hc1, hw1⟩ := hst1
  have hgetD : ((st.q k).queue.find? (s.same st.g)).getD s = s := by rw [hfound]; split <;> rfl
  have hif : (if ((st.q k).queue.find? (s.same st.g)).isSome = true then st
      else st.setQ k { st.q k with queue := (st.q k).queue ++ [s] }) = st1 := by
    rw [hfound, e1]; split <;> simp_all
  unfold PyEarley.add
  simp only [hgetD, hif]
  cases hx : s.expected with
  | nil =>
    simp only
    exact ⟨hg1, hl1, ho1, hq1, hc1, fun x t => by rw [hw1]; simp [hx]⟩
  | cons y ys =>
    cases y with
    | term b =>
      simp only
      exact ⟨hg1, hl1, ho1, hq1, hc1, fun x t => by rw [hw1]; simp [hx]⟩
    | nt x =>
      simp only [List.length_cons]
      have hcomp : ((st1.setQ k ((st1.q k).wait st1.g x s)).q k).completed x = [] := by
        simp [PS.setQ, EQueue.wait, hc1, hc]
      rw [hcomp, List.foldl_nil]
      refine ⟨hg1, hl1, fun j hj => by simp [PS.setQ, hj, ho1 j hj], by simp [PS.setQ, EQueue.wait, hq1],
        by simp [PS.setQ, EQueue.wait, hc1], fun y t => ?_⟩
      simp only [PS.setQ, if_true, EQueue.wait]
      by_cases hy : y = x
      · subst hy
        simp only [if_true, hw1]
        have hany : ((st.q k).waiting y).any (s.same st1.g) = true ↔ s ∈ (st.q k).waiting y := by
          rw [List.any_eq_true]
          constructor
          · rintro ⟨t, ht, hs⟩
            rw [same_eq h (by rw [hg1]; exact ha)] at hs
            exact hs ▸ ht
          · intro hs
            exact ⟨s, hs, (same_eq h (by rw [hg1]; exact ha)).2 rfl⟩
        split
        · rename_i hin
          rw [hany] at hin
          constructor
          · exact .inl
          · rintro (h | ⟨rfl, _⟩)
            · exact h
            · exact hin
        · simp [hx]
      · simp only [hy, if_false, hw1]
        constructor
        · exact .inl
        · rintro (h | ⟨rfl, rest, e⟩)
          · exact h
          · rw [hx] at e
            simp only [List.cons.injEq, Sym.nt.injEq] at e
            exact absurd e.1.symm hy

/-- The bytes from `i` to `j`. -/
def slice (w : List Nat) (i j : Nat) : List Nat := (w.drop i).take (j - i)

theorem slice_self (w : List Nat) (i : Nat) : slice w i i = [] := by simp [slice]

theorem slice_append {w : List Nat} {i j k : Nat} (h1 : i ≤ j) (h2 : j ≤ k) :
    slice w i j ++ slice w j k = slice w i k := by
  unfold slice
  have e : w.drop j = (w.drop i).drop (j - i) := by rw [List.drop_drop]; congr 1; omega
  rw [e, ← List.take_add]
  congr 1
  omega

theorem slice_length {w : List Nat} {i j : Nat} (h : j ≤ w.length) : (slice w i j).length = j - i := by
  unfold slice
  rw [List.length_take, List.length_drop]
  omega

theorem slice_prefix {w b : List Nat} {k : Nat} (h : b <+: w.drop k) : slice w k (k + b.length) = b := by
  unfold slice
  rw [Nat.add_sub_cancel_left]
  exact (List.prefix_iff_eq_take.1 h).symm

theorem prefix_of_slice {w b : List Nat} {k j : Nat} (h : b <+: slice w k j) : b <+: w.drop k :=
  h.trans (List.take_prefix _ _)

/-- What holds of every state of a queue. -/
structure OkState (g : Gram) (S : Nat) (w : List Nat) (j : Nat) (s : EState) : Prop where
  pidx : s.pidx = s.index
  rule : s.pexp ∈ g.cfg s.pname
  le : s.index ≤ j
  len : j ≤ w.length
  derives : ∃ pre, s.pexp = pre ++ s.expected ∧ Derives g.cfg pre (slice w s.index j)
  parsed : ∃ bs : List (List Nat), s.parsed = bs.map Sym.term ∧ bs.flatten = slice w s.index j ∧ (∀ b ∈ bs, b ≠ []) ∧
    (s.kind = .pred ∨ s.kind = .compl ∨ ∃ b ∈ bs, s.kind = .scanned b)
  pred : s.kind = .pred → s.parsed = []
  start : s.pname = S → s.index = 0

theorem derives_nonempty {G : Cfg} (h : ∀ a q, q ∈ G a → q ≠ [] ∧ .term [] ∉ q) : ∀ {s w}, Derives G s w → s ≠ [] →
    .term [] ∉ s → w ≠ [] := by
  intro s w hd
  induction hd with
  | nil => intro h; exact absurd rfl h
  | @term b s w _ _ =>
    intro _ hb e
    simp only [List.append_eq_nil_iff] at e
    rw [e.1] at hb
    simp at hb
  | @nt A r s u w hr _ _ ih1 _ =>
    intro _ _ e
    simp only [List.append_eq_nil_iff] at e
    exact ih1 (h A r hr).1 (h A r hr).2 e.1

theorem OkState.lt {g : Gram} {S : Nat} (h : Clean g S) {w : List Nat} {j : Nat} {s : EState} (hs : OkState g S w j s)
    (hf : s.expected = []) : s.index < j := by
  obtain ⟨pre, e, hd⟩ := hs.derives
  rw [hf, List.append_nil] at e
  have hne := derives_nonempty h.nonempty hd (by rw [← e]; exact (h.nonempty _ _ hs.rule).1)
    (by rw [← e]; exact (h.nonempty _ _ hs.rule).2)
  have := hs.le
  refine Nat.lt_of_le_of_ne this (fun e' => hne ?_)
  rw [e', slice_self]

/-- The parser while it is at position `k`. -/
structure Inv (g : Gram) (S : Nat) (w : List Nat) (k : Nat) (st : PS) : Prop where
  alike : Alike g st.g
  known : Known st.g
  nodup : ∀ j, (st.q j).queue.Nodup
  ok : ∀ j, ∀ s ∈ (st.q j).queue, OkState g S w j s
  wait : ∀ j x s, s ∈ (st.q j).waiting x ↔ s ∈ (st.q j).queue ∧ ∃ rest, s.expected = .nt x :: rest
  completed : ∀ j, k ≤ j → ∀ x, (st.q j).completed x = []
  last : ∀ j, ∀ s ∈ (st.q j).queue, s.index < j → j ≤ st.last

/-- How the parser changes at position `k`: the queues before stay, the others grow. -/
structure Ext (k : Nat) (st st' : PS) : Prop where
  before : ∀ j, j < k → (st'.q j).queue = (st.q j).queue
  grow : ∀ j, ∃ l, (st'.q j).queue = (st.q j).queue ++ l
  last : st.last ≤ st'.last

theorem Ext.refl (k : Nat) (st : PS) : Ext k st st := ⟨fun _ _ => rfl, fun _ => ⟨[], by simp⟩, Nat.le_refl _⟩

theorem Ext.trans {k : Nat} {a b c : PS} (h : Ext k a b) (h' : Ext k b c) : Ext k a c := by
  refine ⟨fun j hj => (h'.before j hj).trans (h.before j hj), fun j => ?_, Nat.le_trans h.last h'.last⟩
  obtain ⟨l, hl⟩ := h.grow j
  obtain ⟨l', hl'⟩ := h'.grow j
  exact ⟨l ++ l', by rw [hl', hl, List.append_assoc]⟩

theorem Ext.mem {k : Nat} {a b : PS} (h : Ext k a b) {j : Nat} {s : EState} (hs : s ∈ (a.q j).queue) :
    s ∈ (b.q j).queue := by
  obtain ⟨l, hl⟩ := h.grow j
  rw [hl]
  exact List.mem_append_left _ hs

theorem Added.mem {st st' : PS} {k : Nat} {s t : EState} (h : Added st k s st') :
    t ∈ (st'.q k).queue ↔ t ∈ (st.q k).queue ∨ t = s := by
  rw [h.queue]
  split
  · rename_i hin
    constructor
    · exact .inl
    · rintro (h | rfl)
      · exact h
      · exact hin
  · simp

theorem Added.ext {st st' : PS} {k m : Nat} {s : EState} (h : Added st m s st') (hk : k ≤ m) : Ext k st st' := by
  refine ⟨fun j hj => by rw [h.other j (by omega)], fun j => ?_, by rw [h.last]; exact Nat.le_refl _⟩
  by_cases hj : j = m
  · subst hj
    rw [h.queue]
    split
    · exact ⟨[], by simp⟩
    · exact ⟨[s], rfl⟩
  · exact ⟨[], by rw [h.other j hj]; simp⟩

/-- `add` of a good state keeps the invariant. -/
theorem Inv.added {g : Gram} {S : Nat} {w : List Nat} {k m : Nat} {st st' : PS} {s : EState} {l : Nat}
    (hi : Inv g S w k st) (h : Added st m s st') (hs : OkState g S w m s)
    (hl : s.index < m → m ≤ Nat.max st.last l) : Inv g S w k { st' with last := Nat.max st'.last l } := by
  have hq : ∀ j t, t ∈ (st'.q j).queue → t ∈ (st.q j).queue ∨ (j = m ∧ t = s) := by
    intro j t ht
    by_cases hj : j = m
    · subst hj
      rw [h.mem] at ht
      exact ht.imp id (fun e => ⟨rfl, e⟩)
    · rw [h.other j hj] at ht
      exact .inl ht
  refine ⟨by rw [h.g]; exact hi.alike, by rw [h.g]; exact hi.known, fun j => ?_, fun j t ht => ?_, fun j x t => ?_,
    fun j hj x => ?_, fun j t ht hlt => ?_⟩
  · by_cases hj : j = m
    · subst hj
      show (st'.q j).queue.Nodup
      rw [h.queue]
      split
      · exact hi.nodup j
      · rename_i hin
        rw [List.nodup_append]
        refine ⟨hi.nodup j, by simp, ?_⟩
        intro a ha b hb
        rw [List.mem_singleton] at hb
        subst hb
        exact fun e => hin (e ▸ ha)
    · show (st'.q j).queue.Nodup
      rw [h.other j hj]
      exact hi.nodup j
  · rcases hq j t ht with ht | ⟨rfl, rfl⟩
    · exact hi.ok j t ht
    · exact hs
  · show t ∈ (st'.q j).waiting x ↔ t ∈ (st'.q j).queue ∧ _
    by_cases hj : j = m
    · subst hj
      rw [h.waiting, h.mem, hi.wait]
      constructor
      · rintro (⟨h1, h2⟩ | ⟨rfl, h2⟩)
        · exact ⟨.inl h1, h2⟩
        · exact ⟨.inr rfl, h2⟩
      · rintro ⟨h1 | rfl, h2⟩
        · exact .inl ⟨h1, h2⟩
        · exact .inr ⟨rfl, h2⟩
    · rw [h.other j hj]
      exact hi.wait j x t
  · show (st'.q j).completed x = []
    by_cases hj' : j = m
    · subst hj'
      rw [h.completed]; exact hi.completed j hj x
    · rw [h.other j hj']; exact hi.completed j hj x
  · show j ≤ Nat.max st'.last l
    rw [h.last]
    rcases hq j t ht with ht | ⟨rfl, rfl⟩
    · exact Nat.le_trans (hi.last j t ht hlt) (Nat.le_max_left _ _)
    · exact hl hlt

theorem Inv.added' {g : Gram} {S : Nat} {w : List Nat} {k m : Nat} {st st' : PS} {s : EState}
    (hi : Inv g S w k st) (h : Added st m s st') (hs : OkState g S w m s)
    (hl : s.index < m → m ≤ st.last) : Inv g S w k st' := by
  have := hi.added (l := 0) h hs (fun hlt => Nat.le_trans (hl hlt) (Nat.le_max_left _ _))
  have e : ({ st' with last := Nat.max st'.last 0 } : PS) = st' := by
    cases st'; simp
  rwa [e] at this

end Verif.PyEarley
