import Verif.PyPartialSpec
/- No tree is enumerated twice. -/
namespace Verif.PyPartial
open Verif.Spec Verif.PyGrammar

/-- Neither list begins with the other. -/
def Apart (a b : List (Tree PVal)) : Prop := ¬ a <+: b ∧ ¬ b <+: a

theorem Apart.symm {a b} (h : Apart a b) : Apart b a := ⟨h.2, h.1⟩

theorem Apart.ne {a b c : List (Tree PVal)} (h : Apart a b) (ha : a <+: c) (hb : b <+: c) : False := by
  rcases List.prefix_or_prefix_of_prefix ha hb with h1 | h1
  · exact h.1 h1
  · exact h.2 h1

theorem Apart.append {a b : List (Tree PVal)} (h : Apart a b) (c : List (Tree PVal)) : Apart (a ++ c) b := by
  refine ⟨fun h1 => h.1 ((List.prefix_append a c).trans h1), fun h1 => ?_⟩
  rcases List.prefix_or_prefix_of_prefix h1 (List.prefix_append a c) with h2 | h2
  · exact h.2 h2
  · exact h.1 h2

theorem apart_snoc {a : List (Tree PVal)} {t u : Tree PVal} (h : t ≠ u) : Apart (a ++ [t]) (a ++ [u]) := by
  refine ⟨fun h1 => h ?_, fun h1 => h ?_⟩
  · obtain ⟨c, h1⟩ := h1
    rw [List.append_assoc] at h1
    have := List.append_cancel_left h1
    simp at this; exact this.1
  · obtain ⟨c, h1⟩ := h1
    rw [List.append_assoc] at h1
    have := List.append_cancel_left h1
    simp at this; exact this.1.symm

/-- The trees of the rule of a match. -/
def kids (A : Nat) (r : List Sym) (m : PMatch) (c : List (Tree PVal)) : Prop := m.tree = PVal.tree A r c

theorem tree_inj {A B : Nat} {r q : List Sym} {c d : List (Tree PVal)} (h : PVal.tree A r c = PVal.tree B q d) :
    A = B ∧ r = q ∧ c = d := by
  simp only [PVal.tree, Tree.node.injEq, PVal.prod.injEq, List.cons.injEq, PVal.rule.injEq, and_true] at h
  exact h

theorem ext_prefix {G : Cfg} {A : Nat} {r : List Sym} {it : Item} {m : PMatch} (h : Ext G A r it m) :
    ∃ c, m.tree = PVal.tree A r c ∧ it.trees <+: c := by
  rcases h with ⟨_, _, ts, w, _, _, ht⟩ | ⟨_, pre, s, post, ts, t, u, w, post', _, _, _, _, ht, _⟩
  · refine ⟨_, ht, ?_⟩
    simp only [orEmpty]
    split
    · rename_i h0
      rw [(List.append_eq_nil_iff.1 h0).1]; exact List.nil_prefix
    · exact List.prefix_append _ _
  · refine ⟨_, ht, ?_⟩
    rw [List.append_assoc]; exact List.prefix_append _ _

theorem mem_onMatch_fst {A : Nat} {r : List Sym} {it : Item} {ss : List Sym} {m y : PMatch}
    (h : y ∈ (onMatch A r it ss m).1) : y.tree = PVal.tree A r (it.trees ++ [m.tree]) ∧ (onMatch A r it ss m).2 = [] := by
  simp only [onMatch] at h ⊢
  split at h
  · rename_i hc
    rw [if_pos hc]
    simp only [List.mem_singleton] at h
    subst h; exact ⟨rfl, rfl⟩
  · simp at h

theorem mem_onMatch_snd {A : Nat} {r : List Sym} {it : Item} {ss : List Sym} {m : PMatch} {i : Item}
    (h : i ∈ (onMatch A r it ss m).2) : i.trees = it.trees ++ [m.tree] ∧ i.rem ≠ [] := by
  simp only [onMatch] at h
  split at h
  · simp at h
  · rename_i hc
    simp only [List.mem_singleton] at h
    subst h; exact ⟨rfl, fun h0 => hc (.inl h0)⟩

theorem onMatch_fst_short (A : Nat) (r : List Sym) (it : Item) (ss : List Sym) (m : PMatch) :
    ((onMatch A r it ss m).1.map (·.tree)).Nodup := by
  simp only [onMatch]; split <;> simp

theorem onMatch_snd_short (A : Nat) (r : List Sym) (it : Item) (ss : List Sym) (m : PMatch) :
    (onMatch A r it ss m).2.Pairwise (fun a b => Apart a.trees b.trees) := by
  simp only [onMatch]; split <;> simp

theorem nodup_flatMap_tree {A : Nat} {r : List Sym} {it : Item} {ss : List Sym} :
    ∀ {l : List PMatch}, (l.map (·.tree)).Nodup →
      ((l.flatMap (fun m => (onMatch A r it ss m).1)).map (·.tree)).Nodup
  | [], _ => by simp
  | m :: l, h => by
    simp only [List.map_cons, List.nodup_cons] at h
    simp only [List.flatMap_cons, List.map_append]
    refine List.nodup_append.2 ⟨onMatch_fst_short .., nodup_flatMap_tree h.2, ?_⟩
    intro x hx y hy hxy
    subst hxy
    obtain ⟨a, ha, rfl⟩ := List.mem_map.1 hx
    obtain ⟨b, hb, he⟩ := List.mem_map.1 hy
    obtain ⟨m', hm', hb⟩ := List.mem_flatMap.1 hb
    rw [(mem_onMatch_fst ha).1, (mem_onMatch_fst hb).1] at he
    have := List.append_cancel_left (tree_inj he).2.2
    simp only [List.cons.injEq, and_true] at this
    exact h.1 (List.mem_map.2 ⟨m', hm', this⟩)

theorem apart_flatMap {A : Nat} {r : List Sym} {it : Item} {ss : List Sym} :
    ∀ {l : List PMatch}, (l.map (·.tree)).Nodup →
      (l.flatMap (fun m => (onMatch A r it ss m).2)).Pairwise (fun a b => Apart a.trees b.trees)
  | [], _ => by simp
  | m :: l, h => by
    simp only [List.map_cons, List.nodup_cons] at h
    simp only [List.flatMap_cons]
    refine List.pairwise_append.2 ⟨onMatch_snd_short .., apart_flatMap h.2, ?_⟩
    intro a ha b hb
    obtain ⟨m', hm', hb⟩ := List.mem_flatMap.1 hb
    rw [(mem_onMatch_snd ha).1, (mem_onMatch_snd hb).1]
    exact apart_snoc fun he => h.1 (List.mem_map.2 ⟨m', hm', he.symm⟩)

theorem seq_nodup : ∀ {α : Type} {l : List α} {a : α → Out}, (∀ x ∈ l, ((a x).1.map (·.tree)).Nodup) →
    l.Pairwise (fun x y => ∀ m ∈ (a x).1, ∀ m' ∈ (a y).1, m.tree ≠ m'.tree) →
    ((Out.seq (l.map a)).1.map (·.tree)).Nodup
  | _, [], _, _, _ => by simp [Out.seq]
  | _, x :: l, a, h, hp => by
    simp only [List.map_cons, Out.seq]
    rw [List.pairwise_cons] at hp
    split
    · simp only [List.map_append]
      refine List.nodup_append.2 ⟨h x (by simp), seq_nodup (fun y hy => h y (by simp [hy])) hp.2, ?_⟩
      intro u hu v hv huv
      obtain ⟨m, hm, rfl⟩ := List.mem_map.1 hu
      obtain ⟨m', hm', rfl⟩ := List.mem_map.1 hv
      obtain ⟨o, ho, hm'⟩ := seq_sound hm'
      obtain ⟨y, hy, rfl⟩ := List.mem_map.1 ho
      exact hp.1 y hy m hm m' hm' huv
    · exact h x (by simp)

theorem nodup_cons_of {G : Cfg} {A : Nat} {r : List Sym} {st : List Item} {ms : List PMatch} {it : Item} {m : PMatch}
    {c : List (Tree PVal)} (hm : m.tree = PVal.tree A r c) (hc : it.trees <+: c) (hst : ∀ i ∈ st, Apart it.trees i.trees)
    (hs : ∀ m ∈ ms, ∃ i ∈ st, Ext G A r i m) (hn : (ms.map (·.tree)).Nodup) : ((m :: ms).map (·.tree)).Nodup := by
  simp only [List.map_cons, List.nodup_cons]
  refine ⟨fun h => ?_, hn⟩
  obtain ⟨m', hm', he⟩ := List.mem_map.1 h
  obtain ⟨i, hi, hx⟩ := hs m' hm'
  obtain ⟨d, hd, hp⟩ := ext_prefix hx
  rw [hd, hm] at he
  rw [(tree_inj he).2.2] at hp
  exact (hst i hi).ne hc hp

/-- The rules of every production are different. -/
def Distinct (g : Gram) : Prop := ∀ a p, g.prod a = some p → (p.rules.map (·.seq)).Nodup

theorem once {σ : Iter} (hσ : σ.Ok) {g : Gram} (hg : HasRules g) (hd : Distinct g) (f : Nat) :
    (∀ A s, s ≠ [] → ((pm σ g f A s).1.map (·.tree)).Nodup) ∧
    (∀ A r st, (∀ it ∈ st, it.rem ≠ []) → st.Pairwise (fun a b => Apart a.trees b.trees) →
      ((loop σ g f A r st).1.map (·.tree)).Nodup) := by
  induction f with
  | zero => exact ⟨fun A s _ => by simp [pm], fun A r st _ _ => by simp [loop]⟩
  | succ f ih =>
    obtain ⟨ihp, ihl⟩ := ih
    constructor
    · intro A s hs
      rw [pm]
      cases hp : g.prod A with
      | none => simp
      | some p =>
        simp only []
        rw [if_neg (by simp [hs, hg A p hp])]
        refine seq_nodup (fun q _ => ihl A q.seq _ (by simpa using hs) (by simp)) ?_
        have h1 : ((σ.rules p.rules).map (·.seq)).Nodup := ((hσ.rules p.rules).map _).nodup_iff.2 (hd A p hp)
        have h2 : (σ.rules p.rules).Pairwise (fun a b => a.seq ≠ b.seq) := by
          rw [List.Nodup, List.pairwise_map] at h1; exact h1
        refine h2.imp ?_
        intro a b hab m hm m' hm' he
        obtain ⟨i, _, h3⟩ := ((enum hσ hg f).2 A a.seq _ (by simpa using hs)).1 m hm
        obtain ⟨i', _, h4⟩ := ((enum hσ hg f).2 A b.seq _ (by simpa using hs)).1 m' hm'
        obtain ⟨c, h5, _⟩ := ext_prefix h3
        obtain ⟨d, h6, _⟩ := ext_prefix h4
        rw [h5, h6] at he
        exact hab (tree_inj he).2.1
    · intro A r st hst hap
      cases st with
      | nil => simp [loop]
      | cons it st =>
        obtain ⟨rem, trees, syms⟩ := it
        rw [List.pairwise_cons] at hap
        have hr : rem ≠ [] := hst ⟨rem, trees, syms⟩ (by simp)
        have hst' : ∀ it ∈ st, it.rem ≠ [] := fun i hi => hst i (by simp [hi])
        have hn := ihl A r st hst' hap.2
        have hx := ((enum hσ hg f).2 A r st hst').1
        cases syms with
        | nil =>
          simp only [loop]
          refine nodup_cons_of (it := ⟨rem, trees, []⟩) rfl ?_ hap.1 hx hn
          simp only [orEmpty]; split
          · rename_i h0; subst h0; exact List.nil_prefix
          · exact List.prefix_refl _
        | cons x ss =>
          cases x with
          | term b =>
            rw [loop]
            simp only [hr, if_false]
            by_cases hb : rem = b
            · simp only [hb, if_true]
              exact nodup_cons_of (it := ⟨rem, trees, .term b :: ss⟩) rfl (List.prefix_append _ _) hap.1 hx hn
            · simp only [hb, if_false]
              by_cases hp : b <+: rem
              · simp only [hp, if_true]
                refine ihl A r _ ?_ (List.pairwise_cons.2 ⟨fun i hi => (hap.1 i hi).append _, hap.2⟩)
                intro i hi
                rcases List.mem_cons.1 hi with rfl | hi
                · obtain ⟨t, rfl⟩ := hp
                  simp only [List.drop_left]
                  rintro rfl; simp at hb
                · exact hst' i hi
              · simp only [hp, if_false]; exact hn
          | nt B =>
            rw [loop]
            simp only [hr, if_false]
            have hq := ihp B rem hr
            by_cases hdn : (pm σ g f B rem).2 = .done
            · simp only [hdn, if_true, List.map_append]
              have hst2 : ∀ it ∈ ((pm σ g f B rem).1.flatMap
                  (fun m => (onMatch A r ⟨rem, trees, .nt B :: ss⟩ ss m).2)).reverse ++ st, it.rem ≠ [] := by
                intro i hi
                rcases List.mem_append.1 hi with hi | hi
                · obtain ⟨m', _, h2⟩ := List.mem_flatMap.1 (List.mem_reverse.1 hi)
                  exact (mem_onMatch_snd h2).2
                · exact hst' i hi
              refine List.nodup_append.2 ⟨nodup_flatMap_tree hq, ihl A r _ hst2 ?_, ?_⟩
              · refine List.pairwise_append.2 ⟨?_, hap.2, ?_⟩
                · rw [List.pairwise_reverse]
                  exact (apart_flatMap hq).imp fun h => h.symm
                · intro a ha b hb
                  obtain ⟨m', _, h2⟩ := List.mem_flatMap.1 (List.mem_reverse.1 ha)
                  rw [(mem_onMatch_snd h2).1]
                  exact (hap.1 b hb).append _
              · intro u hu v hv huv
                subst huv
                obtain ⟨y, hy, rfl⟩ := List.mem_map.1 hu
                obtain ⟨z, hz, he⟩ := List.mem_map.1 hv
                obtain ⟨m1, hm1, hy⟩ := List.mem_flatMap.1 hy
                obtain ⟨i, hi, hxx⟩ := ((enum hσ hg f).2 A r _ hst2).1 z hz
                obtain ⟨c, hc, hpc⟩ := ext_prefix hxx
                obtain ⟨hy1, hy2⟩ := mem_onMatch_fst hy
                rw [hc, hy1] at he
                have he' := (tree_inj he).2.2
                subst he'
                rcases List.mem_append.1 hi with hi | hi
                · obtain ⟨m2, hm2, hi⟩ := List.mem_flatMap.1 (List.mem_reverse.1 hi)
                  rw [(mem_onMatch_snd hi).1] at hpc
                  by_cases ht : m2.tree = m1.tree
                  · have : m2 = m1 := by
                      rw [List.Nodup, List.pairwise_map] at hq
                      obtain ⟨a, ha, rfl⟩ := List.mem_iff_getElem.1 hm2
                      obtain ⟨b, hb, rfl⟩ := List.mem_iff_getElem.1 hm1
                      rcases Nat.lt_trichotomy a b with h | h | h
                      · exact absurd ht (List.pairwise_iff_getElem.1 hq a b ha hb h)
                      · subst h; rfl
                      · exact absurd ht.symm (List.pairwise_iff_getElem.1 hq b a hb ha h)
                    subst this
                    rw [hy2] at hi
                    simp at hi
                  · exact (apart_snoc ht).1 hpc
                · exact (hap.1 i hi).ne (List.prefix_append _ _) hpc
            · simp only [hdn, if_false]
              exact nodup_flatMap_tree hq

end Verif.PyPartial
