import Verif.PyPartial
/- What `partial_match` enumerates. -/
namespace Verif.PyPartial
open Verif.Spec Verif.PyGrammar

/-- What a match of the name `A` with `s` must be. -/
def Good (G : Cfg) (A : Nat) (s : List Nat) (m : PMatch) : Prop :=
  (m.rem ≠ [] ∧ m.syms = [] ∧ ∃ w, Full G (.nt A) m.tree w ∧ w ++ m.rem = s) ∨
  (m.rem = [] ∧ Cut G (.nt A) m.tree s m.syms)

/-- What may come of an element of the stack. -/
def Ext (G : Cfg) (A : Nat) (r : List Sym) (it : Item) (m : PMatch) : Prop :=
  (m.rem ≠ [] ∧ m.syms = [] ∧ ∃ ts w, Fulls G it.syms ts w ∧ w ++ m.rem = it.rem ∧
    m.tree = PVal.tree A r (orEmpty (it.trees ++ ts))) ∨
  (m.rem = [] ∧ ∃ pre s post ts t u w post', it.syms = pre ++ s :: post ∧ Fulls G pre ts u ∧ Cut G s t w post' ∧
    u ++ w = it.rem ∧ m.tree = PVal.tree A r (it.trees ++ ts ++ [t]) ∧ m.syms = post)

theorem Cut.ne_nil {G : Cfg} {s t w p} (h : Cut G s t w p) : w ≠ [] := by
  induction h with
  | term hb => exact hb
  | nt _ _ _ ih => simp [ih]

theorem orEmpty_snoc (ts : List (Tree PVal)) (t : Tree PVal) : orEmpty (ts ++ [t]) = ts ++ [t] := by
  simp [orEmpty]

theorem orEmpty_ne {ts : List (Tree PVal)} (h : ts ≠ []) : orEmpty ts = ts := by simp [orEmpty, h]

theorem orEmpty_mid (ts : List (Tree PVal)) (t : Tree PVal) (us : List (Tree PVal)) :
    orEmpty (ts ++ t :: us) = ts ++ t :: us := by simp [orEmpty]

theorem ext_nil {G : Cfg} {A : Nat} {r : List Sym} {rem : List Nat} {trees : List (Tree PVal)} {m : PMatch}
    (hr : rem ≠ []) :
    Ext G A r ⟨rem, trees, []⟩ m ↔ m = ⟨PVal.tree A r (orEmpty trees), [], rem⟩ := by
  constructor
  · rintro (⟨h1, h2, ts, w, hf, hw, ht⟩ | ⟨_, pre, s, post, _, _, _, _, _, h, _⟩)
    · cases hf
      cases m
      simp_all
    · simp at h
  · rintro rfl
    exact .inl ⟨hr, rfl, [], [], .nil, rfl, by simp⟩

theorem ext_term {G : Cfg} {A : Nat} {r : List Sym} {rem : List Nat} {trees : List (Tree PVal)} {b : List Nat}
    {ss : List Sym} {m : PMatch} (hr : rem ≠ []) :
    Ext G A r ⟨rem, trees, .term b :: ss⟩ m ↔
      (rem = b ∧ m = ⟨PVal.tree A r (trees ++ [PVal.leaf b]), ss, []⟩) ∨
      (∃ rest, rest ≠ [] ∧ rem = b ++ rest ∧ Ext G A r ⟨rest, trees ++ [PVal.leaf b], ss⟩ m) := by
  constructor
  · rintro (⟨h1, h2, ts, w, hf, hw, ht⟩ | ⟨h1, pre, s, post, ts, t, u, w, post', h, hf, hc, hw, ht, hp⟩)
    · cases hf with
      | @cons _ t u _ ts w h3 h4 =>
        cases h3
        refine .inr ⟨w ++ m.rem, by simp [h1], ((List.append_assoc _ _ _).symm.trans hw).symm, .inl ⟨h1, h2, ts, w, h4, rfl, ?_⟩⟩
        rw [ht]; simp
    · cases pre with
      | nil =>
        simp only [List.nil_append, List.cons.injEq] at h
        obtain ⟨rfl, rfl⟩ := h
        cases hf
        cases hc
        left
        refine ⟨by simpa using hw.symm, ?_⟩
        cases m; simp_all
      | cons x pre =>
        simp only [List.cons_append, List.cons.injEq] at h
        obtain ⟨rfl, rfl⟩ := h
        cases hf with
        | @cons _ t' u' _ ts w' h3 h4 =>
          cases h3
          refine .inr ⟨w' ++ w, by simp [Cut.ne_nil hc], ((List.append_assoc _ _ _).symm.trans hw).symm,
            .inr ⟨h1, pre, s, post, ts, t, w', w, post', rfl, h4, hc, rfl, ?_, hp⟩⟩
          rw [ht]; simp
  · rintro (⟨rfl, rfl⟩ | ⟨rest, hrest, rfl, h⟩)
    · exact .inr ⟨rfl, [], .term rem, ss, [], PVal.leaf rem, [], rem, [], rfl, .nil, .term hr, rfl, by simp, rfl⟩
    · rcases h with (⟨h1, h2, ts, w, hf, hw, ht⟩ | ⟨h1, pre, s, post, ts, t, u, w, post', h, hf, hc, hw, ht, hp⟩)
      · refine .inl ⟨h1, h2, PVal.leaf b :: ts, b ++ w, .cons .term hf, ?_, by rw [ht]; simp⟩
        rw [List.append_assoc, hw]
      · simp only at h hw
        subst h
        refine .inr ⟨h1, .term b :: pre, s, post, PVal.leaf b :: ts, t, b ++ u, w, post', rfl, .cons .term hf, hc, ?_,
          by rw [ht]; simp, hp⟩
        rw [List.append_assoc, hw]

theorem ext_nt {G : Cfg} {A : Nat} {r : List Sym} {rem : List Nat} {trees : List (Tree PVal)} {B : Nat}
    {ss : List Sym} {m : PMatch} :
    Ext G A r ⟨rem, trees, .nt B :: ss⟩ m ↔
      ∃ m', Good G B rem m' ∧ (m ∈ (onMatch A r ⟨rem, trees, .nt B :: ss⟩ ss m').1 ∨
        ∃ it ∈ (onMatch A r ⟨rem, trees, .nt B :: ss⟩ ss m').2, Ext G A r it m) := by
  constructor
  · rintro (⟨h1, h2, ts, w, hf, hw, ht⟩ | ⟨h1, pre, s, post, ts, t, u, w, post', h, hf, hc, hw, ht, hp⟩)
    · cases hf with
      | @cons _ t u _ ts w h3 h4 =>
        refine ⟨⟨t, [], w ++ m.rem⟩, .inl ⟨by simp [h1], rfl, u, h3, (List.append_assoc _ _ _).symm.trans hw⟩, ?_⟩
        cases h4 with
        | nil =>
          left
          simp only [onMatch]
          rw [if_pos (by simp)]
          cases m; simp_all [orEmpty]
        | @cons s t' u' ss ts w h5 h6 =>
          right
          refine ⟨⟨u' ++ w ++ m.rem, trees ++ [t], s :: ss⟩, ?_, .inl ⟨h1, h2, _, _, .cons h5 h6, rfl, ?_⟩⟩
          · simp only [onMatch]
            rw [if_neg (by simp [h1])]
            simp
          · rw [ht]; simp
    · cases pre with
      | nil =>
        simp only [List.nil_append, List.cons.injEq] at h
        obtain ⟨rfl, rfl⟩ := h
        cases hf
        simp only [List.nil_append] at hw
        subst hw
        refine ⟨⟨t, post', []⟩, .inr ⟨rfl, hc⟩, .inl ?_⟩
        simp only [onMatch]
        rw [if_pos (by simp)]
        cases m; simp_all
      | cons x pre =>
        simp only [List.cons_append, List.cons.injEq] at h
        obtain ⟨rfl, rfl⟩ := h
        cases hf with
        | @cons _ t' u' _ ts w' h3 h4 =>
          refine ⟨⟨t', [], w' ++ w⟩, .inl ⟨by simp [Cut.ne_nil hc], rfl, u', h3, (List.append_assoc _ _ _).symm.trans hw⟩, .inr
            ⟨⟨w' ++ w, trees ++ [t'], pre ++ s :: post⟩, ?_, .inr ⟨h1, pre, s, post, ts, t, w', w, post', rfl, h4, hc, rfl, ?_, hp⟩⟩⟩
          · simp only [onMatch]
            rw [if_neg (by simp [Cut.ne_nil hc]; omega)]
            simp
          · rw [ht]; simp
  · rintro ⟨m', hg, hm⟩
    rcases hg with ⟨h1, h2, w, hf, hw⟩ | ⟨h1, hc⟩
    · by_cases hs : ss = []
      · subst hs
        simp only [onMatch] at hm
        rw [if_pos (by simp [h2])] at hm
        simp only [List.mem_singleton, List.not_mem_nil, false_and, exists_false, or_false] at hm
        subst hm
        refine .inl ⟨h1, rfl, [m'.tree], w, ?_, hw, (by simp only [orEmpty_snoc])⟩
        have := Fulls.cons hf (Fulls.nil (G := G))
        rwa [List.append_nil] at this
      · simp only [onMatch] at hm
        rw [if_neg (by have := List.length_pos_iff.2 hs; simp [h1, h2]; omega)] at hm
        simp only [List.mem_singleton, List.not_mem_nil, false_or, exists_eq_left, h2, List.nil_append] at hm
        rcases hm with (⟨g1, g2, ts, w', gf, gw, gt⟩ | ⟨g1, pre, s, post, ts, t, u, w', post', g, gf, gc, gw, gt, gp⟩)
        · refine .inl ⟨g1, g2, m'.tree :: ts, w ++ w', .cons hf gf, ?_, by rw [gt]; simp⟩
          simp only at gw ⊢
          rw [List.append_assoc, gw, hw]
        · simp only at g gw
          subst g
          refine .inr ⟨g1, .nt B :: pre, s, post, m'.tree :: ts, t, w ++ u, w', post', rfl, .cons hf gf, gc, ?_, by rw [gt]; simp, gp⟩
          simp only
          rw [List.append_assoc, gw, hw]
    · simp only [onMatch] at hm
      rw [if_pos (by simp [h1])] at hm
      simp only [List.mem_singleton, List.not_mem_nil, false_and, exists_false, or_false] at hm
      subst hm
      exact .inr ⟨h1, [], .nt B, ss, [], m'.tree, [], rem, m'.syms, rfl, .nil, hc, rfl, by simp, rfl⟩

theorem good_iff {G : Cfg} {A : Nat} {s : List Nat} {m : PMatch} :
    Good G A s m ↔ ∃ r ∈ G A, Ext G A r ⟨s, [], r⟩ m := by
  constructor
  · rintro (⟨h1, h2, w, hf, hw⟩ | ⟨h1, hc⟩)
    · generalize ht : m.tree = t at hf
      generalize hA : Sym.nt A = a at hf
      cases hf with
      | term => cases hA
      | none h =>
        cases hA
        exact ⟨[], h, .inl ⟨h1, h2, [], [], .nil, hw, by rw [ht]; rfl⟩⟩
      | @some _ x r ts w h hf =>
        cases hA
        refine ⟨_, h, .inl ⟨h1, h2, ts, _, hf, hw, ?_⟩⟩
        rw [ht, List.nil_append, orEmpty_ne]
        cases hf; simp
    · generalize ht : m.tree = t at hc
      generalize hA : Sym.nt A = a at hc
      generalize hp : m.syms = p at hc
      cases hc with
      | term => cases hA
      | nt h hf hc =>
        cases hA
        exact ⟨_, h, .inr ⟨h1, _, _, _, _, _, _, _, _, rfl, hf, hc, rfl, by rw [ht]; simp, hp⟩⟩
  · rintro ⟨r, hr, (⟨h1, h2, ts, w, hf, hw, ht⟩ | ⟨h1, pre, x, post, ts, t, u, w, post', h, hf, hc, hw, ht, hp⟩)⟩
    · refine .inl ⟨h1, h2, w, ?_, hw⟩
      rw [ht, List.nil_append]
      cases r with
      | nil => cases hf; exact .none hr
      | cons x r =>
        rw [orEmpty_ne (by cases hf; simp)]
        exact .some hr hf
    · simp only at h hw
      subst h
      refine .inr ⟨h1, ?_⟩
      rw [ht, hp, ← hw]
      exact .nt hr hf hc

theorem seq_sound {os : List Out} {m : PMatch} (h : m ∈ (Out.seq os).1) : ∃ o ∈ os, m ∈ o.1 := by
  induction os with
  | nil => simp [Out.seq] at h
  | cons o os ih =>
    simp only [Out.seq] at h
    split at h
    · rcases List.mem_append.1 h with h | h
      · exact ⟨o, by simp, h⟩
      · obtain ⟨o', h1, h2⟩ := ih h
        exact ⟨o', by simp [h1], h2⟩
    · exact ⟨o, by simp, h⟩

theorem seq_done {os : List Out} (h : (Out.seq os).2 = .done) :
    ∀ o ∈ os, o.2 = .done ∧ ∀ m ∈ o.1, m ∈ (Out.seq os).1 := by
  induction os with
  | nil => simp
  | cons o os ih =>
    simp only [Out.seq] at h ⊢
    split at h
    · rename_i ho
      rw [if_pos ho]
      intro o' ho'
      rcases List.mem_cons.1 ho' with rfl | ho'
      · exact ⟨ho, fun m hm => List.mem_append.2 (.inl hm)⟩
      · obtain ⟨h1, h2⟩ := ih h o' ho'
        exact ⟨h1, fun m hm => List.mem_append.2 (.inr (h2 m hm))⟩
    · rename_i ho; exact absurd h ho

theorem mem_cfg {g : Gram} {A : Nat} {p : Prodn} (hp : g.prod A = some p) {r : List Sym} :
    r ∈ g.cfg A ↔ ∃ q ∈ p.rules, q.seq = r := by
  simp [Gram.cfg, hp]

/-- Every production has a rule. -/
def HasRules (g : Gram) : Prop := ∀ a p, g.prod a = some p → p.rules ≠ []

theorem enum {σ : Iter} (hσ : σ.Ok) {g : Gram} (hg : HasRules g) (f : Nat) :
    (∀ A s, s ≠ [] → (∀ m ∈ (pm σ g f A s).1, Good g.cfg A s m) ∧
      ((pm σ g f A s).2 = .done → ∀ m, Good g.cfg A s m → m ∈ (pm σ g f A s).1)) ∧
    (∀ A r st, (∀ it ∈ st, it.rem ≠ []) → (∀ m ∈ (loop σ g f A r st).1, ∃ it ∈ st, Ext g.cfg A r it m) ∧
      ((loop σ g f A r st).2 = .done → ∀ it ∈ st, ∀ m, Ext g.cfg A r it m → m ∈ (loop σ g f A r st).1)) := by
  induction f with
  | zero => exact ⟨fun A s _ => by simp [pm], fun A r st _ => by simp [loop]⟩
  | succ f ih =>
    obtain ⟨ihp, ihl⟩ := ih
    constructor
    · intro A s hs
      rw [pm]
      cases hp : g.prod A with
      | none => simp
      | some p =>
        simp only []
        rw [if_neg (by simp [hs, hg A p hp])]
        have hl : ∀ r : Rule, _ := fun r => ihl A r.seq [⟨s, [], r.seq⟩] (by simpa using hs)
        constructor
        · intro m hm
          obtain ⟨o, ho, hm⟩ := seq_sound hm
          obtain ⟨q, hq, rfl⟩ := List.mem_map.1 ho
          obtain ⟨it, hit, he⟩ := (hl q).1 m hm
          simp only [List.mem_singleton] at hit
          subst hit
          exact good_iff.2 ⟨q.seq, (mem_cfg hp).2 ⟨q, (hσ.rules _).mem_iff.1 hq, rfl⟩, he⟩
        · intro hd m hm
          obtain ⟨r, hr, he⟩ := good_iff.1 hm
          obtain ⟨q, hq, rfl⟩ := (mem_cfg hp).1 hr
          obtain ⟨h1, h2⟩ := seq_done hd _ (List.mem_map.2 ⟨q, (hσ.rules _).mem_iff.2 hq, rfl⟩)
          exact h2 m ((hl q).2 h1 _ (by simp) m he)
    · intro A r st hst
      cases st with
      | nil => simp [loop]
      | cons it st =>
        obtain ⟨rem, trees, syms⟩ := it
        have hr : rem ≠ [] := hst ⟨rem, trees, syms⟩ (by simp)
        have hst' : ∀ it ∈ st, it.rem ≠ [] := fun it h => hst it (by simp [h])
        obtain ⟨il1, il2⟩ := ihl A r st hst'
        cases syms with
        | nil =>
          simp only [loop, List.mem_cons, forall_eq_or_imp]
          refine ⟨⟨⟨_, .inl rfl, (ext_nil hr).2 rfl⟩, fun m hm => ?_⟩, fun hd => ⟨fun m he => ?_, fun it hit m he => ?_⟩⟩
          · obtain ⟨it, h1, h2⟩ := il1 m hm
            exact ⟨it, .inr h1, h2⟩
          · exact .inl ((ext_nil hr).1 he)
          · exact .inr (il2 hd it hit m he)
        | cons x ss =>
          cases x with
          | term b =>
            by_cases hb : rem = b
            · subst hb
              simp only [loop, hr, if_false, if_true, List.mem_cons, forall_eq_or_imp]
              refine ⟨⟨⟨_, .inl rfl, (ext_term hr).2 (.inl ⟨rfl, rfl⟩)⟩, fun m hm => ?_⟩, fun hd => ⟨fun m he => ?_, fun it hit m he => ?_⟩⟩
              · obtain ⟨it, h1, h2⟩ := il1 m hm
                exact ⟨it, .inr h1, h2⟩
              · rcases (ext_term hr).1 he with ⟨_, h⟩ | ⟨rest, h1, h2, _⟩
                · exact .inl h
                · exact absurd (List.self_eq_append_right.1 h2) h1
              · exact .inr (il2 hd it hit m he)
            · by_cases hpre : b <+: rem
              · simp only [loop, hr, if_false, hb, hpre, if_true]
                obtain ⟨rest, rfl⟩ := hpre
                have hrest : rest ≠ [] := by rintro rfl; simp at hb
                rw [List.drop_left]
                obtain ⟨jl1, jl2⟩ := ihl A r (⟨rest, trees ++ [PVal.leaf b], ss⟩ :: st) (by
                  intro it hit
                  rcases List.mem_cons.1 hit with rfl | hit
                  · exact hrest
                  · exact hst' it hit)
                refine ⟨fun m hm => ?_, fun hd it hit m he => ?_⟩
                · obtain ⟨it, h1, h2⟩ := jl1 m hm
                  rcases List.mem_cons.1 h1 with rfl | h1
                  · exact ⟨_, by simp, (ext_term hr).2 (.inr ⟨rest, hrest, rfl, h2⟩)⟩
                  · exact ⟨it, by simp [h1], h2⟩
                · rcases List.mem_cons.1 hit with rfl | hit
                  · rcases (ext_term hr).1 he with ⟨h, _⟩ | ⟨rest', h1, h2, h3⟩
                    · exact absurd h hb
                    · rw [← List.append_cancel_left h2] at h3
                      exact jl2 hd _ (by simp) m h3
                  · exact jl2 hd it (by simp [hit]) m he
              · simp only [loop, hr, if_false, hb, hpre]
                refine ⟨fun m hm => ?_, fun hd it hit m he => ?_⟩
                · obtain ⟨it, h1, h2⟩ := il1 m hm
                  exact ⟨it, by simp [h1], h2⟩
                · rcases List.mem_cons.1 hit with rfl | hit
                  · rcases (ext_term hr).1 he with ⟨h, _⟩ | ⟨rest', h1, h2, h3⟩
                    · exact absurd h hb
                    · exact absurd ⟨rest', h2.symm⟩ hpre
                  · exact il2 hd it hit m he
          | nt B =>
            obtain ⟨ip1, ip2⟩ := ihp B rem hr
            simp only [loop, hr, if_false]
            have hys : ∀ m ∈ (pm σ g f B rem).1.flatMap (fun m => (onMatch A r ⟨rem, trees, .nt B :: ss⟩ ss m).1),
                Ext g.cfg A r ⟨rem, trees, .nt B :: ss⟩ m := by
              intro m hm
              obtain ⟨m', h1, h2⟩ := List.mem_flatMap.1 hm
              exact ext_nt.2 ⟨m', ip1 m' h1, .inl h2⟩
            by_cases hq : (pm σ g f B rem).2 = .done
            · simp only [hq, if_true]
              obtain ⟨jl1, jl2⟩ := ihl A r (((pm σ g f B rem).1.flatMap
                  (fun m => (onMatch A r ⟨rem, trees, .nt B :: ss⟩ ss m).2)).reverse ++ st) (by
                intro it hit
                rcases List.mem_append.1 hit with hit | hit
                · obtain ⟨m', h1, h2⟩ := List.mem_flatMap.1 (List.mem_reverse.1 hit)
                  simp only [onMatch] at h2
                  split at h2
                  · simp at h2
                  · rename_i hc
                    simp only [List.mem_singleton] at h2
                    subst h2
                    exact fun h => hc (.inl h)
                · exact hst' it hit)
              refine ⟨fun m hm => ?_, fun hd it hit m he => ?_⟩
              · rcases List.mem_append.1 hm with hm | hm
                · exact ⟨_, by simp, hys m hm⟩
                · obtain ⟨it, h1, h2⟩ := jl1 m hm
                  rcases List.mem_append.1 h1 with h1 | h1
                  · obtain ⟨m', h3, h4⟩ := List.mem_flatMap.1 (List.mem_reverse.1 h1)
                    exact ⟨_, by simp, ext_nt.2 ⟨m', ip1 m' h3, .inr ⟨it, h4, h2⟩⟩⟩
                  · exact ⟨it, by simp [h1], h2⟩
              · rcases List.mem_cons.1 hit with rfl | hit
                · obtain ⟨m', h1, h2⟩ := ext_nt.1 he
                  have h3 := ip2 hq m' h1
                  rcases h2 with h2 | ⟨it, h2, h4⟩
                  · exact List.mem_append.2 (.inl (List.mem_flatMap.2 ⟨m', h3, h2⟩))
                  · exact List.mem_append.2 (.inr (jl2 hd it (List.mem_append.2 (.inl (List.mem_reverse.2
                      (List.mem_flatMap.2 ⟨m', h3, h2⟩)))) m h4))
                · exact List.mem_append.2 (.inr (jl2 hd it (by simp [hit]) m he))
            · simp only [hq, if_false]
              exact ⟨fun m hm => ⟨_, by simp, hys m hm⟩, fun h => h.elim⟩

end Verif.PyPartial
