import Verif.PyPartialSpec
/- When `partial_match` ends; parse trees and derivations. -/
namespace Verif.PyPartial
open Verif.Spec Verif.PyGrammar

mutual
theorem full_derives {G : Cfg} {s : Sym} {t : Tree PVal} {w : List Nat} : Full G s t w → Derives G [s] w
  | .term => by
    have := Derives.term (G := G) (b := w) .nil
    rwa [List.append_nil] at this
  | .none h => .nt (u := []) (w := []) h .nil .nil
  | .some h hf => by
    have := Derives.nt h (fulls_derives hf) .nil
    rwa [List.append_nil] at this
theorem fulls_derives {G : Cfg} {s : List Sym} {ts : List (Tree PVal)} {w : List Nat} : Fulls G s ts w → Derives G s w
  | .nil => .nil
  | @Fulls.cons _ (.term b) t u ss ts w h hs => by
    cases h
    exact .term (fulls_derives hs)
  | @Fulls.cons _ (.nt A) t u ss ts w h hs => by
    have h1 := full_derives h
    cases h1 with
    | @nt _ r _ u w h2 h3 h4 =>
      cases h4
      rw [List.append_nil]
      exact .nt h2 h3 (fulls_derives hs)
end

theorem derives_fulls {G : Cfg} {s : List Sym} {w : List Nat} (h : Derives G s w) : ∃ ts, Fulls G s ts w := by
  induction h with
  | nil => exact ⟨[], .nil⟩
  | term _ ih =>
    obtain ⟨ts, h⟩ := ih
    exact ⟨_, .cons .term h⟩
  | @nt A r s u w hr _ _ ih1 ih2 =>
    obtain ⟨ts, h1⟩ := ih1
    obtain ⟨us, h2⟩ := ih2
    cases r with
    | nil =>
      cases h1
      exact ⟨_, .cons (.none hr) h2⟩
    | cons x r => exact ⟨_, .cons (.some hr h1) h2⟩

theorem derives_full {G : Cfg} {A : Nat} {w : List Nat} (h : Derives G [.nt A] w) : ∃ t, Full G (.nt A) t w := by
  obtain ⟨ts, h⟩ := derives_fulls h
  cases h with
  | cons h1 h2 =>
    cases h2
    rw [List.append_nil]
    exact ⟨_, h1⟩

theorem fulls_split {G : Cfg} : ∀ {a b : List Sym} {ts : List (Tree PVal)} {w : List Nat}, Fulls G (a ++ b) ts w →
    ∃ t1 t2 u v, Fulls G a t1 u ∧ Fulls G b t2 v ∧ ts = t1 ++ t2 ∧ w = u ++ v
  | [], b, ts, w, h => ⟨[], ts, [], w, .nil, h, rfl, rfl⟩
  | x :: a, b, ts, w, h => by
    cases h with
    | @cons _ t u _ ts w h1 h2 =>
      obtain ⟨t1, t2, u', v, h3, h4, rfl, rfl⟩ := fulls_split h2
      exact ⟨t :: t1, t2, u ++ u', v, .cons h1 h3, h4, rfl, by simp⟩

theorem begins_cut {G : Cfg} {s : List Sym} {w : List Nat} {d : List Sym} (h : Begins G s w d) (hw : w ≠ []) :
    ∃ pre x post ts t u v p, s = pre ++ x :: post ∧ Fulls G pre ts u ∧ Cut G x t v p ∧ w = u ++ v := by
  induction h with
  | stop => exact absurd rfl hw
  | @term b s w d h ih =>
    by_cases h0 : w = []
    · subst h0
      rw [List.append_nil] at hw ⊢
      exact ⟨[], .term b, s, [], _, [], b, [], rfl, .nil, .term hw, rfl⟩
    · obtain ⟨pre, x, post, ts, t, u, v, p, rfl, h1, h2, rfl⟩ := ih h0
      exact ⟨.term b :: pre, x, post, _, t, b ++ u, v, p, rfl, .cons .term h1, h2, by simp⟩
  | @nt A r s w d hr h ih =>
    obtain ⟨pre, x, post, ts, t, u, v, p, he, h1, h2, rfl⟩ := ih hw
    rcases List.append_eq_append_iff.1 he with ⟨a, rfl, h3⟩ | ⟨c, rfl, h3⟩
    · obtain ⟨t1, t2, u1, u2, h4, h5, rfl, rfl⟩ := fulls_split h1
      have h6 : ∃ t', Full G (.nt A) t' u1 := by
        cases r with
        | nil => cases h4; exact ⟨_, .none hr⟩
        | cons y r => exact ⟨_, .some hr h4⟩
      obtain ⟨t', h6⟩ := h6
      exact ⟨.nt A :: a, x, post, t' :: t2, t, u1 ++ u2, v, p, by rw [h3]; rfl, .cons h6 h5, h2, rfl⟩
    · cases c with
      | nil =>
        rw [List.append_nil] at hr
        simp only [List.nil_append] at h3
        have h6 : ∃ t', Full G (.nt A) t' u := by
          cases pre with
          | nil => cases h1; exact ⟨_, .none hr⟩
          | cons y r => exact ⟨_, .some hr h1⟩
        obtain ⟨t', h6⟩ := h6
        refine ⟨[.nt A], x, post, [t'], t, u, v, p, by rw [← h3]; rfl, ?_, h2, rfl⟩
        have := Fulls.cons h6 .nil
        rwa [List.append_nil] at this
      | cons y c =>
        simp only [List.cons_append, List.cons.injEq] at h3
        obtain ⟨rfl, h3⟩ := h3
        exact ⟨[], .nt A, s, [], _, [], u ++ v, c, rfl, .nil, .nt hr h1 h2, rfl⟩

theorem derives_begins {G : Cfg} {s : List Sym} {u : List Nat} (h : Derives G s u) :
    ∀ {s' w d}, Begins G s' w d → Begins G (s ++ s') (u ++ w) d := by
  induction h with
  | nil => intro s' w d h; exact h
  | term _ ih =>
    intro s' w d h
    rw [List.cons_append, List.append_assoc]
    exact .term (ih h)
  | nt hr _ _ ih1 ih2 =>
    intro s' w d h
    rw [List.cons_append, List.append_assoc]
    exact .nt hr (ih1 (ih2 h))

theorem cut_begins {G : Cfg} {s : Sym} {t : Tree PVal} {w : List Nat} {p : List Sym} (h : Cut G s t w p) :
    ∀ s', ∃ d, Begins G (s :: s') w (d ++ s') ∧ p <:+ d := by
  induction h with
  | @term b hb =>
    intro s'
    refine ⟨[], ?_, List.suffix_refl _⟩
    have := Begins.term (G := G) (b := b) (.stop (s := s'))
    rwa [List.append_nil] at this
  | @nt A pre s post ts t u w post' hr hf hc ih =>
    intro s'
    obtain ⟨d, h1, h2⟩ := ih (post ++ s')
    refine ⟨d ++ post, ?_, List.suffix_append _ _⟩
    refine .nt hr ?_
    rw [List.append_assoc, List.append_assoc]
    exact derives_begins (fulls_derives hf) h1

theorem begins_iff {G : Cfg} {A : Nat} {w : List Nat} (hw : w ≠ []) :
    (∃ d, Begins G [.nt A] w d) ↔ ∃ t p, Cut G (.nt A) t w p := by
  constructor
  · rintro ⟨d, h⟩
    obtain ⟨pre, x, post, ts, t, u, v, p, he, h1, h2, rfl⟩ := begins_cut h hw
    cases pre with
    | nil =>
      simp only [List.nil_append, List.cons.injEq] at he
      obtain ⟨rfl, _⟩ := he
      cases h1
      exact ⟨t, p, h2⟩
    | cons y pre => simp at he
  · rintro ⟨t, p, h⟩
    obtain ⟨d, h, _⟩ := cut_begins h []
    exact ⟨_, h⟩

/- More steps do not change an enumeration that has ended. -/

theorem seq_congr {α : Type} {l : List α} {a b : α → Out} (h : (Out.seq (l.map a)).2 = .done)
    (hab : ∀ x ∈ l, (a x).2 = .done → b x = a x) : Out.seq (l.map b) = Out.seq (l.map a) := by
  rw [List.map_congr_left fun x hx => hab x hx (seq_done h _ (List.mem_map.2 ⟨x, hx, rfl⟩)).1]

theorem mono {σ : Iter} {g : Gram} (f : Nat) :
    (∀ A s, (pm σ g f A s).2 = .done → pm σ g (f + 1) A s = pm σ g f A s) ∧
    (∀ A r st, (loop σ g f A r st).2 = .done → loop σ g (f + 1) A r st = loop σ g f A r st) := by
  induction f with
  | zero => exact ⟨fun A s h => by simp [pm] at h, fun A r st h => by simp [loop] at h⟩
  | succ f ih =>
    obtain ⟨ihp, ihl⟩ := ih
    constructor
    · intro A s h
      rw [pm] at h
      rw [pm, pm]
      cases hp : g.prod A with
      | none => rfl
      | some p =>
        simp only [hp] at h ⊢
        split
        · rfl
        · rename_i hc
          rw [if_neg hc] at h
          exact seq_congr h fun r _ hr => ihl A r.seq _ hr
    · intro A r st h
      cases st with
      | nil => rfl
      | cons it st =>
        obtain ⟨rem, trees, syms⟩ := it
        cases syms with
        | nil =>
          simp only [loop] at h ⊢
          rw [ihl A r st h]
          
        | cons x ss =>
          by_cases hr : rem = []
          · rw [loop] at h
            rw [loop, loop]
            simp only [hr, if_true] at h ⊢
            rw [ihl A r st h]
            
          · cases x with
            | term b =>
              rw [loop] at h
              rw [loop, loop]
              simp only [hr, if_false] at h ⊢
              by_cases hb : rem = b
              · simp only [hb, if_true] at h ⊢
                rw [ihl A r st h]
                
              · simp only [hb, if_false] at h ⊢
                by_cases hp : b <+: rem
                · simp only [hp, if_true] at h ⊢
                  exact ihl A r _ h
                · simp only [hp, if_false] at h ⊢
                  exact ihl A r _ h
            | nt B =>
              rw [loop] at h
              rw [loop, loop]
              simp only [hr, if_false] at h ⊢
              by_cases hq : (pm σ g f B rem).2 = .done
              · rw [ihp B rem hq]
                simp only [hq, if_true] at h ⊢
                rw [ihl A r _ h]
                
              · simp only [hq, if_false] at h
                

theorem mono_le {σ : Iter} {g : Gram} {f f' : Nat} (hf : f ≤ f') :
    (∀ A s, (pm σ g f A s).2 = .done → pm σ g f' A s = pm σ g f A s) ∧
    (∀ A r st, (loop σ g f A r st).2 = .done → loop σ g f' A r st = loop σ g f A r st) := by
  induction hf with
  | refl => exact ⟨fun _ _ _ => rfl, fun _ _ _ _ => rfl⟩
  | @step f' _ ih =>
    refine ⟨fun A s h => ?_, fun A r st h => ?_⟩
    · rw [(mono f').1 A s (by rw [ih.1 A s h]; exact h), ih.1 A s h]
    · rw [(mono f').2 A r st (by rw [ih.2 A r st h]; exact h), ih.2 A r st h]

theorem loop_append {σ : Iter} {g : Gram} {A : Nat} {r : List Sym} (f' : Nat) (st' : List Item)
    (h' : (loop σ g f' A r st').2 = .done) :
    ∀ f st, (loop σ g f A r st).2 = .done → (loop σ g (f + f') A r (st ++ st')).2 = .done := by
  intro f
  induction f with
  | zero => intro st h; simp [loop] at h
  | succ f ih =>
    intro st h
    rw [show f + 1 + f' = (f + f') + 1 by omega]
    cases st with
    | nil =>
      rw [List.nil_append, (mono_le (by omega : f' ≤ f + f' + 1)).2 A r st' h']
      exact h'
    | cons it st =>
      obtain ⟨rem, trees, syms⟩ := it
      rw [List.cons_append]
      cases syms with
      | nil =>
        simp only [loop] at h ⊢
        exact ih st h
      | cons x ss =>
        by_cases hr : rem = []
        · rw [loop] at h ⊢
          simp only [hr, if_true] at h ⊢
          exact ih st h
        · cases x with
          | term b =>
            rw [loop] at h ⊢
            simp only [hr, if_false] at h ⊢
            by_cases hb : rem = b
            · simp only [hb, if_true] at h ⊢
              exact ih st h
            · simp only [hb, if_false] at h ⊢
              by_cases hp : b <+: rem
              · simp only [hp, if_true] at h ⊢
                exact ih _ h
              · simp only [hp, if_false] at h ⊢
                exact ih _ h
          | nt B =>
            rw [loop] at h ⊢
            simp only [hr, if_false] at h ⊢
            by_cases hq : (pm σ g f B rem).2 = .done
            · rw [(mono_le (by omega : f ≤ f + f')).1 B rem hq]
              simp only [hq, if_true] at h ⊢
              rw [← List.append_assoc]
              exact ih _ h
            · simp only [hq, if_false] at h

theorem loop_all {σ : Iter} {g : Gram} {A : Nat} {r : List Sym} :
    ∀ st : List Item, (∀ it ∈ st, ∃ f, (loop σ g f A r [it]).2 = .done) → ∃ f, (loop σ g f A r st).2 = .done
  | [], _ => ⟨1, rfl⟩
  | it :: st, h => by
    obtain ⟨f', h'⟩ := loop_all st fun i hi => h i (by simp [hi])
    obtain ⟨f, h⟩ := h it (by simp)
    exact ⟨f + f', loop_append f' st h' f [it] h⟩

/-- Every name in a rule has a production. -/
def Closed (g : Gram) : Prop := ∀ a r b, r ∈ g.cfg a → .nt b ∈ r → g.prod b ≠ none

theorem seq_all {os : List Out} (h : ∀ o ∈ os, o.2 = .done) : (Out.seq os).2 = .done := by
  induction os with
  | nil => rfl
  | cons o os ih =>
    simp only [Out.seq, h o (by simp), if_true]
    exact ih fun o' h' => h o' (by simp [h'])

theorem bound_all {α : Type} {P : α → Nat → Prop} (hP : ∀ x f f', f ≤ f' → P x f → P x f') :
    ∀ l : List α, (∀ x ∈ l, ∃ f, P x f) → ∃ f, ∀ x ∈ l, P x f
  | [], _ => ⟨0, by simp⟩
  | x :: l, h => by
    obtain ⟨f, h1⟩ := bound_all hP l fun y hy => h y (by simp [hy])
    obtain ⟨f', h2⟩ := h x (by simp)
    refine ⟨max f f', fun y hy => ?_⟩
    rcases List.mem_cons.1 hy with rfl | hy
    · exact hP _ _ _ (by omega) h2
    · exact hP _ _ _ (by omega) (h1 y hy)

theorem derives_append {G : Cfg} {a : List Sym} {u : List Nat} (h : Derives G a u) :
    ∀ {b v}, Derives G b v → Derives G (a ++ b) (u ++ v) := by
  induction h with
  | nil => intro b v h; exact h
  | term _ ih => intro b v h; rw [List.cons_append, List.append_assoc]; exact .term (ih h)
  | nt hr h1 _ _ ih2 => intro b v h; rw [List.cons_append, List.append_assoc]; exact .nt hr h1 (ih2 h)

/-- Left calls, with the length of what is left of the sentence first. -/
theorem ends {σ : Iter} (hσ : σ.Ok) {g : Gram} (hg : HasRules g) (hc : Closed g)
    (hwf : ∀ a, Acc (fun b a => g.cfg.LeftCalls a b) a) :
    ∀ n A (s : List Nat), s.length = n → g.prod A ≠ none → ∃ f, (pm σ g f A s).2 = .done := by
  intro n
  induction n using Nat.strongRecOn with
  | _ n ihn =>
    intro A
    induction hwf A with
    | intro A _ ihA =>
      intro s hs hA
      obtain ⟨p, hp⟩ := Option.ne_none_iff_exists'.1 hA
      by_cases h0 : s = []
      · exact ⟨1, by simp [pm, hp, h0]⟩
      have item : ∀ r ∈ g.cfg A, ∀ k (it : Item), it.syms.length = k → it.rem ≠ [] →
          (∃ pre, r = pre ++ it.syms ∧ (it.rem.length < n ∨ (it.rem = s ∧ Derives g.cfg pre []))) →
          ∃ f, (loop σ g f A r [it]).2 = .done := by
        intro r hr k
        induction k with
        | zero =>
          rintro ⟨rem, trees, syms⟩ hk _ _
          cases syms with
          | nil => exact ⟨2, rfl⟩
          | cons x l => simp at hk
        | succ k ihk =>
          rintro ⟨rem, trees, syms⟩ hk hrem ⟨pre, hpre, hor⟩
          cases syms with
          | nil => simp at hk
          | cons x ss =>
            simp only [List.length_cons, Nat.add_right_cancel_iff] at hk
            cases x with
            | term b =>
              by_cases hb : rem = b
              · subst hb
                exact ⟨2, by simp only [loop]; simp only [hrem, if_false, if_true]⟩
              · by_cases hbp : b <+: rem
                · obtain ⟨f, hf⟩ := ihk ⟨rem.drop b.length, trees ++ [PVal.leaf b], ss⟩ hk
                    (by
                      obtain ⟨t, rfl⟩ := hbp
                      rw [List.drop_left]
                      rintro rfl; simp at hb)
                    ⟨pre ++ [.term b], by simp [hpre], by
                      obtain ⟨t, rfl⟩ := hbp
                      simp only [List.drop_left]
                      rcases hor with hor | ⟨h1, h2⟩
                      · simp only [List.length_append] at hor; left; omega
                      · simp only at h1
                        cases b with
                        | nil =>
                          right
                          refine ⟨h1, ?_⟩
                          exact derives_append (u := []) (v := []) h2 (.term (b := []) .nil)
                        | cons y b =>
                          left
                          rw [← hs, ← h1]; simp; omega⟩
                  exact ⟨f + 1, by rw [loop]; simp only [hrem, if_false, hb, hbp, if_true]; exact hf⟩
                · exact ⟨2, by simp only [loop]; simp only [hrem, if_false, hb, hbp]⟩
            | nt B =>
              have hB : g.prod B ≠ none := hc A r B hr (by rw [hpre]; simp)
              have hq : ∃ f, (pm σ g f B rem).2 = .done := by
                rcases hor with hor | ⟨h1, h2⟩
                · exact ihn _ hor B rem rfl hB
                · simp only at h1
                  exact ihA B ⟨pre, ss, hpre ▸ hr, h2⟩ rem (by rw [h1, hs]) hB
              obtain ⟨f, hq⟩ := hq
              obtain ⟨f', hf'⟩ := loop_all (σ := σ) (g := g) (A := A) (r := r)
                (((pm σ g f B rem).1.flatMap (fun m => (onMatch A r ⟨rem, trees, .nt B :: ss⟩ ss m).2)).reverse) (by
                  intro it hit
                  obtain ⟨m', h1, h2⟩ := List.mem_flatMap.1 (List.mem_reverse.1 hit)
                  simp only [onMatch] at h2
                  split at h2
                  · simp at h2
                  · rename_i hcond
                    simp only [List.mem_singleton] at h2
                    subst h2
                    rcases ((enum hσ hg f).1 B rem hrem).1 m' h1 with ⟨g1, g2, w, gf, gw⟩ | ⟨g1, _⟩
                    · refine ihk _ (by simp [g2, hk]) g1 ⟨pre ++ [.nt B], by simp [g2, hpre], ?_⟩
                      simp only
                      rcases hor with hor | ⟨h3, h4⟩
                      · left; simp only [← gw, List.length_append] at hor; omega
                      · simp only at h3
                        cases w with
                        | nil =>
                          right
                          refine ⟨by rw [← h3, ← gw]; rfl, ?_⟩
                          exact derives_append (u := []) (v := []) h4 (full_derives gf)
                        | cons y w =>
                          left
                          rw [← hs, ← h3, ← gw]; simp; omega
                    · exact absurd (.inl g1) hcond)
              refine ⟨max f f' + 1, ?_⟩
              rw [loop]
              simp only [hrem, if_false]
              rw [(mono_le (by omega : f ≤ max f f')).1 B rem hq]
              simp only [hq, if_true, List.append_nil]
              rw [(mono_le (by omega : f' ≤ max f f')).2 A r _ hf']
              exact hf'
      obtain ⟨f, hf⟩ := bound_all (P := fun (q : Rule) f => (loop σ g f A q.seq [⟨s, [], q.seq⟩]).2 = .done)
        (fun q f f' hle h => by rw [(mono_le hle).2 _ _ _ h]; exact h) (σ.rules p.rules) (by
          intro q hq
          exact item q.seq ((mem_cfg hp).2 ⟨q, (hσ.rules _).mem_iff.1 hq, rfl⟩) _ ⟨s, [], q.seq⟩ rfl h0
            ⟨[], rfl, .inr ⟨rfl, .nil⟩⟩)
      refine ⟨f + 1, ?_⟩
      rw [pm, hp]
      simp only []
      rw [if_neg (by simp [h0, hg A p hp])]
      refine seq_all fun o ho => ?_
      obtain ⟨q, hq, rfl⟩ := List.mem_map.1 ho
      exact hf q hq

theorem seq_status {os : List Out} (h : ∀ o ∈ os, o.2 = .done ∨ o.2 = .running) :
    (Out.seq os).2 = .done ∨ (Out.seq os).2 = .running := by
  induction os with
  | nil => exact .inl rfl
  | cons o os ih =>
    simp only [Out.seq]
    split
    · exact ih fun o' h' => h o' (by simp [h'])
    · exact h o (by simp)

/-- No KeyError. -/
theorem nokey {σ : Iter} (hσ : σ.Ok) {g : Gram} (hg : HasRules g) (hc : Closed g) (f : Nat) :
    (∀ A s, g.prod A ≠ none → (pm σ g f A s).2 = .done ∨ (pm σ g f A s).2 = .running) ∧
    (∀ A r st, (∀ it ∈ st, it.rem ≠ [] ∧ ∀ b, .nt b ∈ it.syms → g.prod b ≠ none) →
      (loop σ g f A r st).2 = .done ∨ (loop σ g f A r st).2 = .running) := by
  induction f with
  | zero => exact ⟨fun A s _ => .inr rfl, fun A r st _ => .inr rfl⟩
  | succ f ih =>
    obtain ⟨ihp, ihl⟩ := ih
    constructor
    · intro A s hA
      rw [pm]
      obtain ⟨p, hp⟩ := Option.ne_none_iff_exists'.1 hA
      simp only [hp]
      split
      · exact .inl rfl
      · rename_i hcond
        refine seq_status fun o ho => ?_
        obtain ⟨q, hq, rfl⟩ := List.mem_map.1 ho
        refine ihl A q.seq _ ?_
        intro it hit
        simp only [List.mem_singleton] at hit
        subst hit
        exact ⟨fun h => hcond (.inr h), fun b hb => hc A q.seq b ((mem_cfg hp).2 ⟨q, (hσ.rules _).mem_iff.1 hq, rfl⟩) hb⟩
    · intro A r st hst
      cases st with
      | nil => exact .inl rfl
      | cons it st =>
        obtain ⟨rem, trees, syms⟩ := it
        have hst' : ∀ it ∈ st, it.rem ≠ [] ∧ ∀ b, .nt b ∈ it.syms → g.prod b ≠ none := fun i hi => hst i (by simp [hi])
        obtain ⟨hr, hk⟩ := hst ⟨rem, trees, syms⟩ (by simp)
        simp only at hr hk
        cases syms with
        | nil => simp only [loop]; exact ihl A r st hst'
        | cons x ss =>
          have hk' : ∀ b, .nt b ∈ ss → g.prod b ≠ none := fun b hb => hk b (by simp [hb])
          cases x with
          | term b =>
            rw [loop]
            simp only [hr, if_false]
            by_cases hb : rem = b
            · simp only [hb, if_true]; exact ihl A r st hst'
            · simp only [hb, if_false]
              by_cases hp : b <+: rem
              · simp only [hp, if_true]
                refine ihl A r _ ?_
                intro i hi
                rcases List.mem_cons.1 hi with rfl | hi
                · refine ⟨?_, hk'⟩
                  obtain ⟨t, rfl⟩ := hp
                  simp only [List.drop_left]
                  rintro rfl; simp at hb
                · exact hst' i hi
              · simp only [hp, if_false]; exact ihl A r st hst'
          | nt B =>
            rw [loop]
            simp only [hr, if_false]
            by_cases hq : (pm σ g f B rem).2 = .done
            · simp only [hq, if_true]
              refine ihl A r _ ?_
              intro i hi
              rcases List.mem_append.1 hi with hi | hi
              · obtain ⟨m', h1, h2⟩ := List.mem_flatMap.1 (List.mem_reverse.1 hi)
                simp only [onMatch] at h2
                split at h2
                · simp at h2
                · rename_i hcond
                  simp only [List.mem_singleton] at h2
                  subst h2
                  rcases ((enum hσ hg f).1 B rem hr).1 m' h1 with ⟨g1, g2, _⟩ | ⟨g1, _⟩
                  · exact ⟨g1, fun b hb => hk' b (by simpa [g2] using hb)⟩
                  · exact absurd (.inl g1) hcond
              · exact hst' i hi
            · simp only [hq, if_false]
              exact .inr ((ihp B rem (hk B (by simp))).resolve_left hq)

/- An enumeration that ends has looked at every name that stands at the left. -/

theorem loop_left {σ : Iter} (hσ : σ.Ok) {g : Gram} (hg : HasRules g) {A B : Nat} {r post : List Sym} :
    ∀ f st, (∀ it ∈ st, it.rem ≠ []) → (loop σ g f A r st).2 = .done → ∀ it ∈ st, ∀ pre,
      it.syms = pre ++ .nt B :: post → Derives g.cfg pre [] → ∃ f' < f, (pm σ g f' B it.rem).2 = .done := by
  intro f
  induction f with
  | zero => intro st _ h; simp [loop] at h
  | succ f ih =>
    intro st hst h it hit pre hpre hd
    cases st with
    | nil => simp at hit
    | cons it' st =>
      have hst' : ∀ it ∈ st, it.rem ≠ [] := fun i hi => hst i (by simp [hi])
      have lift : ∀ {x}, (∃ f' < f, (pm σ g f' B x).2 = .done) → ∃ f' < f + 1, (pm σ g f' B x).2 = .done :=
        fun ⟨f', h1, h2⟩ => ⟨f', by omega, h2⟩
      obtain ⟨rem, trees, syms⟩ := it'
      have hr : rem ≠ [] := hst ⟨rem, trees, syms⟩ (by simp)
      cases syms with
      | nil =>
        simp only [loop] at h
        rcases List.mem_cons.1 hit with rfl | hit
        · simp at hpre
        · exact lift (ih st hst' h it hit pre hpre hd)
      | cons x ss =>
        cases x with
        | term b =>
          rw [loop] at h
          simp only [hr, if_false] at h
          by_cases hb : rem = b
          · simp only [hb, if_true] at h
            rcases List.mem_cons.1 hit with rfl | hit
            · cases pre with
              | nil => simp at hpre
              | cons y pre =>
                simp only [List.cons_append, List.cons.injEq] at hpre
                obtain ⟨rfl, _⟩ := hpre
                generalize hw : ([] : List Nat) = w at hd
                cases hd
                have := List.append_eq_nil_iff.1 hw.symm
                exact absurd (hb.trans this.1) hr
            · exact lift (ih st hst' h it hit pre hpre hd)
          · simp only [hb, if_false] at h
            by_cases hp : b <+: rem
            · simp only [hp, if_true] at h
              have hst2 : ∀ it ∈ (⟨rem.drop b.length, trees ++ [PVal.leaf b], ss⟩ :: st : List Item), it.rem ≠ [] := by
                intro i hi
                rcases List.mem_cons.1 hi with rfl | hi
                · obtain ⟨t, rfl⟩ := hp
                  simp only [List.drop_left]
                  rintro rfl; simp at hb
                · exact hst' i hi
              rcases List.mem_cons.1 hit with rfl | hit
              · cases pre with
                | nil => simp at hpre
                | cons y pre =>
                  simp only [List.cons_append, List.cons.injEq] at hpre
                  obtain ⟨rfl, rfl⟩ := hpre
                  generalize hw : ([] : List Nat) = w at hd
                  cases hd with
                  | term hd =>
                    obtain ⟨rfl, rfl⟩ := List.append_eq_nil_iff.1 hw.symm
                    exact lift (ih _ hst2 h ⟨rem, trees ++ [PVal.leaf []], pre ++ .nt B :: post⟩ (by simp) pre rfl hd)
              · exact lift (ih _ hst2 h it (by simp [hit]) pre hpre hd)
            · simp only [hp, if_false] at h
              rcases List.mem_cons.1 hit with rfl | hit
              · cases pre with
                | nil => simp at hpre
                | cons y pre =>
                  simp only [List.cons_append, List.cons.injEq] at hpre
                  obtain ⟨rfl, _⟩ := hpre
                  generalize hw : ([] : List Nat) = w at hd
                  cases hd
                  have := List.append_eq_nil_iff.1 hw.symm
                  exact absurd (by rw [this.1]; exact List.nil_prefix) hp
              · exact lift (ih st hst' h it hit pre hpre hd)
        | nt C =>
          rw [loop] at h
          simp only [hr, if_false] at h
          by_cases hq : (pm σ g f C rem).2 = .done
          · simp only [hq, if_true] at h
            have hst2 : ∀ it ∈ ((pm σ g f C rem).1.flatMap
                (fun m => (onMatch A r ⟨rem, trees, .nt C :: ss⟩ ss m).2)).reverse ++ st, it.rem ≠ [] := by
              intro i hi
              rcases List.mem_append.1 hi with hi | hi
              · obtain ⟨m', _, h2⟩ := List.mem_flatMap.1 (List.mem_reverse.1 hi)
                simp only [onMatch] at h2
                split at h2
                · simp at h2
                · rename_i hc
                  simp only [List.mem_singleton] at h2
                  subst h2
                  exact fun h => hc (.inl h)
              · exact hst' i hi
            rcases List.mem_cons.1 hit with rfl | hit
            · cases pre with
              | nil =>
                simp only [List.nil_append, List.cons.injEq, Sym.nt.injEq] at hpre
                obtain ⟨rfl, _⟩ := hpre
                exact ⟨f, by omega, hq⟩
              | cons y pre =>
                simp only [List.cons_append, List.cons.injEq] at hpre
                obtain ⟨rfl, rfl⟩ := hpre
                generalize hw : ([] : List Nat) = w at hd
                cases hd with
                | @nt _ q _ u v h1 h2 h3 =>
                  obtain ⟨rfl, rfl⟩ := List.append_eq_nil_iff.1 hw.symm
                  obtain ⟨t, ht⟩ := derives_full (Derives.nt (u := []) (w := []) h1 h2 .nil)
                  have hm := ((enum hσ hg f).1 C rem hr).2 hq ⟨t, [], rem⟩ (.inl ⟨hr, rfl, [], ht, rfl⟩)
                  refine lift (ih _ hst2 h ⟨rem, trees ++ [t], pre ++ .nt B :: post⟩ ?_ pre rfl h3)
                  refine List.mem_append.2 (.inl (List.mem_reverse.2 (List.mem_flatMap.2 ⟨_, hm, ?_⟩)))
                  simp only [onMatch]
                  rw [if_neg (by simp [hr]; omega)]
                  simp
            · exact lift (ih _ hst2 h it (by simp [hit]) pre hpre hd)
          · simp only [hq, if_false] at h

theorem pm_left {σ : Iter} (hσ : σ.Ok) {g : Gram} (hg : HasRules g) {A B : Nat} {s : List Nat} (hs : s ≠ []) {f : Nat}
    (h : (pm σ g f A s).2 = .done) (hl : g.cfg.LeftCalls A B) : ∃ f' < f, (pm σ g f' B s).2 = .done := by
  cases f with
  | zero => simp [pm] at h
  | succ f =>
    rw [pm] at h
    cases hp : g.prod A with
    | none => simp [hp] at h
    | some p =>
      simp only [hp] at h
      rw [if_neg (by simp [hs, hg A p hp])] at h
      obtain ⟨pre, post, hr, hd⟩ := hl
      obtain ⟨q, hq, hqs⟩ := (mem_cfg hp).1 hr
      have h1 := (seq_done h _ (List.mem_map.2 ⟨q, (hσ.rules _).mem_iff.2 hq, rfl⟩)).1
      obtain ⟨f', h2, h3⟩ := loop_left hσ hg f _ (by simpa using hs) h1 ⟨s, [], q.seq⟩ (by simp) pre hqs hd
      exact ⟨f', by omega, h3⟩

theorem acc_of_done {σ : Iter} (hσ : σ.Ok) {g : Gram} (hg : HasRules g) {s : List Nat} (hs : s ≠ []) :
    ∀ f A, (pm σ g f A s).2 = .done → Acc (fun b a => g.cfg.LeftCalls a b) A := by
  intro f
  induction f using Nat.strongRecOn with
  | _ f ih =>
    intro A h
    refine ⟨_, fun B hB => ?_⟩
    obtain ⟨f', h1, h2⟩ := pm_left hσ hg hs h hB
    exact ih f' h1 B h2

end Verif.PyPartial
