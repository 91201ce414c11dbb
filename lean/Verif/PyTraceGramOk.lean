import Verif.PyTraceGram
import Verif.PyGrammarSimp
import Verif.PyGrammarTerm
import Verif.PyGrammarTotal
/-
The grammar that `trace_to_grammar` builds is in order: the table `used_by` is exact, all names have productions, all
productions are reached.
-/
namespace Verif.PyTraceGram
open Verif.Spec Verif.PyGrammar

/-- More rules. -/
def Le (G G' : Cfg) : Prop := ∀ a r, r ∈ G a → r ∈ G' a

theorem put_le (g : Gram) (a : Nat) (s : List Sym) : Le g.cfg (put g a s).cfg ∧ combine s ∈ (put g a s).cfg a := by
  unfold put
  cases h : g.prod a with
  | none =>
    refine ⟨fun b r hr => ?_, ?_⟩
    · by_cases hb : b = a
      · subst hb; simp [Gram.cfg, h] at hr
      · simpa [Gram.cfg, Gram.newProd, Gram.setProd, hb] using hr
    · simp [Gram.cfg, Gram.newProd, Gram.setProd, Rule.new]
  | some p =>
    simp only [Gram.addTo]
    split
    · rename_i hp
      refine ⟨fun _ _ h => h, ?_⟩
      obtain ⟨q, hq, e⟩ := List.any_eq_true.1 hp
      simp only [Gram.cfg, h, List.mem_map]
      exact ⟨q, hq, of_decide_eq_true e⟩
    · refine ⟨fun b r hr => ?_, ?_⟩
      · by_cases hb : b = a
        · subst hb
          simp only [Gram.cfg, h] at hr
          simp only [Gram.cfg, Gram.setProd, if_true, List.map_append, List.mem_append]
          exact .inl hr
        · simpa [Gram.cfg, Gram.setProd, hb] using hr
      · simp [Gram.cfg, Gram.setProd, Rule.new]

theorem Reaches.mono {G G' : Cfg} (h : Le G G') {a b : Nat} (hr : G.Reaches a b) : G'.Reaches a b := by
  induction hr with
  | refl => exact .refl
  | step _ h1 h2 ih => exact .step ih (h _ _ h1) h2

theorem put_cfg (g : Gram) (a : Nat) (s : List Sym) (b : Nat) (q : List Sym) :
    q ∈ (put g a s).cfg b ↔ q ∈ g.cfg b ∨ (b = a ∧ q = combine s) := by
  unfold put
  cases h : g.prod a with
  | none =>
    by_cases hb : b = a
    · subst hb; simp [Gram.cfg, Gram.newProd, Gram.setProd, Rule.new, h]
    · simp [Gram.cfg, Gram.newProd, Gram.setProd, hb]
  | some p =>
    simp only [Gram.addTo]
    split
    · rename_i hp
      refine ⟨.inl, fun h' => h'.elim id ?_⟩
      rintro ⟨rfl, rfl⟩
      obtain ⟨r, hr, e⟩ := List.any_eq_true.1 hp
      simp only [Gram.cfg, h, List.mem_map]
      exact ⟨r, hr, of_decide_eq_true e⟩
    · by_cases hb : b = a
      · subst hb; simp [Gram.cfg, Gram.setProd, Rule.new, h]
      · simp [Gram.cfg, Gram.setProd, hb]

theorem put_some (g : Gram) (a : Nat) (s : List Sym) (b : Nat) :
    ((put g a s).prod b).isSome ↔ (g.prod b).isSome ∨ b = a := by
  unfold put
  cases h : g.prod a with
  | none =>
    by_cases hb : b = a
    · subst hb; simp [Gram.newProd, Gram.setProd]
    · simp [Gram.newProd, Gram.setProd, hb]
  | some p =>
    simp only [Gram.addTo]
    split
    · refine ⟨.inl, fun h' => h'.elim id ?_⟩
      rintro rfl; simp [h]
    · by_cases hb : b = a
      · subst hb; simp [Gram.setProd]
      · simp [Gram.setProd, hb]

/-- The grammar is in order except that the names in `P` need not have productions yet. -/
structure J (P : Nat → Prop) (g : Gram) : Prop where
  order : ∀ a, a ∈ g.order ↔ (g.prod a).isSome
  nodup : g.order.Nodup
  unodup : UsesNodup g
  cpt : ∀ a p, g.prod a = some p → p.cpt = none
  flags : ∀ a p, g.prod a = some p → ∀ r ∈ p.rules, r.hasTerm = r.seq.any isTerm
  used : ∀ a v, a ∈ g.usedBy v ↔ ∃ q ∈ g.cfg a, .nt v ∈ q
  closed : ∀ a q v, q ∈ g.cfg a → .nt v ∈ q → (g.prod v).isSome ∨ P v
  reach : ∀ a, (g.prod a).isSome → g.cfg.Reaches 0 a
  todo : ∀ v, P v → g.cfg.Reaches 0 v
  root : (g.prod 0).isSome
  start : g.start = some 0
  first : ∃ q ∈ g.cfg 0, ∃ v, .nt v ∈ q

theorem J.cast {P Q : Nat → Prop} {g : Gram} (h : J P g) (hq : ∀ v, P v ↔ Q v) : J Q g := by
  have : P = Q := funext fun v => propext (hq v)
  exact this ▸ h

theorem J.put {P : Nat → Prop} {g : Gram} {a : Nat} (s : List Sym) (h : J (fun v => P v ∨ v = a) g) :
    J (fun v => P v ∨ .nt v ∈ s) (put g a s) := by
  have hle : Le g.cfg (PyTraceGram.put g a s).cfg := (put_le g a s).1
  have hr : ∀ v, .nt v ∈ s → (PyTraceGram.put g a s).cfg.Reaches 0 v := fun v hv =>
    .step (Reaches.mono hle (h.todo a (.inr rfl))) (put_le g a s).2 (mem_combine.2 hv)
  refine ⟨?_, ?_, ?_, ?_, ?_, ?_, ?_, ?_, ?_, ?_, ?_, h.first.imp fun _ hq => ⟨hle _ _ hq.1, hq.2⟩⟩
  · intro b
    rw [put_some]
    have hb := h.order b
    unfold PyTraceGram.put
    cases hp : g.prod a with
    | none => simp only [Gram.newProd, List.mem_append, List.mem_singleton, hb]
    | some p =>
      have : b = a → (g.prod b).isSome := by rintro rfl; simp [hp]
      simp only [Gram.addTo]
      split
      · rw [hb]; exact ⟨.inl, fun h' => h'.elim id this⟩
      · show b ∈ g.order ↔ _
        rw [hb]; exact ⟨.inl, fun h' => h'.elim id this⟩
  · unfold PyTraceGram.put
    cases hp : g.prod a with
    | none =>
      show (g.order ++ [a]).Nodup
      rw [List.nodup_append]
      refine ⟨h.nodup, by simp, fun x hx y hy => ?_⟩
      rw [List.mem_singleton] at hy
      subst hy
      rintro rfl
      have := (h.order x).1 hx
      simp [hp] at this
    | some p =>
      simp only [Gram.addTo]
      split
      · exact h.nodup
      · exact h.nodup
  · unfold PyTraceGram.put
    cases hp : g.prod a with
    | none => exact addUses_nodup a _ _ h.unodup
    | some p =>
      simp only [Gram.addTo]
      split
      · exact h.unodup
      · exact addUses_nodup a _ _ h.unodup
  · intro b p' hp'
    unfold PyTraceGram.put at hp'
    cases hp : g.prod a with
    | none =>
      rw [hp] at hp'
      simp only [Gram.newProd, Gram.setProd] at hp'
      split at hp'
      · cases hp'; rfl
      · exact h.cpt b p' hp'
    | some p =>
      rw [hp] at hp'
      simp only [Gram.addTo] at hp'
      split at hp'
      · exact h.cpt b p' hp'
      · simp only [Gram.setProd] at hp'
        split at hp'
        · cases hp'; exact h.cpt a p hp
        · exact h.cpt b p' hp'
  · intro b p' hp'
    unfold PyTraceGram.put at hp'
    cases hp : g.prod a with
    | none =>
      rw [hp] at hp'
      simp only [Gram.newProd, Gram.setProd] at hp'
      split at hp'
      · cases hp'
        intro r hr
        cases List.mem_singleton.1 hr
        rfl
      · exact h.flags b p' hp'
    | some p =>
      rw [hp] at hp'
      simp only [Gram.addTo] at hp'
      split at hp'
      · exact h.flags b p' hp'
      · simp only [Gram.setProd] at hp'
        split at hp'
        · cases hp'
          intro r hr
          rcases List.mem_append.1 hr with hr | hr
          · exact h.flags a p hp r hr
          · cases List.mem_singleton.1 hr
            rfl
        · exact h.flags b p' hp'
  · intro b v
    have hb := h.used b v
    have key : (∃ q ∈ (PyTraceGram.put g a s).cfg b, .nt v ∈ q) ↔ b ∈ g.usedBy v ∨ (b = a ∧ v ∈ names (combine s)) := by
      rw [hb, combine_names, mem_names]
      constructor
      · rintro ⟨q, hq, hv⟩
        rcases (put_cfg g a s b q).1 hq with hq | ⟨rfl, rfl⟩
        · exact .inl ⟨q, hq, hv⟩
        · exact .inr ⟨rfl, mem_combine.1 hv⟩
      · rintro (⟨q, hq, hv⟩ | ⟨rfl, hv⟩)
        · exact ⟨q, hle _ _ hq, hv⟩
        · exact ⟨_, (put_le g b s).2, mem_combine.2 hv⟩
    rw [key]
    unfold PyTraceGram.put
    cases hp : g.prod a with
    | none => exact mem_addUses
    | some p =>
      simp only [Gram.addTo]
      split
      · rename_i hany
        refine ⟨.inl, fun h' => h'.elim id ?_⟩
        rintro ⟨rfl, hv⟩
        obtain ⟨r, hr, e⟩ := List.any_eq_true.1 hany
        refine hb.2 ⟨combine s, ?_, mem_names.1 hv⟩
        simp only [Gram.cfg, hp, List.mem_map]
        exact ⟨r, hr, of_decide_eq_true e⟩
      · exact mem_addUses
  · intro b q v hq hv
    rcases (put_cfg g a s b q).1 hq with hq | ⟨rfl, rfl⟩
    · rcases h.closed b q v hq hv with h1 | h1 | h1
      · exact .inl ((put_some g a s v).2 (.inl h1))
      · exact .inr (.inl h1)
      · exact .inl ((put_some g a s v).2 (.inr h1))
    · exact .inr (.inr (mem_combine.1 hv))
  · intro b hb
    rcases (put_some g a s b).1 hb with hb | rfl
    · exact Reaches.mono hle (h.reach b hb)
    · exact Reaches.mono hle (h.todo b (.inr rfl))
  · rintro v (hv | hv)
    · exact Reaches.mono hle (h.todo v (.inl hv))
    · exact hr v hv
  · exact (put_some g a s 0).2 (.inl h.root)
  · unfold PyTraceGram.put
    cases hp : g.prod a with
    | none => exact h.start
    | some p =>
      simp only [Gram.addTo]
      split
      · exact h.start
      · exact h.start

theorem J.putEmpty {P : Nat → Prop} {g g' : Gram} {a : Nat} (h : J (fun v => P v ∨ v = a) g) (hg : putEmpty g a = some g') :
    J P g' := by
  unfold PyTraceGram.putEmpty at hg
  cases hp : g.prod a with
  | some p => rw [hp] at hg; cases hg
  | none =>
    rw [hp] at hg
    cases hg
    have hsome : ∀ b, (({ (g.setProd a ⟨[], true, none⟩) with order := g.order ++ [a] } : Gram).prod b).isSome ↔
        (g.prod b).isSome ∨ b = a := by
      intro b
      by_cases hb : b = a
      · simp [Gram.setProd, hb]
      · simp [Gram.setProd, hb]
    have hcfg : ({ (g.setProd a ⟨[], true, none⟩) with order := g.order ++ [a] } : Gram).cfg = g.cfg := by
      funext b
      by_cases hb : b = a
      · subst hb; simp [Gram.cfg, Gram.setProd, hp]
      · simp [Gram.cfg, Gram.setProd, hb]
    refine ⟨?_, ?_, h.unodup, ?_, ?_, ?_, ?_, ?_, ?_, (hsome 0).2 (.inl h.root), h.start, hcfg ▸ h.first⟩
    · intro b
      rw [hsome]
      show b ∈ g.order ++ [a] ↔ _
      rw [List.mem_append, List.mem_singleton, h.order]
    · show (g.order ++ [a]).Nodup
      rw [List.nodup_append]
      refine ⟨h.nodup, by simp, fun x hx y hy => ?_⟩
      rw [List.mem_singleton] at hy
      subst hy
      rintro rfl
      have := (h.order x).1 hx
      simp [hp] at this
    · intro b p' hp'
      simp only [Gram.setProd] at hp'
      split at hp'
      · cases hp'; rfl
      · exact h.cpt b p' hp'
    · intro b p' hp'
      simp only [Gram.setProd] at hp'
      split at hp'
      · cases hp'; intro r hr; cases hr
      · exact h.flags b p' hp'
    · intro b v; rw [hcfg]; exact h.used b v
    · intro b q v hq hv
      rw [hcfg] at hq
      rcases h.closed b q v hq hv with h1 | h1 | h1
      · exact .inl ((hsome v).2 (.inl h1))
      · exact .inr h1
      · exact .inl ((hsome v).2 (.inr h1))
    · intro b hb
      rw [hcfg]
      rcases (hsome b).1 hb with hb | rfl
      · exact h.reach b hb
      · exact h.todo b (.inr rfl)
    · intro v hv
      rw [hcfg]
      exact h.todo v (.inl hv)

/-- The functions called right after a block. -/
def Run.fns : Bool → Run → List Nat
  | _, .done => []
  | _, .block _ _ r => r.fns true
  | true, .call f _ r => f :: r.fns false
  | false, .call _ _ r => r.fns false

/-- The function called first. -/
def Run.callFn : Run → Option Nat
  | .call f _ _ => some f
  | _ => none

theorem next_of_head {r : Run} {n : Nat} (h : r.head = some n) : r.next = some n := by
  cases r <;> simp_all [Run.head, Run.next]

theorem mem_opt {o : Option Nat} {v : Nat} : .nt v ∈ opt o ↔ o = some v := by
  cases o <;> simp [opt, eq_comm]

theorem mem_blockSyms {ts : List (List Nat)} {r : Run} {v : Nat} :
    .nt v ∈ blockSyms ts r ↔ r.next = some v ∨ r.callFn = some v := by
  unfold blockSyms
  simp only [List.mem_append, mem_opt, List.mem_map, reduceCtorEq, and_false, exists_false, false_or]
  cases r with
  | done => simp [callSyms, Run.callFn]
  | block => simp [callSyms, Run.callFn]
  | call f c r =>
    simp only [callSyms, Run.callFn, List.mem_cons, mem_opt, Sym.nt.injEq, Option.some.injEq, Run.next]
    constructor
    · rintro ((h | h) | h)
      · exact .inr h.symm
      · exact .inl (next_of_head h)
      · exact .inl h
    · rintro (h | h)
      · exact .inr h
      · exact .inl (.inl h.symm)

theorem J.putBlocks : ∀ (first : Bool) (r : Run) {P : Nat → Prop} {g : Gram},
    J (fun v => P v ∨ (r.next = some v ∨ (first = true ∧ r.callFn = some v))) g →
    J (fun v => P v ∨ v ∈ r.fns first) (PyTraceGram.putBlocks r g)
  | _, .done, P, g, h => h.cast (fun v => by simp [Run.next, Run.callFn, Run.fns])
  | first, .block n ts r, P, g, h => by
    have h1 : J (fun v => P v ∨ v = n) g := h.cast (fun v => by simp [Run.next, Run.callFn, eq_comm])
    exact J.putBlocks true r ((h1.put (blockSyms ts r)).cast (fun v => by simp [mem_blockSyms]))
  | false, .call f c r, P, g, h => by
    exact J.putBlocks false r (h.cast (fun v => by simp [Run.next]))
  | true, .call f c r, P, g, h => by
    have := J.putBlocks false r (P := fun v => P v ∨ v = f) (g := g) (h.cast (fun v => by
      simp only [Run.next, Run.callFn, Option.some.injEq, Bool.false_eq_true, false_and, or_false, true_and]
      rw [eq_comm (a := f), or_assoc, or_comm (a := r.next = some v)]))
    exact this.cast (fun v => by simp only [Run.fns, List.mem_cons, or_assoc])

theorem J.calls : ∀ (first : Bool) (r : Run) {P : Nat → Prop} {g g' : Gram},
    J (fun v => P v ∨ v ∈ r.fns first) g → PyTraceGram.calls first r g = some g' → J P g'
  | _, .done, P, g, g', h, hg => by
    cases hg
    exact h.cast (fun v => by simp [Run.fns])
  | first, .block n ts r, P, g, g', h, hg => J.calls true r h hg
  | false, .call f c r, P, g, g', h, hg => by
    simp only [PyTraceGram.calls] at hg
    cases h1 : PyTraceGram.calls false r g with
    | none => rw [h1] at hg; cases hg
    | some g1 =>
      rw [h1] at hg
      simp only [Bool.false_eq_true, if_false, Option.some.injEq] at hg
      subst hg
      exact J.calls false r h h1
  | true, .call f c r, P, g, g', h, hg => by
    simp only [PyTraceGram.calls] at hg
    cases h1 : PyTraceGram.calls false r g with
    | none => rw [h1] at hg; cases hg
    | some g1 =>
      rw [h1] at hg
      simp only [if_true] at hg
      have j1 : J (fun v => P v ∨ v = f) g1 :=
        J.calls false r (h.cast (fun v => by simp only [Run.fns, List.mem_cons, or_assoc])) h1
      cases hc : c.head with
      | none => rw [hc] at hg; cases hg
      | some e =>
        rw [hc] at hg
        simp only at hg
        split at hg
        · refine J.calls false c (J.putBlocks false c ((j1.put [.nt e]).cast (fun v => ?_))) hg
          simp [next_of_head hc, eq_comm]
        · exact j1.putEmpty hg

/-- The grammar after the first step, grammars.py 1257-1260. -/
theorem J.init (f : Nat) : J (fun v => False ∨ v = f) { Gram.empty.newProd 0 (Rule.new [.nt f]) with start := some 0 } := by
  have hcfg : ∀ a q, q ∈ ({ Gram.empty.newProd 0 (Rule.new [.nt f]) with start := some 0 } : Gram).cfg a ↔ a = 0 ∧ q = [.nt f] := by
    intro a q
    by_cases ha : a = 0
    · subst ha; simp [Gram.cfg, Gram.newProd, Gram.setProd, Rule.new, combine, combineLoop]
    · simp [Gram.cfg, Gram.newProd, Gram.setProd, Gram.empty, ha]
  have hsome : ∀ a, (({ Gram.empty.newProd 0 (Rule.new [.nt f]) with start := some 0 } : Gram).prod a).isSome ↔ a = 0 := by
    intro a
    by_cases ha : a = 0
    · simp [Gram.newProd, Gram.setProd, ha]
    · simp [Gram.newProd, Gram.setProd, Gram.empty, ha]
  have hp : ∀ a p, ({ Gram.empty.newProd 0 (Rule.new [.nt f]) with start := some 0 } : Gram).prod a = some p →
      p = ⟨[Rule.new [.nt f]], true, none⟩ := by
    intro a p h
    simp only [Gram.newProd, Gram.setProd, Gram.empty] at h
    split at h
    · cases h; rfl
    · cases h
  refine ⟨fun a => ?_, by simp [Gram.newProd, Gram.empty], ?_, ?_, ?_, ?_, ?_, ?_, ?_, (hsome 0).2 rfl, rfl, [.nt f], (hcfg _ _).2 ⟨rfl, rfl⟩, f, by simp⟩
  · rw [hsome]; simp [Gram.newProd, Gram.empty]
  · exact addUses_nodup 0 _ _ (fun v => by simp [Gram.empty])
  · intro a p h; rw [hp a p h]
  · intro a p h r hr
    rw [hp a p h] at hr
    cases List.mem_singleton.1 hr
    rfl
  · intro a v
    show a ∈ addUses _ 0 _ v ↔ _
    rw [mem_addUses, show names (Rule.new [.nt f]).seq = [f] from rfl]
    constructor
    · rintro (h | ⟨rfl, h⟩)
      · simp [Gram.empty] at h
      · exact ⟨[.nt f], (hcfg _ _).2 ⟨rfl, rfl⟩, by simpa using h⟩
    · rintro ⟨q, hq, hv⟩
      obtain ⟨rfl, rfl⟩ := (hcfg _ _).1 hq
      exact .inr ⟨rfl, by simpa using hv⟩
  · intro a q v hq hv
    obtain ⟨rfl, rfl⟩ := (hcfg _ _).1 hq
    exact .inr (.inr (by simpa using hv))
  · intro a ha
    cases (hsome a).1 ha
    exact .refl
  · rintro v (hv | rfl)
    · exact hv.elim
    · exact .step .refl ((hcfg _ _).2 ⟨rfl, rfl⟩) (by simp)

theorem J.main {f : Nat} {c : Run} {g : Gram} (h : traceToGrammar (some (f, c)) = some g) : J (fun _ => False) g := by
  simp only [traceToGrammar] at h
  cases hc : c.head with
  | none => rw [hc] at h; cases h
  | some e =>
    rw [hc] at h
    simp only at h
    split at h
    · refine J.calls false c (J.putBlocks false c (((J.init f).put [.nt e]).cast (fun v => ?_))) h
      simp [next_of_head hc, eq_comm]
    · exact (J.init f).putEmpty h

end Verif.PyTraceGram
