import Verif.PyVerify
import Verif.PyGrammarTerm
/- What `verify` accepts. -/
namespace Verif.PyVerify
open Verif.Spec Verif.PyGrammar Verif.PyEarley

/-- Two names have the same rules. -/
def Twin (G : Cfg) (a b : Nat) : Prop := ∀ r, r ∈ G a ↔ r ∈ G b

theorem mem_cfg' {g : Gram} {a : Nat} {p : Prodn} (hp : g.prod a = some p) {r : List Sym} :
    r ∈ g.cfg a ↔ ∃ q ∈ p.rules, q.seq = r := by
  simp [Gram.cfg, hp]

theorem sameProd_iff {g : Gram} {a b : Nat} (ha : (g.prod a).isSome) (hb : (g.prod b).isSome) :
    sameProd g a b = true ↔ Twin g.cfg a b := by
  obtain ⟨p, hp⟩ := Option.isSome_iff_exists.1 ha
  obtain ⟨q, hq⟩ := Option.isSome_iff_exists.1 hb
  by_cases hab : a = b
  · subst hab; simp [sameProd, Twin]
  · simp only [sameProd, hab, decide_false, Bool.false_or, hp, hq, Prodn.same, Bool.and_eq_true, List.all_eq_true,
      List.any_eq_true, decide_eq_true_eq]
    constructor
    · rintro ⟨h1, h2⟩ r
      rw [mem_cfg' hp, mem_cfg' hq]
      constructor
      · rintro ⟨x, hx, rfl⟩
        obtain ⟨y, hy, he⟩ := h1 x hx
        exact ⟨y, hy, he⟩
      · rintro ⟨x, hx, rfl⟩
        obtain ⟨y, hy, he⟩ := h2 x hx
        exact ⟨y, hy, he⟩
    · intro h
      refine ⟨fun x hx => ?_, fun x hx => ?_⟩
      · exact (mem_cfg' hq).1 ((h x.seq).1 ((mem_cfg' hp).2 ⟨x, hx, rfl⟩))
      · exact (mem_cfg' hp).1 ((h x.seq).2 ((mem_cfg' hq).2 ⟨x, hx, rfl⟩))

theorem sameProd_refl (g : Gram) (a : Nat) : sameProd g a a = true := by simp [sameProd]

theorem sameProd_known {g : Gram} {a b : Nat} (h : sameProd g a b = true) (ha : (g.prod a).isSome) : (g.prod b).isSome := by
  simp only [sameProd, Bool.or_eq_true, decide_eq_true_eq] at h
  rcases h with rfl | h
  · exact ha
  · split at h
    · rename_i p q _ hq; simp [hq]
    · cases h

/- The checks of the table. -/

theorem checkSym_none {g : Gram} {a : Nat} {x : Sym} :
    checkSym g a x = none ↔ ∀ v, x = .nt v → (g.prod v).isSome ∧ a ∈ g.usedBy v := by
  cases x with
  | term b => simp [checkSym]
  | nt v =>
    simp only [checkSym, Sym.nt.injEq, forall_eq']
    split
    · rename_i h; simp_all
    · rename_i h
      simp only [Option.isNone_iff_eq_none] at h
      split
      · rename_i h2; simp [h2]
      · rename_i h2
        simp only [Classical.not_not] at h2
        simp [h2, Option.isSome_iff_ne_none, h]

theorem checkProd_none {σ : Iter} (hσ : σ.Ok) {g : Gram} {a : Nat} (ha : (g.prod a).isSome) :
    checkProd σ g a = none ↔ (∀ r v, r ∈ g.cfg a → .nt v ∈ r → (g.prod v).isSome ∧ a ∈ g.usedBy v) ∧
      ∀ u ∈ g.usedBy a, (g.prod u).isSome := by
  obtain ⟨p, hp⟩ := Option.isSome_iff_exists.1 ha
  have h1 : ((σ.rules p.rules).findSome? (fun r => r.seq.findSome? (checkSym g a)) = none) ↔
      ∀ r v, r ∈ g.cfg a → .nt v ∈ r → (g.prod v).isSome ∧ a ∈ g.usedBy v := by
    simp only [List.findSome?_eq_none_iff, checkSym_none]
    constructor
    · intro h r v hr hv
      obtain ⟨q, hq, rfl⟩ := (mem_cfg' hp).1 hr
      exact h q ((hσ.rules _).mem_iff.2 hq) _ hv v rfl
    · intro h q hq x hx v hv
      subst hv
      exact h q.seq v ((mem_cfg' hp).2 ⟨q, (hσ.rules _).mem_iff.1 hq, rfl⟩) hx
  have h2 : ((σ.names (g.usedBy a)).findSome? (fun u => if (g.prod u).isNone then some VErr.corrupted else none) = none) ↔
      ∀ u ∈ g.usedBy a, (g.prod u).isSome := by
    simp only [List.findSome?_eq_none_iff]
    constructor
    · intro h u hu
      have := h u ((hσ.names _).mem_iff.2 hu)
      cases hc : g.prod u with
      | none => simp [hc] at this
      | some q => rfl
    · intro h u hu
      have := h u ((hσ.names _).mem_iff.1 hu)
      obtain ⟨q, hq⟩ := Option.isSome_iff_exists.1 this
      simp [hq]
  rw [← h1, ← h2]
  simp only [checkProd, hp]
  split
  · rename_i e he; simp [he]
  · rename_i he; simp [he]

theorem keys_none {g : Gram} {keys : List Nat} :
    (keys.findSome? (fun v => if (g.prod v).isNone then some VErr.corrupted else none) = none) ↔
      ∀ v ∈ keys, (g.prod v).isSome := by
  simp only [List.findSome?_eq_none_iff]
  refine forall_congr' fun v => forall_congr' fun _ => ?_
  cases g.prod v <;> simp

/-- What the first two loops check. -/
structure Table (g : Gram) (keys : List Nat) : Prop where
  closed : ∀ a r v, r ∈ g.cfg a → .nt v ∈ r → (g.prod v).isSome
  uses : ∀ a r v, r ∈ g.cfg a → .nt v ∈ r → a ∈ g.usedBy v
  users : ∀ v u, (g.prod v).isSome → u ∈ g.usedBy v → (g.prod u).isSome
  keys : ∀ v ∈ keys, (g.prod v).isSome

theorem cfg_known {g : Gram} {a : Nat} {r : List Sym} (h : r ∈ g.cfg a) : (g.prod a).isSome := by
  cases hp : g.prod a with
  | none => simp [Gram.cfg, hp] at h
  | some p => rfl

theorem table_iff {σ : Iter} (hσ : σ.Ok) {g : Gram} {keys : List Nat} (ho : ∀ a, a ∈ g.order ↔ (g.prod a).isSome) :
    (g.order.findSome? (checkProd σ g) = none ∧
      keys.findSome? (fun v => if (g.prod v).isNone then some VErr.corrupted else none) = none) ↔ Table g keys := by
  rw [keys_none, List.findSome?_eq_none_iff]
  constructor
  · rintro ⟨h1, h2⟩
    have h3 : ∀ a, (g.prod a).isSome → _ := fun a ha => (checkProd_none hσ ha).1 (h1 a ((ho a).2 ha))
    exact ⟨fun a r v hr hv => ((h3 a (cfg_known hr)).1 r v hr hv).1, fun a r v hr hv => ((h3 a (cfg_known hr)).1 r v hr hv).2,
      fun v u hv hu => (h3 v hv).2 u hu, h2⟩
  · intro h
    exact ⟨fun a ha => (checkProd_none hσ ((ho a).1 ha)).2 ⟨fun r v hr hv => ⟨h.closed a r v hr hv, h.uses a r v hr hv⟩,
      fun u hu => h.users a u ((ho a).1 ha) hu⟩, h.keys⟩

/-- The error of the first two loops is right. -/
theorem table_error {σ : Iter} (hσ : σ.Ok) {g : Gram} {keys : List Nat} {e : VErr}
    (h : g.order.findSome? (checkProd σ g) = some e ∨
      keys.findSome? (fun v => if (g.prod v).isNone then some VErr.corrupted else none) = some e) :
    (e = .missing ∧ ∃ a r v, r ∈ g.cfg a ∧ .nt v ∈ r ∧ g.prod v = none) ∨
    (e = .corrupted ∧ ((∃ a r v, r ∈ g.cfg a ∧ .nt v ∈ r ∧ a ∉ g.usedBy v) ∨
      (∃ v u, (g.prod v).isSome ∧ u ∈ g.usedBy v ∧ g.prod u = none) ∨ ∃ v ∈ keys, g.prod v = none)) := by
  rcases h with h | h
  · obtain ⟨a, _, h⟩ := List.exists_of_findSome?_eq_some h
    simp only [checkProd] at h
    cases hp : g.prod a with
    | none => simp [hp] at h
    | some p =>
      simp only [hp] at h
      split at h
      · rename_i e' he
        cases h
        obtain ⟨q, hq, h⟩ := List.exists_of_findSome?_eq_some he
        obtain ⟨x, hx, h⟩ := List.exists_of_findSome?_eq_some h
        have hr : q.seq ∈ g.cfg a := (mem_cfg' hp).2 ⟨q, (hσ.rules _).mem_iff.1 hq, rfl⟩
        cases x with
        | term b => simp [checkSym] at h
        | nt v =>
          simp only [checkSym] at h
          split at h
          · rename_i h1
            cases h
            exact .inl ⟨rfl, a, q.seq, v, hr, hx, Option.isNone_iff_eq_none.1 h1⟩
          · split at h
            · rename_i h2
              cases h
              exact .inr ⟨rfl, .inl ⟨a, q.seq, v, hr, hx, h2⟩⟩
            · cases h
      · obtain ⟨u, hu, h⟩ := List.exists_of_findSome?_eq_some h
        split at h
        · rename_i h1
          cases h
          exact .inr ⟨rfl, .inr (.inl ⟨a, u, by simp [hp], (hσ.names _).mem_iff.1 hu, Option.isNone_iff_eq_none.1 h1⟩)⟩
        · cases h
  · obtain ⟨v, hv, h⟩ := List.exists_of_findSome?_eq_some h
    split at h
    · rename_i h1
      cases h
      exact .inr ⟨rfl, .inr (.inr ⟨v, hv, Option.isNone_iff_eq_none.1 h1⟩)⟩
    · cases h

/- What is visited. -/

theorem reaches_visit {g : Gram} {keys : List Nat} {s : Nat} (ht : Table g keys)
    (hk : ∀ v, g.usedBy v ≠ [] → v ∈ keys) {a : Nat} (h : g.cfg.Reaches s a) : Visit g keys s a := by
  induction h with
  | refl => exact .start
  | @step b c r _ hr hc ih =>
    have hu := ht.uses b r c hr hc
    exact .step ih (sameProd_refl g b) (hk c (List.ne_nil_of_mem hu)) hu

theorem visit_known {g : Gram} {keys : List Nat} {s : Nat} (ht : Table g keys) (hs : (g.prod s).isSome) {a : Nat}
    (h : Visit g keys s a) : (g.prod a).isSome := by
  cases h with
  | start => exact hs
  | step _ _ hv _ => exact ht.keys _ hv

theorem visit_reaches {g : Gram} {keys : List Nat} {s : Nat} (ht : Table g keys) (hs : (g.prod s).isSome)
    (hst : ∀ a v, a ∈ g.usedBy v → a = v ∨ ∃ q ∈ g.cfg a, .nt v ∈ q) {a : Nat} (h : Visit g keys s a) :
    ∃ b, g.cfg.Reaches s b ∧ Twin g.cfg a b := by
  induction h with
  | start => exact ⟨s, .refl, fun _ => Iff.rfl⟩
  | @step a u v ha hau hv hu ih =>
    obtain ⟨b, hb, ht'⟩ := ih
    have hka := visit_known ht hs ha
    have htw := (sameProd_iff hka (sameProd_known hau hka)).1 hau
    rcases hst u v hu with rfl | ⟨q, hq, hvq⟩
    · exact ⟨b, hb, fun r => (htw r).symm.trans (ht' r)⟩
    · exact ⟨v, .step hb ((ht' q).1 ((htw q).2 hq)) hvq, fun _ => Iff.rfl⟩

theorem dfs_iff {g : Gram} {keys vs : List Nat} {s : Nat} (ht : Table g keys) (hs : (g.prod s).isSome)
    (hk : ∀ v, g.usedBy v ≠ [] → v ∈ keys) (hst : ∀ a v, a ∈ g.usedBy v → a = v ∨ ∃ q ∈ g.cfg a, .nt v ∈ q)
    (hd : Dfs g keys s vs) {a : Nat} (ha : (g.prod a).isSome) :
    vs.any (sameProd g a) = true ↔ ∃ b, g.cfg.Reaches s b ∧ Twin g.cfg a b := by
  rw [List.any_eq_true]
  constructor
  · rintro ⟨v, hv, hav⟩
    obtain ⟨b, hb, hvb⟩ := hd.sound v hv
    obtain ⟨c, hc, hbc⟩ := visit_reaches ht hs hst hb
    have h1 := (sameProd_iff ha (hd.known v hv)).1 hav
    have h2 := (sameProd_iff (hd.known v hv) (visit_known ht hs hb)).1 hvb
    exact ⟨c, hc, fun r => ((h1 r).trans (h2 r)).trans (hbc r)⟩
  · rintro ⟨b, hb, hab⟩
    have hvb := reaches_visit ht hk hb
    obtain ⟨v, hv, hbv⟩ := hd.complete b hvb
    have h2 := (sameProd_iff (visit_known ht hs hvb) (hd.known v hv)).1 hbv
    exact ⟨v, hv, (sameProd_iff ha (hd.known v hv)).2 fun r => (hab r).trans (h2 r)⟩

theorem subset_of_length {l : List Nat} : ∀ {vs : List Nat}, vs.Nodup → (∀ v ∈ vs, v ∈ l) → l.length ≤ vs.length →
    ∀ a ∈ l, a ∈ vs := by
  induction l with
  | nil => intro vs _ _ _ a ha; simp at ha
  | cons x l ih =>
    intro vs hn hs hlen a ha
    have hx : x ∈ vs := by
      refine Classical.byContradiction fun hx => ?_
      have h1 : ∀ v ∈ vs, v ∈ l := fun v hv => by
        rcases List.mem_cons.1 (hs v hv) with rfl | h
        · exact absurd hv hx
        · exact h
      have : vs.length ≤ l.length := (hn.subperm h1).length_le
      simp at hlen; omega
    rcases List.mem_cons.1 ha with rfl | ha
    · exact hx
    · by_cases hax : a = x
      · exact hax ▸ hx
      · have := ih (vs := vs.erase x) (hn.erase x) (fun v hv => by
          obtain ⟨h1, h2⟩ := (List.Nodup.mem_erase_iff hn).1 hv
          rcases List.mem_cons.1 (hs v h2) with rfl | h
          · exact absurd rfl h1
          · exact h) (by rw [List.length_erase_of_mem hx]; simp at hlen; omega) a ha
        exact List.mem_of_mem_erase this

theorem mem_toSet {g : Gram} : ∀ {l : List Nat} {a : Nat}, a ∈ toSet g l → a ∈ l
  | x :: l, a, h => by
    simp only [toSet, List.mem_cons] at h ⊢
    rcases h with h | h
    · exact .inl h
    · exact .inr (mem_toSet (List.mem_filter.1 h).1)

theorem askAny_spec {σ : Iter} (hσ : σ.Ok) : ∀ (as : List Nat) {g : Gram}, Sane g → g.order.Nodup → Accurate g →
    Known g → (∀ a ∈ as, (g.prod a).isSome) → ∃ b g', askAny σ as g = some (b, g') ∧ g'.cfg = g.cfg ∧
      g'.usedBy = g.usedBy ∧ g'.order = g.order ∧ g'.start = g.start ∧
      (b = true ↔ ∃ a ∈ as, g.cfg.LeadsToTerminal a) := by
  intro as
  induction as with
  | nil => intro g _ _ _ _ _; exact ⟨false, g, rfl, rfl, rfl, rfl, rfl, by simp⟩
  | cons a as ih =>
    intro g hg ho hacc hk hin
    obtain ⟨b, g1, h1, hal, hk1, hiff⟩ := canProduceTerminal_spec hσ hg ho hacc hk (hin a (by simp))
    have hacc1 : Accurate g1 := by
      intro c p hp
      cases hc : g.prod c with
      | none => rw [hal.none c hc] at hp; cases hp
      | some q =>
        obtain ⟨x, hx⟩ := hal.some c q hc
        rw [hp] at hx
        cases hx
        exact hacc c q hc
    obtain ⟨b2, g2, h2, hc2, hu2, ho2, hs2, hb2⟩ := ih (hg.alike hal) (by rw [hal.order]; exact ho) hacc1 hk1
      (fun c hc => by
        obtain ⟨q, hq⟩ := Option.isSome_iff_exists.1 (hin c (by simp [hc]))
        obtain ⟨x, hx⟩ := hal.some c q hq
        simp [hx])
    refine ⟨b || b2, g2, by simp only [askAny, h1, h2]; rfl, hc2.trans hal.cfg, hu2.trans hal.usedBy, ho2.trans hal.order,
      hs2.trans hal.start, ?_⟩
    rw [Bool.or_eq_true, hiff, hb2, hal.cfg]
    simp

/-- What is assumed of a grammar whose connections are checked: the table has no entries for names that are not
used, and what is remembered about terminals is right. -/
structure Fresh (g : Gram) (keys : List Nat) : Prop where
  order : ∀ a, a ∈ g.order ↔ (g.prod a).isSome
  nodup : g.order.Nodup
  unodup : UsesNodup g
  accurate : Accurate g
  known : Known g
  keys : ∀ v, g.usedBy v ≠ [] → v ∈ keys
  stale : ∀ a v, a ∈ g.usedBy v → a = v ∨ ∃ q ∈ g.cfg a, .nt v ∈ q

theorem Twin.leads {G : Cfg} {a b : Nat} (h : Twin G a b) (hl : G.LeadsToTerminal a) : G.LeadsToTerminal b := by
  obtain ⟨c, r, x, hr, hc, hx⟩ := hl
  have key : ∀ c, G.Reaches a c → c = a ∨ G.Reaches b c := by
    intro c hc
    induction hc with
    | refl => exact .inl rfl
    | @step d e q _ hq he ih =>
      right
      rcases ih with rfl | ih
      · exact .step .refl ((h q).1 hq) he
      · exact .step ih hq he
  rcases key c hr with rfl | h1
  · exact ⟨b, r, x, .refl, (h r).1 hc, hx⟩
  · exact ⟨c, r, x, h1, hc, hx⟩

/-- The start has an edge, up to equal rules. -/
def Linked (g : Gram) (s : Nat) : Prop := ∃ u v, u ∈ g.usedBy v ∧ (Twin g.cfg s u ∨ Twin g.cfg s v)

theorem nodes_any {σ : Iter} (hσ : σ.Ok) {g : Gram} {keys : List Nat} {s : Nat} (ht : Table g keys) (hs : (g.prod s).isSome)
    (hk : ∀ v, g.usedBy v ≠ [] → v ∈ keys) :
    (nodes σ g keys).any (GNode.same g (.prod s)) = true ↔ Linked g s := by
  simp only [List.any_eq_true, nodes, List.mem_append, List.mem_map, List.mem_flatMap, edges, Linked]
  constructor
  · rintro ⟨n, (⟨a, _, rfl⟩ | ⟨e, ⟨v, hv, u, hu, rfl⟩, hn⟩), h⟩
    · simp [GNode.same] at h
    · have hu' := (hσ.names _).mem_iff.1 hu
      have hkv := ht.keys v hv
      have hku := ht.users v u hkv hu'
      simp only [List.mem_cons, List.not_mem_nil, or_false] at hn
      rcases hn with rfl | rfl
      · exact ⟨u, v, hu', .inl ((sameProd_iff hs hku).1 h)⟩
      · exact ⟨u, v, hu', .inr ((sameProd_iff hs hkv).1 h)⟩
  · rintro ⟨u, v, hu, h⟩
    have hv := hk v (List.ne_nil_of_mem hu)
    have hkv := ht.keys v hv
    have hku := ht.users v u hkv hu
    rcases h with h | h
    · exact ⟨.prod u, .inr ⟨(u, v), ⟨v, hv, u, (hσ.names _).mem_iff.2 hu, rfl⟩, by simp⟩, (sameProd_iff hs hku).2 h⟩
    · exact ⟨.prod v, .inr ⟨(u, v), ⟨v, hv, u, (hσ.names _).mem_iff.2 hu, rfl⟩, by simp⟩, (sameProd_iff hs hkv).2 h⟩

theorem verify_conn {σ : Iter} (hσ : σ.Ok) {g : Gram} {keys vs : List Nat} {s : Nat} (hf : Fresh g keys)
    (ht : Table g keys) (hst : g.start = some s) (hs : (g.prod s).isSome) (hd : Dfs g keys s vs) :
    (¬ Linked g s ∧ verify σ g keys vs true = .error .node) ∨
    (Linked g s ∧ (∃ a ∈ g.order, g.cfg.LeadsToTerminal a ∧ ∀ b, g.cfg.Reaches s b → ¬ Twin g.cfg a b) ∧
      verify σ g keys vs true = .error .disconnected) ∨
    (Linked g s ∧ (∀ a ∈ g.order, g.cfg.LeadsToTerminal a → ∃ b, g.cfg.Reaches s b ∧ Twin g.cfg a b) ∧
      ∃ g', verify σ g keys vs true = .ok g' ∧ g'.cfg = g.cfg ∧ g'.usedBy = g.usedBy ∧ g'.order = g.order ∧
        g'.start = g.start) := by
  obtain ⟨h1, h2⟩ := (table_iff hσ hf.order).2 ht
  have hv : verify σ g keys vs true = (if !(nodes σ g keys).any (GNode.same g (.prod s)) then .error .node
        else if vs.length < g.order.length then
          match askAny σ (σ.names (toSet g (g.order.filter (fun a => !vs.any (sameProd g a))))) g with
          | none => .error .key
          | some (b, g') => if b then .error .disconnected else .ok g'
        else .ok g) := by
    simp only [verify, h1, h2, hst]
    rfl
  by_cases hl : Linked g s
  · right
    have hn := (nodes_any hσ ht hs hf.keys).2 hl
    simp only [hn, Bool.not_true, Bool.false_eq_true, if_false] at hv
    have sane : Sane g := ⟨hf.order, ht.closed, ht.uses, fun a v h => ⟨ht.users v a (ht.keys v (hf.keys v (List.ne_nil_of_mem h))) h,
      hf.stale a v h⟩, hf.unodup⟩
    have hdi : ∀ a ∈ g.order, _ := fun a ha => dfs_iff ht hs hf.keys hf.stale hd ((hf.order a).1 ha)
    by_cases hlen : vs.length < g.order.length
    · simp only [hlen, if_true] at hv
      generalize hnv : g.order.filter (fun a => !vs.any (sameProd g a)) = nv at hv
      have hmem : ∀ a, a ∈ nv ↔ a ∈ g.order ∧ ¬ ∃ b, g.cfg.Reaches s b ∧ Twin g.cfg a b := by
        intro a
        rw [← hnv, List.mem_filter]
        refine and_congr_right fun ha => ?_
        rw [← hdi a ha]; simp
      have hkn : ∀ a ∈ σ.names (toSet g nv), (g.prod a).isSome := fun a ha =>
        (hf.order a).1 ((hmem a).1 (mem_toSet ((hσ.names _).mem_iff.1 ha))).1
      obtain ⟨b, g', ha, hc, hu, ho, hs', hb⟩ := askAny_spec hσ (σ.names (toSet g nv)) sane hf.nodup hf.accurate hf.known hkn
      rw [ha] at hv
      simp only at hv
      cases b with
      | true =>
        left
        obtain ⟨a, ha1, ha2⟩ := hb.1 rfl
        obtain ⟨ha3, ha4⟩ := (hmem a).1 (mem_toSet ((hσ.names _).mem_iff.1 ha1))
        exact ⟨hl, ⟨a, ha3, ha2, fun b hb ht => ha4 ⟨b, hb, ht⟩⟩, by simpa using hv⟩
      | false =>
        right
        refine ⟨hl, fun a ha hla => ?_, g', by simpa using hv, hc, hu, ho, hs'⟩
        refine Classical.byContradiction fun hno => ?_
        have hanv := (hmem a).2 ⟨ha, hno⟩
        have hnvk : ∀ x ∈ nv, (g.prod x).isSome := fun x hx => (hf.order x).1 ((hmem x).1 hx).1
        have cover : ∀ l : List Nat, (∀ x ∈ l, (g.prod x).isSome) → ∀ x ∈ l, ∃ y ∈ toSet g l, Twin g.cfg x y := by
          intro l
          induction l with
          | nil => intro _ x hx; simp at hx
          | cons z l ih =>
            intro hk x hx
            rcases List.mem_cons.1 hx with rfl | hx
            · exact ⟨x, by simp [toSet], fun _ => Iff.rfl⟩
            · obtain ⟨y, hy, hxy⟩ := ih (fun w hw => hk w (by simp [hw])) x hx
              cases hzy : sameProd g z y with
              | true =>
                have := (sameProd_iff (hk z (by simp)) (hk y (by simp [mem_toSet hy]))).1 hzy
                exact ⟨z, by simp [toSet], fun r => (hxy r).trans (this r).symm⟩
              | false => exact ⟨y, by simp only [toSet, List.mem_cons]; exact .inr (List.mem_filter.2 ⟨hy, by simp [hzy]⟩), hxy⟩
        obtain ⟨y, hy, hay⟩ := cover nv hnvk a hanv
        have : false = true := hb.2 ⟨y, (hσ.names _).mem_iff.2 hy, hay.leads hla⟩
        cases this
    · right
      simp only [hlen, if_false] at hv
      have hnd : vs.Nodup := hd.once.imp (fun {a b} h => by
        rintro rfl
        rw [sameProd_refl] at h; cases h)
      have hall := subset_of_length hnd (fun v hv => (hf.order v).2 (hd.known v hv)) (by omega : g.order.length ≤ vs.length)
      refine ⟨hl, fun a ha _ => ?_, g, hv, rfl, rfl, rfl, rfl⟩
      exact (hdi a ha).1 (List.any_eq_true.2 ⟨a, hall a ha, sameProd_refl g a⟩)
  · left
    have hn : (nodes σ g keys).any (GNode.same g (.prod s)) = false := by
      cases h : (nodes σ g keys).any (GNode.same g (.prod s)) with
      | false => rfl
      | true => exact absurd ((nodes_any hσ ht hs hf.keys).1 h) hl
    exact ⟨hl, by rw [hv, hn]; rfl⟩

end Verif.PyVerify
