import Verif.PyDatalog
import Verif.PyGrammarLemmas
/- What follows from the program of a grammar. -/
namespace Verif.PyDatalog
open Verif.Spec Verif.Spec.Datalog Verif.PyGrammar

/-- The grammar that the program is about: a production without rules has an empty one. -/
def gcfg (g : Gram) : Cfg := fun a =>
  if a ∈ g.order then
    match g.prod a with
    | none => []
    | some p => match p.rules with
      | [] => [[]]
      | rs => rs.map Rule.seq
  else []

theorem rulesLoop_mem {a : Nat} {rs : List Rule} {cs : List Clause} (h : rulesLoop a rs = some cs) :
    (∀ c ∈ cs, ∃ r ∈ rs, ruleClause a r.seq = some c) ∧ ∀ r ∈ rs, ∃ c ∈ cs, ruleClause a r.seq = some c := by
  induction rs generalizing cs with
  | nil => cases h; simp
  | cons r rs ih =>
    unfold rulesLoop at h
    split at h
    · rename_i c ds hc hds
      cases h
      obtain ⟨h1, h2⟩ := ih hds
      constructor
      · intro x hx
        rcases List.mem_cons.1 hx with rfl | hx
        · exact ⟨r, by simp, hc⟩
        · obtain ⟨q, hq, hq'⟩ := h1 x hx
          exact ⟨q, List.mem_cons_of_mem _ hq, hq'⟩
      · intro q hq
        rcases List.mem_cons.1 hq with rfl | hq
        · exact ⟨c, by simp, hc⟩
        · obtain ⟨x, hx, hx'⟩ := h2 q hq
          exact ⟨x, List.mem_cons_of_mem _ hx, hx'⟩
    · cases h

theorem prodClauses_mem {a : Nat} {p : Prodn} {cs : List Clause} (h : prodClauses a p = some cs) :
    let L := match p.rules with
      | [] => [[]]
      | rs => rs.map Rule.seq
    (∀ c ∈ cs, ∃ s ∈ L, ruleClause a s = some c) ∧ ∀ s ∈ L, ∃ c ∈ cs, ruleClause a s = some c := by
  unfold prodClauses at h
  cases hp : p.rules with
  | nil =>
    rw [hp] at h
    simp only [clause, List.getLast?_singleton, Option.map_some, Option.some.injEq] at h
    subst h
    simp [ruleClause, clause]
  | cons r rs =>
    rw [hp] at h
    obtain ⟨h1, h2⟩ := rulesLoop_mem h
    constructor
    · intro c hc
      obtain ⟨q, hq, hq'⟩ := h1 c hc
      exact ⟨q.seq, List.mem_map.2 ⟨q, hq, rfl⟩, hq'⟩
    · intro s hs
      obtain ⟨q, hq, rfl⟩ := List.mem_map.1 hs
      exact h2 q hq

theorem programLoop_mem {g : Gram} {l : List Nat} {P : List Clause} (h : programLoop g l = some P) (hl : ∀ a ∈ l, a ∈ g.order) :
    (∀ c ∈ P, ∃ a, ∃ s ∈ gcfg g a, ruleClause a s = some c) ∧
      ∀ a ∈ l, ∀ s ∈ gcfg g a, ∃ c ∈ P, ruleClause a s = some c := by
  induction l generalizing P with
  | nil => cases h; simp
  | cons b l ih =>
    unfold programLoop at h
    cases hb : g.prod b with
    | none => rw [hb] at h; cases h
    | some p =>
      rw [hb] at h
      simp only at h
      split at h
      · rename_i cs ds hcs hds
        cases h
        have hg : gcfg g b = match p.rules with
            | [] => [[]]
            | rs => rs.map Rule.seq := by
          unfold gcfg
          rw [if_pos (hl b (by simp)), hb]
        obtain ⟨h1, h2⟩ := prodClauses_mem hcs
        obtain ⟨h3, h4⟩ := ih hds (fun a ha => hl a (List.mem_cons_of_mem _ ha))
        constructor
        · intro c hc
          rcases List.mem_append.1 hc with hc | hc
          · obtain ⟨s, hs, hs'⟩ := h1 c hc
            exact ⟨b, s, by rw [hg]; exact hs, hs'⟩
          · exact h3 c hc
        · intro a ha s hs
          by_cases hab : a = b
          · subst hab
            rw [hg] at hs
            obtain ⟨c, hc, hc'⟩ := h2 s hs
            exact ⟨c, List.mem_append_left _ hc, hc'⟩
          · obtain ⟨c, hc, hc'⟩ := h4 a ((List.mem_cons.1 ha).resolve_left hab) s hs
            exact ⟨c, List.mem_append_right _ hc, hc'⟩
      · cases h

theorem program_mem {g : Gram} {P : List Clause} (h : program g = some P) :
    (∀ c ∈ P, ∃ a, ∃ s ∈ gcfg g a, ruleClause a s = some c) ∧ ∀ a, ∀ s ∈ gcfg g a, ∃ c ∈ P, ruleClause a s = some c := by
  obtain ⟨h1, h2⟩ := programLoop_mem h (fun _ h => h)
  refine ⟨h1, fun a s hs => h2 a ?_ s hs⟩
  unfold gcfg at hs
  split at hs
  · assumption
  · cases hs

/-- The relations of a sequence of symbols. -/
def flat : List Sym → List Rel
  | [] => []
  | .nt a :: s => .prod a :: flat s
  | .term bs :: s => bs.map .byte ++ flat s

/-- Relations one after the other. -/
def chain : List Rel → Nat → List Atom
  | [], _ => []
  | r :: rs, v => .rel r v (v + 1) :: chain rs (v + 1)

theorem bytes_chain (bs : List Nat) (rs : List Rel) (v : Nat) :
    bytesLoop bs v ++ chain rs (v + bs.length) = chain (bs.map .byte ++ rs) v := by
  induction bs generalizing v with
  | nil => rfl
  | cons b bs ih =>
    simp only [bytesLoop, List.map_cons, List.cons_append, chain, List.length_cons]
    rw [← ih (v + 1)]
    congr 3
    omega

theorem body_chain (s : List Sym) (v : Nat) : bodyLoop s v = chain (flat s) v := by
  induction s generalizing v with
  | nil => rfl
  | cons x s ih =>
    cases x with
    | nt a => simp only [bodyLoop, flat, chain, ih]
    | term bs => simp only [bodyLoop, flat, ih, bytes_chain]

theorem chain_last (rs : List Rel) (v : Nat) (x : Atom) (h : (chain rs v).getLast? = some x) : endVar x = v + rs.length := by
  induction rs generalizing v with
  | nil => cases h
  | cons r rs ih =>
    cases rs with
    | nil => cases h; rfl
    | cons q rs =>
      have : (chain (q :: rs) (v + 1)).getLast? = some x := by
        simpa [chain, List.getLast?_cons_cons] using h
      rw [ih (v + 1) this]
      simp only [List.length_cons]; omega

theorem chain_vars (rs : List Rel) (v : Nat) (q : Rel) (s e : Nat) (h : .rel q s e ∈ chain rs v) : v ≤ s ∧ e = s + 1 := by
  induction rs generalizing v with
  | nil => cases h
  | cons r rs ih =>
    rcases List.mem_cons.1 h with h | h
    · cases h; exact ⟨Nat.le_refl _, rfl⟩
    · obtain ⟨h1, h2⟩ := ih (v + 1) h
      exact ⟨by omega, h2⟩

theorem chain_tru (rs : List Rel) (v x : Nat) : .tru x ∉ chain rs v := by
  induction rs generalizing v with
  | nil => simp [chain]
  | cons r rs ih => simp [chain, ih]

/-- Relations one after the other between positions. -/
inductive Path (R : Rel → Nat → Nat → Prop) : List Rel → Nat → Nat → Prop
  | nil {i : Nat} : Path R [] i i
  | cons {r : Rel} {rs : List Rel} {i m k : Nat} : R r i m → Path R rs m k → Path R (r :: rs) i k

variable {R : Rel → Nat → Nat → Prop}

theorem path_of_chain (σ : Nat → Nat) (rs : List Rel) (v : Nat)
    (h : ∀ r s e, .rel r s e ∈ chain rs v → R r (σ s) (σ e)) : Path R rs (σ v) (σ (v + rs.length)) := by
  induction rs generalizing v with
  | nil => exact .nil
  | cons r rs ih =>
    refine .cons (h r v (v + 1) (by simp [chain])) ?_
    have := ih (v + 1) (fun q s e hq => h q s e (List.mem_cons_of_mem _ hq))
    rwa [show v + 1 + rs.length = v + (r :: rs).length by simp only [List.length_cons]; omega] at this

theorem chain_of_path {rs : List Rel} {i k : Nat} (h : Path R rs i k) (v : Nat) :
    ∃ σ : Nat → Nat, σ v = i ∧ σ (v + rs.length) = k ∧ ∀ r s e, .rel r s e ∈ chain rs v → R r (σ s) (σ e) := by
  induction h generalizing v with
  | @nil i => exact ⟨fun _ => i, rfl, rfl, fun r s e h => by cases h⟩
  | @cons r rs i m k hr _ ih =>
    obtain ⟨σ, h1, h2, h3⟩ := ih (v + 1)
    refine ⟨fun x => if x = v then i else σ x, by simp, ?_, fun q s e hq => ?_⟩
    · simp only [List.length_cons]
      rw [if_neg (by omega), ← h2]; congr 1; omega
    · rcases List.mem_cons.1 hq with hq | hq
      · cases hq
        simp only [if_true, Nat.succ_ne_self, if_false, h1]
        exact hr
      · obtain ⟨h4, h5⟩ := chain_vars _ _ _ _ _ hq
        simp only
        rw [if_neg (by omega), if_neg (by omega)]
        exact h3 q s e hq

theorem Path.append {rs qs : List Rel} {i m k : Nat} (h : Path R rs i m) (h' : Path R qs m k) : Path R (rs ++ qs) i k := by
  induction h with
  | nil => exact h'
  | cons hr _ ih => exact .cons hr (ih h')

theorem Path.split {rs qs : List Rel} {i k : Nat} (h : Path R (rs ++ qs) i k) : ∃ m, Path R rs i m ∧ Path R qs m k := by
  induction rs generalizing i with
  | nil => exact ⟨i, .nil, h⟩
  | cons r rs ih =>
    cases h with
    | cons hr h =>
      obtain ⟨m, h1, h2⟩ := ih h
      exact ⟨m, .cons hr h1, h2⟩

/-- `y` is what is between the positions `i` and `j`. -/
def Seg (w : List Nat) (i j : Nat) (y : List Nat) : Prop := w.drop i = y ++ w.drop j ∧ j = i + y.length

theorem Seg.trans {w : List Nat} {i j k : Nat} {y z : List Nat} (h : Seg w i j y) (h' : Seg w j k z) : Seg w i k (y ++ z) := by
  refine ⟨by rw [h.1, h'.1, List.append_assoc], ?_⟩
  rw [h'.2, h.2, List.length_append]; omega

theorem Seg.split {w : List Nat} {i k : Nat} {y z : List Nat} (h : Seg w i k (y ++ z)) :
    Seg w i (i + y.length) y ∧ Seg w (i + y.length) k z := by
  have h1 : w.drop (i + y.length) = z ++ w.drop k := by
    rw [← List.drop_drop, h.1, List.append_assoc, List.drop_left]
  refine ⟨⟨?_, rfl⟩, h1, ?_⟩
  · rw [h1, h.1, List.append_assoc]
  · rw [h.2, List.length_append]; omega

theorem seg_byte {w : List Nat} {i b : Nat} : w[i]? = some b ↔ Seg w i (i + 1) [b] := by
  constructor
  · intro h
    obtain ⟨hi, hb⟩ := List.getElem?_eq_some_iff.1 h
    refine ⟨?_, rfl⟩
    rw [List.drop_eq_getElem_cons hi, hb]; rfl
  · intro h
    have := congrArg List.head? h.1
    rw [List.head?_drop] at this
    simpa using this

theorem seg_bound {w y : List Nat} {i j : Nat} (h : Seg w i j y) (hi : i ≤ w.length) : j ≤ w.length := by
  have := congrArg List.length h.1
  rw [List.length_drop, List.length_append, List.length_drop] at this
  have := h.2
  omega

/-- What a relation means. -/
def Means (G : Cfg) (w : List Nat) : Rel → Nat → Nat → Prop
  | .byte b, i, j => i < w.length ∧ Seg w i j [b]
  | .prod a, i, j => i ≤ w.length ∧ ∃ y, Seg w i j y ∧ Derives G [.nt a] y

theorem Means.start {G : Cfg} {w : List Nat} {r : Rel} {i j : Nat} (h : Means G w r i j) : i ≤ w.length := by
  cases r with
  | byte b => exact Nat.le_of_lt h.1
  | prod a => exact h.1

theorem path_bytes {G : Cfg} {w : List Nat} (bs : List Nat) {i k : Nat} (h : Path (Means G w) (bs.map .byte) i k) :
    Seg w i k bs := by
  induction bs generalizing i with
  | nil => cases h; exact ⟨rfl, rfl⟩
  | cons b bs ih =>
    cases h with
    | cons hr h => exact hr.2.trans (ih h)

theorem path_derives {G : Cfg} {w : List Nat} (s : List Sym) {i k : Nat} (h : Path (Means G w) (flat s) i k) :
    ∃ y, Seg w i k y ∧ Derives G s y := by
  induction s generalizing i with
  | nil => cases h; exact ⟨[], ⟨rfl, rfl⟩, .nil⟩
  | cons x s ih =>
    cases x with
    | nt a =>
      cases h with
      | cons hr h =>
        obtain ⟨-, y, hy, hd⟩ := hr
        obtain ⟨z, hz, hd'⟩ := ih h
        exact ⟨y ++ z, hy.trans hz, Derives.append hd hd'⟩
    | term bs =>
      obtain ⟨m, h1, h2⟩ := h.split
      obtain ⟨z, hz, hd'⟩ := ih h2
      exact ⟨bs ++ z, (path_bytes bs h1).trans hz, .term hd'⟩

theorem ruleClause_some {a : Nat} {s : List Sym} {c : Clause} (h : ruleClause a s = some c) :
    (s = [] ∧ c = ⟨a, 0, 0, [.tru 0]⟩) ∨ (flat s ≠ [] ∧ c = ⟨a, 0, (flat s).length, chain (flat s) 0⟩) := by
  cases s with
  | nil =>
    simp only [ruleClause, clause, List.getLast?_singleton, Option.some.injEq] at h
    exact .inl ⟨rfl, h.symm⟩
  | cons x s =>
    right
    simp only [ruleClause, clause, body_chain] at h
    split at h
    · cases h
    · rename_i y hy
      rw [chain_last _ _ _ hy, Nat.zero_add] at h
      refine ⟨fun he => ?_, (Option.some.inj h).symm⟩
      rw [he] at hy; cases hy

theorem holds_means {g : Gram} {P : List Clause} {w : List Nat} {tru : Nat → Prop} (hP : program g = some P)
    (ht : ∀ v, tru v → v ≤ w.length) {r : Rel} {i j : Nat} (h : Holds P w tru r i j) : Means (gcfg g) w r i j := by
  induction h with
  | @fact i b hb => exact ⟨(List.getElem?_eq_some_iff.1 hb).1, seg_byte.1 hb⟩
  | @rule c σ hc hb htr ih =>
    obtain ⟨a, s, hs, hsc⟩ := (program_mem hP).1 c hc
    rcases ruleClause_some hsc with ⟨rfl, rfl⟩ | ⟨hne, rfl⟩
    · exact ⟨ht _ (htr 0 (by simp)), [], ⟨rfl, rfl⟩, Derives.nt hs .nil .nil⟩
    · have hp := path_of_chain σ (flat s) 0 (R := Means (gcfg g) w) ih
      rw [Nat.zero_add] at hp
      obtain ⟨y, hy, hd⟩ := path_derives s hp
      refine ⟨?_, y, hy, by simpa using Derives.nt hs hd .nil⟩
      cases hf : flat s with
      | nil => exact absurd hf hne
      | cons q qs =>
        rw [hf] at hp
        cases hp with
        | cons hr _ => exact hr.start

theorem holds_bytes {P : List Clause} {w : List Nat} {tru : Nat → Prop} (bs : List Nat) {i k : Nat} (h : Seg w i k bs) :
    Path (Holds P w tru) (bs.map .byte) i k := by
  induction bs generalizing i with
  | nil => have := h.2; simp only [List.length_nil, Nat.add_zero] at this; subst this; exact .nil
  | cons b bs ih =>
    obtain ⟨h1, h2⟩ := Seg.split (y := [b]) (z := bs) h
    exact .cons (.fact (seg_byte.2 h1)) (ih h2)

theorem means_holds {g : Gram} {P : List Clause} {w : List Nat} {tru : Nat → Prop} (hP : program g = some P)
    (ht : ∀ v, v ≤ w.length → tru v) {s : List Sym} {y : List Nat} (hd : Derives (gcfg g) s y) :
    ∀ i k, i ≤ w.length → Seg w i k y → Path (Holds P w tru) (flat s) i k := by
  induction hd with
  | nil => intro i k _ h; have := h.2; simp only [List.length_nil, Nat.add_zero] at this; subst this; exact .nil
  | @term b s y _ ih =>
    intro i k hi h
    obtain ⟨h1, h2⟩ := h.split
    exact (holds_bytes b h1).append (ih _ _ (seg_bound h1 hi) h2)
  | @nt A r s u y hr _ _ ihr ihs =>
    intro i k hi h
    obtain ⟨h1, h2⟩ := h.split
    refine .cons ?_ (ihs _ _ (seg_bound h1 hi) h2)
    obtain ⟨c, hc, hrc⟩ := (program_mem hP).2 A r hr
    have hp := ihr _ _ hi h1
    rcases ruleClause_some hrc with ⟨rfl, rfl⟩ | ⟨hne, rfl⟩
    · generalize i + u.length = k' at hp
      cases hp
      exact .rule (fun _ => i) hc (fun _ _ _ h => by simp at h) (fun _ _ => ht i hi)
    · obtain ⟨σ, e1, e2, e3⟩ := chain_of_path hp 0
      rw [Nat.zero_add] at e2
      have := Holds.rule σ hc e3 (fun v hv => absurd hv (chain_tru _ _ _))
      simp only [e1, e2] at this
      exact this

theorem seg_take {w y : List Nat} {i j : Nat} : (i ≤ w.length ∧ Seg w i j y) ↔ i ≤ j ∧ j ≤ w.length ∧ y = (w.drop i).take (j - i) := by
  constructor
  · rintro ⟨hi, h⟩
    have hb := seg_bound h hi
    have := h.2
    refine ⟨by omega, hb, ?_⟩
    rw [h.1, show j - i = y.length by omega, List.take_left]
  · rintro ⟨h1, h2, rfl⟩
    refine ⟨by omega, ?_, ?_⟩
    · rw [show w.drop j = (w.drop i).drop (j - i) by rw [List.drop_drop]; congr 1; omega, List.take_append_drop]
    · rw [List.length_take, List.length_drop]; omega

/-- The program finds what the grammar `gcfg g` derives. -/
theorem holds_iff {g : Gram} {P : List Clause} {w : List Nat} {tru : Nat → Prop} (hP : program g = some P)
    (ht : ∀ v, tru v ↔ v ≤ w.length) (a i j : Nat) :
    Holds P w tru (.prod a) i j ↔ i ≤ j ∧ j ≤ w.length ∧ (gcfg g).Lang a ((w.drop i).take (j - i)) := by
  constructor
  · intro h
    obtain ⟨hi, y, hy, hd⟩ := holds_means hP (fun v => (ht v).1) h
    obtain ⟨h1, h2, h3⟩ := seg_take.1 ⟨hi, hy⟩
    exact ⟨h1, h2, by rw [← h3]; exact hd⟩
  · rintro ⟨h1, h2, h3⟩
    obtain ⟨hi, hs⟩ := seg_take.2 ⟨h1, h2, rfl⟩
    have hp := means_holds hP (fun v => (ht v).2) h3 i j hi hs
    cases hp with
    | cons hr hp =>
      cases hp
      exact hr

end Verif.PyDatalog
