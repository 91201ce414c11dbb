import Verif.PyDatalogOk
/-
C91: the Datalog program made from a grammar (/repo/polytracker/datalog.py) parses: with the facts about the bytes of the
input, a production holds between two positions exactly if it derives what is between them.
-/
namespace Verif.C91
open Verif.Spec Verif.Spec.Datalog Verif.PyGrammar PyDatalog

/-- The productions of a grammar are the keys of the table. -/
def Keys (g : Gram) : Prop := ∀ a, a ∈ g.order ↔ ∃ p, g.prod a = some p

theorem gcfg_eq {g : Gram} (hk : Keys g) (hr : ∀ a p, g.prod a = some p → p.rules ≠ []) : gcfg g = g.cfg := by
  funext a
  unfold gcfg Gram.cfg
  cases ha : g.prod a with
  | none => simp
  | some p =>
    rw [if_pos ((hk a).2 ⟨p, ha⟩)]
    simp only
    cases hp : p.rules with
    | nil => exact absurd hp (hr a p ha)
    | cons r rs => rfl

/-- If every production has a rule, and the positions up to the end of the input are true, the program says about the input
what the grammar says. -/
theorem C91_exact_partial {g : Gram} (hk : Keys g) (hr : ∀ a p, g.prod a = some p → p.rules ≠ []) {P : List Clause}
    (hP : program g = some P) (w : List Nat) (a i j : Nat) :
    Holds P w (· ≤ w.length) (.prod a) i j ↔ i ≤ j ∧ j ≤ w.length ∧ g.cfg.Lang a ((w.drop i).take (j - i)) := by
  rw [holds_iff hP (fun v => Iff.rfl), gcfg_eq hk hr]

/-- In particular the whole input. -/
theorem C91_input_partial {g : Gram} (hk : Keys g) (hr : ∀ a p, g.prod a = some p → p.rules ≠ []) {P : List Clause}
    (hP : program g = some P) (w : List Nat) (a : Nat) :
    Holds P w (· ≤ w.length) (.prod a) 0 w.length ↔ g.cfg.Lang a w := by
  rw [C91_exact_partial hk hr hP]
  simp

theorem rulesLoop_total (a : Nat) (rs : List Rule) (h : ∀ r ∈ rs, r.seq = [] ∨ flat r.seq ≠ []) :
    (rulesLoop a rs).isSome := by
  induction rs with
  | nil => rfl
  | cons r rs ih =>
    obtain ⟨cs, hcs⟩ := Option.isSome_iff_exists.1 (ih fun q hq => h q (List.mem_cons_of_mem _ hq))
    have : ∃ c, ruleClause a r.seq = some c := by
      rcases h r (by simp) with hr | hr
      · rw [hr]; exact ⟨_, rfl⟩
      · cases hs : r.seq with
        | nil => exact ⟨_, rfl⟩
        | cons x s =>
          rw [hs] at hr
          simp only [ruleClause, clause, body_chain]
          cases hf : flat (x :: s) with
          | nil => exact absurd hf hr
          | cons q qs =>
            cases hl : (chain (q :: qs) 0).getLast? with
            | none => simp [chain] at hl
            | some y => exact ⟨_, rfl⟩
    obtain ⟨c, hc⟩ := this
    simp [rulesLoop, hc, hcs]

theorem flat_ne {s : List Sym} (hs : s ≠ []) (h : .term [] ∉ s) : flat s ≠ [] := by
  cases s with
  | nil => exact absurd rfl hs
  | cons x s =>
    cases x with
    | nt a => simp [flat]
    | term b =>
      cases b with
      | nil => simp at h
      | cons c b => simp [flat]

theorem programLoop_total (g : Gram) (l : List Nat) (hk : ∀ a ∈ l, ∃ p, g.prod a = some p)
    (ht : ∀ a p, g.prod a = some p → ∀ r ∈ p.rules, .term [] ∉ r.seq) : (programLoop g l).isSome := by
  induction l with
  | nil => rfl
  | cons a l ih =>
    obtain ⟨p, hp⟩ := hk a (by simp)
    obtain ⟨ds, hds⟩ := Option.isSome_iff_exists.1 (ih fun b hb => hk b (List.mem_cons_of_mem _ hb))
    have : (prodClauses a p).isSome := by
      unfold prodClauses
      cases hr : p.rules with
      | nil => rfl
      | cons r rs =>
        refine rulesLoop_total a (r :: rs) fun q hq => ?_
        by_cases hs : q.seq = []
        · exact .inl hs
        · exact .inr (flat_ne hs (ht a p hp q (by rw [hr]; exact hq)))
    obtain ⟨cs, hcs⟩ := Option.isSome_iff_exists.1 this
    simp [programLoop, hp, hcs, hds]

/-- A program comes out if no rule has an empty terminal. -/
theorem C91_total_partial (g : Gram) (hk : Keys g) (ht : ∀ a p, g.prod a = some p → ∀ r ∈ p.rules, .term [] ∉ r.seq) :
    ∃ P, program g = some P :=
  Option.isSome_iff_exists.1 (programLoop_total g g.order (fun a ha => (hk a).1 ha) ht)

/-- A grammar of one production. -/
def one (p : Prodn) : Gram := ⟨[0], fun a => if a = 0 then some p else none, fun _ => [], some 0⟩

theorem one_keys (p : Prodn) : Keys (one p) := by
  intro a
  by_cases h : a = 0 <;> simp [one, h]

/-- A production without rules derives nothing; the program lets it hold everywhere. -/
theorem C91_ruleless_refuted : ∃ (g : Gram) (P : List Clause), Keys g ∧ program g = some P ∧ (∀ w, ¬ g.cfg.Lang 0 w) ∧
    ∀ (w : List Nat) (i : Nat), i ≤ w.length → Holds P w (· ≤ w.length) (.prod 0) i i := by
  refine ⟨one ⟨[], true, none⟩, _, one_keys _, rfl, fun w h => ?_, fun w i hi => ?_⟩
  · obtain ⟨r, hr, -⟩ := Derives.single_iff.1 h
    cases hr
  · exact Holds.rule (c := ⟨0, 0, 0, [.tru 0]⟩) (fun _ => i) (by simp [endVar]) (fun _ _ _ h => by simp at h) (fun _ _ => hi)

/-- A rule that is an empty terminal is an IndexError. -/
theorem C91_raises_refuted : ∃ g : Gram, Keys g ∧ g.cfg.Lang 0 [] ∧ program g = none :=
  ⟨one ⟨[⟨[.term []], true⟩], true, none⟩, one_keys _,
    Derives.nt (r := [.term []]) (u := []) (by simp [one, Gram.cfg]) (Derives.term .nil) .nil, rfl⟩

/-- If only the positions of bytes are true, as in the command that is commented out, the empty string is not found at the
end of the input. -/
theorem C91_end_refuted : ∃ (g : Gram) (P : List Clause), Keys g ∧ program g = some P ∧ g.cfg.Lang 0 [] ∧
    ∀ w : List Nat, ¬ Holds P w (· < w.length) (.prod 0) w.length w.length := by
  refine ⟨one ⟨[⟨[], false⟩], true, none⟩, [⟨0, 0, 0, [.tru 0]⟩], one_keys _, rfl,
    Derives.nt (r := []) (u := []) (by simp [one, Gram.cfg]) .nil .nil, fun w h => ?_⟩
  have key : ∀ r i j, Holds [⟨0, 0, 0, [.tru 0]⟩] w (· < w.length) r i j → r = .prod 0 → i < w.length := by
    intro r i j h hr
    cases h with
    | fact _ => cases hr
    | @rule c σ hc _ ht =>
      cases List.mem_singleton.1 hc
      exact ht 0 (by simp)
  exact Nat.lt_irrefl _ (key _ _ _ h rfl)

/-- The variables of a clause. -/
def vars (c : Clause) : List Nat := c.s :: c.e :: c.body.flatMap fun
  | .rel _ s e => [s, e]
  | .tru v => [v]

/-- The variables of a rule are lower case letters if it has at most 25 names and bytes. -/
theorem C91_vars_partial {a : Nat} {s : List Sym} {c : Clause} (h : ruleClause a s = some c) (hl : c.body.length ≤ 25) :
    ∀ v ∈ vars c, (varChar v).isLower := by
  have low : ∀ v, v ≤ 25 → (varChar v).isLower := by decide
  have len : ∀ (rs : List Rel) (v : Nat), (chain rs v).length = rs.length := by
    intro rs
    induction rs with
    | nil => intro v; rfl
    | cons r rs ih => intro v; simp [chain, ih]
  have up : ∀ (rs : List Rel) (v : Nat) (q : Rel) (s e : Nat), .rel q s e ∈ chain rs v → e ≤ v + rs.length := by
    intro rs
    induction rs with
    | nil => intro v q s e h; cases h
    | cons r rs ih =>
      intro v q s e h
      rcases List.mem_cons.1 h with h | h
      · cases h; simp
      · have := ih (v + 1) q s e h
        simp only [List.length_cons]; omega
  intro v hv
  refine low v ?_
  rcases ruleClause_some h with ⟨-, rfl⟩ | ⟨-, rfl⟩
  · simp [vars] at hv; omega
  · simp only [len] at hl
    simp only [vars, List.mem_cons, List.mem_flatMap] at hv
    rcases hv with rfl | rfl | ⟨x, hx, hv⟩
    · omega
    · exact hl
    · cases x with
      | tru y => exact absurd hx (chain_tru _ _ _)
      | rel q s' e' =>
        have h1 := up _ _ _ _ _ hx
        have h2 := (chain_vars _ _ _ _ _ hx).2
        simp only [List.mem_cons, List.not_mem_nil, or_false] at hv
        omega

/-- The 27th variable is a brace: a rule of 26 bytes is not a Datalog clause. -/
theorem C91_vars_refuted : ∃ (s : List Sym) (c : Clause), ruleClause 0 s = some c ∧ ∃ v ∈ vars c, varChar v = '{' :=
  ⟨[.term (List.replicate 26 97)], _, rfl, 26, by decide, by decide⟩

/-- Printable ASCII. -/
def Printable (c : Char) : Prop := 32 ≤ c.toNat ∧ c.toNat ≤ 126

theorem esc_prefix : ∀ m, m ≤ 126 → 32 ≤ m → ∀ n, n ≤ 126 → 32 ≤ n →
    (escChar (Char.ofNat m)).isPrefixOf (escChar (Char.ofNat n)) = true → m = n := by
  decide +kernel

theorem esc_inj {c d : Char} (hc : Printable c) (hd : Printable d) {x y : List Char} (h : escChar c ++ x = escChar d ++ y) :
    c = d ∧ x = y := by
  have key : c.toNat = d.toNat := by
    have h1 : escChar c <+: escChar d ++ y := ⟨x, h⟩
    have h2 : escChar d <+: escChar d ++ y := ⟨y, rfl⟩
    rcases List.prefix_or_prefix_of_prefix h1 h2 with h | h
    · exact esc_prefix _ hc.2 hc.1 _ hd.2 hd.1 (by simpa [List.isPrefixOf_iff_prefix] using h)
    · exact (esc_prefix _ hd.2 hd.1 _ hc.2 hc.1 (by simpa [List.isPrefixOf_iff_prefix] using h)).symm
  have : c = d := by
    rw [← Char.ofNat_toNat c, ← Char.ofNat_toNat d, key]
  subst this
  exact ⟨rfl, List.append_cancel_left h⟩

/-- Different names in printable ASCII have different Datalog names. -/
theorem C91_names_partial (m n : List Char) (hm : ∀ c ∈ m, Printable c) (hn : ∀ c ∈ n, Printable c)
    (h : validName m = validName n) : m = n := by
  replace h : m.flatMap escChar = n.flatMap escChar := by simpa [validName] using h
  have ne : ∀ c, escChar c ≠ [] := by intro c; unfold escChar; split <;> simp
  induction m generalizing n with
  | nil =>
    cases n with
    | nil => rfl
    | cons d n =>
      rw [List.flatMap_nil, List.flatMap_cons] at h
      exact absurd (List.append_eq_nil_iff.1 h.symm).1 (ne d)
  | cons c m ih =>
    cases n with
    | nil =>
      rw [List.flatMap_nil, List.flatMap_cons] at h
      exact absurd (List.append_eq_nil_iff.1 h).1 (ne c)
    | cons d n =>
      rw [List.flatMap_cons, List.flatMap_cons] at h
      obtain ⟨rfl, h'⟩ := esc_inj (hm c (by simp)) (hn d (by simp)) h
      rw [ih n (fun x hx => hm x (List.mem_cons_of_mem _ hx)) (fun x hx => hn x (List.mem_cons_of_mem _ hx)) h']

/-- A Datalog name has only letters, digits and underscores. -/
theorem C91_names_valid (n : List Char) : ∀ c ∈ validName n, c.isAlphanum ∨ c = '_' := by
  have dig : ∀ k, ∀ c ∈ Nat.toDigits 10 k, c.isAlphanum := by
    intro k c hc
    have := Nat.isDigit_of_mem_toDigits (by decide) (by decide) hc
    simp [Char.isAlphanum, this]
  intro c hc
  simp only [validName, List.mem_cons, List.mem_flatMap] at hc
  rcases hc with rfl | rfl | rfl | rfl | ⟨x, -, hx⟩
  · left; decide
  · left; decide
  · left; decide
  · right; rfl
  · unfold escChar at hx
    split at hx
    · rename_i h; rw [List.mem_singleton.1 hx]; exact .inl h
    · rcases List.mem_cons.1 hx with rfl | hx
      · exact .inr rfl
      · exact .inl (dig _ c hx)

/-- A tab before a digit is an underscore. -/
theorem C91_names_refuted : ∃ m n : List Char, m ≠ n ∧ validName m = validName n :=
  ⟨['\t', '5'], ['_'], by decide, by decide⟩

/-- The grammar S → "a" S S "b" | ε meets the hypotheses of C91_exact_partial, and its program has two clauses. -/
example : ∃ g P, Keys g ∧ (∀ a p, g.prod a = some p → p.rules ≠ []) ∧ program g = some P ∧ P =
    [⟨0, 0, 4, [.rel (.byte 97) 0 1, .rel (.prod 0) 1 2, .rel (.prod 0) 2 3, .rel (.byte 98) 3 4]⟩, ⟨0, 0, 0, [.tru 0]⟩] := by
  refine ⟨one ⟨[⟨[.term [97], .nt 0, .nt 0, .term [98]], true⟩, ⟨[], false⟩], true, none⟩, _, one_keys _, ?_, rfl, rfl⟩
  intro a p h
  by_cases ha : a = 0
  · simp [one, ha] at h; subst h; simp
  · simp [one, ha] at h

end Verif.C91
