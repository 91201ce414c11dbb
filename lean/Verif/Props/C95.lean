import Verif.PyAbiDiff
import Verif.Spec.AbiLines
/-
C95: track_list_diff.py (/repo/polytracker/scripts) finds the conflicts between two ABI lists and removes them on demand.
-/
namespace Verif.C95
open PyAbiDiff
open AbiLines (Blank Trim Says Treats Once Agree)

theorem blank_iff (c : Char) : blank c = true ↔ Blank c := by simp [blank, Blank, or_assoc]

theorem splitOn_ne (c : Char) (l : Line) : splitOn c l ≠ [] := by
  cases l with
  | nil => simp [splitOn]
  | cons x xs =>
    unfold splitOn
    split
    · simp
    · split <;> simp

theorem splitOn_not_mem (c : Char) (n : Line) (h : c ∉ n) : splitOn c n = [n] := by
  induction n with
  | nil => rfl
  | cons x xs ih =>
    simp only [List.mem_cons, not_or] at h
    rw [splitOn, if_neg (Ne.symm h.1), ih h.2]

theorem splitOn_app (c : Char) (n w : Line) (h : c ∉ n) : splitOn c (n ++ c :: w) = n :: splitOn c w := by
  induction n with
  | nil => simp [splitOn]
  | cons x xs ih =>
    simp only [List.mem_cons, not_or] at h
    rw [List.cons_append, splitOn, if_neg (Ne.symm h.1), ih h.2]

theorem splitOn_one (c : Char) (l n : Line) (h : splitOn c l = [n]) : l = n ∧ c ∉ n := by
  induction l generalizing n with
  | nil => simp [splitOn] at h; subst h; simp
  | cons x xs ih =>
    rw [splitOn] at h
    split at h
    · simp [splitOn_ne] at h
    · rename_i hx
      cases hs : splitOn c xs with
      | nil => exact absurd hs (splitOn_ne c xs)
      | cons y ys =>
        rw [hs] at h
        simp only [List.cons.injEq] at h
        obtain ⟨h1, h2⟩ := h
        subst h2
        obtain ⟨e, hn⟩ := ih y hs
        subst e
        subst h1
        exact ⟨rfl, by simp [hn, Ne.symm hx]⟩

theorem splitOn_two (c : Char) (l n w : Line) (h : splitOn c l = [n, w]) : l = n ++ c :: w ∧ c ∉ n ∧ c ∉ w := by
  induction l generalizing n with
  | nil => simp [splitOn] at h
  | cons x xs ih =>
    rw [splitOn] at h
    split at h
    · rename_i hx
      simp only [List.cons.injEq] at h
      obtain ⟨h1, h2⟩ := h
      obtain ⟨e, hw⟩ := splitOn_one c xs w h2
      subst e; subst h1
      exact ⟨by rw [hx]; rfl, by simp, hw⟩
    · rename_i hx
      cases hs : splitOn c xs with
      | nil => exact absurd hs (splitOn_ne c xs)
      | cons y ys =>
        rw [hs] at h
        simp only [List.cons.injEq] at h
        obtain ⟨h1, h2⟩ := h
        subst h2
        obtain ⟨e, hn, hw⟩ := ih y hs
        subst h1
        exact ⟨by rw [e]; rfl, by simp [hn, Ne.symm hx], hw⟩

theorem dropWhile_split (p : Char → Bool) (l : Line) : ∃ a, l = a ++ l.dropWhile p ∧ (∀ c ∈ a, p c = true) ∧
    ∀ c t, l.dropWhile p = c :: t → p c = false := by
  induction l with
  | nil => exact ⟨[], rfl, by simp, by simp⟩
  | cons x xs ih =>
    rw [List.dropWhile_cons]
    cases hx : p x with
    | true =>
      obtain ⟨a, h1, h2, h3⟩ := ih
      exact ⟨x :: a, by simp [← h1], by simpa [hx] using h2, by simpa using h3⟩
    | false => exact ⟨[], rfl, by simp, by simp [hx]⟩

theorem strip_trim (w : Line) : Trim w (strip w) := by
  obtain ⟨p, hp, hpb, hph⟩ := dropWhile_split blank w
  obtain ⟨q, hq, hqb, hqh⟩ := dropWhile_split blank (w.dropWhile blank).reverse
  have e : w.dropWhile blank = strip w ++ q.reverse := by
    have := congrArg List.reverse hq
    rw [List.reverse_reverse, List.reverse_append] at this
    exact this
  refine ⟨p, q.reverse, ?_, fun c hc => (blank_iff c).1 (hpb c hc), fun c hc => (blank_iff c).1 (hqb c (List.mem_reverse.1 hc)), ?_, ?_⟩
  · rw [List.append_assoc, ← e]; exact hp
  · intro c t h hb
    rw [h] at e
    have := hph c (t ++ q.reverse) (by rw [e]; rfl)
    rw [(blank_iff c).2 hb] at this; cases this
  · intro c t h hb
    have h2 := congrArg List.reverse h
    rw [strip, List.reverse_reverse, List.reverse_append] at h2
    have := hqh c t.reverse (by simpa using h2)
    rw [(blank_iff c).2 hb] at this; cases this

theorem dropWhile_app (a b : Line) (ha : ∀ c ∈ a, Blank c) (hb : ∀ c t, b = c :: t → ¬ Blank c) : (a ++ b).dropWhile blank = b := by
  induction a with
  | nil =>
    cases b with
    | nil => rfl
    | cons c t =>
      have : blank c = false := by
        cases h : blank c with
        | false => rfl
        | true => exact absurd ((blank_iff c).1 h) (hb c t rfl)
      simp [List.dropWhile_cons, this]
  | cons x a ih =>
    rw [List.cons_append, List.dropWhile_cons, (blank_iff x).2 (ha x (by simp))]
    exact ih fun c hc => ha c (by simp [hc])

theorem trim_strip {w v : Line} (h : Trim w v) : strip w = v := by
  obtain ⟨p, q, rfl, hp, hq, h1, h2⟩ := h
  unfold strip
  cases v with
  | nil =>
    have : (p ++ [] ++ q).dropWhile blank = [] := by
      have := dropWhile_app (p ++ q) [] (by
        intro c hc; rcases List.mem_append.1 hc with h | h
        · exact hp c h
        · exact hq c h) (by simp)
      simpa using this
    rw [this]; rfl
  | cons x t =>
    rw [List.append_assoc, dropWhile_app p _ hp (by intro c t' he; simp at he; exact h1 c t (by rw [he.1])), List.reverse_append]
    rw [dropWhile_app q.reverse _ (fun c hc => hq c (List.mem_reverse.1 hc)), List.reverse_reverse]
    intro c t' he
    refine h2 c t'.reverse ?_
    have := congrArg List.reverse he
    simpa using this

theorem parse_says (l n v : Line) : parse l = some (some (n, v)) ↔ Says l n v := by
  constructor
  · intro h
    unfold parse at h
    split at h
    · cases h
    · rename_i x t
      split at h
      · simp at h
      · rename_i hx
        have hx : x = 'f' := by simpa using hx
        split at h
        · rename_i n' w hs
          simp only [Option.some.injEq, Prod.mk.injEq] at h
          obtain ⟨rfl, rfl⟩ := h
          obtain ⟨e, hn, hw⟩ := splitOn_two _ _ _ _ hs
          subst hx
          match t, e with
          | [], e => simp at e
          | [_], e => simp at e
          | [_, _], e => simp at e
          | a :: b :: c :: t, e =>
            have e : t = n' ++ '=' :: w := by simpa using e
            exact ⟨a, b, c, w, by rw [e], hn, hw, strip_trim w⟩
        · cases h
  · rintro ⟨a, b, c, w, rfl, hn, hw, ht⟩
    simp [parse, splitOn_app _ _ _ hn, splitOn_not_mem _ _ hw, trim_strip ht]

/-- What the lines say that decide something. -/
def entries (f : List Line) : List (Line × Line) :=
  f.filterMap fun l => match parse l with
    | some (some e) => if e.2 = uninst then none else some e
    | _ => none

theorem entry_iff (l n v : Line) : (match parse l with
    | some (some e) => if e.2 = uninst then none else some e
    | _ => none) = some (n, v) ↔ Treats l n v := by
  unfold Treats
  rw [← parse_says]
  change _ ↔ _ ∧ v ≠ uninst
  cases h : parse l with
  | none => simp
  | some o =>
    cases o with
    | none => simp
    | some e =>
      obtain ⟨n', v'⟩ := e
      by_cases hv : v' = uninst
      · simp only [hv]
        constructor
        · simp
        · rintro ⟨h1, h2⟩; simp at h1; exact absurd h1.2.symm h2
      · simp only [if_neg hv, Option.some.injEq, Prod.mk.injEq]
        constructor
        · rintro ⟨rfl, rfl⟩; exact ⟨⟨rfl, rfl⟩, hv⟩
        · exact fun h => h.1

theorem mem_entries (f : List Line) (n v : Line) : (n, v) ∈ entries f ↔ ∃ l ∈ f, Treats l n v := by
  unfold entries
  rw [List.mem_filterMap]
  constructor
  · rintro ⟨l, hl, h⟩; exact ⟨l, hl, (entry_iff l n v).1 h⟩
  · rintro ⟨l, hl, h⟩; exact ⟨l, hl, (entry_iff l n v).2 h⟩

theorem entries_once (f : List Line) : ((entries f).map (·.1)).Nodup ↔ Once f := by
  unfold Once entries List.Nodup
  rw [List.pairwise_map, List.pairwise_filterMap]
  constructor
  · intro h
    refine h.imp ?_
    intro l m hlm n v w h1 h2
    exact hlm _ ((entry_iff l n v).2 h1) _ ((entry_iff m n w).2 h2) rfl
  · intro h
    refine h.imp ?_
    rintro l m hlm ⟨n, v⟩ h1 ⟨n', w⟩ h2 (rfl : n = n')
    exact hlm n v w ((entry_iff l n v).1 h1) ((entry_iff m n w).1 h2)

theorem setKey_ne (d : List (Line × Bool)) (k : Line) (v : Bool) : setKey d k v ≠ [] := by
  unfold setKey
  split
  · rename_i h
    cases d with
    | nil => simp at h
    | cons x t => simp
  · simp

/-- The loop as a loop over what the lines say. -/
theorem analyzeLoop_eq (f : List Line) (a a' : Acc) (h : analyzeLoop a f = some a') : a' = (entries f).foldl step a := by
  induction f generalizing a with
  | nil => simp [analyzeLoop] at h; simp [entries, h]
  | cons l ls ih =>
    rw [analyzeLoop] at h
    cases hp : parse l with
    | none => rw [hp] at h; cases h
    | some o =>
      cases o with
      | none =>
        rw [hp] at h
        have := ih a h
        simpa [entries, List.filterMap_cons, hp] using this
      | some e =>
        rw [hp] at h
        have := ih (step a e) h
        by_cases hv : e.2 = uninst
        · rw [show step a e = a by simp [step, hv]] at this
          simpa [entries, List.filterMap_cons, hp, hv] using this
        · simpa [entries, List.filterMap_cons, hp, hv] using this

theorem entries_ne {f : List Line} {e : Line × Line} (h : e ∈ entries f) : e.2 ≠ uninst := by
  obtain ⟨l, -, h⟩ := (mem_entries f e.1 e.2).1 h
  exact h.2

theorem fold_lookup (es : List (Line × Line)) (hu : ∀ e ∈ es, e.2 ≠ uninst) (a : Acc) (n : Line) :
    ((es.foldl step a).attrs.lookup n) = (a.attrs.lookup n).or ((es.lookup n).map fun v => [v]) := by
  induction es generalizing a with
  | nil => simp
  | cons e es ih =>
    obtain ⟨k, v⟩ := e
    rw [List.foldl_cons, ih (fun e he => hu e (by simp [he]))]
    have hv : v ≠ uninst := hu (k, v) (by simp)
    unfold step
    simp only [if_neg hv]
    cases hk : a.attrs.lookup k with
    | some vs =>
      simp only
      by_cases hn : n = k
      · subst hn; simp [hk]
      · rw [List.lookup_cons, show (n == k) = false by simpa using hn]
    | none =>
      simp only
      rw [List.lookup_append]
      by_cases hn : n = k
      · subst hn; simp [hk, List.lookup_cons]
      · have : (n == k) = false := by simpa using hn
        simp [List.lookup_cons, this]

theorem fold_keep (es : List (Line × Line)) (a : Acc) (h : a.conflicts ≠ []) : (es.foldl step a).conflicts ≠ [] := by
  induction es generalizing a with
  | nil => exact h
  | cons e es ih =>
    rw [List.foldl_cons]
    refine ih _ ?_
    unfold step
    split
    · exact h
    · split
      · exact setKey_ne _ _ _
      · exact h

theorem lookup_none (d : List (Line × List Line)) (k : Line) : d.lookup k = none ↔ k ∉ d.map (·.1) := by
  induction d with
  | nil => simp
  | cons x d ih =>
    rw [List.lookup_cons]
    by_cases h : k = x.1
    · simp [h]
    · have : (k == x.1) = false := by simpa using h
      simp [this, ih, h]

theorem fold_conflicts (es : List (Line × Line)) (hu : ∀ e ∈ es, e.2 ≠ uninst) (a : Acc) (ha : a.conflicts = []) :
    (es.foldl step a).conflicts = [] ↔ (es.map (·.1)).Nodup ∧ ∀ e ∈ es, e.1 ∉ a.attrs.map (·.1) := by
  induction es generalizing a with
  | nil => simp [ha]
  | cons e es ih =>
    obtain ⟨k, v⟩ := e
    have hv : v ≠ uninst := hu (k, v) (by simp)
    have hu' : ∀ e ∈ es, e.2 ≠ uninst := fun e he => hu e (by simp [he])
    rw [List.foldl_cons]
    cases hk : a.attrs.lookup k with
    | some vs =>
      have h1 : (step a (k, v)).conflicts ≠ [] := by
        unfold step; simp only [if_neg hv, hk]; exact setKey_ne _ _ _
      have h2 : k ∈ a.attrs.map (·.1) := by
        by_cases h : k ∈ a.attrs.map (·.1)
        · exact h
        · rw [(lookup_none _ _).2 h] at hk; cases hk
      constructor
      · intro h; exact absurd h (fold_keep es _ h1)
      · rintro ⟨-, h⟩; exact absurd h2 (h (k, v) (by simp))
    | none =>
      have h1 : step a (k, v) = { a with attrs := a.attrs ++ [(k, [v])] } := by
        unfold step; simp only [if_neg hv, hk]
      rw [h1, ih hu' { a with attrs := a.attrs ++ [(k, [v])] } ha]
      have h2 := (lookup_none _ _).1 hk
      simp only [List.map_append, List.map_cons, List.map_nil, List.mem_append, not_or, List.nodup_cons,
        List.mem_cons, forall_eq_or_imp]
      constructor
      · rintro ⟨h3, h4⟩
        refine ⟨⟨?_, h3⟩, h2, fun e he => (h4 e he).1⟩
        intro h5
        obtain ⟨e, he, hek⟩ := List.mem_map.1 h5
        exact (h4 e he).2.1 hek
      · rintro ⟨⟨h5, h3⟩, -, h4⟩
        exact ⟨h3, fun e he => ⟨h4 e he, fun hek => h5 (List.mem_map.2 ⟨e, he, hek⟩), by simp⟩⟩

theorem lookup_mem {es : List (Line × Line)} {n v : Line} (h : es.lookup n = some v) : (n, v) ∈ es := by
  induction es with
  | nil => simp at h
  | cons e es ih =>
    rw [List.lookup_cons] at h
    by_cases hn : n = e.1
    · simp [hn] at h; subst h; subst hn; simp
    · rw [show (n == e.1) = false by simpa using hn] at h
      exact List.mem_cons_of_mem _ (ih h)

theorem lookup_of_mem {es : List (Line × Line)} {n v : Line} (hd : (es.map (·.1)).Nodup) (h : (n, v) ∈ es) : es.lookup n = some v := by
  induction es with
  | nil => simp at h
  | cons e es ih =>
    simp only [List.map_cons, List.nodup_cons] at hd
    rw [List.lookup_cons]
    rcases List.mem_cons.1 h with rfl | h
    · simp
    · have : n ≠ e.1 := by
        rintro rfl; exact hd.1 (List.mem_map.2 ⟨_, h, rfl⟩)
      rw [show (n == e.1) = false by simpa using this]
      exact ih hd.2 h

/-- The keys of the dictionary of a file have the value found by looking them up. -/
theorem fold_nodup (es : List (Line × Line)) (a : Acc) (h : (a.attrs.map (·.1)).Nodup) : ((es.foldl step a).attrs.map (·.1)).Nodup := by
  induction es generalizing a with
  | nil => exact h
  | cons e es ih =>
    rw [List.foldl_cons]
    refine ih _ ?_
    unfold step
    split
    · exact h
    · split
      · exact h
      · rename_i hk
        have h2 := (lookup_none _ _).1 hk
        simp only [List.map_append, List.map_cons, List.map_nil]
        refine List.nodup_append.2 ⟨h, by simp, ?_⟩
        intro x hx y hy
        rw [List.mem_singleton.1 hy]
        rintro rfl
        exact h2 hx

theorem lookup_key {d : List (Line × List Line)} {n : Line} {v : List Line} (hd : (d.map (·.1)).Nodup) (h : (n, v) ∈ d) :
    d.lookup n = some v := by
  induction d with
  | nil => simp at h
  | cons e es ih =>
    simp only [List.map_cons, List.nodup_cons] at hd
    rw [List.lookup_cons]
    rcases List.mem_cons.1 h with rfl | h
    · simp
    · have : n ≠ e.1 := by
        rintro rfl; exact hd.1 (List.mem_map.2 ⟨_, h, rfl⟩)
      rw [show (n == e.1) = false by simpa using this]
      exact ih hd.2 h

theorem lookup_memL {d : List (Line × List Line)} {n : Line} {v : List Line} (h : d.lookup n = some v) : (n, v) ∈ d := by
  induction d with
  | nil => simp at h
  | cons e es ih =>
    rw [List.lookup_cons] at h
    by_cases hn : n = e.1
    · simp [hn] at h; subst h; subst hn; simp
    · rw [show (n == e.1) = false by simpa using hn] at h
      exact List.mem_cons_of_mem _ (ih h)

/-- The conflicts between two files that could be read: first categories that differ. -/
theorem mem_diffs {f g : List Line} {a b : Acc} (ha : analyze f = some a) (hb : analyze g = some b) (n : Line) :
    n ∈ diffs a.attrs b.attrs ↔ ∃ v w, (entries f).lookup n = some v ∧ (entries g).lookup n = some w ∧ v ≠ w := by
  have ea := analyzeLoop_eq f _ a ha
  have eb := analyzeLoop_eq g _ b hb
  have la : ∀ k, a.attrs.lookup k = ((entries f).lookup k).map fun v => [v] := by
    intro k; rw [ea, fold_lookup _ (fun e he => entries_ne he)]; simp
  have lb : ∀ k, b.attrs.lookup k = ((entries g).lookup k).map fun v => [v] := by
    intro k; rw [eb, fold_lookup _ (fun e he => entries_ne he)]; simp
  have na : (a.attrs.map (·.1)).Nodup := by rw [ea]; exact fold_nodup _ _ (by simp)
  have ld : ∀ v w : Line, listDiff [v] [w] = true ↔ v ≠ w := by intro v w; simp [listDiff]
  unfold diffs
  rw [List.mem_map]
  constructor
  · rintro ⟨⟨k, vs⟩, h, rfl⟩
    rw [List.mem_filter] at h
    obtain ⟨h1, h2⟩ := h
    have h3 := lookup_key na h1
    rw [la] at h3
    cases hv : (entries f).lookup k with
    | none => rw [hv] at h3; cases h3
    | some v =>
      rw [hv] at h3
      simp only [Option.map_some, Option.some.injEq] at h3
      subst h3
      simp only [lb] at h2
      cases hw : (entries g).lookup k with
      | none => rw [hw] at h2; simp at h2
      | some w =>
        rw [hw] at h2
        exact ⟨v, w, rfl, rfl, (ld v w).1 (by simpa using h2)⟩
  · rintro ⟨v, w, hv, hw, hne⟩
    refine ⟨(n, [v]), List.mem_filter.2 ⟨lookup_memL (by rw [la, hv]; rfl), ?_⟩, rfl⟩
    simp only [lb, hw, Option.map_some]
    exact (ld v w).2 hne

theorem conflicts_iff {f : List Line} {a : Acc} (ha : analyze f = some a) : a.conflicts = [] ↔ Once f := by
  rw [← entries_once, analyzeLoop_eq f _ a ha, fold_conflicts _ (fun e he => entries_ne he) _ rfl]
  simp

theorem analyze_none (f : List Line) (a : Acc) : analyzeLoop a f = none ↔ ∃ l ∈ f, parse l = none := by
  induction f generalizing a with
  | nil => simp [analyzeLoop]
  | cons l ls ih =>
    rw [analyzeLoop]
    cases hp : parse l with
    | none => simp [hp]
    | some o => cases o <;> simp [hp, ih]

/-- The program ends with an exception just if a line that begins with `f` does not put a function into a category. -/
theorem C95_crash (f g : List Line) (k : Option Int) (hf : ∀ l ∈ f ++ g, l ≠ []) :
    main f g k = .crash ↔ ∃ l ∈ f ++ g, l.head? = some 'f' ∧ ∀ n v, ¬ Says l n v := by
  have hp : ∀ l ∈ f ++ g, (parse l = none ↔ l.head? = some 'f' ∧ ∀ n v, ¬ Says l n v) := by
    intro l hl
    constructor
    · intro h
      refine ⟨?_, fun n v hs => ?_⟩
      · cases l with
        | nil => exact absurd rfl (hf _ hl)
        | cons x t =>
          unfold parse at h
          by_cases hx : x = 'f'
          · simp [hx]
          · simp [hx] at h
      · rw [(parse_says l n v).2 hs] at h; cases h
    · rintro ⟨h1, h2⟩
      cases h : parse l with
      | none => rfl
      | some o =>
        cases o with
        | some e => exact absurd ((parse_says l e.1 e.2).1 h) (h2 _ _)
        | none =>
          cases l with
          | nil => cases h1
          | cons x t =>
            simp at h1
            subst h1
            unfold parse at h
            simp only [ne_eq, not_true_eq_false, if_false] at h
            split at h <;> simp at h
  have e : main f g k = .crash ↔ analyze f = none ∨ analyze g = none := by
    unfold main
    cases analyze f <;> cases analyze g <;> simp
    cases k with
    | none => simp
    | some k => 
      simp only
      split
      · simp
      · split <;> simp
  rw [e]
  unfold analyze
  rw [analyze_none, analyze_none]
  constructor
  · rintro (⟨l, hl, h⟩ | ⟨l, hl, h⟩)
    · exact ⟨l, List.mem_append_left _ hl, (hp l (List.mem_append_left _ hl)).1 h⟩
    · exact ⟨l, List.mem_append_right _ hl, (hp l (List.mem_append_right _ hl)).1 h⟩
  · rintro ⟨l, hl, h⟩
    have h := (hp l hl).2 h
    rcases List.mem_append.1 hl with hl | hl
    · exact .inl ⟨l, hl, h⟩
    · exact .inr ⟨l, hl, h⟩

/-- The status is 0 just if no function is treated twice in one list and the lists agree; the files are left alone. -/
theorem C95_status (f g f' g' : List Line) (s : Nat) (h : main f g none = .exit s f' g') :
    f' = f ∧ g' = g ∧ s ≤ 1 ∧ (s = 0 ↔ Once f ∧ Once g ∧ Agree f g) := by
  unfold main at h
  cases ha : analyze f with
  | none => rw [ha] at h; cases h
  | some a =>
    cases hb : analyze g with
    | none => rw [ha, hb] at h; cases h
    | some b =>
      simp only [ha, hb, Out.exit.injEq] at h
      obtain ⟨h1, h2, h3⟩ := h
      refine ⟨h2.symm, h3.symm, by rw [← h1]; split <;> omega, ?_⟩
      have hl : ∀ {α : Type} (l : List α), l.length > 0 ↔ l ≠ [] := fun l => by cases l <;> simp
      rw [← h1, ← conflicts_iff ha, ← conflicts_iff hb]
      simp only [hl]
      have hd : a.conflicts = [] → b.conflicts = [] → (diffs a.attrs b.attrs = [] ↔ Agree f g) := by
        intro oa ob
        have oa := (entries_once f).2 ((conflicts_iff ha).1 oa)
        have ob := (entries_once g).2 ((conflicts_iff hb).1 ob)
        rw [List.eq_nil_iff_forall_not_mem]
        constructor
        · intro h l hl m hm n v w hv hw
          have h1 := lookup_of_mem oa ((mem_entries f n v).2 ⟨l, hl, hv⟩)
          have h2 := lookup_of_mem ob ((mem_entries g n w).2 ⟨m, hm, hw⟩)
          by_cases e : v = w
          · exact e
          · exact absurd ((mem_diffs ha hb n).2 ⟨v, w, h1, h2, e⟩) (h n)
        · intro h n hn
          obtain ⟨v, w, h1, h2, e⟩ := (mem_diffs ha hb n).1 hn
          obtain ⟨l, hl, hv⟩ := (mem_entries f n v).1 (lookup_mem h1)
          obtain ⟨m, hm, hw⟩ := (mem_entries g n w).1 (lookup_mem h2)
          exact e (h l hl m hm n v w hv hw)
      by_cases oa : a.conflicts = []
      · by_cases ob : b.conflicts = []
        · by_cases od : diffs a.attrs b.attrs = []
          · simp [oa, ob, od, (hd oa ob).1 od]
          · have hn : ¬ Agree f g := fun h => od ((hd oa ob).2 h)
            simp [oa, ob, od, hn]
        · simp [ob]
      · simp [oa]

theorem parse_hash (l : Line) : parse ('#' :: l) = some none := by simp [parse]

/-- With a choice the chosen file is left alone, and in the other one only lines on functions that both files treat differently
are made comments. -/
theorem C95_frame (f g f' g' : List Line) (s : Nat) (h : main f g (some 1) = .exit s f' g') :
    s = 0 ∧ f' = f ∧ g'.length = g.length ∧ ∀ (i : Nat) (l : Line), g[i]? = some l → g'[i]? = some l ∨ g'[i]? = some ('#' :: l) ∧
      ∃ n c, Says l n c ∧ ∃ l₁ ∈ f, ∃ l₂ ∈ g, ∃ v w, Treats l₁ n v ∧ Treats l₂ n w ∧ v ≠ w := by
  unfold main at h
  cases ha : analyze f with
  | none => rw [ha] at h; cases h
  | some a =>
    cases hb : analyze g with
    | none => rw [ha, hb] at h; cases h
    | some b =>
      simp [ha, hb] at h
      obtain ⟨h1, h2, h3⟩ := h
      subst h3
      refine ⟨h1.symm, h2.symm, by simp [resolve], ?_⟩
      intro i l hl
      simp only [resolve, List.getElem?_map, hl, Option.map_some]
      cases hp : parse l with
      | none => exact .inl rfl
      | some o =>
        cases o with
        | none => exact .inl rfl
        | some e =>
          simp only
          split
          · rename_i hm
            refine .inr ⟨rfl, e.1, e.2, (parse_says l e.1 e.2).1 hp, ?_⟩
            obtain ⟨v, w, h4, h5, h6⟩ := (mem_diffs ha hb e.1).1 hm
            obtain ⟨l₁, hl₁, hv⟩ := (mem_entries f _ v).1 (lookup_mem h4)
            obtain ⟨l₂, hl₂, hw⟩ := (mem_entries g _ w).1 (lookup_mem h5)
            exact ⟨l₁, hl₁, l₂, hl₂, v, w, hv, hw, h6⟩
          · exact .inl rfl

/-- The same with the other choice. -/
theorem C95_frame_two (f g f' g' : List Line) (s : Nat) (h : main f g (some 2) = .exit s f' g') :
    s = 0 ∧ g' = g ∧ f'.length = f.length ∧ ∀ (i : Nat) (l : Line), f[i]? = some l → f'[i]? = some l ∨ f'[i]? = some ('#' :: l) ∧
      ∃ n c, Says l n c ∧ ∃ l₁ ∈ f, ∃ l₂ ∈ g, ∃ v w, Treats l₁ n v ∧ Treats l₂ n w ∧ v ≠ w := by
  unfold main at h
  cases ha : analyze f with
  | none => rw [ha] at h; cases h
  | some a =>
    cases hb : analyze g with
    | none => rw [ha, hb] at h; cases h
    | some b =>
      simp [ha, hb] at h
      obtain ⟨h1, h2, h3⟩ := h
      subst h2
      refine ⟨h1.symm, h3.symm, by simp [resolve], ?_⟩
      intro i l hl
      simp only [resolve, List.getElem?_map, hl, Option.map_some]
      cases hp : parse l with
      | none => exact .inl rfl
      | some o =>
        cases o with
        | none => exact .inl rfl
        | some e =>
          simp only
          split
          · rename_i hm
            refine .inr ⟨rfl, e.1, e.2, (parse_says l e.1 e.2).1 hp, ?_⟩
            obtain ⟨v, w, h4, h5, h6⟩ := (mem_diffs ha hb e.1).1 hm
            obtain ⟨l₁, hl₁, hv⟩ := (mem_entries f _ v).1 (lookup_mem h4)
            obtain ⟨l₂, hl₂, hw⟩ := (mem_entries g _ w).1 (lookup_mem h5)
            exact ⟨l₁, hl₁, l₂, hl₂, v, w, hv, hw, h6⟩
          · exact .inl rfl

/-- Other choices change nothing. -/
theorem C95_choice (f g f' g' : List Line) (s : Nat) (k : Int) (h1 : k ≠ 1) (h2 : k ≠ 2) (h : main f g (some k) = .exit s f' g') :
    s = 1 ∧ f' = f ∧ g' = g := by
  unfold main at h
  cases ha : analyze f with
  | none => rw [ha] at h; cases h
  | some a =>
    cases hb : analyze g with
    | none => rw [ha, hb] at h; cases h
    | some b =>
      simp [ha, hb, h1, h2] at h
      exact ⟨h.1.symm, h.2.1.symm, h.2.2.symm⟩

/-- If no list treats a function twice then there are no conflicts left after a choice. -/
theorem C95_resolved_partial (f g f' g' : List Line) (s : Nat) (of : Once f) (og : Once g)
    (h : main f g (some 1) = .exit s f' g') : main f' g' none = .exit 0 f' g' := by
  unfold main at h
  cases ha : analyze f with
  | none => rw [ha] at h; cases h
  | some a =>
    cases hb : analyze g with
    | none => rw [ha, hb] at h; cases h
    | some b =>
      simp [ha, hb] at h
      obtain ⟨-, h2, h3⟩ := h
      subst h2 h3
      have key : ∀ l, ∀ n v, Treats (match parse l with
          | some (some e) => if e.1 ∈ diffs a.attrs b.attrs then '#' :: l else l
          | _ => l) n v → Treats l n v ∧ n ∉ diffs a.attrs b.attrs := by
        intro l n v ht
        cases hp : parse l with
        | none =>
          simp only [hp] at ht
          rw [(parse_says l n v).2 ht.1] at hp; cases hp
        | some o =>
          cases o with
          | none =>
            simp only [hp] at ht
            rw [(parse_says l n v).2 ht.1] at hp; cases hp
          | some e =>
            simp only [hp] at ht
            split at ht
            · have := (parse_says _ n v).2 ht.1
              rw [parse_hash] at this; cases this
            · rename_i hm
              have := (parse_says _ n v).2 ht.1
              rw [hp] at this
              simp only [Option.some.injEq] at this
              subst this
              exact ⟨ht, hm⟩
      have hc : analyze (resolve g (diffs a.attrs b.attrs)) ≠ none := by
        intro hn
        obtain ⟨l, hl, hp⟩ := (analyze_none _ _).1 hn
        obtain ⟨m, hm, rfl⟩ := List.mem_map.1 hl
        have hb' : ¬ analyze g = none := by rw [hb]; simp
        have hm' : parse m ≠ none := fun hx => hb' ((analyze_none _ _).2 ⟨m, hm, hx⟩)
        cases hpm : parse m with
        | none => exact hm' hpm
        | some o =>
          cases o with
          | none => simp [hpm] at hp
          | some e =>
            simp only [hpm] at hp
            split at hp
            · rw [parse_hash] at hp; cases hp
            · rw [hpm] at hp; cases hp
      cases hr : analyze (resolve g (diffs a.attrs b.attrs)) with
      | none => exact absurd hr hc
      | some b' =>
        have hex : ∃ s, main f (resolve g (diffs a.attrs b.attrs)) none = .exit s f (resolve g (diffs a.attrs b.attrs)) := by
          unfold main; rw [ha, hr]; exact ⟨_, rfl⟩
        obtain ⟨s', hs⟩ := hex
        have h0 : s' = 0 := by
          refine (C95_status _ _ _ _ _ hs).2.2.2.2 ⟨of, ?_, ?_⟩
          · unfold Once resolve
            rw [List.pairwise_map]
            refine List.Pairwise.imp ?_ og
            intro l m hlm n v w h1 h2
            exact hlm n v w (key l n v h1).1 (key m n w h2).1
          · intro l hl m hm n v w hv hw
            obtain ⟨m', hm', rfl⟩ := List.mem_map.1 hm
            obtain ⟨h1, h2⟩ := key m' n w hw
            by_cases e : v = w
            · exact e
            · refine absurd ((mem_diffs ha hb n).2 ⟨v, w, ?_, ?_, e⟩) h2
              · exact lookup_of_mem ((entries_once f).2 of) ((mem_entries f n v).2 ⟨l, hl, hv⟩)
              · exact lookup_of_mem ((entries_once g).2 og) ((mem_entries g n w).2 ⟨m', hm', h1⟩)
        rw [hs, h0]

/-- The number of the exit status. -/
def Out.code : Out → Option Nat
  | .crash => none
  | .exit s _ _ => some s

/-- The second file at the end. -/
def Out.two : Out → List Line
  | .crash => []
  | .exit _ _ g => g

/-- A second category in the other file goes unnoticed: after the choice the lists still contradict each other. -/
theorem C95_resolved_refuted :
    let f : List Line := ["fun:a=custom\n".toList]
    let g : List Line := ["fun:a=custom\n".toList, "fun:a=discard\n".toList]
    Out.two (main f g (some 1)) = g ∧ Out.code (main f g (some 1)) = some 0 ∧ Out.code (main f g none) = some 1 := by decide

/-- The mark `uninstrumented`, which is no conflict, is removed with the conflict. -/
theorem C95_uninstrumented_refuted :
    let f : List Line := ["fun:a=custom\n".toList]
    let g : List Line := ["fun:a=uninstrumented\n".toList, "fun:a=discard\n".toList]
    Out.two (main f g (some 1)) = ["#fun:a=uninstrumented\n".toList, "#fun:a=discard\n".toList] := by decide

/-- A pattern that covers a function of the other list is not compared with it. -/
theorem C95_pattern_refuted :
    Out.code (main ["fun:a*=discard\n".toList] ["fun:ab=custom\n".toList] none) = some 0 := by decide

/-- Two lists that meet the hypotheses of C95_resolved_partial. -/
example :
    let f : List Line := ["# list\n".toList, "fun:a=custom\n".toList, "fun:b=discard\n".toList]
    let g : List Line := ["fun:a=discard\n".toList, "fun:b= discard \n".toList]
    Out.code (main f g none) = some 1 ∧ Out.two (main f g (some 1)) = ["#fun:a=discard\n".toList, "fun:b= discard \n".toList] ∧
      Out.code (main f (Out.two (main f g (some 1))) none) = some 0 := by decide

end Verif.C95
