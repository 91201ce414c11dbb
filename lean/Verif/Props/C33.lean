import Verif.Ignore
import Verif.Spec.AbiList
/- C33: ignore lists exclude exactly the listed functions. -/
namespace Verif
open Ignore Spec

theorem Ignore.getlines_mem (text : List Char) : ∀ (acc l : List Char), '\n' ∉ acc →
    (l ∈ getlines acc text ↔ '\n' ∉ l ∧ ∃ a b, acc ++ text = a ++ l ++ b ∧
      (a = [] ∨ ∃ a', a = a' ++ ['\n']) ∧ ((b = [] ∧ l ≠ []) ∨ ∃ b', b = '\n' :: b')) := by
  induction text with
  | nil =>
    intro acc l hacc
    simp only [getlines, List.append_nil]
    constructor
    · intro h
      split at h
      · cases h
      · rename_i hne
        simp only [List.mem_singleton] at h
        subst h
        exact ⟨hacc, [], [], by simp, Or.inl rfl, Or.inl ⟨rfl, hne⟩⟩
    · rintro ⟨hl, a, b, he, ha, hb⟩
      have hb0 : b = [] := by
        rcases hb with ⟨h, -⟩ | ⟨b', rfl⟩
        · exact h
        · exfalso; apply hacc; rw [he]; simp
      have ha0 : a = [] := by
        rcases ha with h | ⟨a', rfl⟩
        · exact h
        · exfalso; apply hacc; rw [he]; simp
      subst hb0; subst ha0
      simp only [List.nil_append, List.append_nil] at he
      subst he
      rcases hb with ⟨-, h⟩ | ⟨b', h⟩
      · rw [if_neg h]; simp
      · cases h
  | cons c cs ih =>
    intro acc l hacc
    by_cases hc : c = '\n'
    · subst hc
      rw [getlines, List.mem_cons, ih [] l (by simp)]
      constructor
      · rintro (rfl | ⟨hl, a, b, he, ha, hb⟩)
        · exact ⟨hacc, [], '\n' :: cs, by simp, Or.inl rfl, Or.inr ⟨cs, rfl⟩⟩
        · refine ⟨hl, acc ++ ['\n'] ++ a, b, ?_, Or.inr ?_, hb⟩
          · simp only [List.nil_append] at he
            rw [he]; simp
          · rcases ha with rfl | ⟨a', rfl⟩
            · exact ⟨acc, by simp⟩
            · exact ⟨acc ++ ['\n'] ++ a', by simp⟩
      · rintro ⟨hl, a, b, he, ha, hb⟩
        -- the first newline of the text
        by_cases hla : a.length ≤ acc.length
        · left
          have ha0 : a = [] := by
            rcases ha with h | ⟨a', rfl⟩
            · exact h
            · exfalso
              apply hacc
              have : (acc ++ '\n' :: cs)[a'.length]? = some '\n' := by rw [he]; simp
              rw [List.getElem?_append_left (by simp at hla; omega)] at this
              exact List.mem_of_getElem? this
          subst ha0
          rw [List.nil_append] at he
          have hlen : l.length = acc.length := by
            rcases Nat.lt_trichotomy l.length acc.length with h | h | h
            · exfalso
              rcases hb with ⟨rfl, -⟩ | ⟨b', rfl⟩
              · have := congrArg List.length he; simp at this; omega
              · apply hacc
                have : (acc ++ '\n' :: cs)[l.length]? = some '\n' := by rw [he]; simp
                rw [List.getElem?_append_left h] at this
                exact List.mem_of_getElem? this
            · exact h
            · exfalso
              apply hl
              have : (l ++ b)[acc.length]? = some '\n' := by rw [← he]; simp
              rw [List.getElem?_append_left h] at this
              exact List.mem_of_getElem? this
          exact (List.append_inj he hlen.symm).1.symm
        · right
          have hpre : acc ++ ['\n'] <+: a :=
            List.prefix_of_prefix_length_le (l₃ := acc ++ '\n' :: cs) ⟨cs, by simp⟩
              (by rw [he]; exact ⟨l ++ b, by simp⟩) (by simp; omega)
          obtain ⟨r, rfl⟩ := hpre
          refine ⟨hl, r, b, ?_, ?_, hb⟩
          · have h2 : (acc ++ ['\n']) ++ cs = (acc ++ ['\n']) ++ (r ++ l ++ b) := by simpa using he
            simpa using List.append_cancel_left h2
          · rcases List.eq_nil_or_concat r with h | ⟨r', x, hr⟩
            · exact Or.inl h
            · right
              rcases ha with h | ⟨a', h⟩
              · simp at h
              · rw [List.concat_eq_append] at hr
                subst hr
                rw [← List.append_assoc] at h
                have := (List.append_inj' h rfl).2
                simp only [List.cons.injEq, and_true] at this
                exact ⟨r', by rw [this]⟩
    · have hnew : '\n' ∉ acc ++ [c] := by
        simp only [List.mem_append, List.mem_singleton, not_or]
        exact ⟨hacc, fun h => hc h.symm⟩
      rw [getlines]
      · rw [ih _ l hnew]; simp
      · exact fun h => hc h

/-- The lines read are the lines of the text. -/
theorem Ignore.getlines_iff (text l : List Char) : l ∈ getlines [] text ↔ IsLine text l := by
  rw [getlines_mem text [] l (by simp)]; rfl

theorem Ignore.contains_iff (p s : List Char) : contains p s = true ↔ Occurs p s := by
  induction s with
  | nil =>
    rw [contains, List.isPrefixOf_iff_prefix]
    constructor
    · rintro ⟨t, h⟩; exact ⟨[], t, by simp [h]⟩
    · rintro ⟨a, b, h⟩
      simp only [List.nil_eq, List.append_eq_nil_iff] at h
      rw [h.1.2]; exact List.nil_prefix
  | cons c cs ih =>
    rw [contains, Bool.or_eq_true, List.isPrefixOf_iff_prefix, ih]
    constructor
    · rintro (⟨t, h⟩ | ⟨a, b, h⟩)
      · exact ⟨[], t, by simp [h]⟩
      · exact ⟨c :: a, b, by simp [h]⟩
    · rintro ⟨a, b, h⟩
      cases a with
      | nil => left; exact ⟨b, by simpa using h.symm⟩
      | cons x a =>
        right
        simp only [List.cons_append, List.cons.injEq] at h
        exact ⟨a, b, by simpa using h.2⟩

theorem Ignore.find_iff (c : Char) (l : List Char) (i : Nat) :
    find c l = some i ↔ ∃ a b, l = a ++ c :: b ∧ c ∉ a ∧ a.length = i := by
  induction l generalizing i with
  | nil => simp [find]
  | cons x xs ih =>
    rw [find]
    by_cases h : x = c
    · subst h
      rw [if_pos rfl]
      constructor
      · intro hi; cases hi; exact ⟨[], xs, rfl, by simp, rfl⟩
      · rintro ⟨a, b, he, ha, rfl⟩
        cases a with
        | nil => rfl
        | cons y a => simp only [List.cons_append, List.cons.injEq] at he; exact absurd (by simp [he.1]) ha
    · rw [if_neg h]
      constructor
      · intro hi
        obtain ⟨j, hj, rfl⟩ := Option.map_eq_some_iff.1 hi
        obtain ⟨a, b, rfl, ha, rfl⟩ := (ih j).1 hj
        exact ⟨x :: a, b, by simp, by simp [ha, Ne.symm h], by simp⟩
      · rintro ⟨a, b, he, ha, rfl⟩
        cases a with
        | nil => simp only [List.nil_append, List.cons.injEq] at he; exact absurd he.1 h
        | cons y a =>
          simp only [List.cons_append, List.cons.injEq] at he
          simp only [List.mem_cons, not_or] at ha
          rw [(ih a.length).2 ⟨a, b, he.2, ha.2, rfl⟩]; simp

/-- What a line contributes: the text between the first colon and the first equals sign. -/
theorem Ignore.line_iff (l name : List Char) (hnl : '\n' ∉ l) : line l = some name ↔
    l.head? ≠ some '#' ∧ ¬ Occurs ['m', 'a', 'i', 'n'] l ∧ Occurs ['d', 'i', 's', 'c', 'a', 'r', 'd'] l ∧
    name ≠ [] ∧ ∃ a b, l = a ++ [':'] ++ name ++ ['='] ++ b ∧ ':' ∉ a ∧ '=' ∉ a ∧ '=' ∉ name := by
  rw [line, ← contains_iff, ← contains_iff]
  have h1 : (startswith ['#'] l || l == ['\n']) = true ↔ l.head? = some '#' := by
    cases l with
    | nil => simp [startswith]
    | cons c cs =>
      have : ¬ (c = '\n') := by rintro rfl; simp at hnl
      rw [Bool.or_eq_true, startswith, List.isPrefixOf_iff_prefix, beq_iff_eq]
      constructor
      · rintro (⟨t, h⟩ | h)
        · simp only [List.singleton_append, List.cons.injEq] at h; simp [← h.1]
        · simp only [List.cons.injEq] at h; exact absurd h.1 this
      · intro h
        simp only [List.head?_cons, Option.some.injEq] at h
        subst h
        exact Or.inl ⟨cs, rfl⟩
  by_cases hh : l.head? = some '#'
  · rw [if_pos (h1.2 hh)]; simp [hh]
  rw [if_neg (fun h => hh (h1.1 h))]
  by_cases hm : contains ['m', 'a', 'i', 'n'] l = true
  · rw [if_pos hm]; simp [hm]
  rw [if_neg hm]
  by_cases hd : ¬ contains ['d', 'i', 's', 'c', 'a', 'r', 'd'] l = true
  · rw [if_pos (by simpa using hd)]; simp [hd]
  rw [if_neg (by simpa using hd)]
  rw [Classical.not_not] at hd
  simp only [ne_eq, hh, not_false_eq_true, hm, hd, true_and, Bool.false_eq_true]
  constructor
  · intro h
    split at h
    · rename_i s e hs he
      split at h
      · rename_i hlt
        simp only [Option.some.injEq] at h
        obtain ⟨a, r, rfl, ha, rfl⟩ := (find_iff _ _ _).1 hs
        obtain ⟨a2, b, h2, ha2, rfl⟩ := (find_iff _ _ _).1 he
        -- the equals sign is right of the colon
        have hlen : (a ++ [':']).length ≤ a2.length := by simp; omega
        have hpre : a ++ [':'] <+: a2 :=
          List.prefix_of_prefix_length_le (l₃ := a2 ++ '=' :: b) (by rw [← h2]; exact ⟨r, by simp⟩) ⟨_, rfl⟩ hlen
        obtain ⟨n, rfl⟩ := hpre
        have hsl : slice (a.length + 1) (a ++ [':'] ++ n).length (a ++ ':' :: r) = n := by
          rw [h2, slice, List.take_left', List.drop_append]
          · simp
          · rfl
        rw [hsl] at h
        subst h
        simp only [List.mem_append, List.mem_singleton, not_or] at ha2
        refine ⟨?_, a, b, by rw [h2]; simp, ha, ha2.1.1, ha2.2⟩
        rintro rfl; simp at hlt
      · cases h
    · cases h
  · rintro ⟨hn, a, b, rfl, ha, hae, hne⟩
    have hs : find ':' (a ++ [':'] ++ name ++ ['='] ++ b) = some a.length :=
      (find_iff _ _ _).2 ⟨a, name ++ ['='] ++ b, by simp, ha, rfl⟩
    have he : find '=' (a ++ [':'] ++ name ++ ['='] ++ b) = some (a ++ [':'] ++ name).length :=
      (find_iff _ _ _).2 ⟨a ++ [':'] ++ name, b, by simp, by simp [hae, hne], rfl⟩
    rw [hs, he]
    have : 0 < name.length := List.length_pos_iff.2 hn
    simp only
    rw [if_pos (by simp; omega)]
    congr 1
    rw [slice, show a ++ [':'] ++ name ++ ['='] ++ b = (a ++ [':'] ++ name) ++ (['='] ++ b) by simp,
      List.take_left', List.drop_append]
    · simp
    · rfl

theorem Ignore.mem_read (files : List (Option (List Char))) (name : List Char) :
    name ∈ readIgnoreLists files ↔ ∃ text l, some text ∈ files ∧ IsLine text l ∧ line l = some name := by
  rw [readIgnoreLists, List.mem_flatMap]
  constructor
  · rintro ⟨f, hf, h⟩
    cases f with
    | none => cases h
    | some text =>
      obtain ⟨l, hl, h⟩ := List.mem_filterMap.1 h
      exact ⟨text, l, hf, (getlines_iff _ _).1 hl, h⟩
  · rintro ⟨text, l, hf, hl, h⟩
    exact ⟨some text, hf, List.mem_filterMap.2 ⟨l, (getlines_iff _ _).2 hl, h⟩⟩

/-- The exact rule, for all files: a name is excluded when some line does not start with `#`, does not
contain "main", contains "discard", and has the name between its first colon and its first equals sign. -/
theorem C33_exact (files : List (Option (List Char))) (name : List Char) :
    taint files name = false ↔ ∃ text l, some text ∈ files ∧ IsLine text l ∧
      l.head? ≠ some '#' ∧ ¬ Occurs ['m', 'a', 'i', 'n'] l ∧ Occurs ['d', 'i', 's', 'c', 'a', 'r', 'd'] l ∧
      name ≠ [] ∧ ∃ a b, l = a ++ [':'] ++ name ++ ['='] ++ b ∧ ':' ∉ a ∧ '=' ∉ a ∧ '=' ∉ name := by
  have : taint files name = false ↔ name ∈ readIgnoreLists files := by simp [taint]
  rw [this, mem_read]
  constructor
  · rintro ⟨t, l, ht, hl, h⟩
    exact ⟨t, l, ht, hl, (line_iff l name hl.1).1 h⟩
  · rintro ⟨t, l, ht, hl, h⟩
    exact ⟨t, l, ht, hl, (line_iff l name hl.1).2 h⟩

/-- Both passes exclude the same functions; the function tracing pass also skips declarations. -/
theorem C33_passes (files : List (Option (List Char))) (decl : Bool) (name : List Char) :
    ftrace files decl name = (!decl && taint files name) := by
  simp [ftrace, taint]

theorem Spec.Glob.plain {p s : List Char} (hp : '*' ∉ p) : Glob p s ↔ p = s := by
  constructor
  · intro h
    induction h with
    | nil => rfl
    | char _ _ ih => simp only [List.mem_cons, not_or] at hp; rw [ih hp.2]
    | star => simp at hp
  · rintro rfl
    induction p with
    | nil => exact .nil
    | cons c p ih => simp only [List.mem_cons, not_or] at hp; exact .char (Ne.symm hp.1) (ih hp.2)

/-- Occurrences in an entry are inside the name or the category, if the text looked for has neither `:`
nor `=` and does not occur in `fun`. -/
theorem Spec.Occurs.split {p name cat : List Char} (h1 : ':' ∉ p) (h2 : '=' ∉ p) 
    (hf : ¬ Occurs p ['f', 'u', 'n']) (hl : Occurs p (['f', 'u', 'n', ':'] ++ name ++ ['='] ++ cat)) :
    Occurs p name ∨ Occurs p cat := by
  have key : ∀ (x : Char) (s t : List Char), x ∉ p → Occurs p (s ++ x :: t) → Occurs p s ∨ Occurs p t := by
    rintro x s t hx ⟨a, b, he⟩
    by_cases ha : (a ++ p).length ≤ s.length
    · left
      have : a ++ p <+: s := List.prefix_of_prefix_length_le (l₃ := s ++ x :: t) (by rw [he]; exact ⟨b, by simp⟩) ⟨_, rfl⟩ ha
      obtain ⟨r, hr⟩ := this
      exact ⟨a, r, hr.symm⟩
    · by_cases hb : s.length < a.length
      · right
        have : s ++ [x] <+: a := List.prefix_of_prefix_length_le (l₃ := s ++ x :: t) ⟨t, by simp⟩ (by rw [he]; exact ⟨p ++ b, by simp⟩) (by simp; omega)
        obtain ⟨r, rfl⟩ := this
        refine ⟨r, b, ?_⟩
        have : s ++ [x] ++ t = s ++ [x] ++ (r ++ p ++ b) := by simpa using he
        exact List.append_cancel_left this
      · exfalso
        apply hx
        have : (a ++ p ++ b)[s.length]? = some x := by rw [← he]; simp
        rw [List.append_assoc, List.getElem?_append_right (by omega),
          List.getElem?_append_left (by simp at ha; omega)] at this
        exact List.mem_of_getElem? this
  have := key ':' ['f', 'u', 'n'] (name ++ ['='] ++ cat) h1 (by simpa using hl)
  rcases this with h | h
  · exact absurd h hf
  · exact key '=' name cat h2 (by simpa using h)

instance (p s : List Char) : Decidable (Occurs p s) := decidable_of_iff _ (Ignore.contains_iff p s)

/-- For files with only simple lines, exactly the functions with an entry `fun:NAME=discard` are excluded.
Missing for the full claim: names containing "main" (`C33_main_refuted`), patterns
(`C33_wildcard_refuted`), names containing "discard" (`C33_discard_refuted`), other kinds of entries
(`C33_source_refuted`) and indented comments (`C33_comment_refuted`). -/
theorem C33_simple_partial (files : List (Option (List Char)))
    (hs : ∀ text l, some text ∈ files → IsLine text l → Simple l) (name : List Char) :
    taint files name = false ↔ Discarded files name := by
  rw [C33_exact]
  constructor
  · rintro ⟨t, l, ht, hl, hh, hm, hd, hn, a, b, he, ha, hae, hne⟩
    have := hs t l ht hl
    cases this with
    | blank => simp at he
    | comment => simp at hh
    | entry n cat hn0 hnc hne' hns hnm hnd hcat =>
      have hda : Occurs ['d', 'i', 's', 'c', 'a', 'r', 'd'] cat := by
        rcases Occurs.split (by decide) (by decide) (by decide) hd with h | h
        · exact absurd h hnd
        · exact h
      have hcat' : cat = ['d', 'i', 's', 'c', 'a', 'r', 'd'] := by
        simp only [List.mem_cons, List.not_mem_nil, or_false] at hcat
        rcases hcat with rfl | rfl | rfl | rfl
        · exact absurd hda (by decide)
        · rfl
        · exact absurd hda (by decide)
        · exact absurd hda (by decide)
      subst hcat'
      -- first colon and first equals sign agree
      have f1 : find ':' (a ++ [':'] ++ name ++ ['='] ++ b) = some a.length :=
        (find_iff _ _ _).2 ⟨a, name ++ ['='] ++ b, by simp, ha, rfl⟩
      have f2 : find ':' (['f', 'u', 'n', ':'] ++ n ++ ['='] ++ ['d', 'i', 's', 'c', 'a', 'r', 'd']) = some 3 :=
        (find_iff _ _ _).2 ⟨['f', 'u', 'n'], n ++ ['='] ++ ['d', 'i', 's', 'c', 'a', 'r', 'd'], by simp, by simp, rfl⟩
      have f3 : find '=' (a ++ [':'] ++ name ++ ['='] ++ b) = some (a ++ [':'] ++ name).length :=
        (find_iff _ _ _).2 ⟨a ++ [':'] ++ name, b, by simp, by simp [hae, hne], rfl⟩
      have f4 : find '=' (['f', 'u', 'n', ':'] ++ n ++ ['='] ++ ['d', 'i', 's', 'c', 'a', 'r', 'd']) = some (['f', 'u', 'n', ':'] ++ n).length :=
        (find_iff _ _ _).2 ⟨['f', 'u', 'n', ':'] ++ n, ['d', 'i', 's', 'c', 'a', 'r', 'd'], by simp, by simp [hne'], rfl⟩
      rw [he] at f2 f4
      rw [f1] at f2
      rw [f3] at f4
      simp only [Option.some.injEq, List.length_append, List.length_cons, List.length_nil] at f2 f4
      have hnn : n = name := by
        have h1 := he
        rw [show (['f', 'u', 'n', ':'] ++ n ++ ['='] ++ ['d', 'i', 's', 'c', 'a', 'r', 'd']) =
            ['f', 'u', 'n', ':'] ++ (n ++ (['='] ++ ['d', 'i', 's', 'c', 'a', 'r', 'd'])) by simp,
          show a ++ [':'] ++ name ++ ['='] ++ b = (a ++ [':']) ++ (name ++ (['='] ++ b)) by simp] at h1
        have h2 := (List.append_inj h1 (by simp; omega)).2
        exact (List.append_inj h2 (by omega)).1
      subst hnn
      exact ⟨t, _, n, ht, hl, by simp, (Glob.plain hns).2 rfl⟩
  · rintro ⟨t, l, pat, ht, hl, rfl, hg⟩
    have hsim := hs t _ ht hl
    have hex : ∀ l', l' = ['f', 'u', 'n', ':'] ++ pat ++ ['=', 'd', 'i', 's', 'c', 'a', 'r', 'd'] → Simple l' →
        pat ≠ [] ∧ '=' ∉ pat ∧ '*' ∉ pat ∧ ¬ Occurs ['m', 'a', 'i', 'n'] pat := by
      intro l' hl' h
      cases h with
      | blank => simp at hl'
      | comment => simp at hl'
      | entry n cat hn0 hnc hne' hns hnm hnd hcat =>
        have f4 : find '=' (['f', 'u', 'n', ':'] ++ n ++ ['='] ++ cat) = some (['f', 'u', 'n', ':'] ++ n).length :=
          (find_iff _ _ _).2 ⟨['f', 'u', 'n', ':'] ++ n, cat, by simp, by simp [hne'], rfl⟩
        -- the last equals sign is before the category
        have hcl : '=' ∉ cat ∧ cat.length ≤ 14 := by
          simp only [List.mem_cons, List.not_mem_nil, or_false] at hcat
          rcases hcat with rfl | rfl | rfl | rfl <;> decide
        have hlen : pat.length = n.length := by
          have hx : (['f', 'u', 'n', ':'] ++ pat ++ ['=', 'd', 'i', 's', 'c', 'a', 'r', 'd'])[4 + pat.length]? = some '=' := by
            rw [List.getElem?_append_right (by simp; omega),
              show 4 + pat.length - (['f', 'u', 'n', ':'] ++ pat).length = 0 by simp; omega]; rfl
          rw [← hl'] at hx
          rcases Nat.lt_trichotomy pat.length n.length with h | h | h
          · exfalso
            apply hne'
            rw [List.append_assoc, List.getElem?_append_left (by simp; omega), List.getElem?_append_right (by simp)] at hx
            exact List.mem_of_getElem? hx
          · exact h
          · exfalso
            apply hcl.1
            rw [List.getElem?_append_right (by simp; omega)] at hx
            exact List.mem_of_getElem? hx
        have h1 : ['f', 'u', 'n', ':'] ++ n = ['f', 'u', 'n', ':'] ++ pat := by
          rw [List.append_assoc] at hl'
          exact (List.append_inj hl' (by simp [hlen])).1
        have h2 := List.append_cancel_left h1
        subst h2
        exact ⟨hn0, hne', hns, hnm⟩
    obtain ⟨hp0, hpe, hps, hpm⟩ := hex _ rfl hsim
    have := (Glob.plain hps).1 hg
    subst this
    refine ⟨t, _, ht, hl, by simp, ?_, ⟨['f', 'u', 'n', ':'] ++ pat ++ ['='], [], by simp⟩, hp0, ['f', 'u', 'n'],
      ['d', 'i', 's', 'c', 'a', 'r', 'd'], by simp, by decide, by decide, hpe⟩
    intro hoc
    have hoc' : Occurs ['m', 'a', 'i', 'n'] (['f', 'u', 'n', ':'] ++ pat ++ ['='] ++ ['d', 'i', 's', 'c', 'a', 'r', 'd']) := by
      simpa using hoc
    rcases Occurs.split (by decide) (by decide) (by decide) hoc' with h | h
    · exact hpm h
    · exact absurd h (by decide)

/-- A one-line file. -/
theorem Spec.isLine_self (l : List Char) (h : '\n' ∉ l) (h0 : l ≠ []) : IsLine l l :=
  ⟨h, [], [], by simp, Or.inl rfl, Or.inl ⟨rfl, h0⟩⟩

/-- An entry of the shipped list (custom_abi/polytracker_abilist.txt 4017) is not excluded, because
"domain" contains "main". -/
theorem C33_main_refuted : ∃ files name, Discarded files name ∧ taint files name = true := by
  refine ⟨[some "fun:_ZNSt12domain_errorD0Ev=discard".toList], "_ZNSt12domain_errorD0Ev".toList, ?_, by decide +kernel⟩
  refine ⟨_, _, _, List.mem_singleton.2 rfl, isLine_self _ (by decide) (by decide), ?_, (Glob.plain (by decide)).2 rfl⟩
  rfl

/-- A pattern of the shipped list (custom_abi/polytracker_abilist.txt 377) excludes no function. -/
theorem C33_wildcard_refuted : ∃ files name, Discarded files name ∧ taint files name = true := by
  refine ⟨[some "fun:__dfsw_*=discard".toList], "__dfsw_read".toList, ?_, by decide +kernel⟩
  refine ⟨_, _, "__dfsw_*".toList, List.mem_singleton.2 rfl, isLine_self _ (by decide) (by decide), by decide +kernel, ?_⟩
  have : Glob ("*".toList) ("read".toList) := .star (t := "read".toList) .nil
  exact .char (by decide) (.char (by decide) (.char (by decide) (.char (by decide) (.char (by decide)
    (.char (by decide) (.char (by decide) this))))))

theorem Spec.Discarded.single {l name : List Char} (hnl : '\n' ∉ l) (h : Discarded [some l] name) :
    ∃ pat, l = ['f', 'u', 'n', ':'] ++ pat ++ ['=', 'd', 'i', 's', 'c', 'a', 'r', 'd'] := by
  obtain ⟨t, l', pat, ht, hl, he, -⟩ := h
  simp only [List.mem_singleton, Option.some.injEq] at ht
  subst ht
  obtain ⟨-, a, b, h1, ha, hb⟩ := hl
  have ha0 : a = [] := by
    rcases ha with h | ⟨a', rfl⟩
    · exact h
    · exfalso; apply hnl; rw [h1]; simp
  have hb0 : b = [] := by
    rcases hb with ⟨h, -⟩ | ⟨b', rfl⟩
    · exact h
    · exfalso; apply hnl; rw [h1]; simp
  subst ha0; subst hb0
  exact ⟨pat, by simpa [he] using h1⟩

/-- The word "discard" in a name of another category excludes the function. -/
theorem C33_discard_refuted : ∃ files name, ¬ Discarded files name ∧ taint files name = false := by
  refine ⟨[some "fun:discard_all=custom".toList], "discard_all".toList, ?_, by decide +kernel⟩
  intro h
  obtain ⟨p, hp⟩ := h.single (by decide)
  have := congrArg List.getLast? hp
  rw [List.getLast?_append] at this
  have hc : some 'm' = some 'd' := this
  exact absurd hc (by decide)

/-- An entry for a source file excludes functions of that name. -/
theorem C33_source_refuted : ∃ files name, ¬ Discarded files name ∧ taint files name = false := by
  refine ⟨[some "src:foo=discard".toList], "foo".toList, ?_, by decide +kernel⟩
  intro h
  obtain ⟨p, hp⟩ := h.single (by decide)
  have := congrArg List.head? hp
  have hc : some 's' = some 'f' := this
  exact absurd hc (by decide)

/-- A comment that does not start in the first column counts. -/
theorem C33_comment_refuted : ∃ files name, ¬ Discarded files name ∧ taint files name = false := by
  refine ⟨[some " #fun:foo=discard".toList], "foo".toList, ?_, by decide +kernel⟩
  intro h
  obtain ⟨p, hp⟩ := h.single (by decide)
  have := congrArg List.head? hp
  have hc : some ' ' = some 'f' := this
  exact absurd hc (by decide)

/-- Two entries, a comment, a blank line. -/
def ignoreText : List Char := "# libc\nfun:read=uninstrumented\nfun:read=discard\n\n#fun:fopen=discard\nfun:f2=custom\n".toList
example : taint [none, some ignoreText] "read".toList = false ∧ taint [none, some ignoreText] "fopen".toList = true ∧
    taint [none, some ignoreText] "f2".toList = true ∧ ftrace [none, some ignoreText] true "g".toList = false := by
  decide +kernel

/-- The hypothesis of `C33_simple_partial` holds for this text. -/
example : ∀ text l, some text ∈ [none, some ignoreText] → IsLine text l → Simple l := by
  intro text l ht hl
  simp only [List.mem_cons, reduceCtorEq, Option.some.injEq, List.not_mem_nil, or_false, false_or] at ht
  subst ht
  rw [← getlines_iff] at hl
  have hls : getlines [] ignoreText = ["# libc".toList, "fun:read=uninstrumented".toList, "fun:read=discard".toList,
      [], "#fun:fopen=discard".toList, "fun:f2=custom".toList] := by decide +kernel
  rw [hls] at hl
  simp only [List.mem_cons, List.not_mem_nil, or_false] at hl
  rcases hl with rfl | rfl | rfl | rfl | rfl | rfl
  · exact .comment _
  · exact .entry "read".toList "uninstrumented".toList (by decide) (by decide) (by decide) (by decide) (by decide) (by decide) (by decide)
  · exact .entry "read".toList "discard".toList (by decide) (by decide) (by decide) (by decide) (by decide) (by decide) (by decide)
  · exact .blank
  · exact .comment _
  · exact .entry "f2".toList "custom".toList (by decide) (by decide) (by decide) (by decide) (by decide) (by decide) (by decide)

end Verif
