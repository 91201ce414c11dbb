import Mathlib.Data.List.Induction
import Verif.FnIds
import Verif.Spec.Json
/- C32: function ids written by the compiler pass resolve to the right names. -/
namespace Verif
open FnIds Spec

/-- The functions in the order of their first request. -/
def Spec.firstSeen (fs : List Fn) : List Fn :=
  fs.foldl (fun acc f => if f.addr ∈ acc.map (·.addr) then acc else acc ++ [f]) []

/-- Bytes that may stand for themselves in a JSON string, as valid UTF-8. -/
def Spec.Plain (s : List Nat) : Prop := (∀ b ∈ s, 0x20 ≤ b ∧ b ≠ 0x22 ∧ b ≠ 0x5C) ∧ Py.utf8 s = true

theorem Py.utf8_append (a b : List Nat) (h : utf8 a = true) : utf8 (a ++ b) = utf8 b := by
  fun_induction utf8 a
  all_goals first
    | rfl
    | simp at h; done
    | (simp only [List.cons_append]
       conv => lhs; unfold utf8
       simp_all
       try (repeat' split)
       all_goals first | rfl | (exfalso; omega) | (intro; exfalso; omega))

/-! ### The file -/

theorem FnIds.put_end (bs s : List Nat) : OFile.put ⟨bs, bs.length, false⟩ s = ⟨bs ++ s, (bs ++ s).length, false⟩ := by
  simp [OFile.put]

theorem FnIds.append_end (bs name : List Nat) :
    append ⟨bs, bs.length, false⟩ name = ⟨bs ++ (34 :: name ++ [34, 44, 10]),
      (bs ++ (34 :: name ++ [34, 44, 10])).length, false⟩ := by
  simp only [append, put_end]
  simp

/-- Text between the brackets for names. -/
def FnIds.lines (ns : List (List Nat)) : List Nat := ns.flatMap fun n => 34 :: n ++ [34, 44, 10]

theorem FnIds.close_end (bs : List Nat) : close ⟨bs ++ [44, 10], (bs ++ [44, 10]).length, false⟩ =
    ⟨bs ++ [10, 93, 10], (bs ++ [10, 93, 10]).length, false⟩ := by
  have h : OFile.back ⟨bs ++ [44, 10], (bs ++ [44, 10]).length, false⟩ 2 = ⟨bs ++ [44, 10], bs.length, false⟩ := by
    simp [OFile.back]
  rw [close, h]
  simp [OFile.put, List.drop_append]

/-- State of the pass after requests for which `seen` were the distinct functions. -/
structure FnIds.Inv (seen : List Fn) (P : Pass) : Prop where
  nodup : (seen.map (·.addr)).Nodup
  counter : P.counter = seen.length
  ids : ∀ a i, find a P.ids = some i ↔ (seen.map (·.addr))[i]? = some a
  file : P.file = ⟨91 :: lines (seen.map (·.name)), (91 :: lines (seen.map (·.name))).length, false⟩

theorem FnIds.Inv.new : Inv [] FnIds.new := ⟨by simp, rfl, by simp [find, FnIds.new], rfl⟩

theorem Spec.firstSeen_snoc (fs : List Fn) (f : Fn) : firstSeen (fs ++ [f]) =
    if f.addr ∈ (firstSeen fs).map (·.addr) then firstSeen fs else firstSeen fs ++ [f] := by
  simp [firstSeen, List.foldl_append]

/-- The list of functions first seen only grows at its end. -/
theorem Spec.firstSeen_prefix (fs gs : List Fn) : ∃ m, firstSeen (fs ++ gs) = firstSeen fs ++ m := by
  induction gs using List.reverseRecOn with
  | nil => exact ⟨[], by simp⟩
  | append_singleton gs g ih =>
    obtain ⟨m, hm⟩ := ih
    rw [← List.append_assoc, firstSeen_snoc, hm]
    split
    · exact ⟨m, rfl⟩
    · exact ⟨m ++ [g], by simp⟩

theorem FnIds.getId_inv {fs : List Fn} {P : Pass} (h : Inv (firstSeen fs) P) (f : Fn)
    (hn : (firstSeen (fs ++ [f])).length < 2 ^ 32) :
    Inv (firstSeen (fs ++ [f])) (getId P f).1 ∧
      ((firstSeen (fs ++ [f])).map (·.addr))[(getId P f).2]? = some f.addr := by
  rw [firstSeen_snoc] at hn ⊢
  by_cases hm : f.addr ∈ (firstSeen fs).map (·.addr)
  · rw [if_pos hm]
    obtain ⟨i, hi⟩ := List.mem_iff_getElem?.1 hm
    rw [getId, (h.ids _ _).2 hi]
    exact ⟨h, hi⟩
  · rw [if_neg hm] at hn ⊢
    have hnone : find f.addr P.ids = none := by
      cases hf : find f.addr P.ids with
      | none => rfl
      | some i => exact absurd (List.mem_of_getElem? ((h.ids _ _).1 hf)) hm
    rw [getId, hnone]
    simp only [List.length_append, List.length_cons, List.length_nil] at hn
    have hlast : ((firstSeen fs ++ [f]).map (·.addr))[P.counter]? = some f.addr := by
      simp [h.counter]
    refine ⟨⟨?_, ?_, ?_, ?_⟩, hlast⟩
    · rw [List.map_append, List.nodup_append]
      exact ⟨h.nodup, by simp, by
        intro a ha b hb hab
        simp only [List.map_cons, List.map_nil, List.mem_singleton] at hb
        exact hm (hb ▸ hab ▸ ha)⟩
    · simp only [h.counter, List.length_append, List.length_cons, List.length_nil]
      rw [Nat.mod_eq_of_lt hn]
    · intro a i
      simp only [find]
      by_cases e : f.addr = a
      · subst e
        rw [if_pos rfl]
        constructor
        · intro hi; cases hi; exact hlast
        · intro hi
          rw [List.map_append] at hi
          by_cases hl : i < ((firstSeen fs).map (·.addr)).length
          · rw [List.getElem?_append_left hl] at hi
            exact absurd (List.mem_of_getElem? hi) hm
          · rw [List.getElem?_append_right (by omega)] at hi
            have : i - ((firstSeen fs).map (·.addr)).length = 0 := by
              by_cases h0 : i - ((firstSeen fs).map (·.addr)).length = 0
              · exact h0
              · rw [List.getElem?_eq_none (by simp; simp at h0; omega)] at hi; cases hi
            rw [h.counter]
            simp only [List.length_map] at this hl
            congr 1; omega
      · rw [if_neg e, h.ids, List.map_append]
        by_cases hl : i < ((firstSeen fs).map (·.addr)).length
        · rw [List.getElem?_append_left hl]
        · rw [List.getElem?_append_right (by omega), List.getElem?_eq_none (by omega)]
          constructor
          · intro h; cases h
          · intro hi
            have := List.mem_of_getElem? hi
            simp only [List.map_cons, List.map_nil, List.mem_singleton] at this
            exact absurd this.symm e
    · simp only [h.file]
      rw [append_end]
      simp [lines]

theorem FnIds.getIds_inv : ∀ (gs fs : List Fn) (P : Pass), Inv (firstSeen fs) P →
    (firstSeen (fs ++ gs)).length < 2 ^ 32 →
    Inv (firstSeen (fs ++ gs)) (getIds P gs).1 ∧ (getIds P gs).2.length = gs.length ∧
      ∀ (k : Nat) (f : Fn) (i : Nat), gs[k]? = some f → (getIds P gs).2[k]? = some i →
        ((firstSeen (fs ++ gs)).map (·.addr))[i]? = some f.addr := by
  intro gs
  induction gs with
  | nil => intro fs P h _; exact ⟨by simpa [getIds] using h, rfl, by simp⟩
  | cons g gs ih =>
    intro fs P h hn
    have hsplit : fs ++ g :: gs = (fs ++ [g]) ++ gs := by simp
    rw [hsplit] at hn ⊢
    obtain ⟨m, hm⟩ := firstSeen_prefix (fs ++ [g]) gs
    obtain ⟨h1, h2⟩ := getId_inv h g (by rw [hm] at hn; simp at hn ⊢; omega)
    obtain ⟨h3, h4, h5⟩ := ih (fs ++ [g]) _ h1 hn
    refine ⟨h3, by simp [getIds, h4], ?_⟩
    intro k f i hk hi
    cases k with
    | zero =>
      simp only [getIds, List.getElem?_cons_zero, Option.some.injEq] at hk hi
      subst hk; subst hi
      rw [hm, List.map_append, List.getElem?_append_left]
      · exact h2
      · exact (List.getElem?_eq_some_iff.1 h2).1
    | succ k => exact h5 k f i (by simpa using hk) (by simpa [getIds] using hi)

/-- For every sequence of requests with fewer than 2^32 functions: the id answered to a request is the
position of the function in the list of functions in the order of their first request, in which every
function occurs once. So ids count from 0 and equal functions get equal ids. -/
theorem C32_ids (fs : List Fn) (hn : (firstSeen fs).length < 2 ^ 32) :
    (getIds new fs).2.length = fs.length ∧ ((firstSeen fs).map (·.addr)).Nodup ∧
      ∀ (k : Nat) (f : Fn) (i : Nat), fs[k]? = some f → (getIds new fs).2[k]? = some i →
        ((firstSeen fs).map (·.addr))[i]? = some f.addr := by
  have := getIds_inv fs [] new Inv.new (by simpa using hn)
  rw [List.nil_append] at this
  exact ⟨this.2.1, this.1.nodup, this.2.2⟩

/-- In a module, where functions and names determine each other, two requests get the same id exactly
when they are for the same name. -/
theorem C32_same (fs : List Fn) (hn : (firstSeen fs).length < 2 ^ 32)
    (hmod : ∀ f ∈ fs, ∀ g ∈ fs, f.addr = g.addr ↔ f.name = g.name) (k l : Nat) (f g : Fn) (i j : Nat)
    (hf : fs[k]? = some f) (hg : fs[l]? = some g) (hi : (getIds new fs).2[k]? = some i)
    (hj : (getIds new fs).2[l]? = some j) : i = j ↔ f.name = g.name := by
  obtain ⟨-, h2, h3⟩ := C32_ids fs hn
  have a := h3 k f i hf hi
  have b := h3 l g j hg hj
  rw [← hmod f (List.mem_of_getElem? hf) g (List.mem_of_getElem? hg)]
  constructor
  · rintro rfl; rw [a] at b; simpa using b
  · intro e
    obtain ⟨ai, ae⟩ := List.getElem?_eq_some_iff.1 a
    obtain ⟨bi, be⟩ := List.getElem?_eq_some_iff.1 b
    exact (List.getElem_inj h2).1 (by rw [ae, be, e])

/-! ### Reading the file -/

theorem Spec.Json.str_plain (s r : List Nat) (h : ∀ b ∈ s, 0x20 ≤ b ∧ b ≠ 0x22 ∧ b ≠ 0x5C) :
    Json.str (s ++ 0x22 :: r) = some (s, r) := by
  induction s with
  | nil => rfl
  | cons b s ih =>
    obtain ⟨h1, h2, h3⟩ := h b (by simp)
    rw [List.cons_append, Json.str]
    · rw [if_neg (by omega), ih (fun x hx => h x (by simp [hx]))]; rfl
    all_goals omega

/-- Names separated as `append` leaves them, without the last comma and newline. -/
def FnIds.text : List (List Nat) → List Nat
  | [] => []
  | [n] => 34 :: n ++ [34]
  | n :: ns => 34 :: n ++ [34, 44, 10] ++ text ns

theorem FnIds.lines_text (ns : List (List Nat)) (h : ns ≠ []) : lines ns = text ns ++ [44, 10] := by
  induction ns with
  | nil => exact absurd rfl h
  | cons n ns ih =>
    cases ns with
    | nil => simp [lines, text]
    | cons n' ns =>
      have := ih (by simp)
      simp only [lines, List.flatMap_cons] at this ⊢
      rw [this]
      simp [text]

theorem FnIds.json_eq (fs : List Fn) (hn : (firstSeen fs).length < 2 ^ 32) (h0 : fs ≠ []) :
    json fs = 91 :: text ((firstSeen fs).map (·.name)) ++ [10, 93, 10] := by
  have hinv := (getIds_inv fs [] new Inv.new (by simpa using hn)).1
  rw [List.nil_append] at hinv
  have hne : (firstSeen fs).map (·.name) ≠ [] := by
    cases fs with
    | nil => exact absurd rfl h0
    | cons f fs =>
      obtain ⟨m, hm⟩ := firstSeen_prefix [f] fs
      rw [List.singleton_append] at hm
      rw [hm]
      simp [firstSeen]
  rw [json, hinv.file, lines_text _ hne]
  have := close_end (91 :: text ((firstSeen fs).map (·.name)))
  rw [List.cons_append] at this
  rw [this]

theorem Spec.Json.elems_text : ∀ (ns : List (List Nat)) (k : Nat), ns ≠ [] → ns.length ≤ k → (∀ n ∈ ns, Plain n) →
    Json.elems k (text ns ++ [10, 93, 10]) = some (ns, [10]) := by
  intro ns
  induction ns with
  | nil => intro k h; exact absurd rfl h
  | cons n ns ih =>
    intro k _ hk hp
    obtain ⟨k, rfl⟩ : ∃ k', k = k' + 1 := ⟨k - 1, by simp at hk; omega⟩
    have hn := (hp n (by simp)).1
    cases ns with
    | nil =>
      simp only [text, List.cons_append, List.append_assoc, List.nil_append]
      rw [Json.elems]
      simp only [Json.skipWs, Json.isWs]
      simp only [show ¬ (34 = 0x20 ∨ 34 = 0x09 ∨ 34 = 0x0A ∨ 34 = 0x0D) by omega, decide_false, Bool.false_eq_true, if_false]
      rw [str_plain n _ hn]
      rfl
    | cons n' ns =>
      simp only [text, List.cons_append, List.append_assoc, List.nil_append]
      rw [Json.elems]
      simp only [Json.skipWs, Json.isWs]
      simp only [show ¬ (34 = 0x20 ∨ 34 = 0x09 ∨ 34 = 0x0A ∨ 34 = 0x0D) by omega, decide_false, Bool.false_eq_true, if_false]
      rw [str_plain n _ hn]
      have hrec := ih k (by simp) (by simpa using hk) (fun x hx => hp x (by simp [hx]))
      have hws : Json.elems k (10 :: (text (n' :: ns) ++ [10, 93, 10])) = some (n' :: ns, [10]) := by
        rw [← hrec]
        cases k with
        | zero => rfl
        | succ k => rw [Json.elems, Json.elems]; rfl
      simp only [Option.bind_eq_bind, Option.bind_some, Json.skipWs, Json.isWs]
      simp only [show ¬ (44 = 0x20 ∨ 44 = 0x09 ∨ 44 = 0x0A ∨ 44 = 0x0D) by omega, decide_false, Bool.false_eq_true, if_false]
      rw [hws]
      rfl

theorem FnIds.utf8_text (ns : List (List Nat)) (h : ∀ n ∈ ns, Plain n) (r : List Nat) :
    Py.utf8 (text ns ++ r) = Py.utf8 r := by
  have ascii : ∀ (b : Nat) (l : List Nat), b < 0x80 → Py.utf8 (b :: l) = Py.utf8 l := by
    intro b l hb; conv => lhs; unfold Py.utf8
    rw [if_pos hb]
  induction ns with
  | nil => rfl
  | cons n ns ih =>
    have hn := (h n (by simp)).2
    cases ns with
    | nil =>
      simp only [text, List.cons_append, List.append_assoc, List.nil_append]
      rw [ascii _ _ (by omega), Py.utf8_append _ _ hn, ascii _ _ (by omega)]
    | cons n' ns =>
      simp only [text, List.cons_append, List.append_assoc, List.nil_append]
      rw [ascii _ _ (by omega), Py.utf8_append _ _ hn, ascii _ _ (by omega), ascii _ _ (by omega), ascii _ _ (by omega)]
      exact ih (fun x hx => h x (by simp [hx]))

theorem FnIds.length_text (ns : List (List Nat)) : ns.length ≤ (text ns).length := by
  induction ns with
  | nil => simp
  | cons n ns ih =>
    cases ns with
    | nil => simp [text]
    | cons n' ns => simp only [text, List.length_append, List.length_cons, List.length_nil] at ih ⊢; omega

/-- If at least one function is instrumented and the names contain no quotes, backslashes, control
characters and are valid UTF-8, the file is a JSON array whose position `i` is the name of the
function with id `i`.
Missing for the full claim: modules without functions (`C32_empty_refuted`), names with special
characters (`C32_quote_refuted`, `C32_backslash_refuted`, `C32_control_refuted`). -/
theorem C32_json_partial (fs : List Fn) (hn : (firstSeen fs).length < 2 ^ 32) (h0 : fs ≠ [])
    (hp : ∀ f ∈ firstSeen fs, Plain f.name) :
    Json.array (json fs) = some ((firstSeen fs).map (·.name)) := by
  have hp' : ∀ n ∈ (firstSeen fs).map (·.name), Plain n := by
    intro n hn
    obtain ⟨f, hf, rfl⟩ := List.mem_map.1 hn
    exact hp f hf
  have heq := json_eq fs hn h0
  have hne : (firstSeen fs).map (·.name) ≠ [] := by
    cases fs with
    | nil => exact absurd rfl h0
    | cons f fs =>
      obtain ⟨m, hm⟩ := firstSeen_prefix [f] fs
      rw [List.singleton_append] at hm
      rw [hm]
      simp [firstSeen]
  generalize (firstSeen fs).map (·.name) = ns at heq hp' hne
  rw [heq, Json.array]
  have hu : Py.utf8 (91 :: text ns ++ [10, 93, 10]) = true := by
    rw [List.cons_append]
    conv => lhs; unfold Py.utf8
    rw [if_pos (by omega), utf8_text ns hp']
    decide
  rw [if_neg (by rw [hu]; simp)]
  have he := Json.elems_text ns (91 :: text ns ++ [10, 93, 10]).length hne
    (by have := length_text ns; simp; omega) hp'
  rw [List.cons_append] at he ⊢
  have hq : ∃ r, text ns ++ [10, 93, 10] = 34 :: r := by
    cases ns with
    | nil => exact absurd rfl hne
    | cons n ns => cases ns <;> exact ⟨_, rfl⟩
  obtain ⟨r, hr⟩ := hq
  simp only [Json.skipWs, Json.isWs]
  simp only [show ¬ (91 = 0x20 ∨ 91 = 0x09 ∨ 91 = 0x0A ∨ 91 = 0x0D) by omega, decide_false, Bool.false_eq_true, if_false]
  rw [hr] at he ⊢
  simp only [Json.skipWs, Json.isWs]
  simp only [show ¬ (34 = 0x20 ∨ 34 = 0x09 ∨ 34 = 0x0A ∨ 34 = 0x0D) by omega, decide_false, Bool.false_eq_true, if_false]
  rw [he]
  rfl

/-- Hence looking up the id answered to a request in the array read back gives the name. -/
theorem C32_lookup_partial (fs : List Fn) (hn : (firstSeen fs).length < 2 ^ 32)
    (hmod : ∀ f ∈ fs, ∀ g ∈ fs, f.addr = g.addr ↔ f.name = g.name)
    (hp : ∀ f ∈ fs, Plain f.name) (k : Nat) (f : Fn) (i : Nat) (hf : fs[k]? = some f)
    (hi : (getIds new fs).2[k]? = some i) :
    ∃ ns, Json.array (json fs) = some ns ∧ ns[i]? = some f.name := by
  have hsub : ∀ g ∈ firstSeen fs, g ∈ fs := by
    clear hn hmod hp hf hi
    induction fs using List.reverseRecOn with
    | nil => simp [firstSeen]
    | append_singleton fs x ih =>
      intro g hg
      rw [firstSeen_snoc] at hg
      split at hg
      · exact List.mem_append_left _ (ih g hg)
      · rcases List.mem_append.1 hg with h | h
        · exact List.mem_append_left _ (ih g h)
        · exact List.mem_append_right _ h
  have h0 : fs ≠ [] := by rintro rfl; simp at hf
  refine ⟨_, C32_json_partial fs hn h0 (fun g hg => hp g (hsub g hg)), ?_⟩
  have ha := (C32_ids fs hn).2.2 k f i hf hi
  rw [List.getElem?_map] at ha ⊢
  cases hg : (firstSeen fs)[i]? with
  | none => rw [hg] at ha; cases ha
  | some g =>
    rw [hg] at ha
    simp only [Option.map_some, Option.some.injEq] at ha ⊢
    exact (hmod g (hsub g (List.mem_of_getElem? hg)) f (List.mem_of_getElem? hf)).1 ha

/-- The claim is false for a module without functions: seeking back fails, the file is `[`. -/
theorem C32_empty_refuted : json [] = [91] ∧ Json.array (json []) = none := by decide

/-- A quote in a name: two functions, three names. -/
theorem C32_quote_refuted : ∃ f g : Fn, f.addr ≠ g.addr ∧
    Json.array (json [f, g]) = some [[97], [98], [99]] := 
  ⟨⟨1, [97, 34, 44, 34, 98]⟩, ⟨2, [99]⟩, by decide, by decide +kernel⟩

/-- A backslash in a name changes it. -/
theorem C32_backslash_refuted : ∃ f : Fn, f.name = [97, 92, 110] ∧ Json.array (json [f]) = some [[97, 10]] :=
  ⟨⟨1, [97, 92, 110]⟩, rfl, by decide +kernel⟩

/-- A control character (symbol names given by asm labels start with byte 1) makes the file invalid. -/
theorem C32_control_refuted : ∃ f : Fn, f.name = [1, 97] ∧ Json.array (json [f]) = none :=
  ⟨⟨1, [1, 97]⟩, rfl, by decide +kernel⟩

/-- Three requests for two functions. -/
def fnReqs : List Fn := [⟨5000, [109]⟩, ⟨6000, [102, 49]⟩, ⟨5000, [109]⟩]
example : (getIds new fnReqs).2 = [0, 1, 0] ∧ Json.array (json fnReqs) = some [[109], [102, 49]] := by decide +kernel
example : (firstSeen fnReqs).length < 2 ^ 32 ∧ (∀ f ∈ fnReqs, ∀ g ∈ fnReqs, f.addr = g.addr ↔ f.name = g.name) ∧
    ∀ f ∈ fnReqs, Plain f.name := by
  refine ⟨by decide, by decide, ?_⟩
  intro f hf
  simp only [fnReqs, List.mem_cons, List.not_mem_nil, or_false] at hf
  rcases hf with rfl | rfl | rfl <;> exact ⟨by decide, by decide⟩

end Verif
