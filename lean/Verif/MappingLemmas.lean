import Verif.PyMapping
import Verif.PyGraph
/- The depth-first walk over the label graph. -/
namespace Verif
open Spec Py

theorem shows_lt {F : TDFile} {g : Graph} {n : Nat} (hF : F.Shows g n) {l : Nat} {t : Taint} (h : g l = some t) :
    0 < l ∧ l < n := by
  by_cases hl : l = 0 ∨ n ≤ l
  · rw [hF.wf.none l hl] at h; cases h
  · omega

theorem shows_ref {F : TDFile} {g : Graph} {n : Nat} (hF : F.Shows g n) {l k : Nat} {t : Taint} (h : g l = some t)
    (hr : Ref t k) : 0 < k ∧ k < l := by
  obtain ⟨h0, h1⟩ := shows_lt hF h
  obtain ⟨t', k1, -, k3⟩ := hF.wf.legal l h0 h1
  rw [h] at k1; cases k1
  exact k3 k hr

theorem mem_pushed {t : Taint} {k : Nat} : k ∈ pushed (nodeOf t) ↔ Ref t k := by
  cases t with
  | source => simp [pushed, nodeOf, Ref]
  | union cf lo hi => simp [pushed, nodeOf, Ref]
  | range cf f t => simp [pushed, nodeOf, Ref, List.mem_range'_1]; omega

/-- Labels below `n` not yet seen. -/
def unseen (n : Nat) (seen : List Nat) : Nat := ((List.range n).filter (fun l => l ∉ seen)).length

theorem unseen_mono {n : Nat} {a b : List Nat} (h : ∀ x ∈ a, x ∈ b) : unseen n b ≤ unseen n a := by
  unfold unseen
  generalize List.range n = r
  induction r with
  | nil => simp
  | cons x r ih =>
    by_cases hb : x ∈ b
    · by_cases ha : x ∈ a
      · simpa [ha, hb] using ih
      · simp only [List.filter_cons, ha, hb]
        simp
        have : (List.filter (fun l => decide (l ∉ b)) r).length ≤ (List.filter (fun l => decide (l ∉ a)) r).length := ih
        simp only [decide_not] at this
        omega
    · have ha : x ∉ a := fun k => hb (h x k)
      simpa [ha, hb] using ih

theorem unseen_lt {n : Nat} {a b : List Nat} (h : ∀ x ∈ a, x ∈ b) {l : Nat} (hl : l < n) (ha : l ∉ a) (hb : l ∈ b) :
    unseen n b < unseen n a := by
  have hm : l ∈ List.range n := List.mem_range.2 hl
  unfold unseen
  obtain ⟨p, q, hpq⟩ := List.append_of_mem hm
  have h1 := unseen_mono (n := n) h
  rw [hpq]
  have key : ∀ r : List Nat, (r.filter (fun l => decide (l ∉ b))).length ≤ (r.filter (fun l => decide (l ∉ a))).length := by
    intro r
    induction r with
    | nil => simp
    | cons x r ih =>
      by_cases hb : x ∈ b
      · by_cases ha : x ∈ a
        · simpa [ha, hb] using ih
        · simp only [List.filter_cons, ha, hb]
          simp
          simp only [decide_not] at ih
          omega
      · have ha : x ∉ a := fun k => hb (h x k)
        simpa [ha, hb] using ih
  have k1 := key p
  have k2 := key q
  simp only [List.filter_append, List.filter_cons, List.length_append, ha, hb]
  simp only [decide_not] at k1 k2 ⊢
  simp
  omega

/-- Rule for the walk: an invariant that is kept by skipping seen labels and by processing new ones
holds at the end, and the walk ends. -/
theorem dfs_rule (F : TDFile) {σ : Type} (body : σ → List Nat → Nat → Node → Option (σ × List Nat)) (n : Nat)
    (I : List Nat → List Nat → σ → Prop)
    (hlt : ∀ l stack seen s, I (l :: stack) seen s → l < n)
    (hskip : ∀ l stack seen s, I (l :: stack) seen s → l ∈ seen → I stack seen s)
    (hstep : ∀ l stack seen s, I (l :: stack) seen s → l ∉ seen → ∃ nd s' seen', F.decodeNode l = some nd ∧
      body s (l :: seen) l nd = some (s', seen') ∧ (∀ x ∈ l :: seen, x ∈ seen') ∧
      I (pushed nd ++ stack) seen' s') :
    ∀ stack seen s, I stack seen s → ∃ N s' seen', (∀ fuel, N ≤ fuel →
      dfs F body fuel stack seen s = some (s', seen')) ∧ I [] seen' s' := by
  have main : ∀ (u : Nat) (stack seen : List Nat) (s : σ), unseen n seen = u → I stack seen s →
      ∃ N s' seen', (∀ fuel, N ≤ fuel → dfs F body fuel stack seen s = some (s', seen')) ∧ I [] seen' s' := by
    intro u
    induction u using Nat.strongRecOn with
    | _ u ihu =>
      intro stack
      induction stack with
      | nil =>
        intro seen s hu hI
        refine ⟨1, s, seen, ?_, hI⟩
        intro fuel hf
        match fuel, hf with
        | fuel + 1, _ => rfl
      | cons l stack ih =>
        intro seen s hu hI
        by_cases hl : l ∈ seen
        · obtain ⟨N, s', seen', h1, h2⟩ := ih seen s hu (hskip l stack seen s hI hl)
          refine ⟨N + 1, s', seen', ?_, h2⟩
          intro fuel hf
          match fuel, hf with
          | fuel + 1, hf => rw [dfs, if_pos hl]; exact h1 fuel (by omega)
        · obtain ⟨nd, s1, seen1, h1, h2, h3, h4⟩ := hstep l stack seen s hI hl
          have hlt' := unseen_lt (n := n) (a := seen) (b := seen1) (fun x hx => h3 x (by simp [hx]))
            (hlt l stack seen s hI) hl (h3 l (by simp))
          obtain ⟨N, s', seen', h5, h6⟩ := ihu (unseen n seen1) (by omega) _ seen1 s1 rfl h4
          refine ⟨N + 1, s', seen', ?_, h6⟩
          intro fuel hf
          match fuel, hf with
          | fuel + 1, hf =>
            rw [dfs, if_neg hl, h1]
            simp only [Option.bind_eq_bind, Option.bind_some, h2]
            exact h5 fuel (by omega)
  exact fun stack seen s hI => main _ stack seen s rfl hI

/-- A label denotes the bytes of the source labels it is built from. -/
theorem denotes_iff_builtFrom {g : Graph} {l : Nat} {b : Nat × Nat} :
    Denotes g l b ↔ ∃ k cf, BuiltFrom g l k ∧ g k = some (.source cf b.1 b.2) := by
  constructor
  · intro h
    induction h with
    | source h => exact ⟨_, _, .refl _, h⟩
    | range h h1 h2 _ ih =>
      obtain ⟨k, cf, k1, k2⟩ := ih
      exact ⟨k, cf, .step h ⟨h1, h2⟩ k1, k2⟩
    | lower h _ ih =>
      obtain ⟨k, cf, k1, k2⟩ := ih
      exact ⟨k, cf, .step h (Or.inl rfl) k1, k2⟩
    | higher h _ ih =>
      obtain ⟨k, cf, k1, k2⟩ := ih
      exact ⟨k, cf, .step h (Or.inr rfl) k1, k2⟩
  · rintro ⟨k, cf, h1, h2⟩
    induction h1 with
    | refl => exact .source h2
    | step hg hr _ ih =>
      have := ih h2
      rw [denotes_iff hg]
      rename_i l t m k _
      cases t with
      | source => exact absurd hr id
      | union _ lo hi =>
        rcases hr with rfl | rfl
        · exact Or.inl this
        · exact Or.inr this
      | range _ f t => exact ⟨_, hr.1, hr.2, this⟩

end Verif
