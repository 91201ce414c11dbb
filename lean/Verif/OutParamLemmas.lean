import Verif.OutParam
import Verif.CopyLemmas
/- Lemmas for C58: composition of label-clearing steps. -/
namespace Verif
open Spec DfsanMem
namespace OutParam

/-- A step that clears the labels of `rs` and changes no data. -/
def Clears (m : Mem) (rs : List (Nat × Nat)) (r : Res Mem) : Prop :=
  ∃ m', r = .ok m' ∧ Cleared rs (labelOf m) (labelOf m') ∧ ∀ b, IsApp b → m' b = m b

theorem Clears.skip (m : Mem) : Clears m [] (.ok m) :=
  ⟨m, rfl, fun _ _ => ⟨fun ⟨_, h, _⟩ => (by simp at h), fun _ => rfl⟩, fun _ _ => rfl⟩

theorem Within.append {rs ss : List (Nat × Nat)} {b : Nat} :
    Within (rs ++ ss) b ↔ Within rs b ∨ Within ss b := by
  unfold Within
  constructor
  · rintro ⟨r, hr, h⟩
    rcases List.mem_append.1 hr with hr | hr
    · exact Or.inl ⟨r, hr, h⟩
    · exact Or.inr ⟨r, hr, h⟩
  · rintro (⟨r, hr, h⟩ | ⟨r, hr, h⟩)
    · exact ⟨r, List.mem_append.2 (Or.inl hr), h⟩
    · exact ⟨r, List.mem_append.2 (Or.inr hr), h⟩

theorem Clears.bind {m : Mem} {rs ss : List (Nat × Nat)} {r : Res Mem} {f : Mem → Res Mem}
    (h : Clears m rs r) (hf : ∀ m', (∀ b, IsApp b → m' b = m b) → Clears m' ss (f m')) :
    Clears m (rs ++ ss) (r >>= f) := by
  obtain ⟨m1, rfl, h1, h2⟩ := h
  obtain ⟨m2, e, h3, h4⟩ := hf m1 h2
  refine ⟨m2, e, fun b hb => ⟨fun hw => ?_, fun hw => ?_⟩, fun b hb => (h4 b hb).trans (h2 b hb)⟩
  · by_cases hs : Within ss b
    · exact (h3 b hb).1 hs
    · rw [(h3 b hb).2 hs]
      exact (h1 b hb).1 ((Within.append.1 hw).resolve_right hs)
  · rw [(h3 b hb).2 (fun h => hw (Within.append.2 (Or.inr h)))]
    exact (h1 b hb).2 (fun h => hw (Within.append.2 (Or.inl h)))

theorem Clears.congr {m : Mem} {rs ss : List (Nat × Nat)} {r : Res Mem} (h : Clears m rs r)
    (he : ∀ b, Within rs b ↔ Within ss b) : Clears m ss r := by
  obtain ⟨m', e, h1, h2⟩ := h
  exact ⟨m', e, fun b hb => ⟨fun hw => (h1 b hb).1 ((he b).2 hw),
    fun hw => (h1 b hb).2 (fun h => hw ((he b).1 h))⟩, h2⟩

theorem setAt_app {k l p n : Nat} (m : Mem) (hk : k ≤ 40) (hl : l < 2 ^ 32)
    (hp : 0x700000008000 ≤ p) (hn : p + n < 0x800000000000) :
    ∃ m', setAt (2 ^ k) m l p n = .ok m' ∧
      (∀ b, IsApp b → labelOf m' b = fill (labelOf m) p n l b) ∧ (∀ b, IsApp b → m' b = m b) := by
  have e := shadow_sum (show 0x700000000000 ≤ p by omega) (by omega)
  unfold setAt
  rw [if_pos (Or.inr (by
    unfold kShadowAddr kUnionTableAddr
    omega))]
  exact setLabel_app' m hk hl hp hn

theorem setAt_clears {k p n : Nat} (m : Mem) (hk : k ≤ 40)
    (hp : 0x700000008000 ≤ p) (hn : p + n < 0x800000000000) :
    Clears m [(p, n)] (setAt (2 ^ k) m 0 p n) := by
  obtain ⟨m', e, h1, h2⟩ := setAt_app (l := 0) m hk (by omega) hp hn
  refine ⟨m', e, fun b hb => ?_, h2⟩
  rw [h1 b hb]
  unfold fill
  constructor
  · rintro ⟨r, hr, h⟩
    rw [List.mem_singleton] at hr
    subst hr
    rw [if_pos h]
  · intro h
    rw [if_neg (fun h' => h ⟨_, List.mem_singleton.2 rfl, h'⟩)]

theorem IsStr.congr {f g : Nat → Nat} {s n : Nat} (h : IsStr f s n) (hs : 0x700000008000 ≤ s)
    (hn : s + n < 0x800000000000) (he : ∀ b, IsApp b → g b = f b) : IsStr g s n :=
  ⟨by rw [he _ ⟨by omega, by omega⟩]; exact h.nul,
   fun i hi => by rw [he _ ⟨by omega, by omega⟩]; exact h.nonzero i hi⟩

theorem clearStr_clears {k p n : Nat} {m : Mem} (hk : k ≤ 40) (h : IsStr m p n)
    (hp : 0x700000008000 ≤ p) (hn : p + (n + 1) < 0x800000000000) :
    Clears m [(p, n + 1)] (clearStr (2 ^ k) m p) := by
  unfold clearStr
  rw [strlen_str h (by omega)]
  exact setAt_clears m hk hp hn

theorem onZero_clears {k p n : Nat} {m : Mem} {ret : Int} (hk : k ≤ 40)
    (h : ∀ r ∈ (if ret = 0 then [(p, n)] else []), 0x700000008000 ≤ r.1 ∧ r.1 + r.2 < 0x800000000000) :
    Clears m (if ret = 0 then [(p, n)] else []) (onZero (2 ^ k) m ret p n) := by
  unfold onZero
  by_cases hr : ret = 0
  · simp only [if_pos hr] at h ⊢
    have := h _ (List.mem_singleton.2 rfl)
    exact setAt_clears m hk this.1 this.2
  · simp only [if_neg hr]
    exact Clears.skip m

theorem nonNull_clears {k p n : Nat} {m : Mem} (hk : k ≤ 40)
    (h : ∀ r ∈ nonNull p n, 0x700000008000 ≤ r.1 ∧ r.1 + r.2 < 0x800000000000) :
    Clears m (nonNull p n) (clearIf (2 ^ k) m p n) := by
  unfold clearIf
  unfold nonNull at h ⊢
  by_cases hp : p ≠ 0
  · simp only [if_pos hp] at h ⊢
    have := h _ (List.mem_singleton.2 rfl)
    exact setAt_clears m hk this.1 this.2
  · simp only [if_neg hp]
    exact Clears.skip m

theorem pollLoop_clears {k fds : Nat} (hk : k ≤ 40) : ∀ (n : Nat) (m : Mem),
    (∀ i, i < n → 0x700000008000 ≤ fds + 8 * i + 6 ∧ fds + 8 * i + 6 + 2 < 0x800000000000) →
    Clears m ((List.range n).map (fun i => (fds + 8 * i + 6, 2))) (pollLoop (2 ^ k) fds n m)
  | 0, m, _ => Clears.skip m
  | n + 1, m, h => by
    have hn := h n (by omega)
    refine ((setAt_clears m hk hn.1 hn.2).bind (f := pollLoop (2 ^ k) fds n)
      (fun m' _ => pollLoop_clears hk n m' (fun i hi => h i (by omega)))).congr (fun b => ?_)
    rw [List.range_succ, List.map_append, Within.append, Within.append]
    exact Or.comm

theorem setLabel_nil (page : Nat) (m : Mem) : setLabel page m 0 0 0 = .ok m := by
  have h : shadowFor 0 = 0 := by simp [shadowFor]
  have h' : roundDownTo 0 page = 0 := by simp [roundDownTo]
  unfold setLabel
  simp [h, h', writeShadow]

theorem read64_le (m : Mem) (a : Nat) : m.read64 a = leBytes m a 8 := by
  simp only [Mem.read64, Mem.read32, leBytes, Nat.add_assoc, Nat.reduceAdd]
  omega

theorem leBytes_congr {f g : Nat → Nat} : ∀ (n a : Nat), (∀ b, a ≤ b → b < a + n → g b = f b) →
    leBytes g a n = leBytes f a n
  | 0, _, _ => rfl
  | n + 1, a, h => by
    simp only [leBytes]
    rw [h a (by omega) (by omega), leBytes_congr n (a + 1) (fun b h1 h2 => h b (by omega) (by omega))]

end OutParam
end Verif
