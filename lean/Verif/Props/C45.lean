import Verif.PassMem
import Verif.ShadowMemLemmas
import Verif.Spec.Labels
import Verif.Props.C07
import Verif.Props.C36
/- C45: the code inserted for loads and stores. -/
namespace Verif
open Spec Labels DfsanMem

attribute [local irreducible] shadowFor passShadow

/-- Memory whose cells hold bytes. -/
def Spec.IsBytes (m : Nat → Nat) : Prop := ∀ x, m x < 256

theorem read32_lt {m : Mem} (h : Spec.IsBytes m) (a : Nat) : m.read32 a < 2 ^ 32 := by
  have h0 := h a
  have h1 := h (a + 1)
  have h2 := h (a + 2)
  have h3 := h (a + 3)
  unfold Mem.read32
  omega

/-- The rotation test: a wide shadow equals its rotation exactly if its two labels agree. -/
theorem rot_eq_iff {x y : Nat} (hx : x < 2 ^ 32) (hy : y < 2 ^ 32) :
    (x + 2 ^ 32 * y = ((x + 2 ^ 32 * y) <<< 32 % 2 ^ 64 ||| (x + 2 ^ 32 * y) >>> (64 - 32))) ↔
      x = y := by
  have e1 : (x + 2 ^ 32 * y) <<< 32 % 2 ^ 64 = 2 ^ 32 * x := by
    rw [Nat.shiftLeft_eq]; omega
  have e2 : (x + 2 ^ 32 * y) >>> (64 - 32) = y := by
    rw [Nat.shiftRight_eq_div_pow]; omega
  rw [e1, e2, ← Nat.two_pow_add_eq_or_of_lt hy]
  omega

theorem wideEq_iff {m : Mem} (h : Spec.IsBytes m) (l : Nat) (hl : l < 2 ^ 32) :
    ∀ (n p : Nat), wideEq m (l + 2 ^ 32 * l) p n = true ↔
      ∀ i, i < 2 * n → m.read32 (p + 4 * i) = l := by
  intro n
  induction n with
  | zero => intro p; simp [wideEq]
  | succ n ih =>
    intro p
    have b0 := read32_lt h p
    have b1 := read32_lt h (p + 4)
    have hw : (l + 2 ^ 32 * l = m.read64 p) ↔ (m.read32 p = l ∧ m.read32 (p + 4) = l) := by
      unfold Mem.read64; omega
    unfold wideEq
    by_cases hc : l + 2 ^ 32 * l = m.read64 p
    · rw [if_pos hc, ih]
      obtain ⟨c0, c1⟩ := hw.1 hc
      constructor
      · intro hh i hi
        by_cases i0 : i = 0
        · subst i0; exact c0
        by_cases i1 : i = 1
        · subst i1; exact c1
        have := hh (i - 2) (by omega)
        rwa [show p + 8 + 4 * (i - 2) = p + 4 * i by omega] at this
      · intro hh i hi
        have := hh (i + 2) (by omega)
        rwa [show p + 4 * (i + 2) = p + 8 + 4 * i by omega] at this
    · rw [if_neg hc]
      constructor
      · intro hh; cases hh
      · intro hh
        exact absurd (hw.2 ⟨hh 0 (by omega), hh 1 (by omega)⟩) hc

/-- The fast path answers directly exactly if all labels agree. -/
theorem loadFast_eq {m : Mem} (h : Spec.IsBytes m) (started : Bool) (L : Labels) (p k : Nat) :
    loadFast started L m p (2 * (k + 1)) =
      if ∀ i, i < 2 * (k + 1) → m.read32 (p + 4 * i) = m.read32 p then .ok (L, m.read32 p)
      else Dfsan.unionLoad started L (labelsAt m p (2 * (k + 1))) := by
  have b0 := read32_lt h p
  have b1 := read32_lt h (p + 4)
  have ht : m.read64 p % 2 ^ 32 = m.read32 p := by unfold Mem.read64; omega
  have hiff : (m.read64 p = (m.read64 p <<< 32 % 2 ^ 64 ||| m.read64 p >>> (64 - 32)) ∧
      wideEq m (m.read64 p) (p + 8) ((2 * (k + 1) - 1) / 2) = true) ↔
      ∀ i, i < 2 * (k + 1) → m.read32 (p + 4 * i) = m.read32 p := by
    rw [show (2 * (k + 1) - 1) / 2 = k by omega]
    have hrot := rot_eq_iff b0 b1
    rw [show m.read32 p + 2 ^ 32 * m.read32 (p + 4) = m.read64 p from rfl] at hrot
    rw [hrot]
    constructor
    · rintro ⟨e, hw⟩ i hi
      have e64 : m.read64 p = m.read32 p + 2 ^ 32 * m.read32 p := by unfold Mem.read64; omega
      rw [e64, wideEq_iff h _ b0] at hw
      by_cases i0 : i = 0
      · subst i0; rfl
      by_cases i1 : i = 1
      · subst i1; exact e.symm
      have := hw (i - 2) (by omega)
      rwa [show p + 8 + 4 * (i - 2) = p + 4 * i by omega] at this
    · intro hh
      have e := (hh 1 (by omega)).symm
      rw [show p + 4 * 1 = p + 4 by omega] at e
      refine ⟨e, ?_⟩
      have e64 : m.read64 p = m.read32 p + 2 ^ 32 * m.read32 p := by unfold Mem.read64; omega
      rw [e64, wideEq_iff h _ b0]
      intro i hi
      have := hh (i + 2) (by omega)
      rwa [show p + 4 * (i + 2) = p + 8 + 4 * i by omega] at this
  unfold loadFast
  simp only [ht]
  by_cases c : ∀ i, i < 2 * (k + 1) → m.read32 (p + 4 * i) = m.read32 p
  · rw [if_pos c, if_pos (hiff.2 c)]
  · rw [if_neg c, if_neg (fun x => c (hiff.1 x))]

/-- Labels at the shadow of an application range are the labels of its bytes. -/
theorem read32_shadow {m : Mem} {a size i : Nat} (ha : IsApp a)
    (hn : a + size ≤ 0x800000000000) (hi : i < size) :
    m.read32 (passShadow a + 4 * i) = labelOf m (a + i) := by
  rw [C36_pass]
  unfold labelOf
  obtain ⟨a1, a2⟩ := ha
  have e1 := shadow_sum (show 0x700000000000 ≤ a by omega) (by omega)
  have e2 := shadow_sum (show 0x700000000000 ≤ a + i by omega) (by omega)
  congr 1
  omega

/-! ### Loads -/

theorem combineCode_combines {cap : Nat} {avoid started : Bool} {L : Labels} (hg : Good L)
    (hc : L.cap = cap) (hs : Started started L) {l r : Nat}
    (hl : l < L.words.length) (hr : r < L.words.length) :
    CombinesTo cap 1 L (fun b => Denotes L.graph l b ∨ Denotes L.graph r b)
      (combineCode avoid started L l r) := by
  have e : combineCode avoid started L l r =
      if l ≠ r then Dfsan.union' started L l r else .ok (L, l) := by
    unfold combineCode Dfsan.union
    cases avoid <;> by_cases h : l = r <;> simp [h]
  rw [e]
  by_cases h : l = r
  · subst h
    rw [if_neg (by simp)]
    exact Or.inl ⟨L, l, [], rfl, .nil _, hl, fun b => by simp, by omega, .nil⟩
  · rw [if_pos h]
    exact union'_combines hg hc hs hl hr

/-- Combining leaves a store that was never started alone. -/
theorem combineCode_started {avoid started : Bool} {L L' : Labels} {l r u : Nat}
    (hs : Started started L) (h : combineCode avoid started L l r = .ok (L', u)) :
    Started started L' := by
  refine started_mono hs (fun hf => ?_)
  subst hf
  unfold combineCode Dfsan.union at h
  cases avoid
  · simp only [Bool.false_eq_true, if_false] at h
    split at h
    · exact union'_unstarted h
    · cases h; rfl
  · simp only [if_true] at h
    split at h
    · cases h; rfl
    · exact union'_unstarted h

theorem unionLoad_combines {cap : Nat} {started : Bool} {L : Labels} (hg : Good L)
    (hc : L.cap = cap) (hs : Started started L) {m : Mem} {p n : Nat} (hn : 0 < n)
    (hm : ∀ i, i < n → m.read32 (p + 4 * i) < L.words.length) :
    CombinesTo cap (n - 1) L (fun b => ∃ i, i < n ∧ Denotes L.graph (m.read32 (p + 4 * i)) b)
      (Dfsan.unionLoad started L (labelsAt m p n)) := by
  obtain ⟨k, rfl⟩ : ∃ k, n = k + 1 := ⟨n - 1, by omega⟩
  unfold labelsAt
  rw [List.range_succ_eq_map]
  simp only [List.map_cons, List.map_map, Dfsan.unionLoad]
  have key : ∀ x, x ∈ m.read32 (p + 4 * 0) ::
      List.map ((fun i => m.read32 (p + 4 * i)) ∘ Nat.succ) (List.range k) ↔
      ∃ i, i < k + 1 ∧ m.read32 (p + 4 * i) = x := by
    intro x
    simp only [List.mem_cons, List.mem_map, List.mem_range, Function.comp]
    constructor
    · rintro (rfl | ⟨i, hi, rfl⟩)
      · exact ⟨0, by omega, rfl⟩
      · exact ⟨i + 1, by omega, rfl⟩
    · rintro ⟨i, hi, rfl⟩
      cases i with
      | zero => exact Or.inl rfl
      | succ i => exact Or.inr ⟨i, by omega, rfl⟩
  rcases loadLoop_combines (List.map ((fun i => m.read32 (p + 4 * i)) ∘ Nat.succ) (List.range k)) hg
      hc hs (hm 0 (by omega)) (by
        intro x hx
        obtain ⟨i, hi, rfl⟩ := (key x).1 (List.mem_cons_of_mem _ hx)
        exact hm i hi) with ⟨L2, v, es2, k1, k2, k3, k4, k5⟩ | ⟨k1, k2⟩
  · refine Or.inl ⟨L2, v, es2, k1, k2, k3, fun b => ?_, by simpa using k5.1, k5.2⟩
    rw [k4]
    constructor
    · rintro ⟨x, hx, hd⟩
      obtain ⟨i, hi, rfl⟩ := (key x).1 hx
      exact ⟨i, hi, hd⟩
    · rintro ⟨i, hi, hd⟩
      exact ⟨_, (key _).2 ⟨i, hi, rfl⟩, hd⟩
  · exact Or.inr ⟨k1, by simpa using k2⟩

theorem loadShadow_combines {cap : Nat} {avoid started : Bool} {L : Labels} (hg : Good L)
    (hc : L.cap = cap) (hs : Started started L) {m : Mem} (hm : Spec.IsBytes m) {a size : Nat}
    (ha : IsApp a) (hn : a + size ≤ 0x800000000000)
    (hl : ∀ i, i < size → labelOf m (a + i) < L.words.length) :
    CombinesTo cap (size - 1) L (fun b => ∃ i, i < size ∧ Denotes L.graph (labelOf m (a + i)) b)
      (loadShadow avoid started L m a size) := by
  have e : ∀ i, i < size → m.read32 (passShadow a + 4 * i) = labelOf m (a + i) :=
    fun i hi => read32_shadow ha hn hi
  have hl' : ∀ i, i < size → m.read32 (passShadow a + 4 * i) < L.words.length :=
    fun i hi => by rw [e i hi]; exact hl i hi
  have hS : ∀ b, (∃ i, i < size ∧ Denotes L.graph (labelOf m (a + i)) b) ↔
      ∃ i, i < size ∧ Denotes L.graph (m.read32 (passShadow a + 4 * i)) b := by
    intro b
    constructor
    · rintro ⟨i, hi, hd⟩; exact ⟨i, hi, by rw [e i hi]; exact hd⟩
    · rintro ⟨i, hi, hd⟩; exact ⟨i, hi, by rw [← e i hi]; exact hd⟩
  have conv : ∀ {S T : Nat × Nat → Prop} {r : Res (Labels × Nat)}, (∀ b, S b ↔ T b) →
      CombinesTo cap (size - 1) L T r → CombinesTo cap (size - 1) L S r := by
    intro S T r h h'
    rwa [show S = T from funext fun b => propext (h b)]
  apply conv hS
  clear hS hl e
  have slow : 0 < size → CombinesTo cap (size - 1) L
      (fun b => ∃ i, i < size ∧ Denotes L.graph (m.read32 (passShadow a + 4 * i)) b)
      (Dfsan.unionLoad started L (labelsAt m (passShadow a) size)) :=
    fun h => unionLoad_combines hg hc hs h hl'
  unfold loadShadow
  by_cases h0 : size = 0
  · subst h0
    rw [if_pos rfl]
    exact Or.inl ⟨L, 0, [], rfl, .nil _, hg.wf.nonempty, fun b => by simp [denotes_zero hg b], by omega, .nil⟩
  rw [if_neg h0]
  by_cases h1 : size = 1
  · subst h1
    rw [if_pos rfl]
    refine Or.inl ⟨L, _, [], rfl, .nil _, by simpa using hl' 0 (by omega), fun b => ?_, by omega, .nil⟩
    constructor
    · intro hd; exact ⟨0, by omega, hd⟩
    · rintro ⟨i, hi, hd⟩
      rwa [show i = 0 by omega] at hd
  rw [if_neg h1]
  by_cases h2 : size = 2
  · subst h2
    rw [if_pos rfl]
    refine conv (fun b => ?_) (combineCode_combines hg hc hs (by simpa using hl' 0 (by omega))
      (by simpa using hl' 1 (by omega)))
    constructor
    · rintro ⟨i, hi, hd⟩
      have : i = 0 ∨ i = 1 := by omega
      rcases this with rfl | rfl
      · exact Or.inl hd
      · exact Or.inr hd
    · rintro (hd | hd)
      · exact ⟨0, by omega, hd⟩
      · exact ⟨1, by omega, hd⟩
  rw [if_neg h2]
  dsimp only
  split
  · rename_i hf
    obtain ⟨k, rfl⟩ : ∃ k, size = 2 * (k + 1) := by
      refine ⟨size / 2 - 1, ?_⟩
      simp only [Bool.and_eq_true, Bool.or_eq_true, beq_iff_eq] at hf
      omega
    rw [loadFast_eq hm]
    split
    · rename_i hall
      refine Or.inl ⟨L, _, [], rfl, .nil _, by simpa using hl' 0 (by omega), fun b => ?_, by omega, .nil⟩
      constructor
      · intro hd; exact ⟨0, by omega, hd⟩
      · rintro ⟨i, hi, hd⟩
        rwa [hall i hi] at hd
    · exact slow (by omega)
  · exact slow (by omega)

/-- C45 (load): the label computed by the code inserted for a load of any size denotes exactly the
union of what the labels of the loaded bytes denote, whether the one-, two-label, the wide comparison
or the library path is taken. It makes fewer new labels than it loads bytes, and fails only if
these do not fit. -/
theorem C45_load (cap : Nat) (h0 : 0 < cap) (hcap : cap ≤ 2 ^ 31) (es : List Event) (L : Labels)
    (hr : Reach cap es L) (avoid started : Bool) (hs : Started started L) (m : Mem)
    (hm : Spec.IsBytes m) (a size : Nat) (ha : IsApp a) (hn : a + size ≤ 0x800000000000)
    (hl : ∀ i, i < size → labelOf m (a + i) < L.words.length) :
    CombinesTo cap (size - 1) L (fun b => ∃ i, i < size ∧ Denotes L.graph (labelOf m (a + i)) b)
      (loadShadow avoid started L m a size) :=
  loadShadow_combines (hr.good h0 hcap) (hr.cap h0 hcap) hs hm ha hn hl

/-- C45 (uniform load): if all loaded bytes have the same label, the load gets that very label and the
label store is not touched, in any state of the store. -/
theorem C45_load_uniform (L : Labels) (avoid started : Bool) (m : Mem) (hm : Spec.IsBytes m)
    (a size l : Nat) (h0 : 0 < size) (ha : IsApp a) (hn : a + size ≤ 0x800000000000)
    (hl : ∀ i, i < size → labelOf m (a + i) = l) :
    loadShadow avoid started L m a size = .ok (L, l) := by
  have e : ∀ i, i < size → m.read32 (passShadow a + 4 * i) = l :=
    fun i hi => (read32_shadow ha hn hi).trans (hl i hi)
  have hloop : ∀ n, Dfsan.loadLoop started L l (List.replicate n l) = .ok (L, l) := by
    intro n
    induction n with
    | zero => rfl
    | succ n ih => simp only [List.replicate_succ, Dfsan.loadLoop, ne_eq, not_true, if_false, ih]
  have slow : Dfsan.unionLoad started L (labelsAt m (passShadow a) size) = .ok (L, l) := by
    have : labelsAt m (passShadow a) size = List.replicate size l := by
      unfold labelsAt
      rw [List.eq_replicate_iff]
      refine ⟨by simp, fun x hx => ?_⟩
      simp only [List.mem_map, List.mem_range] at hx
      obtain ⟨i, hi, rfl⟩ := hx
      exact e i hi
    rw [this]
    obtain ⟨k, rfl⟩ : ∃ k, size = k + 1 := ⟨size - 1, by omega⟩
    exact hloop k
  have e0 := e 0 h0
  rw [Nat.mul_zero, Nat.add_zero] at e0
  unfold loadShadow
  rw [if_neg (by omega)]
  by_cases h1 : size = 1
  · rw [if_pos h1]; simp only [e0]
  rw [if_neg h1]
  by_cases h2 : size = 2
  · rw [if_pos h2]
    have e1 := e 1 (by omega)
    rw [Nat.mul_one] at e1
    simp only [e0, e1]
    unfold combineCode Dfsan.union
    cases avoid <;> simp
  rw [if_neg h2]
  dsimp only
  split
  · rename_i hf
    obtain ⟨k, rfl⟩ : ∃ k, size = 2 * (k + 1) := by
      refine ⟨size / 2 - 1, ?_⟩
      simp only [Bool.and_eq_true, Bool.or_eq_true, beq_iff_eq] at hf
      omega
    rw [loadFast_eq hm, if_pos (fun i hi => by rw [e i hi, e0]), e0]
  · exact slow

/-- C45 (loaded value): the label given to the loaded value denotes the union over the loaded bytes
together with the label of the address. -/
theorem C45_load_instruction (cap : Nat) (h0 : 0 < cap) (hcap : cap ≤ 2 ^ 31) (es : List Event)
    (L : Labels) (hr : Reach cap es L) (avoid started : Bool) (hs : Started started L) (m : Mem)
    (hm : Spec.IsBytes m) (a size ptr : Nat) (hsz : 0 < size) (ha : IsApp a)
    (hn : a + size ≤ 0x800000000000)
    (hl : ∀ i, i < size → labelOf m (a + i) < L.words.length) (hp : ptr < L.words.length) :
    CombinesTo cap size L (fun b => (∃ i, i < size ∧ Denotes L.graph (labelOf m (a + i)) b) ∨
        Denotes L.graph ptr b)
      (loadInst avoid started L m a size ptr) := by
  have hg := hr.good h0 hcap
  have hc := hr.cap h0 hcap
  unfold loadInst
  rw [if_neg (by omega)]
  have hst : ∀ L' u, loadShadow avoid started L m a size = .ok (L', u) → Started started L' := by
    intro L' u hu
    rcases hs with h | h
    · exact Or.inl h
    · rw [C45_load_uniform L avoid started m hm a size 0 hsz ha hn
        (fun i hi => by have := hl i hi; omega)] at hu
      cases hu
      exact Or.inr h
  rcases loadShadow_combines (avoid := avoid) hg hc hs hm ha hn hl with
    ⟨L1, u, es1, h1, h2, h3, h4, h5⟩ | ⟨h1, h2⟩
  · rw [h1]
    simp only [Res.bind_ok]
    have hold := h2.old hg
    rcases combineCode_combines (avoid := avoid) (h2.good hg) ((runs_cap h2 hg).trans hc)
      (hst _ _ h1) h3 (Nat.lt_of_lt_of_le hp hold.1) with
      ⟨L2, v, es2, k1, k2, k3, k4, k5⟩ | ⟨k1, k2⟩
    · refine Or.inl ⟨L2, v, es1 ++ es2, k1, h2.trans k2, k3, fun b => ?_, by omega, h5.2.append k5.2⟩
      rw [k4]
      dsimp only
      rw [h4, hold.2.2 ptr b hp]
    · exact Or.inr ⟨k1, by omega⟩
  · rw [h1]; exact Or.inr ⟨rfl, by omega⟩

/-! ### Stores -/

/-- The first `k` cells from `p` hold `l` and the rest of memory is as in `m`. -/
structure Cells (m' m : Mem) (p k l : Nat) : Prop where
  inside : ∀ i, i < k → m'.read32 (p + 4 * i) = l
  outside : ∀ x, (x < p ∨ p + 4 * k ≤ x) → m' x = m x

theorem Cells.snoc {m' m : Mem} {p k l : Nat} (h : Cells m' m p k l) (hl : l < 2 ^ 32) :
    Cells (m'.write32 (p + 4 * k) l) m p (k + 1) l := by
  constructor
  · intro i hi
    by_cases c : i = k
    · subst c; exact read32_write32 _ _ _ hl
    · rw [read32_congr (m := m') (fun x _ _ => write32_out (by omega))]
      exact h.inside i (by omega)
  · intro x hx
    rw [write32_out (by omega)]
    exact h.outside x (by omega)

theorem Cells.vec {m' m : Mem} {p k l : Nat} (h : Cells m' m p k l) (hl : l < 2 ^ 32) :
    Cells (writeVec m' (p + 4 * k) l) m p (k + 8) l := by
  have h8 := (((((((h.snoc hl).snoc hl).snoc hl).snoc hl).snoc hl).snoc hl).snoc hl).snoc hl
  have e : writeVec m' (p + 4 * k) l = ((((((((m'.write32 (p + 4 * k) l).write32 (p + 4 * (k + 1)) l).write32
      (p + 4 * (k + 1 + 1)) l).write32 (p + 4 * (k + 1 + 1 + 1)) l).write32
      (p + 4 * (k + 1 + 1 + 1 + 1)) l).write32 (p + 4 * (k + 1 + 1 + 1 + 1 + 1)) l).write32
      (p + 4 * (k + 1 + 1 + 1 + 1 + 1 + 1)) l).write32 (p + 4 * (k + 1 + 1 + 1 + 1 + 1 + 1 + 1)) l) := by
    unfold writeVec
    simp only [List.range_succ, List.range_zero, List.nil_append, List.cons_append, List.foldl_cons,
      List.foldl_nil, Nat.mul_add, Nat.mul_zero, Nat.add_zero, Nat.add_assoc, Nat.reduceMul, Nat.reduceAdd]
  rw [e]
  exact h8

theorem storeVecs_spec {p l size : Nat} {m : Mem} (hl : l < 2 ^ 32) (hsz : size ≤ 2 ^ 32) :
    ∀ (fuel off left : Nat) (m' : Mem), Cells m' m p (8 * off) l → 8 * off + left = size →
      left ≤ 8 * fuel + 7 →
      ∃ m2 off2 left2, storeVecs p l fuel off left m' = (m2, off2, left2) ∧
        Cells m2 m p (8 * off2) l ∧ 8 * off2 + left2 = size ∧ left2 < 8 := by
  intro fuel
  induction fuel with
  | zero => intro off left m' h1 h2 h3; exact ⟨m', off, left, rfl, h1, h2, by omega⟩
  | succ fuel ih =>
    intro off left m' h1 h2 h3
    unfold storeVecs
    by_cases c : 8 ≤ left
    · rw [if_pos c]
      apply ih
      · rw [Nat.mod_eq_of_lt (by omega), show p + 32 * off = p + 4 * (8 * off) by omega]
        exact h1.vec hl
      · omega
      · omega
    · rw [if_neg c]
      exact ⟨m', off, left, rfl, h1, h2, by omega⟩

theorem storeSingles_spec {p l size : Nat} {m : Mem} (hl : l < 2 ^ 32) (hsz : size ≤ 2 ^ 32) :
    ∀ (left off : Nat) (m' : Mem), Cells m' m p off l → off + left = size →
      Cells (storeSingles p l off left m') m p size l := by
  intro left
  induction left with
  | zero => intro off m' h1 h2; rw [← h2]; exact h1
  | succ left ih =>
    intro off m' h1 h2
    unfold storeSingles
    apply ih
    · rw [Nat.mod_eq_of_lt (by omega)]; exact h1.snoc hl
    · omega

theorem storeShadow_spec {p0 l size : Nat} {m : Mem} {z : Bool} (hl : l < 2 ^ 32)
    (hsz : size ≤ 2 ^ 32) (hz : z = true → l = 0) :
    Cells (storeShadow z m p0 size l) m (passShadow p0) size l := by
  unfold storeShadow
  cases z with
  | true =>
    have hl0 := hz rfl
    subst hl0
    simp only [if_true]
    constructor
    · intro i hi
      apply read32_zero
      intro x h1 h2
      rw [fillBytes_eq, if_pos (by omega)]
    · intro x hx
      rw [fillBytes_eq, if_neg (by omega)]
  | false =>
    have h0 : Cells m m (passShadow p0) (8 * 0) l :=
      ⟨fun i hi => absurd hi (by omega), fun _ _ => rfl⟩
    obtain ⟨m2, off2, left2, e, h1, h2, -⟩ :=
      storeVecs_spec (size := size) hl hsz size 0 size m h0 (by omega) (by omega)
    simp only [Bool.false_eq_true, if_false, e]
    exact storeSingles_spec hl hsz left2 (off2 * 8) m2 (by rw [Nat.mul_comm]; exact h1) (by omega)

/-- C45 (store): the code inserted for a store of any size up to 2^32 gives every stored byte the label
of the value, changes no other label, and then exactly the stored bytes of application memory change.
`z` tells whether the label is the constant 0 at compile time. -/
theorem C45_store (m : Mem) (z : Bool) (a size v l : Nat) (hsz : size ≤ 2 ^ 32) (hl : l < 2 ^ 32)
    (hz : z = true → l = 0) (ha : IsApp a) (hn : a + size ≤ 0x800000000000) :
    (∀ b, IsApp b → labelOf (storeInst z m a size v l) b = fill (labelOf m) a size l b) ∧
    (∀ b, IsApp b → storeInst z m a size v l b =
      if a ≤ b ∧ b < a + size then v / 256 ^ (b - a) % 256 else m b) := by
  have hc := storeShadow_spec (p0 := a) (m := m) hl hsz hz
  rw [C36_pass] at hc
  obtain ⟨a1, a2⟩ := ha
  have ea := shadow_sum (show 0x700000000000 ≤ a by omega) (by omega)
  have hdata : ∀ x, (x < a ∨ a + size ≤ x) → storeInst z m a size v l x = storeShadow z m a size l x := by
    intro x hx
    unfold storeInst
    split
    · rename_i h
      subst h
      exact (hc.outside x (by omega)).symm
    · unfold writeInt
      rw [if_neg (by omega)]
  constructor
  · rintro b ⟨b1, b2⟩
    have eb := shadow_sum (show 0x700000000000 ≤ b by omega) (by omega)
    have hcell : labelOf (storeInst z m a size v l) b = labelOf (storeShadow z m a size l) b := by
      unfold labelOf
      apply read32_congr
      intro x h1 h2
      exact hdata x (by omega)
    rw [hcell]
    unfold labelOf fill
    by_cases h : a ≤ b ∧ b < a + size
    · rw [if_pos h, show shadowFor b = shadowFor a + 4 * (b - a) by omega]
      exact hc.inside _ (by omega)
    · rw [if_neg h]
      apply read32_congr
      intro x h1 h2
      exact hc.outside x (by omega)
  · rintro b ⟨b1, b2⟩
    by_cases h : a ≤ b ∧ b < a + size
    · rw [if_pos h]
      unfold storeInst
      rw [if_neg (by omega)]
      unfold writeInt
      rw [if_pos h]
    · rw [if_neg h, hdata b (by omega)]
      exact hc.outside b (by omega)

/-- Storing labels leaves the memory of the program alone. -/
theorem C45_store_data (m : Mem) (z : Bool) (a size l : Nat) (hsz : size ≤ 2 ^ 32) (hl : l < 2 ^ 32)
    (hz : z = true → l = 0) (ha : IsApp a) (hn : a + size ≤ 0x800000000000) (b : Nat) (hb : IsApp b) :
    storeShadow z m a size l b = m b := by
  have hc := storeShadow_spec (p0 := a) (m := m) hl hsz hz
  rw [C36_pass] at hc
  obtain ⟨a1, a2⟩ := ha
  obtain ⟨b1, b2⟩ := hb
  have ea := shadow_sum (show 0x700000000000 ≤ a by omega) (by omega)
  exact hc.outside b (by omega)

theorem Spec.IsBytes.set {m : Mem} (h : Spec.IsBytes m) {a v : Nat} (hv : v < 256) :
    Spec.IsBytes (Mem.set m a v) := by
  intro x; unfold Mem.set; split
  · exact hv
  · exact h x

theorem Spec.IsBytes.write32 {m : Mem} (h : Spec.IsBytes m) (a v : Nat) : Spec.IsBytes (Mem.write32 m a v) := by
  unfold Mem.write32
  exact (((h.set (Nat.mod_lt _ (by decide))).set (Nat.mod_lt _ (by decide))).set
    (Nat.mod_lt _ (by decide))).set (Nat.mod_lt _ (by decide))

theorem Spec.IsBytes.writeVec {m : Mem} (h : Spec.IsBytes m) (a v : Nat) : Spec.IsBytes (writeVec m a v) := by
  unfold DfsanMem.writeVec
  have : ∀ (is : List Nat) (m : Mem), Spec.IsBytes m →
      Spec.IsBytes (is.foldl (fun m i => Mem.write32 m (a + 4 * i) v) m) := by
    intro is
    induction is with
    | nil => intro m hm; exact hm
    | cons i is ih => intro m hm; exact ih _ (hm.write32 _ _)
  exact this _ m h

theorem Spec.IsBytes.storeVecs {p l : Nat} : ∀ (fuel off left : Nat) (m : Mem), Spec.IsBytes m →
    Spec.IsBytes (storeVecs p l fuel off left m).1 := by
  intro fuel
  induction fuel with
  | zero => intro _ _ m h; exact h
  | succ fuel ih =>
    intro off left m h
    unfold DfsanMem.storeVecs
    split
    · exact ih _ _ _ (h.writeVec _ _)
    · exact h

theorem Spec.IsBytes.storeSingles {p l : Nat} : ∀ (left off : Nat) (m : Mem), Spec.IsBytes m →
    Spec.IsBytes (storeSingles p l off left m) := by
  intro left
  induction left with
  | zero => intro _ m h; exact h
  | succ left ih => intro off m h; exact ih _ _ (h.write32 _ _)

theorem Spec.IsBytes.storeShadow {m : Mem} (h : Spec.IsBytes m) (z : Bool) (a size l : Nat) :
    Spec.IsBytes (storeShadow z m a size l) := by
  unfold DfsanMem.storeShadow
  cases z with
  | true =>
    intro x
    simp only [if_true, fillBytes_eq]
    split
    · decide
    · exact h x
  | false => exact Spec.IsBytes.storeSingles _ _ _ (Spec.IsBytes.storeVecs _ _ _ _ h)

theorem Spec.IsBytes.storeInst {m : Mem} (h : Spec.IsBytes m) (z : Bool) (a size v l : Nat) :
    Spec.IsBytes (storeInst z m a size v l) := by
  unfold DfsanMem.storeInst
  split
  · exact h
  · intro x
    unfold writeInt
    split
    · exact Nat.mod_lt _ (by decide)
    · exact h.storeShadow z a size l x

/-- C45 (round trip): loading what was stored gives back the very label, and the label store is not
touched. -/
theorem C45_store_load (m : Mem) (hm : Spec.IsBytes m) (z avoid started : Bool) (L : Labels)
    (a size v l : Nat) (h0 : 0 < size) (hsz : size ≤ 2 ^ 32) (hl : l < 2 ^ 32)
    (hz : z = true → l = 0) (ha : IsApp a) (hn : a + size ≤ 0x800000000000) :
    loadShadow avoid started L (storeInst z m a size v l) a size = .ok (L, l) := by
  apply C45_load_uniform L avoid started _ (hm.storeInst z a size v l) a size l h0 ha hn
  intro i hi
  have ha' := ha
  obtain ⟨a1, a2⟩ := ha'
  rw [(C45_store m z a size v l hsz hl hz ha hn).1 _ ⟨by omega, by omega⟩]
  unfold fill
  rw [if_pos (by omega)]

/-- C45 (taint of a load): in a store that is not full a load's value is tainted exactly if one of the
loaded bytes or the address is. -/
theorem C45_load_tainted_iff (cap : Nat) (h0 : 0 < cap) (hcap : cap ≤ 2 ^ 31) (es : List Event)
    (L : Labels) (hr : Reach cap es L) (avoid started : Bool) (hs : Started started L) (m : Mem)
    (hm : Spec.IsBytes m) (a size ptr : Nat) (hsz : 0 < size) (ha : IsApp a)
    (hn : a + size ≤ 0x800000000000)
    (hl : ∀ i, i < size → labelOf m (a + i) < L.words.length) (hp : ptr < L.words.length)
    (L' : Labels) (u : Nat) (hu : loadInst avoid started L m a size ptr = .ok (L', u)) :
    u ≠ 0 ↔ (∃ i, i < size ∧ labelOf m (a + i) ≠ 0) ∨ ptr ≠ 0 := by
  have hg := hr.good h0 hcap
  rcases C45_load_instruction cap h0 hcap es L hr avoid started hs m hm a size ptr hsz ha hn hl hp with
    ⟨L2, v, es2, h1, h2, h3, h4, -⟩ | h
  · rw [hu] at h1
    cases h1
    have hg' := h2.good hg
    have hne : ∀ {M : Labels}, M.Good → ∀ l, l < M.words.length → (l ≠ 0 ↔ ∃ b, Denotes M.graph l b) := by
      intro M hM l hl
      constructor
      · intro h; exact hM.nonempty_denotes l (Nat.pos_of_ne_zero h) hl
      · rintro ⟨b, hb⟩ h
        subst h
        exact denotes_zero hM b hb
    rw [hne hg' u h3]
    constructor
    · rintro ⟨b, hb⟩
      rcases (h4 b).1 hb with ⟨i, hi, hd⟩ | hd
      · exact Or.inl ⟨i, hi, (hne hg _ (hl i hi)).2 ⟨b, hd⟩⟩
      · exact Or.inr ((hne hg _ hp).2 ⟨b, hd⟩)
    · rintro (⟨i, hi, hd⟩ | hd)
      · obtain ⟨b, hb⟩ := (hne hg _ (hl i hi)).1 hd
        exact ⟨b, (h4 b).2 (Or.inl ⟨i, hi, hb⟩)⟩
      · obtain ⟨b, hb⟩ := (hne hg _ hp).1 hd
        exact ⟨b, (h4 b).2 (Or.inr hb)⟩
  · rw [hu] at h; cases h.1

/-- A three-byte store at the start of application memory with label 3, loaded back; the store has
labels. -/
example : Reach 64 exEvents exStore ∧
    loadShadow false true exStore (storeInst false (fun _ => 0) 0x700000008000 3 7 3) 0x700000008000 3 =
      .ok (exStore, 3) ∧
    labelOf (storeInst false (fun _ => 0) 0x700000008000 3 7 3) 0x700000008003 = 0 := by
  have i0 : IsApp 0x700000008000 := ⟨by decide, by decide⟩
  have i3 : IsApp 0x700000008003 := ⟨by decide, by decide⟩
  have h := C45_store (fun _ => 0) false 0x700000008000 3 7 3 (by decide) (by decide) (by decide)
    i0 (by decide)
  refine ⟨exReach, C45_store_load (fun _ => 0) (fun _ => Nat.zero_lt_succ _) false false true exStore _ 3 7 3
    (by decide) (by decide) (by decide) (by decide) i0 (by decide), ?_⟩
  rw [h.1 _ i3]
  unfold fill
  rw [if_neg (by decide)]
  unfold labelOf Mem.read32
  rfl

end Verif
