import Verif.CustomCmp
import Verif.Spec.Compare
import Verif.CopyLemmas
import Verif.Props.C07
/- Lemmas for C56: sequences of label combinations, and the loops of the wrappers. -/
namespace Verif
open Spec Labels

/-- Outcome of a wrapper: as `CombinesTo`, with a returned value satisfying `V`. -/
def Gives {α : Type} (cap n : Nat) (L : Labels) (S : Nat × Nat → Prop) (V : α → Prop)
    (r : Res (Labels × Nat × α)) : Prop :=
  (∃ L' u v es', r = .ok (L', u, v) ∧ V v ∧ Runs L es' L' ∧ u < L'.words.length ∧
    (∀ b, Denotes L'.graph u b ↔ S b) ∧ L'.words.length ≤ L.words.length + n ∧ Quiet es') ∨
  (r = .fatal ∧ cap < L.words.length + n)

theorem CombinesTo.gives {α : Type} {cap n : Nat} {L : Labels} {S : Nat × Nat → Prop}
    {r : Res (Labels × Nat)} (h : CombinesTo cap n L S r) {V : α → Prop} {v : α} (hv : V v) :
    Gives cap n L S V (r >>= fun p => .ok (p.1, p.2, v)) := by
  rcases h with ⟨L', u, es', rfl, h⟩ | ⟨rfl, h⟩
  · exact Or.inl ⟨L', u, v, es', rfl, hv, h⟩
  · exact Or.inr ⟨rfl, h⟩

theorem CombinesTo.congr {cap n : Nat} {L : Labels} {S S' : Nat × Nat → Prop}
    {r : Res (Labels × Nat)} (h : CombinesTo cap n L S r) (hS : ∀ b, S b ↔ S' b) :
    CombinesTo cap n L S' r := by
  rcases h with ⟨L', u, es', h1, h2, h3, h4, h5⟩ | h
  · exact Or.inl ⟨L', u, es', h1, h2, h3, fun b => (h4 b).trans (hS b), h5⟩
  · exact Or.inr h

theorem Gives.mono {α : Type} {cap n k : Nat} {L : Labels} {S : Nat × Nat → Prop} {V : α → Prop}
    {r : Res (Labels × Nat × α)} (h : Gives cap n L S V r) (hk : n ≤ k) : Gives cap k L S V r := by
  rcases h with ⟨L', u, v, es', h0, h1, h2, h3, h4, h5⟩ | ⟨h1, h2⟩
  · exact Or.inl ⟨L', u, v, es', h0, h1, h2, h3, h4, by omega, h5.2⟩
  · exact Or.inr ⟨h1, by omega⟩

theorem Gives.congr {α : Type} {cap n : Nat} {L : Labels} {S S' : Nat × Nat → Prop} {V V' : α → Prop}
    {r : Res (Labels × Nat × α)} (h : Gives cap n L S V r) (hS : ∀ b, S b ↔ S' b)
    (hV : ∀ v, V v → V' v) : Gives cap n L S' V' r := by
  rcases h with ⟨L', u, v, es', h0, h1, h2, h3, h4, h5⟩ | h
  · exact Or.inl ⟨L', u, v, es', h0, hV v h1, h2, h3, fun b => (h4 b).trans (hS b), h5⟩
  · exact Or.inr h

/-- The label store in use: reachable, started, of capacity `cap`. -/
structure InUse (cap : Nat) (started : Bool) (L : Labels) : Prop where
  pos : 0 < cap
  le : cap ≤ 2 ^ 31
  reach : ∃ es, Reach cap es L
  started : Started started L

theorem InUse.good {cap : Nat} {started : Bool} {L : Labels} (h : InUse cap started L) : Good L := by
  obtain ⟨es, hr⟩ := h.reach
  exact hr.good h.pos h.le

theorem quiet_fresh {L L' : Labels} {es : List Event} (h : Runs L es L') (hq : Quiet es)
    (h1 : L.words.length = 1) : L' = L := by
  induction h with
  | nil => rfl
  | @snoc es L1 op L2 e hr ha he ih =>
    have hL := ih (fun e he => hq e (by simp [he]))
    subst hL
    obtain ⟨l, r, u, rfl⟩ := hq e (by simp)
    cases op with
    | union a b =>
      obtain ⟨h0, h1', -⟩ := ha
      omega
    | mark a =>
      obtain ⟨h0, h1'⟩ := ha
      omega
    | source a b n =>
      unfold exec at he
      simp only [Res.bind_eq_ok] at he
      obtain ⟨x, -, hx⟩ := he
      cases hx

theorem InUse.runs {cap : Nat} {started : Bool} {L L' : Labels} {es : List Event}
    (h : InUse cap started L) (hr : Runs L es L') (hq : Quiet es) : InUse cap started L' := by
  obtain ⟨es0, h0⟩ := h.reach
  refine ⟨h.pos, h.le, ⟨es0 ++ es, Runs.trans h0 hr⟩, ?_⟩
  rcases h.started with hs | hs
  · exact Or.inl hs
  · rw [quiet_fresh hr hq hs]; exact Or.inr hs

/-- Sequencing two label combinations. -/
theorem CombinesTo.bind {cap a b : Nat} {started : Bool} {L : Labels} {S S' : Nat × Nat → Prop}
    {r : Res (Labels × Nat)} {k : Labels × Nat → Res (Labels × Nat)} (hL : InUse cap started L)
    (h : CombinesTo cap a L S r)
    (hk : ∀ L' u, InUse cap started L' → L.words.length ≤ L'.words.length →
      (∀ l b, l < L.words.length → (Denotes L'.graph l b ↔ Denotes L.graph l b)) →
      u < L'.words.length → (∀ b, Denotes L'.graph u b ↔ S b) → CombinesTo cap b L' S' (k (L', u))) :
    CombinesTo cap (a + b) L S' (r >>= k) := by
  rcases h with ⟨L1, u, es1, rfl, h2, h3, h4, h5, h6⟩ | ⟨rfl, h2⟩
  · have ho := h2.old hL.good
    rcases hk L1 u (hL.runs h2 h6) ho.1 ho.2.2 h3 h4 with ⟨L2, v, es2, k1, k2, k3, k4, k5, k6⟩ | ⟨k1, k2⟩
    · exact Or.inl ⟨L2, v, es1 ++ es2, k1, h2.trans k2, k3, k4, by omega, h6.append k6⟩
    · exact Or.inr ⟨k1, by omega⟩
  · exact Or.inr ⟨rfl, by omega⟩

theorem InUse.union {cap : Nat} {started : Bool} {L : Labels} (h : InUse cap started L) {l r : Nat}
    (hl : l < L.words.length) (hr : r < L.words.length) :
    CombinesTo cap 1 L (fun b => Denotes L.graph l b ∨ Denotes L.graph r b)
      (Dfsan.union started L l r) := by
  obtain ⟨es, hre⟩ := h.reach
  exact C07_union_exact cap h.pos h.le es L hre started h.started l r hl hr

theorem InUse.read {cap : Nat} {started : Bool} {L : Labels} (h : InUse cap started L) {sh : Shadow}
    {addr size : Nat} (hsh : ∀ i, i < size → sh (addr + i) < L.words.length) :
    CombinesTo cap (size - 1) L (fun b => ∃ i, i < size ∧ Denotes L.graph (sh (addr + i)) b)
      (Dfsan.readLabel started L sh addr size) := by
  obtain ⟨es, hre⟩ := h.reach
  exact C07_read_exact cap h.pos h.le es L hre started h.started sh addr size hsh

namespace CustomCmp

theorem memcmpLabel_combines {cap : Nat} {started strict : Bool} {L : Labels} (h : InUse cap started L)
    {sh : Shadow} {s1 s2 pos : Nat} (hsh : ∀ a, sh a < L.words.length) :
    CombinesTo cap (if strict then 0 else 2 * pos) L
      (fun b => strict = false ∧ ∃ i, i < pos ∧
        (Denotes L.graph (sh (s1 + i)) b ∨ Denotes L.graph (sh (s2 + i)) b))
      (memcmpLabel strict started L sh s1 s2 pos) := by
  cases strict with
  | true =>
    exact Or.inl ⟨L, 0, [], rfl, .nil _, h.good.wf.nonempty,
      fun b => by simp [denotes_zero h.good b], by simp, .nil⟩
  | false =>
    cases pos with
    | zero =>
      refine Or.inl ⟨L, 0, [], rfl, .nil _, h.good.wf.nonempty,
        fun b => by simp [denotes_zero h.good b], by simp, .nil⟩
    | succ pos =>
    have h1 := h.read (sh := sh) (addr := s1) (size := pos + 1) (fun i _ => hsh _)
    refine CombinesTo.mono (n := pos + (pos + 1)) ?_ (by simp; omega)
    refine CombinesTo.bind h h1 (fun L1 u hL1 hle hold hu hd => ?_)
    refine CombinesTo.bind hL1 (hL1.read (sh := sh) (addr := s2) (size := pos + 1)
      (fun i _ => Nat.lt_of_lt_of_le (hsh _) hle)) (fun L2 v hL2 hle2 hold2 hv hd2 => ?_)
    refine (hL2.union (Nat.lt_of_lt_of_le hu hle2) hv).congr (fun b => ?_)
    rw [hold2 u b hu, hd, hd2]
    constructor
    · rintro (⟨i, hi, hb⟩ | ⟨i, hi, hb⟩)
      · exact ⟨rfl, i, hi, Or.inl hb⟩
      · exact ⟨rfl, i, hi, Or.inr ((hold _ b (hsh _)).1 hb)⟩
    · rintro ⟨-, i, hi, hb | hb⟩
      · exact Or.inl ⟨i, hi, hb⟩
      · exact Or.inr ⟨i, hi, (hold _ b (hsh _)).2 hb⟩

theorem bytesAnd2_combines {cap : Nat} {started : Bool} {L : Labels} (h : InUse cap started L)
    {sh : Shadow} {s len x y : Nat} (hsh : ∀ i, sh (s + i) < L.words.length)
    (hx : x < L.words.length) (hy : y < L.words.length) :
    CombinesTo cap (len + 2) L
      (fun b => (∃ i, i < len ∧ Denotes L.graph (sh (s + i)) b) ∨ Denotes L.graph x b ∨
        Denotes L.graph y b)
      (bytesAnd2 started L sh s len x y) := by
  have h1 := h.read (sh := sh) (addr := s) (size := len) (fun i _ => hsh _)
  refine CombinesTo.mono (n := (len - 1) + (1 + 1)) ?_ (by omega)
  refine CombinesTo.bind h h1 (fun L1 u hL1 hle hold hu hd => ?_)
  refine CombinesTo.bind hL1 (hL1.union (Nat.lt_of_lt_of_le hx hle) (Nat.lt_of_lt_of_le hy hle))
    (fun L2 v hL2 hle2 hold2 hv hd2 => ?_)
  refine (hL2.union (Nat.lt_of_lt_of_le hu hle2) hv).congr (fun b => ?_)
  rw [hold2 u b hu, hd, hd2, hold x b hx, hold y b hy]

theorem bytes2And2_combines {cap : Nat} {started : Bool} {L : Labels} (h : InUse cap started L)
    {sh : Shadow} {s len t tlen x y : Nat} (hsh : ∀ a, sh a < L.words.length)
    (hx : x < L.words.length) (hy : y < L.words.length) :
    CombinesTo cap (len + tlen + 3) L
      (fun b => (∃ i, i < len ∧ Denotes L.graph (sh (s + i)) b) ∨
        (∃ i, i < tlen ∧ Denotes L.graph (sh (t + i)) b) ∨ Denotes L.graph x b ∨ Denotes L.graph y b)
      (bytes2And2 started L sh s len t tlen x y) := by
  have h1 := h.read (sh := sh) (addr := s) (size := len) (fun i _ => hsh _)
  refine CombinesTo.mono (n := (len - 1) + ((tlen + 2) + 1)) ?_ (by omega)
  refine CombinesTo.bind h h1 (fun L1 u hL1 hle hold hu hd => ?_)
  refine CombinesTo.bind hL1 (bytesAnd2_combines hL1 (sh := sh) (s := t) (len := tlen)
    (fun i => Nat.lt_of_lt_of_le (hsh _) hle) (Nat.lt_of_lt_of_le hx hle)
    (Nat.lt_of_lt_of_le hy hle)) (fun L2 v hL2 hle2 hold2 hv hd2 => ?_)
  refine (hL2.union (Nat.lt_of_lt_of_le hu hle2) hv).congr (fun b => ?_)
  rw [hold2 u b hu, hd, hd2, hold x b hx, hold y b hy]
  simp only [hold _ b (hsh _)]

theorem schar_inj {a b : Nat} (ha : a < 256) (hb : b < 256) : schar a = schar b ↔ a = b := by
  unfold schar; split <;> split <;> omega

theorem schar_lt {a b : Nat} (ha : a < 256) (hb : b < 256) :
    schar a < schar b ↔ signedLt a b := by
  unfold schar signedLt; split <;> split <;> omega

theorem lowerChar_eq {b : Nat} (hb : b < 256) : lowerChar b = schar (lower b) := by
  unfold lowerChar toLower schar lower
  split <;> split <;> split <;> (try split) <;> omega

theorem lower_lt {b : Nat} (hb : b < 256) : lower b < 256 := by
  unfold lower; split <;> omega

/-- What the loops of the comparison wrappers return: the number of positions to look at, and the
difference at the last of them. -/
theorem memcmpLoop_spec {m : Mem} (hm : ∀ a, m a < 256) (s1 s2 n : Nat) : ∀ k i, i + k = n →
    (∀ j, j < i → m (s1 + j) = m (s2 + j)) →
    (∀ i', MemLooks (fun i => m (s1 + i)) (fun i => m (s2 + i)) n i' ↔
      i' < (memcmpLoop m s1 s2 k i).1) ∧
    (((memcmpLoop m s1 s2 k i).2 = 0 ∧ ∀ j, j < n → m (s1 + j) = m (s2 + j)) ∨
      ∃ p, (memcmpLoop m s1 s2 k i).1 = p + 1 ∧ (∀ j, j < p → m (s1 + j) = m (s2 + j)) ∧ p < n ∧
        m (s1 + p) ≠ m (s2 + p) ∧
        (memcmpLoop m s1 s2 k i).2 = schar (m (s1 + p)) - schar (m (s2 + p))) := by
  intro k
  induction k with
  | zero =>
    intro i hi heq
    have : i = n := by omega
    subst this
    exact ⟨fun i' => ⟨fun h => h.1, fun h => ⟨h, fun j hj => heq j (Nat.lt_trans hj h)⟩⟩,
      Or.inl ⟨rfl, heq⟩⟩
  | succ k ih =>
    intro i hi heq
    unfold memcmpLoop
    split
    · rename_i hne
      have hne' : m (s1 + i) ≠ m (s2 + i) := fun h => hne (by rw [h])
      refine ⟨fun i' => ⟨fun h => ?_, fun h => ⟨?_, fun j hj => heq j ?_⟩⟩,
        Or.inr ⟨i, rfl, heq, by omega, hne', rfl⟩⟩
      · by_cases hlt : i < i'
        · exact absurd (h.2 i hlt) hne'
        · show i' < i + 1; omega
      · replace h : i' < i + 1 := h; omega
      · replace h : i' < i + 1 := h; omega
    · rename_i he
      have he' : m (s1 + i) = m (s2 + i) :=
        (schar_inj (hm _) (hm _)).1 (Classical.byContradiction he)
      refine ih (i + 1) (by omega) (fun j hj => ?_)
      rcases Nat.lt_succ_iff_lt_or_eq.1 hj with h | rfl
      · exact heq j h
      · exact he'

theorem strncmpLoop_spec {m : Mem} (f : Nat → Int) (key : Nat → Nat)
    (hf : ∀ a b, f (m a) = f (m b) ↔ key (m a) = key (m b)) (s1 s2 : Nat) (n : Option Nat)
    (hn : n ≠ some 0) (B : Nat)
    (hB : ¬ StrLooks key (fun i => m (s1 + i)) (fun i => m (s2 + i)) n B) :
    ∀ fuel i, B ≤ i + fuel → StrLooks key (fun i => m (s1 + i)) (fun i => m (s2 + i)) n i →
    ∃ p, strncmpLoop m f s1 s2 (n.getD 0) fuel i =
        .ok (p + 1, f (m (s1 + p)) - f (m (s2 + p))) ∧
      ∀ j, StrLooks key (fun i => m (s1 + i)) (fun i => m (s2 + i)) n j ↔ j < p + 1 := by
  have hdown : ∀ {i j}, j ≤ i → StrLooks key (fun i => m (s1 + i)) (fun i => m (s2 + i)) n i →
      StrLooks key (fun i => m (s1 + i)) (fun i => m (s2 + i)) n j := by
    intro i j hij h
    exact ⟨fun N hN => Nat.lt_of_le_of_lt hij (h.1 N hN), fun k hk => h.2 k (Nat.lt_of_lt_of_le hk hij)⟩
  intro fuel
  induction fuel with
  | zero => intro i hi h; exact absurd (hdown (by omega) h) hB
  | succ fuel ih =>
    intro i hi h
    unfold strncmpLoop
    split
    · rename_i hc
      refine ⟨i, rfl, fun j => ⟨fun hj => ?_, fun hj => hdown (by omega) h⟩⟩
      apply Classical.byContradiction
      intro hlt
      have hij : i < j := by omega
      have h2 := hj.2 i hij
      rcases hc with hc | hc | hc | ⟨hc1, hc2⟩
      · exact hc ((hf _ _).2 h2.1)
      · exact h2.2.1 hc
      · exact h2.2.2 hc
      · cases n with
        | none => simp at hc1
        | some N =>
          have := hj.1 N rfl
          simp only [Option.getD_some] at hc1 hc2
          omega
    · rename_i hc
      simp only [not_or, not_and] at hc
      refine ih (i + 1) (by omega) ⟨fun N hN => ?_, fun j hj => ?_⟩
      · subst hN
        have h1 := h.1 N rfl
        have := hc.2.2.2 (by simp only [Option.getD_some]; omega)
        simp only [Option.getD_some] at this
        omega
      · rcases Nat.lt_succ_iff_lt_or_eq.1 hj with hlt | rfl
        · exact h.2 j hlt
        · exact ⟨(hf _ _).1 (Classical.byContradiction hc.1), hc.2.1, hc.2.2.1⟩

/-- The difference at the last position looked at is the result of a comparison in the order of signed
characters. -/
theorem compares_of_last {key : Nat → Nat} {x y : Nat → Nat} {looks : Nat → Prop} {p : Nat}
    (hx : ∀ i, key (x i) < 256) (hy : ∀ i, key (y i) < 256)
    (hl : ∀ j, looks j ↔ j < p + 1) (heq : ∀ j, j < p → key (x j) = key (y j)) :
    Compares signedLt key x y looks (schar (key (x p)) - schar (key (y p))) := by
  have hirr : ∀ a, ¬ signedLt a a := fun a => Nat.lt_irrefl _
  have last : ∀ i, looks i → key (x i) ≠ key (y i) → i = p := by
    intro i hi hne
    have := (hl i).1 hi
    by_cases h : i < p
    · exact absurd (heq i h) hne
    · omega
  refine ⟨⟨fun h i hi => ?_, fun h => ?_⟩, fun i hi hlt => ?_, fun i hi hlt => ?_⟩
  · apply Classical.byContradiction
    intro hne
    have := last i hi hne
    subst this
    exact hne ((schar_inj (hx _) (hy _)).1 (by omega))
  · rw [h p ((hl p).2 (by omega))]; omega
  · have := last i hi (fun he => by rw [he] at hlt; exact hirr _ hlt)
    subst this
    have := (schar_lt (hx i) (hy i)).2 hlt
    omega
  · have := last i hi (fun he => by rw [he] at hlt; exact hirr _ hlt)
    subst this
    have := (schar_lt (hy i) (hx i)).2 hlt
    omega

end CustomCmp
end Verif
