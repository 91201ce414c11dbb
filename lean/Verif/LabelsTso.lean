import Verif.LabelsWeakLemmas
/- Helper lemmas: every execution of the store-buffer machine is one of the machine with old values. -/
namespace Verif
open Spec

namespace TSys
open Labels CSys

theorem after_append (m : Nat → Nat) (a b : List Item) : after m (a ++ b) = after (after m a) b := by
  induction a generalizing m with
  | nil => rfl
  | cons i a ih => cases i <;> exact ih _

theorem after_congr {m m' : Nat → Nat} {x : Nat} (h : m x = m' x) (b : List Item) : after m b x = after m' b x := by
  induction b generalizing m m' with
  | nil => exact h
  | cons i b ih =>
    cases i with
    | word a w =>
      refine ih ?_
      by_cases e : x = a
      · simp [e]
      · simp [e, h]
    | _ => exact ih h

theorem sizeAfter_append (s : Nat) (a b : List Item) : sizeAfter s (a ++ b) = sizeAfter (sizeAfter s a) b := by
  induction a generalizing s with
  | nil => rfl
  | cons i a ih => cases i <;> exact ih _

/-- Stores of flags to words below `n`, and results passed on. -/
def Late (M : List Nat) (n : Nat) (b : List Item) : Prop := ∀ i ∈ b,
  (∃ a w, i = .word a w ∧ a < n ∧ M[a]? = some w ∧ addCf w = w) ∨ ∃ e, i = .ret e

/-- Stores made holding the mutex. -/
def Held (P n : Nat) (b : List Item) : Prop := ∀ i ∈ b,
  (∃ a w, i = .word a w ∧ P ≤ a ∧ a < n) ∨ i = .size n

theorem Late.tail {M n i b} (h : Late M n (i :: b)) : Late M n b := fun x hx => h x (List.mem_cons_of_mem _ hx)
theorem Held.tail {P n i b} (h : Held P n (i :: b)) : Held P n b := fun x hx => h x (List.mem_cons_of_mem _ hx)

theorem Late.sizeAfter {M n b} (h : Late M n b) (s : Nat) : TSys.sizeAfter s b = s := by
  induction b with
  | nil => rfl
  | cons i b ih =>
    rcases h i (List.mem_cons_self ..) with ⟨a, w, rfl, -⟩ | ⟨e, rfl⟩ <;> exact ih h.tail

theorem Late.mono {M n n' b} (h : Late M n b) (hn : n ≤ n') : Late M n' b := by
  intro i hi
  rcases h i hi with ⟨a, w, e, ha, hw⟩ | h'
  · exact Or.inl ⟨a, w, e, by omega, hw⟩
  · exact Or.inr h'

theorem Late.append {M n a b} (h : Late M n a) (h' : Late M n b) : Late M n (a ++ b) := by
  intro i hi
  rcases List.mem_append.1 hi with hi | hi
  · exact h i hi
  · exact h' i hi

theorem late_rets (M : List Nat) (n : Nat) (es : List Event) : Late M n (es.map .ret) := by
  intro i hi
  obtain ⟨e, -, rfl⟩ := List.mem_map.1 hi
  exact Or.inr ⟨e, rfl⟩

theorem Late.congr {M M' : List Nat} {n b} (h : Late M n b)
    (hM : ∀ a w, a < n → M[a]? = some w → addCf w = w → M'[a]? = some w) : Late M' n b := by
  intro i hi
  rcases h i hi with ⟨a, w, e, ha, hw, hc⟩ | h'
  · exact Or.inl ⟨a, w, e, ha, hM a w ha hw hc, hc⟩
  · exact Or.inr h'

/-- A load through flag stores gives a value the word has or had. -/
theorem Late.has {S : WSys} {n : Nat} {b : List Item} (h : Late S.sys.mem n b) {m : Nat → Nat} {a : Nat}
    (hm : S.Has a (m a)) : S.Has a (after m b a) := by
  induction b generalizing m with
  | nil => exact hm
  | cons i b ih =>
    rcases h i (List.mem_cons_self ..) with ⟨x, w, rfl, -, hw, -⟩ | ⟨e, rfl⟩
    · refine ih h.tail ?_
      by_cases e : a = x
      · subst e; simp only [if_true]; exact Or.inl hw
      · simp only [e, if_false]; exact hm
    · exact ih h.tail hm

theorem Held.low {P n b} (h : Held P n b) (m : Nat → Nat) {a : Nat} (ha : a < P) : after m b a = m a := by
  induction b generalizing m with
  | nil => rfl
  | cons i b ih =>
    rcases h i (List.mem_cons_self ..) with ⟨x, w, rfl, hx, -⟩ | rfl
    · rw [after, ih h.tail]; rw [if_neg (by omega)]
    · exact ih h.tail m

/-- First of the words reserved by a thread holding the mutex. -/
def base : PC → Option Nat
  | .uWrite _ _ _ idx => some idx
  | .uUnlock _ _ idx => some idx
  | .sWrite _ _ _ first _ => some first
  | _ => none

/-- The thread handles only labels below `P`. -/
structure Below (P : Nat) (pc : PC) : Prop where
  ops : ∀ l ∈ operands pc, l < P
  root : ∀ x, CSys.root pc = some x → x < P
  scan : ∀ l r e i n, pc = .uScan l r e i n → i ≤ P

/-- The thread whose acquisition of the mutex is in memory: inside the critical section, or outside
with the release still in its buffer. -/
inductive Owner (T : TSys) (S : WSys) (P t : Nat) : Prop where
  | inside : InCS (T.threads t) → base (T.threads t) = some P → sizeAfter T.size (T.buf t) = S.sys.mem.length →
      Held P S.sys.mem.length (T.buf t) →
      (∀ a, P ≤ a → a < S.sys.mem.length → S.sys.mem[a]? = some (after T.mem (T.buf t) a)) → Owner T S P t
  | outside (pre post : List Item) : ¬ InCS (T.threads t) → T.buf t = pre ++ .unlock :: post →
      sizeAfter T.size pre = S.sys.mem.length → Held P S.sys.mem.length pre → Late S.sys.mem S.sys.mem.length post →
      (∀ a, P ≤ a → a < S.sys.mem.length → S.Has a (after T.mem pre a) ∧
        (S.sys.mem[a]? = some (after T.mem pre a) ∨ ∃ w, S.sys.mem[a]? = some w ∧ .word a w ∈ post)) → Owner T S P t

/-- The two machines are in corresponding states; the first `P` words are published to all threads. -/
structure Rel (T : TSys) (S : WSys) (P : Nat) : Prop where
  cap : S.sys.cap = T.cap
  threads : S.sys.threads = T.threads
  log : S.sys.log = T.log
  lock : ∀ t, S.sys.lock = some t → T.lock = some t
  le : P ≤ S.sys.mem.length
  pos : 0 < P
  sizeP : P ≤ T.size
  free : T.lock = none → P = S.sys.mem.length ∧ T.size = S.sys.mem.length
  others : ∀ t, T.lock ≠ some t → Late S.sys.mem P (T.buf t)
  owner : ∀ t, T.lock = some t → Owner T S P t
  low : ∀ a, a < P → S.Has a (T.mem a) ∧
    (S.sys.mem[a]? = some (T.mem a) ∨ ∃ t w, S.sys.mem[a]? = some w ∧ .word a w ∈ T.buf t)
  zero : ∀ a, S.sys.mem.length ≤ a → T.mem a = 0
  seen : ∀ e ∈ T.seen, e ∈ T.log ∧ ∀ l, Returned e l → l < P
  rets : ∀ t e, .ret e ∈ T.buf t → e ∈ T.log ∧ (T.lock ≠ some t → ∀ l, Returned e l → l < P)
  pcs : ∀ t, T.lock ≠ some t → Below P (T.threads t)

theorem below_inv {S : CSys} {V : Labels} {tail : List Nat} (h : Inv S V tail) (t : Nat) :
    Below V.words.length (S.threads t) := by
  have hloc := h.loc t
  refine ⟨fun l hl => (h.known l (h.ops t l hl)).2, fun x hx => ?_, fun l r e i n he => ?_⟩
  · cases hpc : S.threads t with
    | mChild => rw [hpc] at hx hloc; cases hx; exact hloc.2.1.2
    | mSrcLoad => rw [hpc] at hx hloc; cases hx; exact hloc.1.2.1.2
    | mSrcStore => rw [hpc] at hx hloc; cases hx; exact hloc.1.2.1.2
    | mPop => rw [hpc] at hx hloc; cases hx; exact hloc.2.1.2
    | mEnc => rw [hpc] at hx hloc; cases hx; exact hloc.2.1.2
    | mSetLoad => rw [hpc] at hx hloc; cases hx; exact hloc.1.2.1.2
    | mSetStore => rw [hpc] at hx hloc; cases hx; exact hloc.1.2.1.2
    | _ => rw [hpc] at hx; cases hx
  · rw [he] at hloc; exact hloc.2.2.2.2

theorem loads_below {S : CSys} {V : Labels} {tail : List Nat} (h : Inv S V tail) {t a P : Nat}
    (hb : Below P (S.threads t)) (ha : loads (S.threads t) = some a) : a < P := by
  have hloc := h.loc t
  cases hpc : S.threads t with
  | uLeft l r => rw [hpc] at ha hb; cases ha; exact hb.ops _ (by simp [operands])
  | uRight l r lv => rw [hpc] at ha hb; cases ha; exact hb.ops _ (by simp [operands])
  | uScan l r e i n =>
    rw [hpc] at ha hb hloc
    cases n with
    | zero => cases ha
    | succ n =>
      cases ha
      have := hb.scan _ _ _ _ _ rfl
      have := hloc.2.2.2.1
      omega
  | mChild x q c rest =>
    rw [hpc] at ha hb hloc; cases ha
    exact Nat.lt_of_le_of_lt (builtFrom_le h.wf (hloc.2.2.1 _ (by simp [owed])).2) (hb.root x rfl)
  | mSrcLoad x q c rest =>
    rw [hpc] at ha hb hloc; cases ha
    exact Nat.lt_of_le_of_lt (builtFrom_le h.wf (hloc.1.2.2.1 _ (by simp [owed])).2) (hb.root x rfl)
  | mEnc x q l =>
    rw [hpc] at ha hb hloc; cases ha
    exact Nat.lt_of_le_of_lt (builtFrom_le h.wf (hloc.2.2.1 _ (by simp [owed])).2) (hb.root x rfl)
  | mSetLoad x q l e =>
    rw [hpc] at ha hb hloc; cases ha
    exact Nat.lt_of_le_of_lt (builtFrom_le h.wf (hloc.1.2.2.1 _ (by simp [owed])).2) (hb.root x rfl)
  | _ => rw [hpc] at ha; cases ha

theorem compute_label {l r u : Nat} {a b : Taint} (h : compute l a r b = .label u) : u = l ∨ u = r := by
  cases a <;> cases b <;> simp only [compute, unionSource, rangeSource, unionRange, unionRangeTail] at h <;>
    (repeat' split at h) <;> simp_all

/-- What a thread goes on with, and what it returns, is below the same bound. -/
theorem react_below {pc : PC} {w P : Nat} {p : PC × List Event} (hb : Below P pc) (hscan : ∀ l r e i n, pc = .uScan l r e i n → 0 < i)
    (h : react pc w = .ok p) : Below P p.1 ∧ ∀ e ∈ p.2, ∀ l, Returned e l → l < P := by
  have hnext : ∀ x q rest, x < P → Below P (next x q rest) := by
    intro x q rest hx
    refine ⟨by simp [operands_next], fun y hy => ?_, fun l r e i n he => ?_⟩
    · rw [root_next] at hy; cases hy; exact hx
    · cases rest <;> cases he
  have simple : ∀ pc', (∀ l ∈ operands pc', l < P) → (∀ x, CSys.root pc' = some x → x < P) →
      (∀ l r e i n, pc' ≠ .uScan l r e i n) → Below P pc' := fun pc' h1 h2 h3 => ⟨h1, h2, fun l r e i n he => (h3 l r e i n he).elim⟩
  cases pc with
  | uLeft l r =>
    simp only [react, Res.bind_eq_ok, Res.pure_eq] at h
    obtain ⟨lv, -, h⟩ := h; cases h
    exact ⟨simple _ (fun k hk => hb.ops k hk) (by simp [CSys.root]) (by simp), by simp⟩
  | uRight l r lv =>
    simp only [react, Res.bind_eq_ok] at h
    obtain ⟨rv, -, h⟩ := h
    cases hc : compute l lv r rv with
    | label u =>
      rw [hc] at h; cases h
      refine ⟨simple _ (by simp [operands]) (by simp [CSys.root]) (by simp), ?_⟩
      intro e he k hk
      simp only [List.mem_singleton] at he
      subst he
      cases (hk : k = u)
      rcases compute_label hc with rfl | rfl <;> exact hb.ops _ (by simp [operands])
    | taint ty =>
      rw [hc] at h; cases h
      exact ⟨simple _ (fun k hk => hb.ops k hk) (by simp [CSys.root]) (by simp), by simp⟩
  | uScan l r e i n =>
    have hi := hb.scan _ _ _ _ _ rfl
    have h0 := hscan _ _ _ _ _ rfl
    cases n with
    | zero => simp only [react] at h; cases h; exact ⟨hb, by simp⟩
    | succ n =>
      simp only [react] at h
      split at h
      · cases h
        refine ⟨simple _ (by simp [operands]) (by simp [CSys.root]) (by simp), ?_⟩
        intro e' he k hk
        simp only [List.mem_singleton] at he
        subst he
        cases (hk : k = i - 1)
        omega
      · cases h
        exact ⟨⟨fun k hk => hb.ops k hk, by simp [CSys.root], fun _ _ _ i' _ he => by cases he; omega⟩, by simp⟩
  | mChild x q c rest =>
    have hx := hb.root x rfl
    simp only [react] at h
    split at h
    · cases h; exact ⟨hnext x q rest hx, by simp⟩
    · split at h
      · cases h
        exact ⟨simple _ (by simp [operands]) (fun y hy => by cases hy; exact hx) (by simp), by simp⟩
      · simp only [Res.bind_eq_ok, Res.pure_eq] at h
        obtain ⟨q', -, h⟩ := h; cases h
        exact ⟨hnext x q' rest hx, by simp⟩
  | mSrcLoad x q c rest =>
    simp only [react] at h; cases h
    exact ⟨simple _ (by simp [operands]) (fun y hy => by cases hy; exact hb.root x rfl) (by simp), by simp⟩
  | mEnc x q l =>
    simp only [react] at h; cases h
    exact ⟨simple _ (by simp [operands]) (fun y hy => by cases hy; exact hb.root x rfl) (by simp), by simp⟩
  | mSetLoad x q l e =>
    simp only [react] at h; cases h
    exact ⟨simple _ (by simp [operands]) (fun y hy => by cases hy; exact hb.root x rfl) (by simp), by simp⟩
  | _ => simp only [react] at h; cases h; exact ⟨hb, by simp⟩

end TSys
end Verif
