import Verif.Dfsan
import Verif.HistoryLemmas
import Verif.Examples.Store
/- C07: combining shadow labels respects untainted and equal values. -/
namespace Verif
open Spec Labels

/-- Either the tracker has been started, or the label store is still fresh. -/
def Started (started : Bool) (L : Labels) : Prop := started = true ∨ L.words.length = 1

/-- Combining with label 0 returns the other label and combining equal labels returns that label;
nothing is stored, in any state of the store. -/
theorem C07_zero_equal (started : Bool) (L : Labels) (l : Nat) :
    Dfsan.union started L 0 l = .ok (L, l) ∧ Dfsan.union started L l 0 = .ok (L, l) ∧
    Dfsan.union started L l l = .ok (L, l) := by
  refine ⟨?_, ?_, ?_⟩
  · by_cases h : 0 = l
    · simp [Dfsan.union, h]
    · simp [Dfsan.union, Dfsan.union', h]
  · by_cases h : l = 0
    · simp [Dfsan.union, h]
    · simp [Dfsan.union, Dfsan.union', h]
  · simp [Dfsan.union]

/-- Labels were combined, but no source was added and no label was reported to affect control flow. -/
def Quiet (es : List Event) : Prop := ∀ e ∈ es, ∃ l r u, e = .union l r u

theorem Quiet.nil : Quiet [] := fun _ h => by cases h

theorem Quiet.append {es es' : List Event} (h : Quiet es) (h' : Quiet es') : Quiet (es ++ es') := by
  intro e hl
  rcases List.mem_append.1 hl with hl | hl
  · exact h e hl
  · exact h' e hl

/-- Outcome of a computation that combines labels: it succeeds after some permitted calls to the
store that made at most `n` new labels, all of them unions, and flagged none, with a label meaning `S`; or it ended the program,
and then the store of capacity `cap` had no room for `n` more labels. -/
def CombinesTo (cap n : Nat) (L : Labels) (S : Nat × Nat → Prop) (r : Res (Labels × Nat)) : Prop :=
  (∃ L' u es', r = .ok (L', u) ∧ Runs L es' L' ∧ u < L'.words.length ∧
    (∀ b, Denotes L'.graph u b ↔ S b) ∧ L'.words.length ≤ L.words.length + n ∧ Quiet es') ∨
  (r = .fatal ∧ cap < L.words.length + n)

theorem CombinesTo.mono {cap n k : Nat} {L : Labels} {S : Nat × Nat → Prop} {r : Res (Labels × Nat)}
    (h : CombinesTo cap n L S r) (hk : n ≤ k) : CombinesTo cap k L S r := by
  rcases h with ⟨L', u, es', h1, h2, h3, h4, h5⟩ | ⟨h1, h2⟩
  · exact Or.inl ⟨L', u, es', h1, h2, h3, h4, by omega, h5.2⟩
  · exact Or.inr ⟨h1, by omega⟩

theorem denotes_zero {L : Labels} (hg : Good L) (b : Nat × Nat) : ¬ Denotes L.graph 0 b :=
  denotes_none (hg.wf.graph.none 0 (Or.inl rfl)) b

theorem Labels.Good.nonempty_denotes {L : Labels} (hg : Good L) : ∀ l, 0 < l → l < L.words.length →
    ∃ b, Denotes L.graph l b := by
  intro l
  induction l using Nat.strongRecOn with
  | _ l ih =>
    intro h0 hl
    obtain ⟨t, ht, hL, hr⟩ := hg.wf.read h0 hl
    cases t with
    | source c i o => exact ⟨_, .source ht⟩
    | range c f e =>
      have := hr f ⟨Nat.le_refl _, Nat.le_of_lt hL.1⟩
      obtain ⟨b, hb⟩ := ih f this.2 this.1 (by omega)
      exact ⟨b, .range ht (Nat.le_refl _) (Nat.le_of_lt hL.1) hb⟩
    | union c lo hi =>
      have := hr lo (Or.inl rfl)
      obtain ⟨b, hb⟩ := ih lo this.2 this.1 (by omega)
      exact ⟨b, .lower ht hb⟩

theorem union'_combines {cap : Nat} {started : Bool} {L : Labels} (hg : Good L)
    (hc : L.cap = cap) (hs : Started started L) {l r : Nat}
    (hl : l < L.words.length) (hr : r < L.words.length) :
    CombinesTo cap 1 L (fun b => Denotes L.graph l b ∨ Denotes L.graph r b)
      (Dfsan.union' started L l r) := by
  unfold Dfsan.union'
  split
  · rename_i h; subst h
    exact Or.inl ⟨L, r, [], rfl, .nil _, hr, fun b => by simp [denotes_zero hg b], by omega, .nil⟩
  split
  · rename_i h; subst h
    exact Or.inl ⟨L, l, [], rfl, .nil _, hl, fun b => by simp [denotes_zero hg b], by omega, .nil⟩
  rename_i h1 h2
  have hst : started = true := by
    rcases hs with h | h
    · exact h
    · omega
  rw [Dfsan.unionTable, if_pos hst]
  have ha : L.Allowed (.union l r) := ⟨by omega, hl, by omega, hr⟩
  rcases unionTaint_spec hg.wf (by omega) hl (by omega) hr with
    ⟨h1, h2⟩ | ⟨L', u, h1, -, -, h4, h5, h6⟩
  · exact Or.inr ⟨h1, by omega⟩
  · refine Or.inl ⟨L', u, [.union l r u], h1, .snoc (es := []) (.nil _) ha (by simp [exec, h1]), h4, h6, ?_⟩
    refine ⟨?_, fun x hx => ⟨l, r, u, by simpa using hx⟩⟩
    rcases h5 with rfl | ⟨-, w, -, rfl⟩
    · omega
    · simp

theorem runs_cap {L L' : Labels} {es : List Event} (h : Runs L es L') (hg : Good L) :
    L'.cap = L.cap := by
  induction h with
  | nil => rfl
  | snoc hr ha he ih => rw [(step_of_exec (hr.good hg) ha he).cap, ih]

theorem started_mono {started : Bool} {L L' : Labels} (hs : Started started L)
    (hstep : started = false → L' = L) : Started started L' := by
  rcases hs with h1 | h1
  · exact Or.inl h1
  · cases started with
    | true => exact Or.inl rfl
    | false => rw [hstep rfl]; exact Or.inr h1

theorem union'_unstarted {L L' : Labels} {l r u : Nat}
    (h : Dfsan.union' false L l r = .ok (L', u)) : L' = L := by
  unfold Dfsan.union' Dfsan.unionTable at h
  split at h
  · cases h; rfl
  split at h
  · cases h; rfl
  · simp at h; exact h.1.symm

theorem loadLoop_combines {cap : Nat} {started : Bool} : ∀ (ls : List Nat) {L : Labels} (_ : Good L)
    (_ : L.cap = cap) (_ : Started started L) {l : Nat} (_ : l < L.words.length)
    (_ : ∀ x ∈ ls, x < L.words.length),
    CombinesTo cap ls.length L (fun b => ∃ x ∈ l :: ls, Denotes L.graph x b)
      (Dfsan.loadLoop started L l ls) := by
  intro ls
  induction ls with
  | nil =>
    intro L _ _ _ l hl _
    exact Or.inl ⟨L, l, [], rfl, .nil _, hl, fun b => by simp, by omega, .nil⟩
  | cons x ls ih =>
    intro L hg hc hs l hl hls
    have hx := hls x (by simp)
    unfold Dfsan.loadLoop
    split
    · rcases union'_combines hg hc hs hl hx with ⟨L1, u, es1, h1, h2, h3, h4, h5⟩ | ⟨h1, h2⟩
      · rw [h1]
        simp only [Res.bind_ok]
        have hlen := (h2.old hg).1
        have hg1 := h2.good hg
        have hs1 : Started started L1 := started_mono hs
          (fun h => by subst h; exact union'_unstarted h1)
        rcases ih hg1 ((runs_cap h2 hg).trans hc) hs1 h3
          (fun y hy => Nat.lt_of_lt_of_le (hls y (by simp [hy])) hlen) with
          ⟨L2, v, es2, k1, k2, k3, k4, k5⟩ | ⟨k1, k2⟩
        · refine Or.inl ⟨L2, v, es1 ++ es2, k1, h2.trans k2, k3, fun b => ?_,
            by simp only [List.length_cons]; omega, h5.2.append k5.2⟩
          rw [k4]
          constructor
          · rintro ⟨y, hy, hd⟩
            rcases List.mem_cons.1 hy with rfl | hy
            · rcases (h4 b).1 hd with h | h
              · exact ⟨l, by simp, h⟩
              · exact ⟨x, by simp, h⟩
            · exact ⟨y, by simp [hy], ((h2.old hg).2.2 y b (hls y (by simp [hy]))).1 hd⟩
          · rintro ⟨y, hy, hd⟩
            rcases List.mem_cons.1 hy with rfl | hy
            · exact ⟨u, by simp, (h4 b).2 (Or.inl hd)⟩
            · rcases List.mem_cons.1 hy with rfl | hy
              · exact ⟨u, by simp, (h4 b).2 (Or.inr hd)⟩
              · exact ⟨y, by simp [hy], ((h2.old hg).2.2 y b (hls y (by simp [hy]))).2 hd⟩
        · exact Or.inr ⟨k1, by simp only [List.length_cons]; omega⟩
      · rw [h1]; exact Or.inr ⟨rfl, by simp only [List.length_cons]; omega⟩
    · rename_i hne
      have hlx : l = x := by simpa using hne
      subst hlx
      rcases ih hg hc hs hl (fun y hy => hls y (by simp [hy])) with
          ⟨L2, v, es2, k1, k2, k3, k4, k5⟩ | ⟨k1, k2⟩
      · refine Or.inl ⟨L2, v, es2, k1, k2, k3, fun b => ?_, by simp only [List.length_cons]; omega, k5.2⟩
        rw [k4]
        simp
      · exact Or.inr ⟨k1, by simp only [List.length_cons]; omega⟩

/-- Combining two labels (0 included) at the instrumentation interface denotes exactly the union of
the two sets, label 0 denoting the empty set. It makes at most one new label, and the only failure is a
full label section; so label 0
never reaches the store as an operand (that would end the program, see `C07_zero_operand`). -/
theorem C07_union_exact (cap : Nat) (h0 : 0 < cap) (hcap : cap ≤ 2 ^ 31) (es : List Event)
    (L : Labels) (hr : Reach cap es L) (started : Bool) (hs : Started started L) (l r : Nat)
    (hl : l < L.words.length) (hr' : r < L.words.length) :
    CombinesTo cap 1 L (fun b => Denotes L.graph l b ∨ Denotes L.graph r b)
      (Dfsan.union started L l r) := by
  unfold Dfsan.union
  split
  · rename_i h; subst h
    exact Or.inl ⟨L, l, [], rfl, .nil _, hl, fun b => by simp, by omega, .nil⟩
  · exact union'_combines (hr.good h0 hcap) (hr.cap h0 hcap) hs hl hr'

/-- Reading the label of an `n`-byte range denotes exactly the union over its bytes. It makes at most
`n - 1` new labels and fails only if these do not fit. -/
theorem C07_read_exact (cap : Nat) (h0 : 0 < cap) (hcap : cap ≤ 2 ^ 31) (es : List Event)
    (L : Labels) (hr : Reach cap es L) (started : Bool) (hs : Started started L) (sh : Shadow)
    (addr size : Nat) (hsh : ∀ i, i < size → sh (addr + i) < L.words.length) :
    CombinesTo cap (size - 1) L (fun b => ∃ i, i < size ∧ Denotes L.graph (sh (addr + i)) b)
      (Dfsan.readLabel started L sh addr size) := by
  have hg := hr.good h0 hcap
  unfold Dfsan.readLabel
  split
  · rename_i h; subst h
    exact Or.inl ⟨L, 0, [], rfl, .nil _, hg.wf.nonempty, fun b => by simp [denotes_zero hg b], by omega, .nil⟩
  · rename_i h
    obtain ⟨n, rfl⟩ : ∃ n, size = n + 1 := ⟨size - 1, by omega⟩
    rw [List.range_succ_eq_map]
    simp only [List.map_cons, List.map_map, Dfsan.unionLoad]
    rcases loadLoop_combines (List.map ((fun i => sh (addr + i)) ∘ Nat.succ) (List.range n)) hg
      (hr.cap h0 hcap) hs (hsh 0 (by omega)) (by
        intro x hx
        simp only [List.mem_map, List.mem_range, Function.comp] at hx
        obtain ⟨i, hi, rfl⟩ := hx
        exact hsh _ (by omega)) with ⟨L2, v, es2, k1, k2, k3, k4, k5⟩ | ⟨k1, k2⟩
    · refine Or.inl ⟨L2, v, es2, k1, k2, k3, fun b => ?_, by simpa using k5.1, k5.2⟩
      rw [k4]
      constructor
      · rintro ⟨x, hx, hd⟩
        rcases List.mem_cons.1 hx with rfl | hx
        · exact ⟨0, by omega, hd⟩
        · simp only [List.mem_map, List.mem_range, Function.comp] at hx
          obtain ⟨i, hi, rfl⟩ := hx
          exact ⟨i + 1, by omega, hd⟩
      · rintro ⟨i, hi, hd⟩
        cases i with
        | zero => exact ⟨_, by simp, hd⟩
        | succ i =>
          refine ⟨sh (addr + (i + 1)), ?_, hd⟩
          simp only [List.mem_cons, List.mem_map, List.mem_range, Function.comp]
          exact Or.inr ⟨i, by omega, rfl⟩
    · exact Or.inr ⟨k1, by simpa using k2⟩

/-- The combined label is 0 ("untainted") exactly when every byte is untainted. -/
theorem C07_read_zero_iff (cap : Nat) (h0 : 0 < cap) (hcap : cap ≤ 2 ^ 31) (es : List Event)
    (L : Labels) (hr : Reach cap es L) (started : Bool) (hs : Started started L) (sh : Shadow)
    (addr size : Nat) (hsh : ∀ i, i < size → sh (addr + i) < L.words.length) (L' : Labels) (u : Nat)
    (h : Dfsan.readLabel started L sh addr size = .ok (L', u)) :
    u = 0 ↔ ∀ i, i < size → sh (addr + i) = 0 := by
  have hg := hr.good h0 hcap
  rcases C07_read_exact cap h0 hcap es L hr started hs sh addr size hsh with
    ⟨L2, v, es2, k1, k2, k3, k4, -⟩ | ⟨k, -⟩
  · rw [h] at k1; cases k1
    have hg2 := k2.good hg
    constructor
    · intro hu i hi
      subst hu
      by_cases hz : sh (addr + i) = 0
      · exact hz
      · obtain ⟨b, hb⟩ := hg.nonempty_denotes _ (Nat.pos_of_ne_zero hz) (hsh i hi)
        exact absurd ((k4 b).2 ⟨i, hi, hb⟩) (denotes_zero hg2 b)
    · intro hz
      by_cases hu : u = 0
      · exact hu
      · obtain ⟨b, hb⟩ := hg2.nonempty_denotes u (Nat.pos_of_ne_zero hu) k3
        obtain ⟨i, hi, hd⟩ := (k4 b).1 hb
        rw [hz i hi] at hd
        exact absurd hd (denotes_zero hg b)
  · rw [h] at k; cases k

theorem addLoop_exact {cap : Nat} {started : Bool} {label : Nat} :
    ∀ (size addr : Nat) {L : Labels} {sh : Shadow} (_ : Good L) (_ : L.cap = cap)
    (_ : Started started L) (_ : label < L.words.length)
    (_ : ∀ i, i < size → sh (addr + i) < L.words.length),
    (∃ L' sh' es', Dfsan.addLoop started label addr size L sh = .ok (L', sh') ∧ Runs L es' L' ∧
      (∀ i, i < size → sh' (addr + i) < L'.words.length ∧ ∀ b, Denotes L'.graph (sh' (addr + i)) b ↔
        Denotes L.graph (sh (addr + i)) b ∨ Denotes L.graph label b) ∧
      (∀ a, (a < addr ∨ addr + size ≤ a) → sh' a = sh a) ∧
      L'.words.length ≤ L.words.length + size) ∨
    (Dfsan.addLoop started label addr size L sh = .fatal ∧
      cap < L.words.length + size) := by
  intro size
  induction size with
  | zero =>
    intro addr L sh hg hc hs hl hsh
    exact Or.inl ⟨L, sh, [], rfl, .nil _, fun i hi => by omega, fun _ _ => rfl, by omega⟩
  | succ n ih =>
    intro addr L sh hg hc hs hl hsh
    unfold Dfsan.addLoop
    have h00 := hsh 0 (by omega)
    rw [Nat.add_zero] at h00
    split
    · rename_i hne
      rcases union'_combines hg hc hs h00 hl with ⟨L1, u, es1, h1, h2, h3, h4, h5⟩ | ⟨h1, h2⟩
      · rw [h1]
        simp only [Res.bind_ok]
        have hold := h2.old hg
        have hg1 := h2.good hg
        have hs1 : Started started L1 := started_mono hs
          (fun h => by subst h; exact union'_unstarted h1)
        have hupd : ∀ a, a ≠ addr → Dfsan.upd sh addr u a = sh a := fun a ha => by
          simp [Dfsan.upd, ha]
        rcases ih (addr + 1) (sh := Dfsan.upd sh addr u) hg1 ((runs_cap h2 hg).trans hc) hs1
          (Nat.lt_of_lt_of_le hl hold.1) (fun i hi => by
            rw [hupd _ (by omega)]
            have := hsh (i + 1) (by omega)
            rw [show addr + 1 + i = addr + (i + 1) by omega]
            exact Nat.lt_of_lt_of_le this hold.1) with
          ⟨L2, sh2, es2, k1, k2, k3, k4, k5⟩ | ⟨k1, k2⟩
        · have hold2 := k2.old hg1
          have hsh2 : sh2 addr = u := by
            rw [k4 addr (Or.inl (by omega))]; simp [Dfsan.upd]
          refine Or.inl ⟨L2, sh2, es1 ++ es2, k1, h2.trans k2, ?_, ?_, by omega⟩
          · intro i hi
            cases i with
            | zero =>
              rw [Nat.add_zero, hsh2]
              exact ⟨Nat.lt_of_lt_of_le h3 hold2.1, fun b => by rw [hold2.2.2 u b h3, h4 b]⟩
            | succ i =>
              have hk := k3 i (by omega)
              rw [show addr + 1 + i = addr + (i + 1) by omega] at hk
              refine ⟨hk.1, fun b => ?_⟩
              rw [hk.2 b, hupd _ (by omega), hold.2.2 _ b (hsh (i + 1) hi), hold.2.2 _ b hl]
          · intro a ha
            rw [k4 a (by omega), hupd a (by omega)]
        · exact Or.inr ⟨k1, by omega⟩
      · rw [h1]; exact Or.inr ⟨rfl, by omega⟩
    · rename_i hne
      have heq : sh addr = label := by simpa using hne
      rcases ih (addr + 1) (sh := sh) hg hc hs hl (fun i hi => by
          rw [show addr + 1 + i = addr + (i + 1) by omega]; exact hsh (i + 1) (by omega)) with
          ⟨L2, sh2, es2, k1, k2, k3, k4, k5⟩ | ⟨k1, k2⟩
      · have hold2 := k2.old hg
        refine Or.inl ⟨L2, sh2, es2, k1, k2, ?_, fun a ha => k4 a (by omega), by omega⟩
        intro i hi
        cases i with
        | zero =>
          rw [Nat.add_zero, k4 addr (Or.inl (by omega)), heq]
          exact ⟨Nat.lt_of_lt_of_le hl hold2.1, fun b => by rw [hold2.2.2 label b hl]; simp⟩
        | succ i =>
          have hk := k3 i (by omega)
          rw [show addr + 1 + i = addr + (i + 1) by omega] at hk
          exact hk
      · exact Or.inr ⟨k1, by omega⟩

/-- Adding a label to a memory range: every byte of the range afterwards denotes what it denoted
before together with the added label, other bytes keep their label; adding label 0 does nothing. At
most one new label is made per byte, and it fails only if these do not fit. -/
theorem C07_add_exact (cap : Nat) (h0 : 0 < cap) (hcap : cap ≤ 2 ^ 31) (es : List Event)
    (L : Labels) (hr : Reach cap es L) (started : Bool) (hs : Started started L) (sh : Shadow)
    (label addr size : Nat) (hl : label < L.words.length)
    (hsh : ∀ i, i < size → sh (addr + i) < L.words.length) :
    (∃ L' sh' es', Dfsan.addLabel started L sh label addr size = .ok (L', sh') ∧ Runs L es' L' ∧
      (∀ i, i < size → sh' (addr + i) < L'.words.length ∧ ∀ b, Denotes L'.graph (sh' (addr + i)) b ↔
        Denotes L.graph (sh (addr + i)) b ∨ Denotes L.graph label b) ∧
      (∀ a, (a < addr ∨ addr + size ≤ a) → sh' a = sh a) ∧
      L'.words.length ≤ L.words.length + size) ∨
    (Dfsan.addLabel started L sh label addr size = .fatal ∧
      cap < L.words.length + size) := by
  have hg := hr.good h0 hcap
  unfold Dfsan.addLabel
  split
  · rename_i h; subst h
    exact Or.inl ⟨L, sh, [], rfl, .nil _, fun i hi => ⟨hsh i hi, fun b => by simp [denotes_zero hg b]⟩,
      fun _ _ => rfl, by omega⟩
  · exact addLoop_exact size addr hg (hr.cap h0 hcap) hs hl hsh

/-- Why the guard matters: label 0 as an operand of the store ends the program. -/
theorem C07_zero_operand (cap : Nat) (h0 : 0 < cap) (hcap : cap ≤ 2 ^ 31) (es : List Event)
    (L : Labels) (hr : Reach cap es L) (r : Nat) (hr0 : 0 < r) : L.unionTaint 0 r = .fatal := by
  have hz := (hr.good h0 hcap).wf.zero
  have : L.readLabel 0 = .fatal := by
    simp only [Labels.readLabel, getRes, hz, Res.bind_ok]; decide
  unfold Labels.unionTaint
  rw [if_neg (by omega), this]; rfl

/-- A buffer whose four bytes carry labels 0, 3, 3 and 11 in a non-trivial store. -/
example : Reach 64 exEvents exStore ∧ Started true exStore ∧
    (∀ i, i < 4 → (fun a => if a = 101 ∨ a = 102 then 3 else if a = 103 then 11 else 0) (100 + i)
      < exStore.words.length) := by
  refine ⟨exReach, Or.inl rfl, ?_⟩
  decide +kernel

end Verif
