import Verif.LabelsTsoGraph
/- C86: the label section under weak memory. -/
namespace Verif
open Spec CSys

/-- x86 store buffers, any number of threads: a label that a thread can have denotes, as that thread
reads the section at any moment, exactly the input bytes the completed calls give it. -/
theorem C86_exact (cap : Nat) (h0 : 0 < cap) (hcap : cap ≤ 2 ^ 31) (T : TSys) (hr : TSys.Reach cap T)
    (t l : Nat) (hk : T.KnownTo t l) (b : Nat × Nat) : Denotes (T.view t) l b ↔ Meaning T.log l b := by
  obtain ⟨S, P, hS, R⟩ := hr.rel h0 hcap
  obtain ⟨V, tail, hi, -⟩ := hS.inv h0 hcap
  have h1 := denotes_congr (n := l + 1) (g := V.graph) (h := T.view t) (hi.sys.wf.refs_lt _)
    (fun k hk' => by
      obtain ⟨a, b, c⟩ := R.sees hi hk (k := k) (by omega)
      exact (wordGraph_stale hi.sys.wf a b c).1) l (by omega) b
  rw [← h1, hi.sys.meaning l (R.knownTo hk).1, R.log]

/-- All threads see the same labels: there is one well-formed graph with which every thread's reading
of the labels it can have agrees up to flags. Flags a thread sees are in that graph, and a label
flagged in it contributes to a label whose marking was requested. -/
theorem C86_views (cap : Nat) (h0 : 0 < cap) (hcap : cap ≤ 2 ^ 31) (T : TSys) (hr : TSys.Reach cap T) :
    ∃ (g : Graph) (n : Nat), WellFormed g n ∧
      (∀ t l, T.KnownTo t l → 0 < l ∧ l < n ∧ ∀ k, k ≤ l →
        SameTaint g (T.view t) k ∧ (Flagged (T.view t) k → Flagged g k)) ∧
      ∀ l, Flagged g l → ∃ x, (.mark x ∈ T.log ∨ ∃ t, root (T.threads t) = some x) ∧ BuiltFrom g x l := by
  obtain ⟨S, P, hS, R⟩ := hr.rel h0 hcap
  obtain ⟨V, tail, hi, -⟩ := hS.inv h0 hcap
  refine ⟨V.graph, V.words.length, hi.sys.wf.graph, fun t l hk => ?_, fun l hf => ?_⟩
  · have := hi.sys.known l (R.knownTo hk).1
    refine ⟨this.1, this.2, fun k hkl => ?_⟩
    obtain ⟨a, b, c⟩ := R.sees hi hk hkl
    exact wordGraph_stale hi.sys.wf a b c
  · obtain ⟨x, hx, -, hb⟩ := hi.sys.asked l hf
    refine ⟨x, ?_, hb⟩
    rcases hx with hx | ⟨t, ht⟩
    · exact Or.inl (by rw [← R.log]; exact hx)
    · exact Or.inr ⟨t, by rw [← R.threads]; exact ht⟩

/-- Once no marking is in progress and the store buffers are empty, as they are when the threads have
ended, the flagged labels in memory are exactly the marked labels and what they are built from. -/
theorem C86_marks (cap : Nat) (h0 : 0 < cap) (hcap : cap ≤ 2 ^ 31) (T : TSys) (hr : TSys.Reach cap T)
    (hq : ∀ t, root (T.threads t) = none) (hl : T.lock = none) (hb : ∀ t, T.buf t = []) (l : Nat) :
    Flagged T.graph l ↔ ∃ x, .mark x ∈ T.log ∧ BuiltFrom T.graph x l := by
  obtain ⟨S, P, hS, R⟩ := hr.rel h0 hcap
  obtain ⟨V, tail, hi, -⟩ := hS.inv h0 hcap
  rw [R.settled hi hl hb, hi.sys.complete (fun t => by rw [R.threads]; exact hq t), R.log]

/-- What memory holds then is what every call returned: each union a label denoting the union of its
operands, each read consecutive labels for the bytes read. -/
theorem C86_memory (cap : Nat) (h0 : 0 < cap) (hcap : cap ≤ 2 ^ 31) (T : TSys) (hr : TSys.Reach cap T)
    (hl : T.lock = none) (hb : ∀ t, T.buf t = []) :
    (∀ e ∈ T.log, ∀ l, Returned e l → ∀ b, Denotes T.graph l b ↔ Meaning T.log l b) ∧
    (∀ l r u, .union l r u ∈ T.log → ∀ b, Denotes T.graph u b ↔ Denotes T.graph l b ∨ Denotes T.graph r b) ∧
    ∀ src off n first, .source src off n first ∈ T.log → ∀ k, k < n →
      ∃ cf, T.graph (first + k) = some (.source cf src (off + k)) := by
  obtain ⟨S, P, hS, R⟩ := hr.rel h0 hcap
  obtain ⟨V, tail, hi, -⟩ := hS.inv h0 hcap
  rw [R.settled hi hl hb, ← R.log]
  exact ⟨fun e he l hl => hi.sys.meaning l ⟨e, he, hl⟩, fun l r u hu => (hi.sys.answered _ hu).2.2.2,
    fun src off n first hs => hi.sys.answered _ hs⟩

/-- Nothing but a full store stops a thread. -/
theorem C86_stops (cap : Nat) (h0 : 0 < cap) (hcap : cap ≤ 2 ^ 31) (T : TSys) (hr : TSys.Reach cap T)
    (t : Nat) (X : Res TSys) (hs : T.step t = some X) :
    (∃ T', X = .ok T') ∨
    (X = .fatal ∧ (∃ l r e, T.threads t = .uAlloc l r e) ∧ T.size = cap) ∨
    (X = .ub ∧ ∃ src off n, T.threads t = .sAlloc src off n ∧ cap < T.size + n) := by
  obtain ⟨S, P, hS, R⟩ := hr.rel h0 hcap
  rcases R.step h0 hcap hS hs with ⟨T', S', he, -⟩ | h | h
  · exact Or.inl ⟨T', he⟩
  · exact Or.inr (Or.inl h)
  · exact Or.inr (Or.inr h)

/-- No deadlock: while some thread is inside a call or some store is waiting, something can happen. -/
theorem C86_progress (cap : Nat) (h0 : 0 < cap) (hcap : cap ≤ 2 ^ 31) (T : TSys) (hr : TSys.Reach cap T)
    (hb : ∃ t, T.threads t ≠ .idle ∨ T.buf t ≠ []) :
    (∃ t X, T.step t = some X) ∨ ∃ t T', T.commit t = some T' := by
  by_cases hbuf : ∃ t, T.buf t ≠ []
  · obtain ⟨t, ht⟩ := hbuf
    right
    cases h : T.buf t with
    | nil => exact absurd h ht
    | cons i b => exact ⟨t, by unfold TSys.commit; rw [h]; exact ⟨_, rfl⟩⟩
  · have hnil : ∀ t, T.buf t = [] := fun t => Classical.byContradiction fun h => hbuf ⟨t, h⟩
    left
    obtain ⟨S, P, hS, R⟩ := hr.rel h0 hcap
    obtain ⟨u, hu⟩ : ∃ t, T.threads t ≠ .idle ∧ (InCS (T.threads t) ∨ T.lock = none) := by
      cases hl : T.lock with
      | none =>
        obtain ⟨t, ht⟩ := hb
        exact ⟨t, ht.resolve_right (fun h => h (hnil t)), Or.inr rfl⟩
      | some t =>
        cases R.owner t hl with
        | inside h _ _ _ _ => exact ⟨t, fun e => by rw [e] at h; exact h, Or.inl h⟩
        | outside pre post _ h _ _ _ _ => rw [hnil t] at h; simp at h
    refine ⟨u, ?_⟩
    unfold TSys.step
    cases hld : loads (T.threads u) with
    | some a => exact ⟨_, rfl⟩
    | none =>
      cases hpc : T.threads u with
      | idle => exact absurd hpc hu.1
      | uWrite => simp only; split <;> exact ⟨_, rfl⟩
      | sWrite => simp only; split <;> (first | exact ⟨_, rfl⟩ | (split <;> exact ⟨_, rfl⟩))
      | mSrcStore => simp only; split <;> exact ⟨_, rfl⟩
      | mSetStore => simp only; split <;> exact ⟨_, rfl⟩
      | uSize | uAlloc | sAlloc =>
        rw [hpc] at hu
        have hl := hu.2.resolve_left id
        simp only [hl, hnil u, and_self, if_true]
        first | exact ⟨_, rfl⟩ | (split <;> exact ⟨_, rfl⟩)
      | uLeft | uRight | mChild | mSrcLoad | mEnc | mSetLoad => rw [hpc] at hld; cases hld
      | _ => exact ⟨_, rfl⟩

/-- Any weaker memory: even if every load gives any value the word had since it was published, labels
returned by completed calls denote the right bytes whichever values are read. -/
theorem C86_stale_exact (cap : Nat) (h0 : 0 < cap) (hcap : cap ≤ 2 ^ 31) (S : WSys) (hr : WSys.Reach cap S)
    (f : Nat → Nat) (hf : ∀ a, a < S.sys.mem.length → S.Has a (f a)) (l : Nat) (hk : S.sys.Known l) (b : Nat × Nat) :
    Denotes (wordGraph S.sys.mem.length f) l b ↔ Meaning S.sys.log l b := by
  obtain ⟨V, tail, hi, -⟩ := hr.inv h0 hcap
  have hn : V.words.length ≤ S.sys.mem.length := by rw [hi.sys.mem, List.length_append]; omega
  have h1 := denotes_congr (n := V.words.length) (g := V.graph) (h := wordGraph S.sys.mem.length f) (hi.sys.wf.refs_lt _)
    (fun k hk' => (wordGraph_stale hi.sys.wf hk' (by omega) (hi.has (hf k (by omega)) hk')).1) l (hi.sys.known l hk).2 b
  rw [← h1, hi.sys.meaning l hk]

/-- And when no marking is in progress, the last values stored to the words have the flags complete. -/
theorem C86_stale_marks (cap : Nat) (h0 : 0 < cap) (hcap : cap ≤ 2 ^ 31) (S : WSys) (hr : WSys.Reach cap S)
    (hq : ¬ S.sys.Busy) (hl : S.sys.lock = none) (l : Nat) :
    Flagged S.sys.graph l ↔ ∃ x, .mark x ∈ S.sys.log ∧ BuiltFrom S.sys.graph x l := by
  obtain ⟨V, tail, hi, -⟩ := hr.inv h0 hcap
  have hg : S.sys.graph = V.graph := by
    have hVS : V = S.sys.labels := by
      have := hi.sys.mem
      rw [hi.sys.free hl, List.append_nil] at this
      unfold CSys.labels
      rw [this, ← hi.sys.cap]
    rw [hVS]; rfl
  rw [hg]
  exact hi.sys.complete (fun t => Classical.byContradiction fun h => hq ⟨t, h⟩) l

/-- Every execution of the store-buffer machine is one of the machine with old values: the same
threads at the same places with the same completed calls. -/
theorem C86_refines (cap : Nat) (h0 : 0 < cap) (hcap : cap ≤ 2 ^ 31) (T : TSys) (hr : TSys.Reach cap T) :
    ∃ S : WSys, WSys.Reach cap S ∧ S.sys.threads = T.threads ∧ S.sys.log = T.log ∧
      ∀ t l, T.KnownTo t l → S.Has l (T.load t l) := by
  obtain ⟨S, P, hS, R⟩ := hr.rel h0 hcap
  obtain ⟨V, tail, hi, -⟩ := hS.inv h0 hcap
  refine ⟨S, hS, R.threads, R.log, fun t l hk => R.has hi hk⟩

/-- That the buffers are empty is needed: all calls have returned and the mutex is free, a label is
marked, and a label it is built from is not flagged in memory. -/
theorem C86_buffers : ∃ T : TSys, TSys.Reach 32 T ∧ (∀ t, T.threads t = .idle) ∧ T.lock = none ∧
    .mark 6 ∈ T.log ∧ BuiltFrom T.graph 6 1 ∧ ¬ Flagged T.graph 1 := by
  refine ⟨TSys.exT3, TSys.exT3_reach, ?_, by decide +kernel, by decide +kernel, ?_, ?_⟩
  · intro t
    by_cases h0 : t = 0
    · subst h0; decide +kernel
    by_cases h1 : t = 1
    · subst h1; decide +kernel
    exact TSys.exT3_idle t h0 h1
  · exact .step (t := .union false 1 3) (by decide +kernel) (Or.inl rfl) (.refl 1)
  · rintro ⟨t, ht, hf⟩
    rw [show TSys.exT3.graph 1 = some (.source false 3 10) by decide +kernel] at ht
    cases ht; cases hf

/-- Label 6 is known to thread 1 although memory does not have its word yet; later it is marked. -/
example : TSys.Reach 32 TSys.exT2 ∧ TSys.exT2.KnownTo 1 6 ∧ TSys.exT2.graph 6 = none ∧
    TSys.exT2.view 1 6 = some (.union false 1 3) ∧ TSys.exT2.view 0 6 = none ∧
    TSys.Reach 32 TSys.exT4 ∧ (∀ t, TSys.exT4.buf t = []) ∧ TSys.exT4.lock = none ∧
    Flagged TSys.exT4.graph 1 ∧ TSys.exT4.graph 2 = some (.source false 3 11) := by
  refine ⟨TSys.exT2_reach, ⟨.union 1 3 6, Or.inr (by decide +kernel), rfl⟩, by decide +kernel, by decide +kernel,
    by decide +kernel, TSys.exT4_reach, ?_, by decide +kernel, ⟨.source true 3 10, by decide +kernel, rfl⟩, by decide +kernel⟩
  intro t
  by_cases h0 : t = 0
  · subst h0; decide +kernel
  by_cases h1 : t = 1
  · subst h1; decide +kernel
  exact TSys.exT4_buf t h0 h1

end Verif
