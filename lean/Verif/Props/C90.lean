import Verif.PyNavOk
/-
C90: the questions between the events of a trace (/repo/polytracker/tracing.py 643-822, 943-981, 1186-1207) answer about the
function invocation they are asked for: calls nested in it are skipped, whatever is in them.
-/
namespace Verif.C90
open PyNav

/-- The event at `i` enters a basic block, in the invocation that began at `e`. -/
def BlockOf (T : Tr) (e i : Nat) : Prop := (∃ b, T.evs[i]? = some (.block b)) ∧ frame T.evs i = some e

/-- The event at `i` is a call made by the invocation that began at `e`. -/
def CallOf (T : Tr) (e i : Nat) : Prop := T.evs[i]? = some .enter ∧ frame T.evs i = some e

/-- The invocation that began at `e` has neither indirect nor uninstrumented calls behind `i`. -/
def Plain (T : Tr) (e i : Nat) : Prop := ∀ m : Nat, i < m → frame T.evs m = some e → T.evs[m]? ≠ some .other

/-- What `next_basic_block_in_function` answers is the next block of the same invocation. -/
theorem C90_next_sound {T : Tr} (hT : T.Ok) {e i j : Nat} (hi : BlockOf T e i) (h : T.nextBlock i = some j) :
    i < j ∧ BlockOf T e j ∧ ∀ m, i < m → m < j → ¬ BlockOf T e m := by
  obtain ⟨⟨b, hb⟩, hf⟩ := hi
  obtain ⟨h1, h2, h3, h4⟩ := next_sound hT hb hf h
  exact ⟨h1, ⟨h2, h3⟩, fun m hm1 hm2 ⟨⟨b', hb'⟩, hf'⟩ => h4 m b' hm1 hm2 hb' hf'⟩

/-- It answers `None` only at the end of the invocation, if no indirect or uninstrumented call follows in it. -/
theorem C90_next_partial {T : Tr} (hT : T.Ok) {e i : Nat} (hi : BlockOf T e i) (hp : Plain T e i)
    (h : T.nextBlock i = none) : ∀ m, i < m → ¬ BlockOf T e m := by
  obtain ⟨⟨b, hb⟩, hf⟩ := hi
  exact fun m hm ⟨⟨b', hb'⟩, hf'⟩ => next_complete hT hb hf hp h m b' hm hb' hf'

/-- `basic_blocks` never raises and yields blocks of the invocation only, each once and in order. The functions that `__iter__`
yields between them are calls made by the invocation. -/
theorem C90_blocks_sound {T : Tr} (hT : T.Ok) {e : Nat} (he : T.evs[e]? = some .enter) :
    ∃ l, T.basicBlocks e = some l ∧ l.Pairwise (· < ·) ∧ (∀ x ∈ l, BlockOf T e x) ∧
      ∃ l', T.iter e = some l' ∧ l'.filterMap Sum.getLeft? = l ∧ ∀ j, Sum.inr j ∈ l' → CallOf T e j := by
  have key : ∀ l, T.basicBlocks e = some l → (∀ x ∈ l, BlockOf T e x) →
      ∃ l', T.iter e = some l' ∧ l'.filterMap Sum.getLeft? = l ∧ ∀ j, Sum.inr j ∈ l' → CallOf T e j := by
    intro l hl hb
    refine ⟨_, by rw [Tr.iter, hl]; rfl, ?_, ?_⟩
    · clear hl hb
      induction l with
      | nil => rfl
      | cons x l ih =>
        simp only [List.flatMap_cons, List.filterMap_append] at ih ⊢
        rw [ih]
        cases T.called x <;> rfl
    · intro j hj
      obtain ⟨i, hi, hj⟩ := List.mem_flatMap.1 hj
      obtain ⟨⟨b, hib⟩, hif⟩ := hb i hi
      cases hc : T.called i with
      | none => rw [hc] at hj; simp at hj
      | some k =>
        rw [hc] at hj
        simp only [List.mem_cons, reduceCtorEq, Sum.inr.injEq, List.not_mem_nil, or_false, false_or] at hj
        subst hj
        unfold Tr.called at hc
        split at hc
        · rename_i h
          cases hc
          exact ⟨h, (frame_block hib).trans hif⟩
        · cases hc
  have hfe := frame_enter he
  suffices h : ∃ o, T.entrypoint e = some o ∧ ∀ i, o = some i → (∃ b, T.evs[i]? = some (.block b)) ∧ frame T.evs i = some e by
    obtain ⟨o, h1, h2⟩ := h
    have hl : T.basicBlocks e = some (T.blocksLoop T.evs.length o) := by rw [Tr.basicBlocks, h1]; rfl
    obtain ⟨h3, h4⟩ := blocksLoop_sound hT T.evs.length o h2
    exact ⟨_, hl, h4, fun x hx => (h3 x hx).2, key _ hl fun x hx => (h3 x hx).2⟩
  unfold Tr.entrypoint
  cases hev : T.evs[e + 1]? with
  | none => exact ⟨none, rfl, by simp⟩
  | some ev =>
    cases ev with
    | block b =>
      simp only [hT.block _ b hev, hfe, if_pos]
      exact ⟨_, rfl, fun i hi => by cases hi; exact ⟨⟨b, hev⟩, hfe⟩⟩
    | enter => exact ⟨none, rfl, by simp⟩
    | ret => exact ⟨none, rfl, by simp⟩
    | other => exact ⟨none, rfl, by simp⟩

/-- `basic_blocks` yields all of them if the first event of the invocation is a block and none is an indirect or
uninstrumented call. -/
theorem C90_blocks_partial {T : Tr} (hT : T.Ok) {e b : Nat} (he : T.evs[e]? = some .enter)
    (hb : T.evs[e + 1]? = some (.block b)) (hp : Plain T e e) :
    ∃ l, T.basicBlocks e = some l ∧ ∀ x, x ∈ l ↔ BlockOf T e x := by
  obtain ⟨l, hl, -, h2, -⟩ := C90_blocks_sound hT he
  refine ⟨l, hl, fun x => ⟨h2 x, fun ⟨⟨b', hxb⟩, hxf⟩ => ?_⟩⟩
  have hfe := frame_enter he
  rw [Tr.basicBlocks, Tr.entrypoint, hb] at hl
  simp only [hT.block _ b hb, hfe, if_pos, Option.map_some, Option.some.injEq] at hl
  rw [← hl]
  have hlt := lt_of_frame hxf
  exact blocksLoop_complete hT _ _ b hb hfe (by omega) (fun m hm => hp m (by omega)) x b' hlt hxb hxf

/-- `calls` yields the calls made by the invocation: all, each once, in order, and no calls made inside them. -/
theorem C90_calls {T : Tr} (hT : T.Ok) {e : Nat} (he : T.evs[e]? = some .enter) :
    (∀ x, x ∈ T.calls e ↔ CallOf T e x) ∧ (T.calls e).Pairwise (· < ·) := by
  obtain ⟨h1, h2⟩ := callsLoop_spec hT he T.evs.length (e + 1) (Nat.lt_succ_self e) (frame_enter he) (by omega)
  refine ⟨fun x => (h1 x).trans ⟨fun h => h.2, fun h => ⟨lt_of_frame h.2, h⟩⟩, h2⟩

/-- `entry_count` is the number of earlier entries of the same basic block in the same invocation. -/
theorem C90_count {T : Tr} (hT : T.Ok) {e i b : Nat} (hb : T.evs[i]? = some (.block b)) (hf : frame T.evs i = some e) :
    T.entryCount i b =
      ((List.range i).filter fun m => decide (T.evs[m]? = some (.block b) ∧ frame T.evs m = some e)).length := by
  have := in_range hb
  rw [Tr.entryCount, hT.block i b hb, hf, countLoop_spec hT b _ i (by omega) (by omega) hf, List.countP_eq_length_filter]

/-- `caller` is the last block that the calling invocation entered before the call, if it has entered one. -/
theorem C90_caller_partial {T : Tr} (hT : T.Ok) {f e : Nat} (he : CallOf T f e) (hm : ∃ m, m < e ∧ BlockOf T f m) :
    ∃ c, T.caller e = some c ∧ c < e ∧ BlockOf T f c ∧ ∀ x, c < x → x < e → ¬ BlockOf T f x := by
  obtain ⟨m, hme, ⟨b, hmb⟩, hmf⟩ := hm
  have := in_range he.1
  obtain ⟨c, h1, h2, h3, h4, h5⟩ := callerLoop_spec hT T.evs.length e (by omega) (by omega) he.2 m b hme hmb hmf
  exact ⟨c, h1, h2, ⟨h3, h4⟩, fun x hx1 hx2 ⟨⟨b', hb'⟩, hxf⟩ => h5 x b' hx1 hx2 hb' hxf⟩

/-- A trace with the events of the list and the answers that they determine. -/
def mk (evs : List Ev) : Tr :=
  ⟨evs, frame evs, fun i => (List.range evs.length).find? fun j => evs[j]? = some .ret ∧ frame evs j = some i⟩

theorem mk_ok (evs : List Ev) : (mk evs).Ok where
  block _ _ _ := rfl
  back _ _ := rfl
  ret i j _ := by
    show (List.range evs.length).find? _ = some j ↔ _
    rw [List.find?_range_eq_some]
    simp only [decide_eq_true_eq, List.mem_range, Bool.not_eq_true', decide_eq_false_iff_not]
    refine ⟨fun h => h.1, fun h => ⟨h, (List.getElem?_eq_some_iff.1 h.1).1, fun k hk hk' => ?_⟩⟩
    exact closed hk'.1 hk'.2 hk h.2

/-- After an indirect or uninstrumented call the next block is not found. -/
theorem C90_next_refuted : ∃ (T : Tr) (e i m : Nat), T.Ok ∧ BlockOf T e i ∧ i < m ∧ BlockOf T e m ∧ T.nextBlock i = none :=
  ⟨mk [.enter, .block 0, .other, .block 1, .ret], 0, 1, 3, mk_ok _, ⟨⟨0, rfl⟩, by decide⟩, by decide, ⟨⟨1, rfl⟩, by decide⟩,
    by decide⟩

/-- An invocation whose first event is a call has no blocks for `basic_blocks`. -/
theorem C90_blocks_refuted : ∃ (T : Tr) (e m : Nat), T.Ok ∧ T.evs[e]? = some .enter ∧ Plain T e e ∧ BlockOf T e m ∧
    T.basicBlocks e = some [] := by
  refine ⟨mk [.enter, .enter, .ret, .block 0, .ret], 0, 3, mk_ok _, rfl, ?_, ⟨⟨0, rfl⟩, by decide⟩, by decide⟩
  intro m _ _ h
  have := List.mem_of_getElem? h
  simp [mk] at this

/-- `__iter__` leaves out the second call of a block. -/
theorem C90_iter_refuted : ∃ (T : Tr) (e j : Nat), T.Ok ∧ T.evs[e]? = some .enter ∧ CallOf T e j ∧ j ∈ T.calls e ∧
    ∃ l, T.iter e = some l ∧ Sum.inr j ∉ l :=
  ⟨mk [.enter, .block 0, .enter, .ret, .enter, .ret, .block 0, .ret], 0, 4, mk_ok _, rfl, ⟨rfl, by decide⟩, by decide,
    [.inl 1, .inr 2, .inl 6], by decide, by simp⟩

/-- The caller of a function called before its caller's first block is a block of another invocation. -/
theorem C90_caller_refuted : ∃ (T : Tr) (f e c : Nat), T.Ok ∧ CallOf T f e ∧ T.caller e = some c ∧ ¬ BlockOf T f c :=
  ⟨mk [.enter, .block 0, .enter, .enter], 2, 3, 1, mk_ok _, ⟨rfl, by decide⟩, by decide, fun h => absurd h.2 (by decide)⟩

/-- `next_function_entry(after)` never finds the function after one that has returned; if the caller goes on, it never
answers. -/
theorem C90_next_function_refuted (T : Tr) (a k : Nat) (hr : T.ret a = some k) :
    (∀ j, T.nextFunctionEntry a ≠ .ans (some j)) ∧
      ∀ b, T.evs[k + 1]? = some (.block b) → T.nextFunctionEntry a = .hangs := by
  unfold Tr.nextFunctionEntry Tr.returningTo
  rw [hr]
  constructor
  · intro j
    cases hev : T.evs[k + 1]? with
    | none => simp [hev]
    | some ev => cases ev <;> simp [hev]
  · intro b hb
    simp [hb]

/-- A function that enters block 0, calls one that enters block 0 twice and calls another, and enters block 0 and 1 again. -/
example :
    let T := mk [.enter, .block 0, .enter, .block 0, .enter, .block 7, .ret, .block 0, .ret, .block 0, .block 1, .ret]
    T.nextBlock 1 = some 9 ∧ T.basicBlocks 0 = some [1, 9, 10] ∧ T.calls 0 = [2] ∧ T.entryCount 9 0 = 1 ∧
      T.entryCount 7 0 = 1 ∧ T.caller 4 = some 3 ∧ T.iter 0 = some [.inl 1, .inr 2, .inl 9, .inl 10] ∧
      T.nextFunctionEntry 2 = .hangs := by decide

end Verif.C90
