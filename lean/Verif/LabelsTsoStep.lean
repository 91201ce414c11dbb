import Verif.LabelsTso
/- Helper lemmas: every step of the store-buffer machine is matched. -/
namespace Verif
open Spec

namespace TSys
open Labels CSys

theorem push_buf (T : TSys) (t : Nat) (is : List Item) (pc : PC) (es : List Event) :
    (T.push t is pc es).buf t = T.buf t ++ is ++ es.map .ret := by simp [push]

theorem push_buf_ne (T : TSys) {t u : Nat} (h : u ≠ t) (is : List Item) (pc : PC) (es : List Event) :
    (T.push t is pc es).buf u = T.buf u := by simp [push, h]

theorem push_pc (T : TSys) (t : Nat) (is : List Item) (pc : PC) (es : List Event) :
    (T.push t is pc es).threads t = pc := by simp [push]

theorem push_pc_ne (T : TSys) {t u : Nat} (h : u ≠ t) (is : List Item) (pc : PC) (es : List Event) :
    (T.push t is pc es).threads u = T.threads u := by simp [push, h]

theorem push_sub (T : TSys) (t u : Nat) (is : List Item) (pc : PC) (es : List Event) {i : Item} (h : i ∈ T.buf u) :
    i ∈ (T.push t is pc es).buf u := by
  by_cases e : u = t
  · subst e; rw [push_buf]; simp [h]
  · rw [push_buf_ne T e]; exact h

theorem Owner.congr {T T' : TSys} {S S' : WSys} {P t : Nat} (h : Owner T S P t)
    (hb : T'.buf t = T.buf t) (ht : T'.threads t = T.threads t) (hs : T'.size = T.size)
    (hm : ∀ a, P ≤ a → T'.mem a = T.mem a) (hlen : S'.sys.mem.length = S.sys.mem.length)
    (hM : ∀ a : Nat, P ≤ a → S'.sys.mem[a]? = S.sys.mem[a]?)
    (hL : ∀ a w : Nat, S.sys.mem[a]? = some w → addCf w = w → S'.sys.mem[a]? = some w)
    (hhas : ∀ a w, S.Has a w → S'.Has a w) : Owner T' S' P t := by
  cases h with
  | inside h1 h2 h3 h4 h5 =>
    refine .inside (by rw [ht]; exact h1) (by rw [ht]; exact h2) (by rw [hb, hs, hlen]; exact h3)
      (by rw [hb, hlen]; exact h4) (fun a h6 h7 => ?_)
    rw [hb, hM a h6, after_congr (hm a h6)]
    exact h5 a h6 (by omega)
  | outside pre post h1 h2 h3 h4 h5 h6 =>
    refine .outside pre post (by rw [ht]; exact h1) (by rw [hb]; exact h2) (by rw [hs, hlen]; exact h3)
      (by rw [hlen]; exact h4) (by rw [hlen]; exact h5.congr fun a w _ hw hc => hL a w hw hc) (fun a h7 h8 => ?_)
    rw [hM a h7, after_congr (hm a h7)]
    obtain ⟨h9, h10⟩ := h6 a h7 (by omega)
    exact ⟨hhas a _ h9, h10⟩

/-- The thread only looks and goes on. -/
theorem Rel.quiet {T : TSys} {S : WSys} {P : Nat} (R : Rel T S P) {t : Nat} {pc' : PC} {es : List Event}
    (h1 : ¬ InCS (T.threads t)) (h2 : ¬ InCS pc') (hb : T.lock ≠ some t → Below P pc')
    (he : T.lock ≠ some t → ∀ e ∈ es, ∀ l, Returned e l → l < P) :
    Rel (T.push t [] pc' es) ⟨S.sys.become t (pc', es), S.old⟩ P := by
  have hbuf : (T.push t [] pc' es).buf t = T.buf t ++ es.map .ret := by rw [push_buf, List.append_nil]
  refine ⟨R.cap, ?_, ?_, R.lock, R.le, R.pos, R.sizeP, R.free, ?_, ?_, ?_, R.zero, ?_, ?_, ?_⟩
  · show (fun u => if u = t then pc' else S.sys.threads u) = _
    rw [R.threads]; rfl
  · show S.sys.log ++ es = T.log ++ es
    rw [R.log]
  · intro u hu
    by_cases e : u = t
    · subst e; rw [hbuf]; exact (R.others u hu).append (late_rets _ _ _)
    · rw [push_buf_ne T e]; exact R.others u hu
  · intro u hu
    by_cases e : u = t
    · subst e
      cases R.owner u hu with
      | inside h _ _ _ _ => exact absurd h h1
      | outside pre post _ h4 h5 h6 h7 h8 =>
        refine .outside pre (post ++ es.map Item.ret) (by rw [push_pc]; exact h2) ?_ h5 h6 (h7.append (late_rets _ _ _)) ?_
        · rw [hbuf, h4]; simp
        · intro a h9 h10
          obtain ⟨h11, h12⟩ := h8 a h9 h10
          exact ⟨h11, h12.imp id fun ⟨w, h13, h14⟩ => ⟨w, h13, List.mem_append_left _ h14⟩⟩
    · exact (R.owner u hu).congr (push_buf_ne T e ..) (push_pc_ne T e ..) rfl (fun _ _ => rfl) rfl (fun _ _ => rfl)
        (fun _ _ h _ => h) (fun _ _ h => h)
  · intro a ha
    obtain ⟨h3, h4⟩ := R.low a ha
    exact ⟨h3, h4.imp id fun ⟨u, w, h5, h6⟩ => ⟨u, w, h5, push_sub T t u _ _ _ h6⟩⟩
  · intro e hs
    obtain ⟨h3, h4⟩ := R.seen e hs
    exact ⟨List.mem_append_left _ h3, h4⟩
  · intro u e hu
    by_cases hut : u = t
    · subst hut
      rw [hbuf] at hu
      rcases List.mem_append.1 hu with hu | hu
      · exact ⟨List.mem_append_left _ (R.rets u e hu).1, (R.rets u e hu).2⟩
      · obtain ⟨e', he', h5⟩ := List.mem_map.1 hu
        cases h5
        exact ⟨List.mem_append_right _ he', fun hl => he hl e he'⟩
    · rw [push_buf_ne T hut] at hu
      exact ⟨List.mem_append_left _ (R.rets u e hu).1, (R.rets u e hu).2⟩
  · intro u hu
    by_cases hut : u = t
    · subst hut; rw [push_pc]; exact hb hu
    · rw [push_pc_ne T hut]; exact R.pcs u hu

theorem past_eq (S : WSys) {t a : Nat} (h : stores (S.sys.threads t) = some a) :
    S.past t a = S.sys.mem[a]?.toList ++ S.old a := by
  unfold WSys.past; rw [if_pos h]

/-- The thread stores a flag. -/
theorem Rel.flag {T : TSys} {S : WSys} {P : Nat} (R : Rel T S P) {t c w v : Nat} {pc' : PC}
    (h1 : ¬ InCS (T.threads t)) (h2 : ¬ InCS pc') (hb : T.lock ≠ some t → Below P pc')
    (hst : stores (S.sys.threads t) = some c) (hv : S.sys.mem[c]? = some v) (hw : addCf w = addCf v)
    (hc : T.lock ≠ some t → c < P) :
    Rel (T.push t [.word c (addCf w)] pc' [])
      ⟨{ S.sys with mem := S.sys.mem.set c (addCf w) }.goto t pc', S.past t⟩ P := by
  have hclt : c < S.sys.mem.length := (List.getElem?_eq_some_iff.1 hv).1
  have hnew : (S.sys.mem.set c (addCf w))[c]? = some (addCf w) := List.getElem?_set_self hclt
  have hne : ∀ a, a ≠ c → (S.sys.mem.set c (addCf w))[a]? = S.sys.mem[a]? :=
    fun a ha => List.getElem?_set_ne (Ne.symm ha)
  have hL : ∀ a x : Nat, S.sys.mem[a]? = some x → addCf x = x → (S.sys.mem.set c (addCf w))[a]? = some x := by
    intro a x hx hcx
    by_cases e : a = c
    · subst e
      rw [hv] at hx; cases hx
      rw [hnew, hw, hcx]
    · rw [hne a e]; exact hx
  have hhas : ∀ a x, S.Has a x → (⟨{ S.sys with mem := S.sys.mem.set c (addCf w) }.goto t pc', S.past t⟩ : WSys).Has a x := by
    intro a x hx
    by_cases e : a = c
    · subst e
      refine Or.inr ?_
      show x ∈ S.past t a
      rw [past_eq S hst, hv]
      rcases hx with hx | hx
      · rw [hv] at hx; cases hx; simp
      · simp [hx]
    · rcases hx with hx | hx
      · exact Or.inl ((hne a e).trans hx)
      · refine Or.inr ?_
        show x ∈ S.past t a
        unfold WSys.past
        rw [if_neg (by rw [hst]; simp; exact fun h => e h.symm)]
        exact hx
  have hlate : ∀ n, c < n → Late (S.sys.mem.set c (addCf w)) n [.word c (addCf w)] := by
    intro n hn i hi
    simp only [List.mem_singleton] at hi
    exact Or.inl ⟨c, addCf w, hi, hn, hnew, C02_addCf_idem w⟩
  have hbuf : (T.push t [.word c (addCf w)] pc' []).buf t = T.buf t ++ [.word c (addCf w)] := by
    rw [push_buf]; simp
  refine ⟨R.cap, ?_, ?_, R.lock, ?_, R.pos, R.sizeP, ?_, ?_, ?_, ?_, ?_, ?_, ?_, ?_⟩
  · show (fun u => if u = t then pc' else S.sys.threads u) = _
    rw [R.threads]; rfl
  · show S.sys.log = T.log ++ []
    rw [R.log, List.append_nil]
  · show P ≤ (S.sys.mem.set c _).length
    rw [List.length_set]; exact R.le
  · show T.lock = none → P = (S.sys.mem.set c _).length ∧ T.size = (S.sys.mem.set c _).length
    rw [List.length_set]; exact R.free
  · intro u hu
    by_cases e : u = t
    · subst e; rw [hbuf]; exact ((R.others u hu).congr fun a x _ => hL a x).append (hlate P (hc hu))
    · rw [push_buf_ne T e]; exact (R.others u hu).congr fun a x _ => hL a x
  · intro u hu
    by_cases e : u = t
    · subst e
      cases R.owner u hu with
      | inside h _ _ _ _ => exact absurd h h1
      | outside pre post _ h4 h5 h6 h7 h8 =>
        refine .outside pre (post ++ [.word c (addCf w)]) (by rw [push_pc]; exact h2) ?_ ?_ ?_ ?_ ?_
        · rw [hbuf, h4]; simp
        · show _ = (S.sys.mem.set c _).length
          rw [List.length_set]; exact h5
        · show Held P (S.sys.mem.set c _).length pre
          rw [List.length_set]; exact h6
        · show Late (S.sys.mem.set c _) (S.sys.mem.set c _).length _
          rw [List.length_set]
          exact (h7.congr fun a x _ => hL a x).append (hlate _ hclt)
        · intro a h9 h10
          have h10' : a < S.sys.mem.length := by
            have : a < (S.sys.mem.set c (addCf w)).length := h10
            rwa [List.length_set] at this
          obtain ⟨h11, h12⟩ := h8 a h9 h10'
          refine ⟨hhas a _ h11, ?_⟩
          by_cases e : a = c
          · subst e; exact Or.inr ⟨addCf w, hnew, by simp⟩
          · rcases h12 with h12 | ⟨x, h12, h13⟩
            · exact Or.inl ((hne a e).trans h12)
            · exact Or.inr ⟨x, (hne a e).trans h12, List.mem_append_left _ h13⟩
    · refine (R.owner u hu).congr (push_buf_ne T e ..) (push_pc_ne T e ..) rfl (fun _ _ => rfl)
        (by show (S.sys.mem.set c _).length = _; rw [List.length_set]) (fun a ha => hne a ?_) hL hhas
      have hu' : T.lock = some u := hu
      have := hc (by rw [hu']; simp; exact e)
      omega
  · intro a ha
    obtain ⟨h3, h4⟩ := R.low a ha
    refine ⟨hhas a _ h3, ?_⟩
    by_cases e : a = c
    · subst e; exact Or.inr ⟨t, addCf w, hnew, by rw [hbuf]; simp⟩
    · rcases h4 with h4 | ⟨u, x, h5, h6⟩
      · exact Or.inl ((hne a e).trans h4)
      · exact Or.inr ⟨u, x, (hne a e).trans h5, push_sub T t u _ _ _ h6⟩
  · show ∀ a, (S.sys.mem.set c _).length ≤ a → _
    rw [List.length_set]; exact R.zero
  · intro e hs
    obtain ⟨h3, h4⟩ := R.seen e hs
    exact ⟨List.mem_append_left _ h3, h4⟩
  · intro u e hu
    by_cases hut : u = t
    · subst hut
      rw [hbuf] at hu
      rcases List.mem_append.1 hu with hu | hu
      · exact ⟨List.mem_append_left _ (R.rets u e hu).1, (R.rets u e hu).2⟩
      · simp at hu
    · rw [push_buf_ne T hut] at hu
      exact ⟨List.mem_append_left _ (R.rets u e hu).1, (R.rets u e hu).2⟩
  · intro u hu
    by_cases hut : u = t
    · subst hut; rw [push_pc]; exact hb hu
    · rw [push_pc_ne T hut]; exact R.pcs u hu

/-- The thread takes the mutex and reserves `k` words. -/
theorem Rel.alloc {T : TSys} {S : WSys} {P : Nat} (R : Rel T S P) {t k : Nat} {pc' : PC}
    (hl : T.lock = none) (hbuf : T.buf t = []) (h2 : InCS pc') (hbase : base pc' = some T.size)
    (hst : stores (S.sys.threads t) = none) :
    Rel ({ T with lock := some t }.push t [.size (T.size + k)] pc' [])
      ⟨{ S.sys with mem := S.sys.mem ++ List.replicate k 0, lock := some t }.goto t pc', S.past t⟩ P := by
  obtain ⟨hP, hsz⟩ := R.free hl
  have hpast : S.past t = S.old := by funext a; unfold WSys.past; rw [hst]; simp
  have hb : ({ T with lock := some t }.push t [.size (T.size + k)] pc' []).buf t = [.size (T.size + k)] := by
    rw [push_buf]; show T.buf t ++ _ ++ _ = _; rw [hbuf]; rfl
  have hbne : ∀ u, u ≠ t → ({ T with lock := some t }.push t [.size (T.size + k)] pc' []).buf u = T.buf u :=
    fun u hu => push_buf_ne _ hu ..
  have hlen : (S.sys.mem ++ List.replicate k 0).length = S.sys.mem.length + k := by simp
  have hlow : ∀ a, a < P → (S.sys.mem ++ List.replicate k 0)[a]? = S.sys.mem[a]? :=
    fun a ha => List.getElem?_append_left (by omega)
  have nolock : ∀ u, T.lock ≠ some u := by rw [hl]; simp
  refine ⟨R.cap, ?_, ?_, ?_, ?_, R.pos, R.sizeP, ?_, ?_, ?_, ?_, ?_, ?_, ?_, ?_⟩
  · show (fun u => if u = t then pc' else S.sys.threads u) = _
    rw [R.threads]; rfl
  · show S.sys.log = T.log ++ []
    rw [R.log, List.append_nil]
  · exact fun u hu => hu
  · show P ≤ (S.sys.mem ++ _).length
    rw [hlen]; have := R.le; omega
  · intro h; cases h
  · intro u hu
    have e : u ≠ t := fun h => hu (by rw [h]; rfl)
    rw [hbne u e]
    exact (R.others u (nolock u)).congr fun a x ha hx _ => (hlow a ha).trans hx
  · intro u hu
    cases (hu : some t = some u)
    refine .inside (by rw [push_pc]; exact h2) (by rw [push_pc, hbase, hP, hsz]) ?_ ?_ ?_
    · rw [hb]; show T.size + k = _; exact (hsz ▸ hlen.symm)
    · rw [hb]
      intro i hi
      simp only [List.mem_singleton] at hi
      exact Or.inr (by rw [hi, hsz]; show _ = Item.size (S.sys.mem ++ _).length; rw [hlen])
    · intro a h3 h4
      rw [hb]
      show (S.sys.mem ++ List.replicate k 0)[a]? = some (T.mem a)
      have h4' : a < (S.sys.mem ++ List.replicate k 0).length := h4
      rw [hlen] at h4'
      rw [R.zero a (by omega), List.getElem?_append_right (by omega), List.getElem?_replicate_of_lt (by omega)]
  · intro a ha
    obtain ⟨h3, h4⟩ := R.low a ha
    constructor
    · rcases h3 with h3 | h3
      · exact Or.inl ((hlow a ha).trans h3)
      · exact Or.inr (by show _ ∈ S.past t a; rw [hpast]; exact h3)
    · rcases h4 with h4 | ⟨u, x, h5, h6⟩
      · exact Or.inl ((hlow a ha).trans h4)
      · exact Or.inr ⟨u, x, (hlow a ha).trans h5, push_sub _ t u _ _ _ h6⟩
  · intro a ha
    have ha' : (S.sys.mem ++ List.replicate k 0).length ≤ a := ha
    rw [hlen] at ha'
    exact R.zero a (by omega)
  · intro e hs
    obtain ⟨h3, h4⟩ := R.seen e hs
    exact ⟨List.mem_append_left _ h3, h4⟩
  · intro u e hu
    by_cases hut : u = t
    · subst hut; rw [hb] at hu; simp at hu
    · rw [hbne u hut] at hu
      exact ⟨List.mem_append_left _ (R.rets u e hu).1, fun _ => (R.rets u e hu).2 (nolock u)⟩
  · intro u hu
    have e : u ≠ t := fun h => hu (by rw [h]; rfl)
    rw [push_pc_ne _ e]; exact R.pcs u (nolock u)

/-- The holder of the mutex stores a reserved word. -/
theorem Rel.write {T : TSys} {S : WSys} {P : Nat} (R : Rel T S P) {t i w : Nat} {pc' : PC}
    (h1 : InCS (T.threads t)) (hl : T.lock = some t) (h2 : InCS pc') (hbase : base pc' = base (T.threads t))
    (hlo : P ≤ i) (hhi : i < S.sys.mem.length) (hst : stores (S.sys.threads t) = none) :
    Rel (T.push t [.word i w] pc' []) ⟨{ S.sys with mem := S.sys.mem.set i w }.goto t pc', S.past t⟩ P := by
  have hpast : S.past t = S.old := by funext a; unfold WSys.past; rw [hst]; simp
  have hb : (T.push t [.word i w] pc' []).buf t = T.buf t ++ [.word i w] := by rw [push_buf]; simp
  have hlow : ∀ a, a < P → (S.sys.mem.set i w)[a]? = S.sys.mem[a]? :=
    fun a ha => List.getElem?_set_ne (by omega)
  have hother : ∀ u, u ≠ t → T.lock ≠ some u := by
    intro u hu h; rw [hl] at h; cases h; exact hu rfl
  refine ⟨R.cap, ?_, ?_, R.lock, ?_, R.pos, R.sizeP, ?_, ?_, ?_, ?_, ?_, ?_, ?_, ?_⟩
  · show (fun u => if u = t then pc' else S.sys.threads u) = _
    rw [R.threads]; rfl
  · show S.sys.log = T.log ++ []
    rw [R.log, List.append_nil]
  · show P ≤ (S.sys.mem.set i w).length
    rw [List.length_set]; exact R.le
  · intro h
    have : T.lock = none := h
    rw [hl] at this; cases this
  · intro u hu
    have e : u ≠ t := fun h => hu (by rw [h]; exact hl)
    rw [push_buf_ne T e]
    exact (R.others u hu).congr fun a x ha hx _ => (hlow a ha).trans hx
  · intro u hu
    have : T.lock = some u := hu
    rw [hl] at this; cases this
    cases R.owner t hl with
    | outside _ _ h => exact absurd h1 h
    | inside _ h4 h5 h6 h7 =>
      refine .inside (by rw [push_pc]; exact h2) (by rw [push_pc, hbase]; exact h4) ?_ ?_ ?_
      · show _ = (S.sys.mem.set i w).length
        rw [hb, List.length_set, sizeAfter_append]; exact h5
      · show Held P (S.sys.mem.set i w).length _
        rw [hb, List.length_set]
        intro x hx
        rcases List.mem_append.1 hx with hx | hx
        · exact h6 x hx
        · simp only [List.mem_singleton] at hx
          exact Or.inl ⟨i, w, hx, hlo, hhi⟩
      · intro a h8 h9
        have h9' : a < (S.sys.mem.set i w).length := h9
        rw [List.length_set] at h9'
        show (S.sys.mem.set i w)[a]? = some (after T.mem _ a)
        rw [hb, after_append]
        show _ = some (if a = i then w else after T.mem (T.buf t) a)
        by_cases e : a = i
        · subst e; rw [if_pos rfl, List.getElem?_set_self hhi]
        · rw [if_neg e, List.getElem?_set_ne (Ne.symm e)]; exact h7 a h8 h9'
  · intro a ha
    obtain ⟨h3, h4⟩ := R.low a ha
    constructor
    · rcases h3 with h3 | h3
      · exact Or.inl ((hlow a ha).trans h3)
      · exact Or.inr (by show _ ∈ S.past t a; rw [hpast]; exact h3)
    · rcases h4 with h4 | ⟨u, x, h5, h6⟩
      · exact Or.inl ((hlow a ha).trans h4)
      · exact Or.inr ⟨u, x, (hlow a ha).trans h5, push_sub _ t u _ _ _ h6⟩
  · show ∀ a, (S.sys.mem.set i w).length ≤ a → _
    rw [List.length_set]; exact R.zero
  · intro e hs
    obtain ⟨h3, h4⟩ := R.seen e hs
    exact ⟨List.mem_append_left _ h3, h4⟩
  · intro u e hu
    by_cases hut : u = t
    · subst hut; rw [hb] at hu
      rcases List.mem_append.1 hu with hu | hu
      · exact ⟨List.mem_append_left _ (R.rets u e hu).1, fun h => absurd hl h⟩
      · simp at hu
    · rw [push_buf_ne T hut] at hu
      exact ⟨List.mem_append_left _ (R.rets u e hu).1, (R.rets u e hu).2⟩
  · intro u hu
    have e : u ≠ t := fun h => hu (by rw [h]; exact hl)
    rw [push_pc_ne _ e]; exact R.pcs u hu

/-- The holder of the mutex issues its release and returns. -/
theorem Rel.unlock {T : TSys} {S : WSys} {P : Nat} (R : Rel T S P) {t : Nat} {e : Event}
    (h1 : InCS (T.threads t)) (hl : T.lock = some t) (hst : stores (S.sys.threads t) = none) :
    Rel (T.push t [.unlock] .idle [e]) ⟨{ S.sys with lock := none }.finish t e, S.past t⟩ P := by
  have hpast : S.past t = S.old := by funext a; unfold WSys.past; rw [hst]; simp
  have hb : (T.push t [.unlock] .idle [e]).buf t = T.buf t ++ .unlock :: [.ret e] := by rw [push_buf]; simp
  have hhas : ∀ a x, S.Has a x → (⟨{ S.sys with lock := none }.finish t e, S.past t⟩ : WSys).Has a x := by
    rw [hpast]; exact fun a x h => h
  refine ⟨R.cap, ?_, ?_, ?_, R.le, R.pos, R.sizeP, ?_, ?_, ?_, ?_, R.zero, ?_, ?_, ?_⟩
  · show (fun u => if u = t then .idle else S.sys.threads u) = _
    rw [R.threads]; rfl
  · show S.sys.log ++ [e] = T.log ++ [e]
    rw [R.log]
  · intro u h; cases h
  · intro h
    have : T.lock = none := h
    rw [hl] at this; cases this
  · intro u hu
    have e : u ≠ t := fun h => hu (by rw [h]; exact hl)
    rw [push_buf_ne T e]; exact R.others u hu
  · intro u hu
    have : T.lock = some u := hu
    rw [hl] at this; cases this
    cases R.owner t hl with
    | outside _ _ h => exact absurd h1 h
    | inside _ h4 h5 h6 h7 =>
      refine .outside (T.buf t) [.ret e] (by rw [push_pc]; exact id) hb h5 h6 (late_rets _ _ [e]) ?_
      intro a h8 h9
      have := h7 a h8 h9
      exact ⟨hhas a _ (Or.inl this), Or.inl this⟩
  · intro a ha
    obtain ⟨h3, h4⟩ := R.low a ha
    exact ⟨hhas a _ h3, h4.imp id fun ⟨u, w, h5, h6⟩ => ⟨u, w, h5, push_sub T t u _ _ _ h6⟩⟩
  · intro e hs
    obtain ⟨h3, h4⟩ := R.seen e hs
    exact ⟨List.mem_append_left _ h3, h4⟩
  · intro u x hu
    by_cases hut : u = t
    · subst hut; rw [hb] at hu
      rcases List.mem_append.1 hu with hu | hu
      · exact ⟨List.mem_append_left _ (R.rets u x hu).1, fun h => absurd hl h⟩
      · simp only [List.mem_cons, List.not_mem_nil, or_false, Item.ret.injEq, reduceCtorEq, false_or] at hu
        subst hu
        exact ⟨List.mem_append_right _ (by simp), fun h => absurd hl h⟩
    · rw [push_buf_ne T hut] at hu
      exact ⟨List.mem_append_left _ (R.rets u x hu).1, (R.rets u x hu).2⟩
  · intro u hu
    have e : u ≠ t := fun h => hu (by rw [h]; exact hl)
    rw [push_pc_ne _ e]; exact R.pcs u hu

/-- The thread takes the mutex to read the write position, and issues the release. -/
theorem Rel.peek {T : TSys} {S : WSys} {P : Nat} (R : Rel T S P) {t : Nat} {pc' : PC}
    (hl : T.lock = none) (hbuf : T.buf t = []) (h2 : ¬ InCS pc') (hst : stores (S.sys.threads t) = none) :
    Rel ({ T with lock := some t }.push t [.unlock] pc' []) ⟨S.sys.goto t pc', S.past t⟩ P := by
  obtain ⟨hP, hsz⟩ := R.free hl
  have hpast : S.past t = S.old := by funext a; unfold WSys.past; rw [hst]; simp
  have hb : ({ T with lock := some t }.push t [.unlock] pc' []).buf t = [] ++ .unlock :: [] := by
    rw [push_buf]; show T.buf t ++ _ ++ _ = _; rw [hbuf]; rfl
  have hbne : ∀ u, u ≠ t → ({ T with lock := some t }.push t [.unlock] pc' []).buf u = T.buf u :=
    fun u hu => push_buf_ne _ hu ..
  have nolock : ∀ u, T.lock ≠ some u := by rw [hl]; simp
  have hhas : ∀ a x, S.Has a x → (⟨S.sys.goto t pc', S.past t⟩ : WSys).Has a x := by
    rw [hpast]; exact fun a x h => h
  refine ⟨R.cap, ?_, ?_, ?_, R.le, R.pos, R.sizeP, ?_, ?_, ?_, ?_, R.zero, ?_, ?_, ?_⟩
  · show (fun u => if u = t then pc' else S.sys.threads u) = _
    rw [R.threads]; rfl
  · show S.sys.log = T.log ++ []
    rw [R.log, List.append_nil]
  · intro u hu
    exact absurd (R.lock u hu) (nolock u)
  · intro h; cases h
  · intro u hu
    have e : u ≠ t := fun h => hu (by rw [h]; rfl)
    rw [hbne u e]; exact R.others u (nolock u)
  · intro u hu
    cases (hu : some t = some u)
    refine .outside [] [] (by rw [push_pc]; exact h2) hb hsz (fun i hi => by cases hi) (fun i hi => by cases hi) ?_
    intro a h3 h4
    have : a < S.sys.mem.length := h4
    omega
  · intro a ha
    obtain ⟨h3, h4⟩ := R.low a ha
    exact ⟨hhas a _ h3, h4.imp id fun ⟨u, w, h5, h6⟩ => ⟨u, w, h5, push_sub _ t u _ _ _ h6⟩⟩
  · intro e hs
    obtain ⟨h3, h4⟩ := R.seen e hs
    exact ⟨List.mem_append_left _ h3, h4⟩
  · intro u e hu
    by_cases hut : u = t
    · subst hut; rw [hb] at hu; simp at hu
    · rw [hbne u hut] at hu
      exact ⟨List.mem_append_left _ (R.rets u e hu).1, fun _ => (R.rets u e hu).2 (nolock u)⟩
  · intro u hu
    have e : u ≠ t := fun h => hu (by rw [h]; rfl)
    rw [push_pc_ne _ e]; exact R.pcs u (nolock u)

end TSys
end Verif
