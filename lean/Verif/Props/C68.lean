import Verif.WrapCall
import Verif.PassIrSim
/- C68: calls of library functions pass the labels of all arguments to the wrapper and take the label of the result
from it. -/
namespace Verif
namespace C68
open Spec WrapCall

/-! ### What the wrapper finds -/

theorem takeFixed_args : ∀ (ps : List PTy) (vs : List Nat) (as : List Arg), ps.length ≤ vs.length →
    takeFixed ps (fixedArgs ps vs ++ as) = some (vs.take ps.length, as)
  | [], vs, as, _ => by simp [takeFixed, fixedArgs]
  | .plain :: ps, [], _, h => by simp at h
  | .fnPtr _ _ :: ps, [], _, h => by simp at h
  | .plain :: ps, v :: vs, as, h => by
    simp only [fixedArgs, List.cons_append, takeFixed]
    rw [takeFixed_args ps vs as (by simpa using h)]
    simp
  | .fnPtr n b :: ps, v :: vs, as, h => by
    simp only [fixedArgs, List.cons_append, takeFixed]
    rw [takeFixed_args ps vs as (by simpa using h)]
    simp

theorem takeLabels_args : ∀ (ps : List PTy) (ls : List Nat) (as : List Arg), ps.length ≤ ls.length →
    takeLabels ps ((ls.take ps.length).map .label ++ as) = some (ls.take ps.length, as)
  | [], ls, as, _ => by simp [takeLabels]
  | p :: ps, [], _, h => by simp at h
  | p :: ps, l :: ls, as, h => by
    simp only [List.length_cons, List.take_succ_cons, List.map_cons, List.cons_append, takeLabels]
    rw [takeLabels_args ps ls as (by simpa using h)]
    simp

theorem takeRest_vals : ∀ vs : List Nat, takeRest (vs.map .val) = some vs
  | [] => rfl
  | v :: vs => by simp [takeRest, takeRest_vals vs]

/-- A call that fits the type of the function: every argument has a label, and there are as many as parameters, or
more if the function takes a variable number. -/
structure Fits (T : FnTy) (vs ls : List Nat) : Prop where
  labels : ls.length = vs.length
  least : T.params.length ≤ vs.length
  most : T.vararg = false → vs.length = T.params.length

/-- The labelled arguments of a call. -/
def given (T : FnTy) (vs ls : List Nat) : LArgs :=
  ⟨(vs.zip ls).take T.params.length, (vs.zip ls).drop T.params.length⟩

theorem takeArgs_args {T : FnTy} {vs ls : List Nat} (h : Fits T vs ls) :
    takeArgs T (customArgs T vs ls) = some (given T vs ls) := by
  have hl := h.least
  have hl' : T.params.length ≤ ls.length := by rw [h.labels]; exact hl
  unfold takeArgs customArgs shadowArgs given
  rw [List.append_assoc, takeFixed_args _ _ _ hl]
  simp only [Option.bind_some, List.append_assoc]
  rw [takeLabels_args _ _ _ hl']
  simp only [Option.bind_some]
  have hz : (List.take T.params.length vs).zip (List.take T.params.length ls) = (vs.zip ls).take T.params.length := by
    simp only [List.zip, List.take_zipWith]
  have hd : (List.drop T.params.length vs).zip (List.drop T.params.length ls) = (vs.zip ls).drop T.params.length := by
    simp only [List.zip, List.drop_zipWith]
  cases hv : T.vararg
  · have hn := h.most hv
    have e1 : vs.drop T.params.length = [] := by rw [← hn]; simp
    rw [e1] at hd ⊢
    cases ho : T.void <;> simp [takeRest, hz, ← hd]
  · cases ho : T.void <;> simp [-List.map_drop, takeRest_vals, hz, hd]

/-! ### Types and attributes -/

/-- An argument has the type of the parameter. -/
inductive HasType (T : FnTy) (vs : List Nat) : Arg → CTy → Prop
  | same {i v} : T.params[i]? = some .plain → vs[i]? = some v → HasType T vs (.val v) (.same i)
  | tramp {n b} : HasType T vs (.tramp n b) (.tramp n b)
  | raw {v} : HasType T vs (.raw v) .raw
  | label {l} : HasType T vs (.label l) .label
  | vaLabels {ls} : HasType T vs (.vaLabels ls) .labelPtr
  | retSlot : HasType T vs .retSlot .labelPtr

theorem fixed_types {T : FnTy} {ws : List Nat} : ∀ (ps : List PTy) (vs : List Nat) (i : Nat),
    ps = T.params.drop i → vs = ws.drop i → ps.length ≤ vs.length →
    List.Forall₂ (HasType T ws) (fixedArgs ps vs) (fixedTypes i ps)
  | [], vs, i, _, _, _ => by simp [fixedArgs, fixedTypes]
  | .plain :: ps, [], _, _, _, h => by simp at h
  | .fnPtr _ _ :: ps, [], _, _, _, h => by simp at h
  | .plain :: ps, v :: vs, i, e1, e2, h => by
    have h1 : T.params[i]? = some .plain := by
      have := congrArg (·[0]?) e1
      simpa using this.symm
    have h2 : ws[i]? = some v := by
      have := congrArg (·[0]?) e2
      simpa using this.symm
    simp only [fixedArgs, fixedTypes]
    refine .cons (.same h1 h2) (fixed_types ps vs (i + 1) ?_ ?_ (by simpa using h))
    · rw [← List.tail_drop, ← e1]; rfl
    · rw [← List.tail_drop, ← e2]; rfl
  | .fnPtr n b :: ps, v :: vs, i, e1, e2, h => by
    simp only [fixedArgs, fixedTypes]
    refine .cons .tramp (.cons .raw (fixed_types ps vs (i + 1) ?_ ?_ (by simpa using h)))
    · rw [← List.tail_drop, ← e1]; rfl
    · rw [← List.tail_drop, ← e2]; rfl

/-- C68 (types): the call that is built fits the type under which the wrapper is declared in the program: the
arguments have the types of its parameters, in order, and only variable arguments are left. -/
theorem C68_types (T : FnTy) (vs ls : List Nat) (h : Fits T vs ls) :
    ∃ as, customArgs T vs ls = as ++ (vs.drop T.params.length).map .val ∧
      List.Forall₂ (HasType T vs) as (customType T) := by
  refine ⟨_, rfl, ?_⟩
  unfold shadowArgs customType
  rw [List.append_assoc, List.append_assoc, List.append_assoc]
  refine List.rel_append (fixed_types _ _ 0 rfl rfl h.least) ?_
  have hl' : T.params.length ≤ ls.length := by rw [h.labels]; exact h.least
  refine List.rel_append ?_ ?_
  · have : ∀ (l : List Nat) (n : Nat), l.length = n →
        List.Forall₂ (HasType T vs) (l.map .label) (List.replicate n .label) := by
      intro l
      induction l with
      | nil => rintro n rfl; exact .nil
      | cons a l ih => rintro n rfl; exact .cons .label (ih _ rfl)
    exact this _ _ (by simp [hl'])
  · refine List.rel_append ?_ ?_
    · split
      · exact .cons .vaLabels .nil
      · exact .nil
    · split
      · exact .nil
      · exact .cons .retSlot .nil

theorem indexMap_spec : ∀ (ps : List PTy) (k i : Nat), i < ps.length →
    ∃ j, (indexMap k ps)[i]? = some j ∧ k ≤ j ∧ j < k + (fixedTypes 0 ps).length
  | [], _, _, h => by simp at h
  | .plain :: ps, k, 0, _ => by simp [indexMap, fixedTypes]
  | .fnPtr _ _ :: ps, k, 0, _ => by simp [indexMap, fixedTypes]
  | .plain :: ps, k, i + 1, h => by
    have hlen : ∀ a b, (fixedTypes a ps).length = (fixedTypes b ps).length := by
      clear h
      induction ps with
      | nil => intros; rfl
      | cons p ps ih => intro a b; cases p <;> simp [fixedTypes, ih (a + 1) (b + 1)]
    obtain ⟨j, h1, h2, h3⟩ := indexMap_spec ps (k + 1) i (by simpa using h)
    exact ⟨j, by simpa [indexMap] using h1, by omega, by simp [fixedTypes]; rw [hlen 1 0]; omega⟩
  | .fnPtr _ _ :: ps, k, i + 1, h => by
    have hlen : ∀ a b, (fixedTypes a ps).length = (fixedTypes b ps).length := by
      clear h
      induction ps with
      | nil => intros; rfl
      | cons p ps ih => intro a b; cases p <;> simp [fixedTypes, ih (a + 1) (b + 1)]
    obtain ⟨j, h1, h2, h3⟩ := indexMap_spec ps (k + 2) i (by simpa using h)
    exact ⟨j, by simpa [indexMap] using h1, by omega, by simp [fixedTypes]; rw [hlen 1 0]; omega⟩

/-- The values in the call are where the mapping says. -/
theorem indexMap_args : ∀ (ps : List PTy) (vs : List Nat) (pre as : List Arg) (i : Nat) (p : PTy) (v : Nat),
    ps[i]? = some p → vs[i]? = some v →
    ∃ j, (indexMap pre.length ps)[i]? = some j ∧
      (pre ++ fixedArgs ps vs ++ as)[j]? = some (match p with | .plain => .val v | .fnPtr n b => .tramp n b)
  | [], _, _, _, i, _, _, h, _ => by simp at h
  | .plain :: ps, [], _, _, i, _, _, _, h => by simp at h
  | .fnPtr _ _ :: ps, [], _, _, i, _, _, _, h => by simp at h
  | .plain :: ps, w :: vs, pre, as, 0, p, v, h1, h2 => by
    simp only [List.getElem?_cons_zero, Option.some.injEq] at h1 h2
    subst h1 h2
    exact ⟨pre.length, rfl, by simp [fixedArgs]⟩
  | .fnPtr _ _ :: ps, w :: vs, pre, as, 0, p, v, h1, h2 => by
    simp only [List.getElem?_cons_zero, Option.some.injEq] at h1 h2
    subst h1 h2
    exact ⟨pre.length, rfl, by simp [fixedArgs]⟩
  | .plain :: ps, w :: vs, pre, as, i + 1, p, v, h1, h2 => by
    obtain ⟨j, e1, e2⟩ := indexMap_args ps vs (pre ++ [.val w]) as i p v (by simpa using h1) (by simpa using h2)
    refine ⟨j, ?_, ?_⟩
    · simpa [indexMap] using e1
    · simpa [fixedArgs] using e2
  | .fnPtr n b :: ps, w :: vs, pre, as, i + 1, p, v, h1, h2 => by
    obtain ⟨j, e1, e2⟩ := indexMap_args ps vs (pre ++ [.tramp n b, .raw w]) as i p v (by simpa using h1)
      (by simpa using h2)
    refine ⟨j, ?_, ?_⟩
    · simpa [indexMap] using e1
    · simpa [fixedArgs] using e2

theorem indexMap_length : ∀ (ps : List PTy) (k : Nat), (indexMap k ps).length = ps.length
  | [], _ => rfl
  | .plain :: ps, k => by simp [indexMap, indexMap_length ps]
  | .fnPtr _ _ :: ps, k => by simp [indexMap, indexMap_length ps]

theorem indexMap_ge : ∀ (ps : List PTy) (k j : Nat), j ∈ indexMap k ps → k ≤ j
  | [], _, _, h => by simp [indexMap] at h
  | .plain :: ps, k, j, h => by
    simp only [indexMap, List.mem_cons] at h
    rcases h with rfl | h
    · exact Nat.le_refl _
    · have := indexMap_ge ps _ _ h; omega
  | .fnPtr _ _ :: ps, k, j, h => by
    simp only [indexMap, List.mem_cons] at h
    rcases h with rfl | h
    · exact Nat.le_refl _
    · have := indexMap_ge ps _ _ h; omega

theorem indexMap_nodup : ∀ (ps : List PTy) (k : Nat), (indexMap k ps).Nodup
  | [], _ => List.nodup_nil
  | .plain :: ps, k => by
    simp only [indexMap, List.nodup_cons]
    exact ⟨fun h => by have := indexMap_ge ps _ _ h; omega, indexMap_nodup ps _⟩
  | .fnPtr _ _ :: ps, k => by
    simp only [indexMap, List.nodup_cons]
    exact ⟨fun h => by have := indexMap_ge ps _ _ h; omega, indexMap_nodup ps _⟩

theorem setAll {α : Type} (attrs : Nat → α) : ∀ (ps : List (Nat × Nat)) (l : List α), (ps.map (·.1)).Nodup →
    (∀ p ∈ ps, p.1 < l.length) →
    (ps.foldl (fun l p => l.set p.1 (attrs p.2)) l).length = l.length ∧
    (∀ p ∈ ps, (ps.foldl (fun l p => l.set p.1 (attrs p.2)) l)[p.1]? = some (attrs p.2)) ∧
    ∀ k, k ∉ ps.map (·.1) → (ps.foldl (fun l p => l.set p.1 (attrs p.2)) l)[k]? = l[k]?
  | [], l, _, _ => by simp
  | q :: ps, l, hn, hl => by
    simp only [List.map_cons, List.nodup_cons] at hn
    obtain ⟨h1, h2, h3⟩ := setAll attrs ps (l.set q.1 (attrs q.2)) hn.2
      (fun p hp => by simpa using hl p (by simp [hp]))
    simp only [List.foldl_cons]
    refine ⟨by simpa using h1, ?_, ?_⟩
    · intro p hp
      simp only [List.mem_cons] at hp
      rcases hp with rfl | hp
      · rw [h3 _ hn.1]
        simp [hl p (by simp)]
      · exact h2 p hp
    · intro k hk
      simp only [List.map_cons, List.mem_cons, not_or] at hk
      rw [h3 k hk.2, List.getElem?_set_ne (Ne.symm hk.1)]

/-- C68 (attributes): the attributes of argument `i` of the original call are those of the same argument in the call of
the wrapper (of its trampoline, for a function pointer), and no other argument has any; `sets` is the number of
sets of attributes of the original call, of which those beyond its arguments are empty. -/
theorem C68_attributes {α : Type} (none : α) (T : FnTy) (vs ls : List Nat) (h : Fits T vs ls) (sets : Nat)
    (attrs : Nat → α) (hs : ∀ i, sets ≤ i → attrs i = none) (ha : ∀ i, vs.length ≤ i → attrs i = none) :
    (∀ i p v, T.params[i]? = some p → vs[i]? = some v →
      ∃ j : Nat, (customArgs T vs ls)[j]? = some (match p with | .plain => Arg.val v | .fnPtr n b => Arg.tramp n b) ∧
        (transformAttrs none T sets attrs)[j]? = some (attrs i)) ∧
    (∀ i v, T.params.length ≤ i → vs[i]? = some v →
      (customArgs T vs ls)[(customType T).length + (i - T.params.length)]? = some (.val v) ∧
        ((transformAttrs none T sets attrs)[(customType T).length + (i - T.params.length)]?).getD none = attrs i) ∧
    ∀ j a, (transformAttrs none T sets attrs)[j]? = some a → a ≠ none →
      ∃ i v, vs[i]? = some v ∧ a = attrs i ∧
        (j ∈ (indexMap 0 T.params)[i]? ∨ j = (customType T).length + (i - T.params.length)) := by
  have hb : ∀ p ∈ (indexMap 0 T.params).zip (List.range T.params.length),
      p.1 < (List.replicate (customType T).length none).length := by
    intro p hp
    obtain ⟨i, hi⟩ := List.mem_iff_getElem?.1 hp
    rw [List.getElem?_zip_eq_some] at hi
    have hlt : i < T.params.length := by
      have := (List.getElem?_eq_some_iff.1 hi.1).1
      rwa [indexMap_length] at this
    obtain ⟨j, h1, -, h2⟩ := indexMap_spec T.params 0 i hlt
    rw [h1] at hi
    have : j = p.1 := by simpa using hi.1
    simp only [List.length_replicate, customType, List.length_append]
    omega
  have hm : ((indexMap 0 T.params).zip (List.range T.params.length)).map (·.1) = indexMap 0 T.params :=
    List.map_fst_zip (by rw [indexMap_length, List.length_range]; exact Nat.le_refl _)
  obtain ⟨s1, s2, s3⟩ := setAll attrs _ _ (by rw [hm]; exact indexMap_nodup _ _) hb
  obtain ⟨as, e1, e2⟩ := C68_types T vs ls h
  have hlen := e2.length_eq
  rw [List.length_replicate] at s1
  refine ⟨?_, ?_, ?_⟩
  · intro i p v hp hv
    obtain ⟨j, h1, h2⟩ := indexMap_args T.params vs [] (shadowArgs T ls ++ (vs.drop T.params.length).map .val) i p v hp hv
    refine ⟨j, ?_, ?_⟩
    · rw [← h2]; simp [customArgs]
    · have hlt := (List.getElem?_eq_some_iff.1 hp).1
      have hmem : (j, i) ∈ (indexMap 0 T.params).zip (List.range T.params.length) := by
        refine List.mem_iff_getElem?.2 ⟨i, ?_⟩
        rw [List.getElem?_zip_eq_some]
        exact ⟨h1, by simp [hlt]⟩
      have := s2 _ hmem
      unfold transformAttrs
      rw [List.getElem?_append_left]
      · exact this
      · rw [s1]
        simpa using hb _ hmem
  · intro i v hi hv
    constructor
    · rw [e1, List.getElem?_append_right (by omega), hlen, Nat.add_sub_cancel_left]
      rw [List.getElem?_map, List.getElem?_drop, Nat.add_sub_cancel' hi, hv]
      rfl
    · unfold transformAttrs
      rw [List.getElem?_append_right (by rw [s1]; omega), s1, Nat.add_sub_cancel_left, List.getElem?_map]
      by_cases hk : i - T.params.length < sets - T.params.length
      · rw [List.getElem?_range hk]
        simp [Nat.add_sub_cancel' hi]
      · rw [List.getElem?_eq_none (by simpa using hk)]
        simp [hs i (by omega)]
  · intro j a hj hne
    unfold transformAttrs at hj
    by_cases hlt : j < (customType T).length
    · rw [List.getElem?_append_left (by rw [s1]; exact hlt)] at hj
      by_cases hk : j ∈ indexMap 0 T.params
      · obtain ⟨i, hi⟩ := List.mem_iff_getElem?.1 hk
        have hil : i < T.params.length := by
          have := (List.getElem?_eq_some_iff.1 hi).1
          rwa [indexMap_length] at this
        have hmem : (j, i) ∈ (indexMap 0 T.params).zip (List.range T.params.length) := by
          refine List.mem_iff_getElem?.2 ⟨i, ?_⟩
          rw [List.getElem?_zip_eq_some]
          exact ⟨hi, by simp [hil]⟩
        have := s2 _ hmem
        simp only at this
        rw [this] at hj
        have hv : i < vs.length := by have := h.least; omega
        exact ⟨i, vs[i], List.getElem?_eq_getElem hv, by simpa using hj.symm, Or.inl hi⟩
      · rw [s3 j (by rw [hm]; exact hk), List.getElem?_replicate, if_pos hlt] at hj
        exact absurd (by simpa using hj.symm) hne
    · rw [List.getElem?_append_right (by rw [s1]; omega), s1, List.getElem?_map] at hj
      obtain ⟨k, hk, hka⟩ : ∃ k, (List.range (sets - T.params.length))[j - (customType T).length]? = some k ∧
          attrs (T.params.length + k) = a := by
        revert hj
        cases (List.range (sets - T.params.length))[j - (customType T).length]? <;> simp
      have hk' := (List.getElem?_eq_some_iff.1 hk)
      obtain ⟨hk1, hk2⟩ := hk'
      rw [List.getElem_range] at hk2
      subst hk2
      by_cases hv : T.params.length + (j - (customType T).length) < vs.length
      · exact ⟨_, _, List.getElem?_eq_getElem hv, hka.symm, Or.inr (by omega)⟩
      · exact absurd (by rw [← hka]; exact ha _ (by omega)) hne

/-! ### Functions of the program called back -/

theorem storeArgs_spec : ∀ (ls : List Nat) (off : Nat) (tls : Nat → Nat) (i l : Nat), ls[i]? = some l →
    off + 4 * i + 4 ≤ PassIr.argTLSSize → storeArgs off ls tls (off + 4 * i) = l
  | [], _, _, i, _, h, _ => by simp at h
  | l' :: ls, off, tls, i, l, h, hb => by
    simp only [storeArgs]
    rw [if_neg (by omega)]
    cases i with
    | zero =>
      simp only [List.getElem?_cons_zero, Option.some.injEq] at h
      subst h
      have : ∀ (ls : List Nat) (off' : Nat) (tls : Nat → Nat), off < off' → storeArgs off' ls tls off = tls off := by
        intro ls
        induction ls with
        | nil => intros; rfl
        | cons a ls ih =>
          intro off' tls ho
          simp only [storeArgs]
          split
          · rfl
          · rw [ih _ _ (by omega), if_neg (by omega)]
      have h2 := this ls (off + 4) (fun o => if o = off then l' else tls o) (by omega)
      simpa using h2
    | succ i =>
      rw [show off + 4 * (i + 1) = (off + 4) + 4 * i by omega]
      exact storeArgs_spec ls _ _ i l (by simpa using h) (by omega)

theorem argLabel_stored {ls : List Nat} {tls : Nat → Nat} {i l : Nat} (h : ls[i]? = some l) (hb : i < 200) :
    argLabel (storeArgs 0 ls tls) ls.length i = l := by
  have hi := (List.getElem?_eq_some_iff.1 h).1
  have hc : i < ls.length ∧ 0 + 4 * i + 4 ≤ PassIr.argTLSSize := ⟨hi, by unfold PassIr.argTLSSize; omega⟩
  unfold argLabel
  rw [PassIr.argOffset_eq, if_pos hc]
  exact storeArgs_spec ls 0 tls i l h hc.2

/-- A function called with at most 200 arguments gets them with their labels, and gives its result with its label. -/
theorem callFn_spec {F : Fn} {args : List (Nat × Nat)} {s : St} (hn : F.nparams = args.length) (hb : args.length ≤ 200) :
    (callFn F args s).1 = (F.f args s.m).1 ∧ (callFn F args s).2.m = (F.f args s.m).2 := by
  have e : (List.range F.nparams).map (fun i => ((args.map (·.1)).getD i 0,
      argLabel (storeArgs 0 (args.map (·.2)) s.argTls) F.nparams i)) = args := by
    apply List.ext_getElem?
    intro i
    by_cases hi : i < args.length
    · rw [List.getElem?_map, List.getElem?_range (by omega)]
      have h1 : (args.map (·.2))[i]? = some (args[i]).2 := by simp [hi]
      have h2 := argLabel_stored (tls := s.argTls) h1 (by omega)
      rw [List.length_map] at h2
      rw [hn, List.getElem?_eq_getElem hi]
      simp [h2, hi]
    · rw [List.getElem?_eq_none (by simp; omega), List.getElem?_eq_none (by omega)]
  unfold callFn enter
  simp only
  rw [e]
  exact ⟨rfl, rfl⟩

/-- The functions of the program have as many parameters as the wrapper passes. -/
def Arity (fns : Nat → Fn) : WCode → Prop
  | .ret _ _ => True
  | .mem _ k => Arity fns k
  | .look _ k => ∀ v, Arity fns (k v)
  | .call p args k => (fns p).nparams = args.length ∧ ∀ v l, Arity fns (k v l)

theorem runW_spec {fns : Nat → Fn} : ∀ (c : WCode) (s : St), Arity fns c → c.Within 200 →
    (runW fns c s).1 = (c.meaning (fun p => (fns p).f) s.m).1 ∧
    (runW fns c s).2.m = (c.meaning (fun p => (fns p).f) s.m).2
  | .ret v l, s, _, _ => ⟨rfl, rfl⟩
  | .mem f k, s, h1, h2 => by
    simp only [runW, WCode.meaning]
    exact runW_spec k _ h1 h2
  | .look f k, s, h1, h2 => by
    simp only [runW, WCode.meaning]
    exact runW_spec _ _ (h1 _) (h2 _)
  | .call p args k, s, h1, h2 => by
    simp only [runW, WCode.meaning]
    obtain ⟨e1, e2⟩ := callFn_spec (s := s) h1.1 h2.1
    obtain ⟨e3, e4⟩ := runW_spec (k (callFn (fns p) args s).1.1 (callFn (fns p) args s).1.2) (callFn (fns p) args s).2
      (h1.2 _ _) (h2.2 _ _)
    rw [e3, e4, e2, e1]
    exact ⟨rfl, rfl⟩

/-! ### The property -/

theorem custom_call (fns : Nat → Fn) (T : FnTy) (W : LArgs → WCode) (vs ls : List Nat) (slot : Nat) (s : St)
    (h : Fits T vs ls) (ha : Arity fns (W (given T vs ls))) (hw : (W (given T vs ls)).Within 200) :
    ∃ r, callCustom fns T W vs ls slot s = some r ∧
      r.1.1 = ((W (given T vs ls)).meaning (fun p => (fns p).f) s.m).1.1 ∧
      r.2.m = ((W (given T vs ls)).meaning (fun p => (fns p).f) s.m).2 ∧
      ∀ l, T.void = false → ((W (given T vs ls)).meaning (fun p => (fns p).f) s.m).1.2 = some l → r.1.2 = l := by
  unfold callCustom
  rw [takeArgs_args h]
  obtain ⟨e1, e2⟩ := runW_spec _ s ha hw
  refine ⟨_, rfl, congrArg (·.1) e1, e2, ?_⟩
  intro l hv hl
  simp only [hv]
  rw [e1, hl]
  rfl

/-- C68 (direct call): a call of a function that is listed as custom (and as nothing else), with any fixed and variable
arguments, has the effect of its wrapper on the labelled arguments, in which functions of the program that it
calls back get and give the labels that belong to the values; the result has the label that the wrapper stores. -/
theorem C68_direct (fns : Nat → Fn) (T : FnTy) (W : LArgs → WCode) (union : Nat → Nat → Nat) (N : List Nat → NCode)
    (vs ls : List Nat) (slot : Nat) (s : St)
    (h : Fits T vs ls) (ha : Arity fns (W (given T vs ls))) (hw : (W (given T vs ls)).Within 200) :
    ∃ r, callListed fns false false true T W union N vs ls slot s = some r ∧
      r.1.1 = ((W (given T vs ls)).meaning (fun p => (fns p).f) s.m).1.1 ∧
      r.2.m = ((W (given T vs ls)).meaning (fun p => (fns p).f) s.m).2 ∧
      ∀ l, T.void = false → ((W (given T vs ls)).meaning (fun p => (fns p).f) s.m).1.2 = some l → r.1.2 = l :=
  custom_call fns T W vs ls slot s h ha hw

/-- C68 (call by address): a custom function with at most 200 parameters and no variable arguments that is called by its
address does the same as when it is called directly. -/
theorem C68_address (fns : Nat → Fn) (T : FnTy) (W : LArgs → WCode) (vs ls : List Nat) (slot : Nat) (s : St)
    (h : Fits T vs ls) (hva : T.vararg = false) (hn : T.params.length ≤ 200)
    (ha : Arity fns (W (given T vs ls))) (hw : (W (given T vs ls)).Within 200) :
    ∃ r, callWrapped fns T W vs ls slot s = some r ∧
      r.1.1 = ((W (given T vs ls)).meaning (fun p => (fns p).f) s.m).1.1 ∧
      r.2.m = ((W (given T vs ls)).meaning (fun p => (fns p).f) s.m).2 ∧
      ∀ l, T.void = false → ((W (given T vs ls)).meaning (fun p => (fns p).f) s.m).1.2 = some l → r.1.2 = l := by
  have hlen : ls.length = T.params.length := by rw [h.labels, h.most hva]
  have e : (List.range T.params.length).map (argLabel (storeArgs 0 ls s.argTls) T.params.length) = ls := by
    apply List.ext_getElem?
    intro i
    by_cases hi : i < ls.length
    · rw [List.getElem?_map, List.getElem?_range (by omega), List.getElem?_eq_getElem hi]
      have := argLabel_stored (tls := s.argTls) (List.getElem?_eq_getElem hi) (by omega)
      rw [hlen] at this
      simp [this]
    · rw [List.getElem?_eq_none (by simp; omega), List.getElem?_eq_none (by omega)]
  obtain ⟨r, h1, h2, h3, h4⟩ := custom_call fns T W vs ls slot { s with argTls := storeArgs 0 ls s.argTls } h ha hw
  unfold callWrapped
  simp only [hva, Bool.false_eq_true, if_false, e, h1, Option.map_some]
  by_cases hv : T.void
  · rw [if_pos hv]
    exact ⟨r, rfl, h2, h3, h4⟩
  · rw [if_neg hv]
    exact ⟨_, rfl, h2, h3, h4⟩

/-- C68 (functional and discarded functions): if the function is not listed as custom, or also as functional or
discard, the function itself runs; the result has the union of the labels of all arguments if the function is
functional (`den` gives the meaning of labels), otherwise label 0. -/
theorem C68_native {α : Type} (fns : Nat → Fn) (T : FnTy) (W : LArgs → WCode) (union : Nat → Nat → Nat)
    (den : Nat → α → Prop) (h0 : ∀ b, ¬ den 0 b) (hu : ∀ a b x, den (union a b) x ↔ den a x ∨ den b x)
    (N : List Nat → NCode) (vs ls : List Nat) (slot : Nat) (s : St) (f d c : Bool)
    (hc : c = true → f = true ∨ d = true) :
    ∃ l, callListed fns f d c T W union N vs ls slot s = some (((runN fns (N vs) s).1, l), (runN fns (N vs) s).2) ∧
    (f = true → ∀ b, den l b ↔ ∃ l ∈ ls, den l b) ∧ (f = false → l = 0) := by
  have hf : ∀ (ls : List Nat) (a : Nat) (b : α), den (ls.foldl union a) b ↔ den a b ∨ ∃ l ∈ ls, den l b := by
    intro ls
    induction ls with
    | nil => intro a b; simp
    | cons l ls ih => intro a b; rw [List.foldl_cons, ih, hu]; simp [or_assoc]
  have hk : wrapperKind f d c ≠ .custom ∧ (wrapperKind f d c = .functional ↔ f = true) := by
    cases f <;> cases d <;> cases c <;> simp_all [wrapperKind]
  refine ⟨(callNative fns (wrapperKind f d c) union N vs ls s).1.2, ?_, ?_, ?_⟩
  · unfold callListed
    generalize wrapperKind f d c = k at hk
    cases k
    case custom => exact absurd rfl hk.1
    all_goals rfl
  · intro hft b
    simp only [callNative, hk.2.2 hft, if_true]
    cases ls with
    | nil => simp [combine, h0]
    | cons l ls => simp only [combine, hu, hf, h0, or_false]; simp
  · intro hff
    have hk' : wrapperKind f d c ≠ .functional := fun e => by rw [hk.2.1 e] at hff; cases hff
    simp only [callNative, if_neg hk']

/-! ### Examples -/

/-- `int f(int, int (*)(int), ...)`. -/
def exT : FnTy := ⟨[.plain, .fnPtr 1 false], true, false⟩

/-- Calls the function with its first argument, and returns the sum of the result and of the first variable
argument, with the label of the result. -/
def exW (a : LArgs) : WCode :=
  .call ((a.fixed.getD 1 (0, 0)).1) [a.fixed.getD 0 (0, 0)] fun v l =>
    .mem (fun m => { m with label := fun x => if x = 100 then (a.rest.getD 0 (0, 0)).2 else m.label x })
      (.ret (v + (a.rest.getD 0 (0, 0)).1) (some l))

/-- Doubles its argument. -/
def exFn : Fn := ⟨fun args m => ((2 * (args.getD 0 (0, 0)).1, (args.getD 0 (0, 0)).2), m), 1, fun _ _ _ => 77⟩

/-- The hypotheses are met. -/
example : Fits exT [5, 4096, 7] [1, 0, 3] ∧ Arity (fun _ => exFn) (exW (given exT [5, 4096, 7] [1, 0, 3])) ∧
    (exW (given exT [5, 4096, 7] [1, 0, 3])).Within 200 ∧ Fits ⟨[.plain], false, false⟩ [5] [1] :=
  ⟨⟨rfl, by decide, by decide⟩, ⟨rfl, fun _ _ => trivial⟩, ⟨by decide, fun _ _ => trivial⟩, ⟨rfl, by decide, by decide⟩⟩

/-- What happens in this call: f(5, g, 7), where 5 has label 1 and 7 has label 3. -/
example : ((callCustom (fun _ => exFn) exT exW [5, 4096, 7] [1, 0, 3] 9 ⟨⟨fun _ => 0, fun _ => 0⟩, fun _ => 0, 0⟩).map
    fun r => (r.1, r.2.m.label 100)) = some ((17, 1), 3) := by decide

example : customArgs exT [5, 4096, 7] [1, 0, 3] =
    [.val 5, .tramp 1 false, .raw 4096, .label 1, .label 0, .vaLabels [3], .retSlot, .val 7] := by decide

/-- The hypotheses of the statement on attributes: argument 1 has attribute 8, argument 2 attribute 9. -/
example : transformAttrs 0 exT 5 (fun i => if i = 1 then 8 else if i = 2 then 9 else 0) =
    [0, 8, 0, 0, 0, 0, 0, 9, 0, 0] := by decide

/-- A function listed both as discard and as custom is discarded. -/
example : ((callListed (fun _ => exFn) false true true exT exW (fun a b => a + b) (fun vs => .ret (vs.headD 0))
    [5, 4096, 7] [1, 0, 3] 9 ⟨⟨fun _ => 0, fun _ => 0⟩, fun _ => 0, 0⟩).map fun r => r.1) = some (5, 0) ∧
    ((callListed (fun _ => exFn) true true true exT exW (fun a b => a + b) (fun vs => .ret (vs.headD 0))
    [5, 4096, 7] [1, 0, 3] 9 ⟨⟨fun _ => 0, fun _ => 0⟩, fun _ => 0, 0⟩).map fun r => r.1) = some (5, 4) := by decide

/-! ### What is false -/

/-- C68 is false of wrappers that do not store the label of the result, as
`__dfsw___polytracker_log_tainted_control_flow` before the start of the tracker: the result gets the label of the
result of an earlier call in the same function, from another wrapper. -/
theorem C68_stale_refuted : ∃ (T : FnTy) (W W' : LArgs → WCode) (s : St),
    ∀ fns, ∃ r r', callCustom fns T W [5] [1] 0 s = some r ∧ callCustom fns T W' [6] [0] r.1.2 r.2 = some r' ∧
      (∀ m, ((W' (given T [6] [0])).meaning (fun p => (fns p).f) m).1.2 = none) ∧ r'.1 = (0, 1) := by
  refine ⟨⟨[.plain], false, false⟩, fun a => .ret 0 (some (a.fixed.getD 0 (0, 0)).2), fun _ => .ret 0 none,
    ⟨⟨fun _ => 0, fun _ => 0⟩, fun _ => 0, 0⟩, fun fns => ⟨_, _, rfl, rfl, fun m => rfl, rfl⟩⟩

/-- C68 is false of functions of the program that are called back by a function that is not custom (qsort is discarded,
bsearch only uninstrumented): their parameters get the labels left by the last call of an instrumented
function. Here the program calls `g(x)`, where `x` has label 7, and then a function that calls `f` with the
constant 5: in `f`, 5 has label 7. -/
theorem C68_callback_refuted : ∃ (f g : Fn) (N : List Nat → NCode) (s : St),
    (∀ args m, (f.f args m).2.label = fun _ => (args.getD 0 (0, 0)).2) ∧
    ∀ k, k ≠ Kind.custom → ∀ union, ∃ r r', callFn g [(3, 7)] s = r ∧
      callNative (fun _ => f) k union N [] [] r.2 = r' ∧ N [] = .call 0 [5] (fun v => .ret v) ∧
      r'.2.m.label 0 = 7 := by
  refine ⟨⟨fun args m => ((0, 0), ⟨m.byte, fun _ => (args.getD 0 (0, 0)).2⟩), 1, fun _ _ _ => 0⟩,
    ⟨fun args m => ((0, 0), m), 1, fun args _ => fun _ => (args.getD 0 (0, 0)).2⟩,
    fun _ => .call 0 [5] (fun v => .ret v), ⟨⟨fun _ => 0, fun _ => 0⟩, fun _ => 0, 0⟩, fun _ _ => rfl, ?_⟩
  intro k _ union
  exact ⟨_, _, rfl, rfl, rfl, rfl⟩

/-- C68 is false of memory that is changed by a function that is not custom: the labels stay where they are. Here bytes 0
and 1 are exchanged, as qsort does; byte 0 with value 9 and label 7 is now at 1, which has label 0. -/
theorem C68_moved_refuted : ∃ (N : List Nat → NCode) (s : St),
    s.m.byte 0 = 9 ∧ s.m.label 0 = 7 ∧ s.m.byte 1 = 4 ∧ s.m.label 1 = 0 ∧
    ∀ fns k, k ≠ Kind.custom → ∀ union, ∃ r, callNative fns k union N [0, 2] [0, 0] s = r ∧
      r.2.m.byte 1 = 9 ∧ r.2.m.label 1 = 0 ∧ r.2.m.byte 0 = 4 ∧ r.2.m.label 0 = 7 := by
  refine ⟨fun _ => .load 0 fun x => .load 1 fun y => .store 0 y (.store 1 x (.ret 0)),
    ⟨⟨fun a => if a = 0 then 9 else if a = 1 then 4 else 0, fun a => if a = 0 then 7 else 0⟩, fun _ => 0, 0⟩,
    rfl, rfl, rfl, rfl, fun fns k _ union => ⟨_, rfl, rfl, rfl, rfl, rfl⟩⟩

/-- C68 (call by address) is false of functions with variable arguments: the process stops. -/
theorem C68_vararg_refuted : ∃ (T : FnTy) (vs ls : List Nat), Fits T vs ls ∧
    ∀ fns W slot s, callWrapped fns T W vs ls slot s = none ∧ ∃ r, callCustom fns T W vs ls slot s = some r := by
  refine ⟨exT, [5, 4096, 7], [1, 0, 3], ⟨rfl, by decide, by decide⟩, ?_⟩
  intro fns W slot s
  refine ⟨rfl, ?_⟩
  unfold callCustom
  rw [takeArgs_args (T := exT) (vs := [5, 4096, 7]) (ls := [1, 0, 3]) ⟨rfl, by decide, by decide⟩]
  exact ⟨_, rfl⟩

end C68
end Verif
