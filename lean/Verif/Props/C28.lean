import Verif.MappingLemmas
import Verif.Props.C17
/- C28: the input/output mapping is exact. -/
namespace Verif
open Spec Py File Tracker

/-- The mapping relates the key to the value. -/
def Py.Maps (d : Dict FileOffset (List FileOffset)) (x y : FileOffset) : Prop := ∃ s, d.get x = some s ∧ y ∈ s

theorem Py.maps_addTo (d : Dict FileOffset (List FileOffset)) (k v x y : FileOffset) :
    Maps (addTo d k v) x y ↔ Maps d x y ∨ (x = k ∧ y = v) := by
  simp only [Maps, addTo, Dict.get_set]
  by_cases hx : x = k
  · subst hx
    simp only [if_true, Option.some.injEq, exists_eq_left', true_and]
    cases hd : d.get x with
    | none =>
      simp
    | some s =>
      simp only [Option.getD_some, Option.some.injEq, exists_eq_left']
      by_cases hv : v ∈ s
      · rw [if_pos hv]
        constructor
        · exact Or.inl
        · rintro (h | rfl)
          · exact h
          · exact hv
      · rw [if_neg hv, List.mem_cons]; exact or_comm
  · simp [hx]

/-- What one sink adds. -/
theorem Py.map_sink {F : TDFile} {g : Graph} {n : Nat} (hF : F.Shows g n) (s : Sink) (hs : s.label < n ∧ 0 < s.label)
    (hfd : s.fdidx < F.fdHeaders.length) (d : Dict FileOffset (List FileOffset)) :
    ∃ N d' seen, (∀ fuel, N ≤ fuel → dfs F (mapBody F s) fuel [s.label] [] d = some (d', seen)) ∧
      ∀ x y, Maps d' x y ↔ Maps d x y ∨ ∃ i p q, Denotes g s.label (i, x.2.toNat) ∧ 0 ≤ x.2 ∧
        F.fdHeaders[i]? = some p ∧ F.fdHeaders[s.fdidx]? = some q ∧ x.1 = p.1 ∧ y = (q.1, s.offset) := by
  let I : List Nat → List Nat → Dict FileOffset (List FileOffset) → Prop := fun stack seen d' =>
    (∀ l ∈ stack, BuiltFrom g s.label l ∧ 0 < l ∧ l < n) ∧ (∀ l ∈ seen, BuiltFrom g s.label l) ∧
    (s.label ∈ seen ∨ s.label ∈ stack) ∧
    (∀ l ∈ seen, ∀ t, g l = some t → ∀ k, Ref t k → k ∈ seen ∨ k ∈ stack) ∧
    ∀ x y, Maps d' x y ↔ Maps d x y ∨ ∃ l ∈ seen, ∃ cf i o p q, g l = some (.source cf i o) ∧
      F.fdHeaders[i]? = some p ∧ F.fdHeaders[s.fdidx]? = some q ∧ x = (p.1, (o : Int)) ∧ y = (q.1, s.offset)
  obtain ⟨N, d', seen, h1, h2⟩ := dfs_rule F (mapBody F s) n I
    (fun l stack seen d' hI => (hI.1 l (by simp)).2.2)
    (by
      rintro l stack seen d' ⟨h1, h2, h3, h4, h5⟩ hl
      refine ⟨fun k hk => h1 k (by simp [hk]), h2, ?_, ?_, h5⟩
      · rcases h3 with h3 | h3
        · exact Or.inl h3
        · rcases List.mem_cons.1 h3 with h3 | h3
          · exact Or.inl (h3 ▸ hl)
          · exact Or.inr h3
      · intro k hk t ht j hj
        rcases h4 k hk t ht j hj with h | h
        · exact Or.inl h
        · rcases List.mem_cons.1 h with h | h
          · exact Or.inl (h ▸ hl)
          · exact Or.inr h)
    (by
      rintro l stack seen d' ⟨h1, h2, h3, h4, h5⟩ hl
      obtain ⟨hb, hl0, hln⟩ := h1 l (by simp)
      obtain ⟨t, hg, -, hrefs⟩ := hF.wf.legal l hl0 hln
      have hdec : F.decodeNode l = some (nodeOf t) := by rw [hF.node l hl0, hg]; rfl
      have hbody : ∃ d'', mapBody F s d' (l :: seen) l (nodeOf t) = some (d'', l :: seen) ∧
          ∀ x y, Maps d'' x y ↔ Maps d' x y ∨ ∃ cf i o p q, t = .source cf i o ∧
            F.fdHeaders[i]? = some p ∧ F.fdHeaders[s.fdidx]? = some q ∧ x = (p.1, (o : Int)) ∧
            y = (q.1, s.offset) := by
        cases t with
        | source cf i o =>
          have hi := hF.header l cf i o hg
          refine ⟨addTo d' (F.fdHeaders[i].1, (o : Int)) (F.fdHeaders[s.fdidx].1, s.offset), ?_, ?_⟩
          · simp [mapBody, nodeOf, hi, hfd]
          · intro x y
            rw [maps_addTo]
            refine or_congr Iff.rfl ?_
            constructor
            · rintro ⟨rfl, rfl⟩
              exact ⟨cf, i, o, _, _, rfl, List.getElem?_eq_getElem hi, List.getElem?_eq_getElem hfd, rfl, rfl⟩
            · rintro ⟨cf', i', o', p, q, e, e1, e2, rfl, rfl⟩
              cases e
              rw [List.getElem?_eq_getElem hi] at e1
              rw [List.getElem?_eq_getElem hfd] at e2
              cases e1; cases e2
              exact ⟨rfl, rfl⟩
        | union cf a b => exact ⟨d', rfl, fun x y => by simp⟩
        | range cf a b => exact ⟨d', rfl, fun x y => by simp⟩
      obtain ⟨d'', k1, k2⟩ := hbody
      refine ⟨_, d'', _, hdec, k1, fun x hx => hx, ?_, ?_, ?_, ?_, ?_⟩
      · intro k hk
        rcases List.mem_append.1 hk with hk | hk
        · have hr := mem_pushed.1 hk
          have := hrefs k hr
          exact ⟨builtFrom_trans hb (.step hg hr (.refl _)), by omega, by omega⟩
        · exact h1 k (by simp [hk])
      · intro k hk
        rcases List.mem_cons.1 hk with rfl | hk
        · exact hb
        · exact h2 k hk
      · rcases h3 with h3 | h3
        · exact Or.inl (by simp [h3])
        · rcases List.mem_cons.1 h3 with h3 | h3
          · exact Or.inl (by simp [h3])
          · exact Or.inr (by simp [h3])
      · intro k hk t' ht' j hj
        rcases List.mem_cons.1 hk with rfl | hk
        · rw [hg] at ht'; cases ht'
          exact Or.inr (List.mem_append_left _ (mem_pushed.2 hj))
        · rcases h4 k hk t' ht' j hj with h | h
          · exact Or.inl (by simp [h])
          · rcases List.mem_cons.1 h with h | h
            · exact Or.inl (by simp [h])
            · exact Or.inr (by simp [h])
      · intro x y
        rw [k2, h5, or_assoc]
        refine or_congr Iff.rfl ?_
        constructor
        · rintro (⟨k, hk, h⟩ | ⟨cf, i, o, p, q, rfl, h⟩)
          · exact ⟨k, by simp [hk], h⟩
          · exact ⟨l, by simp, cf, i, o, p, q, hg, h⟩
        · rintro ⟨k, hk, cf, i, o, p, q, hgk, h⟩
          rcases List.mem_cons.1 hk with rfl | hk
          · rw [hg] at hgk
            exact Or.inr ⟨cf, i, o, p, q, Option.some.inj hgk, h⟩
          · exact Or.inl ⟨k, hk, cf, i, o, p, q, hgk, h⟩)
    [s.label] [] d
    ⟨by simp; exact ⟨.refl _, hs.2, hs.1⟩, by simp, by simp, by simp, by simp⟩
  refine ⟨N, d', seen, h1, ?_⟩
  obtain ⟨-, k2, k3, k4, k5⟩ := h2
  have k3 : s.label ∈ seen := k3.resolve_right (by simp)
  have hall : ∀ l, BuiltFrom g s.label l → l ∈ seen := by
    have : ∀ a l, BuiltFrom g a l → a ∈ seen → l ∈ seen := by
      intro a l h
      induction h with
      | refl => exact id
      | step hg hr _ ih => exact fun ha => ih ((k4 _ ha _ hg _ hr).resolve_right (by simp))
    exact fun l h => this _ _ h k3
  intro x y
  rw [k5]
  refine or_congr Iff.rfl ?_
  constructor
  · rintro ⟨l, hl, cf, i, o, p, q, hg, h1, h2, rfl, rfl⟩
    refine ⟨i, p, q, denotes_iff_builtFrom.2 ⟨l, cf, k2 l hl, by simpa using hg⟩, by simp, h1, h2, rfl, rfl⟩
  · rintro ⟨i, p, q, hd, h0, h1, h2, h3, rfl⟩
    obtain ⟨l, cf, hb, hg⟩ := denotes_iff_builtFrom.1 hd
    refine ⟨l, hall l hb, cf, i, _, p, q, hg, h1, h2, ?_, rfl⟩
    obtain ⟨x1, x2⟩ := x
    simp only at h3 h0 ⊢
    rw [h3, Int.toNat_of_nonneg h0]

theorem Py.map_sinks {F : TDFile} {g : Graph} {n : Nat} (hF : F.Shows g n) : ∀ (ss : List Sink)
    (_ : ∀ s ∈ ss, 0 < s.label ∧ s.label < n ∧ s.fdidx < F.fdHeaders.length)
    (d : Dict FileOffset (List FileOffset)),
    ∃ N d', (∀ fuel, N ≤ fuel → mapSinks F fuel ss d = some d') ∧
      ∀ x y, Maps d' x y ↔ Maps d x y ∨ ∃ s ∈ ss, ∃ i p q, Denotes g s.label (i, x.2.toNat) ∧ 0 ≤ x.2 ∧
        F.fdHeaders[i]? = some p ∧ F.fdHeaders[s.fdidx]? = some q ∧ x.1 = p.1 ∧ y = (q.1, s.offset) := by
  intro ss
  induction ss with
  | nil => intro _ d; exact ⟨0, d, fun _ _ => rfl, fun x y => by simp⟩
  | cons s ss ih =>
    intro hss d
    obtain ⟨h0, hl, hf⟩ := hss s (by simp)
    obtain ⟨N1, d1, seen, h1, h2⟩ := map_sink hF s ⟨hl, h0⟩ hf d
    obtain ⟨N2, d2, h3, h4⟩ := ih (fun t ht => hss t (by simp [ht])) d1
    refine ⟨max N1 N2, d2, ?_, ?_⟩
    · intro fuel hfu
      rw [mapSinks, h1 fuel (by omega)]
      exact h3 fuel (by omega)
    · intro x y
      rw [h4, h2, or_assoc]
      refine or_congr Iff.rfl ?_
      constructor
      · rintro (h | ⟨t, ht, h⟩)
        · exact ⟨s, by simp, h⟩
        · exact ⟨t, by simp [ht], h⟩
      · rintro ⟨t, ht, h⟩
        rcases List.mem_cons.1 ht with rfl | ht
        · exact Or.inl h
        · exact Or.inr ⟨t, ht, h⟩

/-- For every file that shows a label graph, the mapping is computed (the walks end) and relates byte
`o` of input file `p` to byte `r` of output file `q` exactly when some sink record for `(q, r)` carries
a label that denotes byte `o` of an input with path `p`. -/
theorem C28_mapping (F : TDFile) (g : Graph) (n : Nat) (hF : F.Shows g n) :
    ∃ N d, (∀ fuel, N ≤ fuel → mapping F fuel = some d) ∧
      ∀ (p : List Nat) (o : Nat) (q : List Nat) (r : Int), Maps d (p, (o : Int)) (q, r) ↔
        ∃ ss s i hp hq, F.sinks = some ss ∧ s ∈ ss ∧ s.offset = r ∧ Denotes g s.label (i, o) ∧
          F.fdHeaders[i]? = some hp ∧ hp.1 = p ∧ F.fdHeaders[s.fdidx]? = some hq ∧ hq.1 = q := by
  obtain ⟨ss, h1, h2⟩ := hF.sinks
  obtain ⟨N, d, h3, h4⟩ := map_sinks hF ss h2 []
  refine ⟨N, d, ?_, ?_⟩
  · intro fuel hf
    rw [mapping, h1]
    exact h3 fuel hf
  · intro p o q r
    rw [h4]
    simp only [Maps, Dict.get, reduceCtorEq, false_and, exists_false, false_or, Int.toNat_natCast]
    constructor
    · rintro ⟨s, hs, i, hp, hq, k1, -, k3, k4, k5, k6⟩
      cases k6
      exact ⟨ss, s, i, hp, hq, h1, hs, rfl, k1, k3, k5.symm, k4, rfl⟩
    · rintro ⟨ss', s, i, hp, hq, k1, k2, rfl, k4, k5, rfl, k7, rfl⟩
      rw [h1] at k1; cases k1
      exact ⟨s, k2, i, hp, hq, k4, by omega, k5, k7, rfl, rfl⟩

/-- For every run that ends in an orderly way and whose sink log did not fill up: the mapping relates
byte `o` of `p` to byte `r` of `q` exactly when some tainted byte that was written to offset `r` of an
output with path `q` carried a label that, according to the sequence of calls, means byte `o` of an
input with path `p`. -/
theorem C28_run (c : Config) (base : Nat) (hc : c.Ok base) (h : Trace) (T : Tracker)
    (hr : Tracker.Reach c base h T) (hroom : T.labels.words.length + 64 ≤ c.indexCap)
    (hu : ∀ n ∈ names h, utf8 n = true) (hlog : (written h).length ≤ c.sinkCap) (pads : Pads) :
    ∃ F N d, parse (closed pads c base T) = some F ∧ (∀ fuel, N ≤ fuel → mapping F fuel = some d) ∧
      ∀ (p : List Nat) (o : Nat) (q : List Nat) (r : Int), Maps d (p, (o : Int)) (q, r) ↔
        ∃ w i e e', w ∈ written h ∧ (w.offset : Int) = r ∧ Meaning (labelEvents h) w.label (i, o) ∧
          (registered h)[i]? = some e ∧ pathStr e.1 = p ∧ (registered h)[w.out]? = some e' ∧
          pathStr e'.1 = q := by
  obtain ⟨F, hF, hs, hrec⟩ := shows_reach c base hc h T hr hroom hu pads
  obtain ⟨N, d, h1, h2⟩ := C28_mapping F _ _ hs
  refine ⟨F, N, d, hF, h1, ?_⟩
  have hpath : ∀ (i : Nat) (p : List Nat), (∃ hp, F.fdHeaders[i]? = some hp ∧ hp.1 = p) ↔
      ∃ e, (registered h)[i]? = some e ∧ pathStr e.1 = p := by
    intro i p
    have := congrArg (fun x => (x[i]?).map (·.1)) hrec.sources
    simp only [List.getElem?_map] at this
    cases k1 : F.fdHeaders[i]? <;> cases k2 : (registered h)[i]? <;> rw [k1, k2] at this <;> simp at this
    · simp
    · simp [this]
  have hm := (hr.sim hc).lab.reach.meaning hc.lab0 hc.lab
  have hsk := hrec.sinks
  rw [List.take_of_length_le hlog] at hsk
  intro p o q r
  rw [h2]
  constructor
  · rintro ⟨ss, s, i, hp, hq, k1, k2, k3, k4, k5, k6, k7, k8⟩
    rw [hsk] at k1; cases k1
    obtain ⟨w, hw, rfl⟩ := List.mem_map.1 k2
    obtain ⟨e, e1, e2⟩ := (hpath i p).1 ⟨hp, k5, k6⟩
    obtain ⟨e', e3, e4⟩ := (hpath _ q).1 ⟨hq, k7, k8⟩
    exact ⟨w, i, e, e', hw, k3, (hm _ _).1 k4, e1, e2, e3, e4⟩
  · rintro ⟨w, i, e, e', hw, k3, k4, e1, e2, e3, e4⟩
    obtain ⟨hp, k5, k6⟩ := (hpath i p).2 ⟨e, e1, e2⟩
    obtain ⟨hq, k7, k8⟩ := (hpath _ q).2 ⟨e', e3, e4⟩
    exact ⟨_, _, i, hp, hq, hsk, List.mem_map.2 ⟨w, hw, rfl⟩, k3, (hm _ _).2 k4, k5, k6, k7, k8⟩

/-- A run with a tainted output byte that depends on a range and on a single label, written to "b". -/
def mapCalls : List Call :=
  [.openFile 3 [97] (some 10), .read 3 (some 1000) none 6, .union 1 2, .union 7 3, .union 8 6,
   .openFile 4 [98] none, .store 2000 9, .write 4 none 1999 2, .mark 4]

/-- The hypotheses hold of it, and this is the mapping. -/
example : ∃ h T, Tracker.Reach exCfg 4096 h T ∧ T.labels.words.length + 64 ≤ exCfg.indexCap ∧
    (∀ n ∈ names h, utf8 n = true) ∧ (written h).length ≤ exCfg.sinkCap := by
  have hrun : (run exCfg 4096 mapCalls).isSome = true := by decide +kernel
  obtain ⟨⟨T, h⟩, hx⟩ := Option.isSome_iff_exists.1 hrun
  have key : (match run exCfg 4096 mapCalls with
      | none => false
      | some (T, h) => decide (T.labels.words.length + 64 ≤ exCfg.indexCap ∧
          (∀ n ∈ names h, utf8 n = true) ∧ (written h).length ≤ exCfg.sinkCap)) = true := by decide +kernel
  rw [hx] at key
  simp only [decide_eq_true_eq] at key
  exact ⟨h, T, run_reach hx, key.1, key.2.1, key.2.2⟩
example : ((run exCfg 4096 mapCalls).bind fun p => (parse (closed zeroPads exCfg 4096 p.1)).bind fun F =>
    mapping F 20) = some [(([97], 5), [([98], 1)]), (([97], 2), [([98], 1)]), (([97], 1), [([98], 1)]),
      (([97], 0), [([98], 1)])] := by
  decide +kernel

end Verif
