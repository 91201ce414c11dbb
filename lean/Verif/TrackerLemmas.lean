import Verif.TrackerHistory
import Verif.HistoryLemmas
import Verif.StringTableLemmas
import Verif.CfLogLemmas
import Verif.Props.C12
import Verif.Props.C07
/- The tracker's state after any history is the one described by the specification of traces. -/
namespace Verif
open Spec
namespace Tracker

/-- Insertions into the label index required by label-store calls. -/
def idxIns : List Event → List Ins
  | [] => []
  | .source _ _ n first :: es => .range first n :: idxIns es
  | _ :: es => idxIns es

theorem idxIns_append (es fs : List Event) : idxIns (es ++ fs) = idxIns es ++ idxIns fs := by
  induction es with
  | nil => rfl
  | cons e es ih => cases e <;> simp [idxIns, ih]

/-- Labels and label index. -/
structure LabSim (c : Config) (es : List Event) (L : Labels) (B : Bitmap) : Prop where
  reach : Labels.Reach c.labelCap es L
  index : Bitmap.Inv 64 c.indexCap (idxIns es) B
  used : B.used ≤ (L.words.length - 1) / 64 + 2
  small : ∀ b ∈ B.buckets, b < 2 ^ 64

/-- `off` is the position of `name` in a string table holding `ss`. -/
def InTab (ss : List (List Nat)) (off : Nat) (name : List Nat) : Prop :=
  ∃ pre post, ss = pre ++ name :: post ∧ off = (pre.flatMap StrTab.block).length

theorem InTab.snoc {ss : List (List Nat)} {off : Nat} {name : List Nat} (h : InTab ss off name)
    (s : List Nat) : InTab (ss ++ [s]) off name := by
  obtain ⟨pre, post, rfl, rfl⟩ := h
  exact ⟨pre, post ++ [s], by simp, rfl⟩

theorem InTab.last (ss : List (List Nat)) (s : List Nat) :
    InTab (ss ++ [s]) (ss.flatMap StrTab.block).length s := ⟨ss, [], rfl, rfl⟩

theorem InTab.lookup {S : Section} {ss : List (List Nat)} {off : Nat} {name : List Nat}
    (h : InTab ss off name) (hS : StrTab.Holds S ss) : StrTab.fromOffset S off = .ok name := by
  obtain ⟨pre, post, rfl, rfl⟩ := h
  exact hS.deref

/-- Sources, functions and the string table. -/
structure TabSim (c : Config) (reg : List (List Nat × Int × Nat)) (fs : List (List Nat))
    (T : Tracker) (ss : List (List Nat)) : Prop where
  strs : StrTab.Holds T.strings ss
  size : T.strings.mem.length = c.strSize
  bytes : ∀ s ∈ ss, ∀ b ∈ s, b < 256
  srcLen : T.sources.length = reg.length
  srcCap : T.sources.length ≤ c.srcCap
  src : ∀ (i : Nat) (e : SourceEntry), T.sources[i]? = some e → ∃ name,
    reg[i]? = some (name, e.fd, e.size) ∧ InTab ss e.nameOff name
  srcOk : ∀ e ∈ T.sources, -2 ^ 31 ≤ e.fd ∧ e.fd < 2 ^ 31 ∧ e.size < 2 ^ 64
  fnLen : T.fns.length = fs.length
  fnCap : T.fns.length ≤ c.fnCap
  fn : ∀ (i off : Nat), T.fns[i]? = some off → ∃ name, fs[i]? = some name ∧ InTab ss off name
  fnMap : T.fnMap = fs.zipIdx
  nodup : fs.Nodup

/-- A sink record for an output byte. -/
def toSink (o : OutByte) : SinkEntry := ⟨o.offset, o.label, o.out⟩

/-- A function event record. -/
def toFnEvent (e : Bool × Nat) : FnEvent := ⟨if e.1 then 0 else 1, e.2⟩

/-- Everything. -/
structure Sim (c : Config) (h : Trace) (T : Tracker) : Prop where
  cfg : T.cfg = c
  lab : LabSim c (labelEvents h) T.labels T.index
  tab : ∃ ss, TabSim c (registered h) (functions h) T ss
  rd : ∀ i, T.rd i = readPos h i
  wr : ∀ i, T.wr i = writePos h i
  shadow : ∀ a, T.shadow a = labelAt h a
  shadowOk : ∀ a, T.shadow a < T.labels.words.length
  sinks : T.sinks = ((written h).take c.sinkCap).map toSink
  sinkOk : ∀ o ∈ written h, o.offset < 2 ^ 63 ∧ o.label < T.labels.words.length ∧ 0 < o.label ∧
    o.out < (registered h).length
  events : T.events = (fnEvents h).map toFnEvent
  evLen : T.events.length ≤ c.evCap
  evOk : ∀ e ∈ fnEvents h, e.2 < 2 ^ 16
  logOk : T.cflog.Ok
  logLen : T.cflog.mem.length = c.logSize
  log : T.cflog.mem.take T.cflog.pos = (cfEvents h).flatMap CfLog.encode
  logFits : ∀ e ∈ cfEvents h, e.fits

/-! ### Descriptors -/

theorem findRev_eq (fd : Int) (l : List SourceEntry) : findRev fd l.reverse =
    (List.range l.length).reverse.find? fun i => (l[i]?.map (·.fd)) == some fd := by
  obtain ⟨r, rfl⟩ : ∃ r : List SourceEntry, l = r.reverse := ⟨l.reverse, by simp⟩
  rw [List.reverse_reverse]
  induction r with
  | nil => rfl
  | cons x r ih =>
    rw [findRev, List.reverse_cons, List.length_append, List.length_reverse]
    simp only [List.length_cons, List.length_nil, List.range_succ, List.reverse_append,
      List.reverse_cons, List.reverse_nil, List.nil_append, List.cons_append, List.find?_cons]
    rw [show (r.reverse ++ [x])[r.length]? = some x by
      rw [List.getElem?_append_right (by simp)]; simp]
    by_cases hx : x.fd = fd
    · simp [hx]
    · simp only [hx, if_false, Option.map_some]
      rw [show (some x.fd == some fd) = false by simp [hx], ih]
      simp only [List.length_reverse]
      have hcongr : ∀ (ks : List Nat), (∀ k ∈ ks, k < r.length) →
          ks.find? (fun i => ((r.reverse)[i]?.map (·.fd)) == some fd) =
          ks.find? (fun i => ((r.reverse ++ [x])[i]?.map (·.fd)) == some fd) := by
        intro ks
        induction ks with
        | nil => intro _; rfl
        | cons k ks ihk =>
          intro hk
          have h1 := hk k (by simp)
          rw [List.find?_cons, List.find?_cons, ihk (fun j hj => hk j (by simp [hj])),
            List.getElem?_append_left (by simpa using h1)]
      exact hcongr _ (fun k hk => by simpa using hk)

theorem owner_lt {h : Trace} {fd : Int} {i : Nat} (ho : owner h fd = some i) :
    i < (registered h).length := by
  have := List.mem_of_find?_eq_some ho
  simpa using this

theorem TabSim.mapping {c : Config} {h : Trace} {fs : List (List Nat)} {T : Tracker}
    {ss : List (List Nat)} (ht : TabSim c (registered h) fs T ss) (hc : c.srcCap ≤ 255) (fd : Int) :
    T.mappingIdx fd = owner h fd := by
  have hfd : ∀ i : Nat, (T.sources[i]?.map (·.fd)) = ((registered h)[i]?.map fun e => e.2.1) := by
    intro i
    cases hi : T.sources[i]? with
    | none =>
      rw [List.getElem?_eq_none_iff] at hi
      rw [List.getElem?_eq_none (by have := ht.srcLen; omega)]; rfl
    | some e =>
      obtain ⟨name, h1, -⟩ := ht.src i e hi
      rw [h1]; rfl
  unfold mappingIdx
  rw [findRev_eq]
  simp only [hfd, ht.srcLen]
  show (owner h fd).map (· % 256) = owner h fd
  cases ho : owner h fd with
  | none => rfl
  | some i =>
    have := owner_lt ho
    have h1 := ht.srcLen
    have h2 := ht.srcCap
    simp only [Option.map_some]
    rw [Nat.mod_eq_of_lt (by omega)]

/-! ### String table users -/

theorem addSource_spec {c : Config} {reg : List (List Nat × Int × Nat)} {fs : List (List Nat)}
    {T : Tracker} {ss : List (List Nat)} (hcfg : T.cfg = c) (hc : c.srcCap ≤ 255)
    (ht : TabSim c reg fs T ss) {name : List Nat}
    {fd : Int} {size : Nat} (hb : ∀ b ∈ name, b < 256) (hfd : -2 ^ 31 ≤ fd ∧ fd < 2 ^ 31)
    (hsz : size < 2 ^ 64) {T' : Tracker} {r : Option Nat}
    (he : T.addSource name fd size = .ok (T', r)) :
    ∃ S src, T' = { T with strings := S, sources := src } ∧
      ((r = none ∧ ∃ ss', TabSim c reg fs T' ss') ∨
       (r = some reg.length ∧ ∃ ss', TabSim c (reg ++ [(name, fd, size)]) fs T' ss')) := by
  unfold addSource at he
  by_cases hlen : name.length ≤ StrTab.maxLen
  · rcases StrTab.addString_spec ht.strs hlen with ⟨-, S', h1, h2, h3, h4⟩ | ⟨-, h1⟩
    · simp only [h1, Res.bind_ok] at he
      have hbytes : ∀ s ∈ ss ++ [name], ∀ b ∈ s, b < 256 := by
        intro s hs
        rw [List.mem_append] at hs
        rcases hs with hs | hs
        · exact ht.bytes s hs
        · simp only [List.mem_singleton] at hs; subst hs; exact hb
      split at he
      · rename_i hroom
        cases he
        refine ⟨S', _, rfl, Or.inr ⟨?_, ss ++ [name], ?_⟩⟩
        · have := ht.srcLen
          rw [hcfg] at hroom
          rw [Nat.mod_eq_of_lt (by omega), this]
        · refine ⟨h2, by simpa [h4] using ht.size, hbytes, ?_, ?_, ?_, ?_, ht.fnLen, ht.fnCap, ?_,
            ht.fnMap, ht.nodup⟩
          · simp [ht.srcLen]
          · simp only [List.length_append, List.length_cons, List.length_nil]
            rw [hcfg] at hroom; exact hroom
          · intro i e hi
            by_cases hlt : i < T.sources.length
            · simp only [List.getElem?_append_left hlt] at hi
              obtain ⟨nm, k1, k2⟩ := ht.src i e hi
              exact ⟨nm, by rw [List.getElem?_append_left (by rw [← ht.srcLen]; exact hlt)]; exact k1,
                k2.snoc _⟩
            · simp only [List.getElem?_append_right (Nat.le_of_not_lt hlt)] at hi
              have hi0 : i - T.sources.length = 0 := by
                rcases Nat.eq_zero_or_pos (i - T.sources.length) with h | h
                · exact h
                · rw [List.getElem?_eq_none (by simp only [List.length_cons, List.length_nil]; omega)] at hi; cases hi
              rw [hi0] at hi
              simp only [List.getElem?_cons_zero, Option.some.injEq] at hi
              subst hi
              have hieq : i = reg.length := by rw [← ht.srcLen]; omega
              refine ⟨name, by rw [hieq]; simp, ?_⟩
              have := InTab.last ss name
              rw [← ht.strs.pos] at this
              exact this
          · intro e he
            simp only [List.mem_append, List.mem_singleton] at he
            rcases he with he | rfl
            · exact ht.srcOk e he
            · exact ⟨hfd.1, hfd.2, hsz⟩
          · intro i off hi
            obtain ⟨nm, k1, k2⟩ := ht.fn i off hi
            exact ⟨nm, k1, k2.snoc _⟩
      · cases he
        refine ⟨S', T.sources, rfl, Or.inl ⟨rfl, ss ++ [name], ?_⟩⟩
        refine ⟨h2, by simpa [h4] using ht.size, hbytes, ht.srcLen, ht.srcCap, ?_, ht.srcOk, ht.fnLen,
          ht.fnCap, ?_, ht.fnMap, ht.nodup⟩
        · intro i e hi
          obtain ⟨nm, k1, k2⟩ := ht.src i e hi
          exact ⟨nm, k1, k2.snoc _⟩
        · intro i off hi
          obtain ⟨nm, k1, k2⟩ := ht.fn i off hi
          exact ⟨nm, k1, k2.snoc _⟩
    · simp only [h1, Res.bind_ok, Res.pure_eq] at he
      cases he
      exact ⟨T.strings, T.sources, rfl, Or.inl ⟨rfl, ss, ht⟩⟩
  · rw [show StrTab.addString T.strings name = .fatal by
      unfold StrTab.addString; rw [if_pos (by omega)]] at he
    simp at he

theorem findFn_zipIdx (name : List Nat) (fs : List (List Nat)) : ∀ k,
    findFn name (fs.zipIdx k) = if name ∈ fs then some (k + fs.idxOf name) else none := by
  induction fs with
  | nil => intro k; simp [findFn]
  | cons f fs ih =>
    intro k
    rw [List.zipIdx_cons, findFn]
    by_cases hf : f = name
    · subst hf; simp
    · have hf' : ¬ name = f := fun e => hf e.symm
      rw [if_neg hf, ih]
      simp only [List.mem_cons, hf', false_or]
      split
      · rw [List.idxOf_cons]
        simp only [beq_eq_false_iff_ne.2 hf, cond_false]
        congr 1; omega
      · rfl

theorem addMapping_spec {c : Config} {reg : List (List Nat × Int × Nat)} {fs : List (List Nat)}
    {T : Tracker} {ss : List (List Nat)} (hcfg : T.cfg = c) (hc : c.fnCap ≤ 65535)
    (ht : TabSim c reg fs T ss) {name : List Nat} (hb : ∀ b ∈ name, b < 256) {T' : Tracker} {i : Nat}
    (he : T.addMapping name = .ok (T', some i)) :
    ∃ S f m, T' = { T with strings := S, fns := f, fnMap := m } ∧
      ∃ ss', TabSim c reg (if name ∈ fs then fs else fs ++ [name]) T' ss' ∧
        i = (if name ∈ fs then fs else fs ++ [name]).idxOf name ∧ i < 2 ^ 16 := by
  unfold addMapping at he
  rw [ht.fnMap, findFn_zipIdx] at he
  by_cases hmem : name ∈ fs
  · simp only [hmem, if_true, Nat.zero_add] at he ⊢
    cases he
    refine ⟨T.strings, T.fns, T.fnMap, rfl, ss, ht, rfl, ?_⟩
    have := List.idxOf_lt_length_of_mem hmem
    have := ht.fnLen
    have := ht.fnCap
    omega
  · simp only [hmem, if_false] at he ⊢
    by_cases hlen : name.length ≤ StrTab.maxLen
    · rcases StrTab.addString_spec ht.strs hlen with ⟨-, S', h1, h2, h3, h4⟩ | ⟨-, h1⟩
      · simp only [h1, Res.bind_ok] at he
        have hbytes : ∀ s ∈ ss ++ [name], ∀ b ∈ s, b < 256 := by
          intro s hs
          rw [List.mem_append] at hs
          rcases hs with hs | hs
          · exact ht.bytes s hs
          · simp only [List.mem_singleton] at hs; subst hs; exact hb
        split at he
        · rename_i hroom
          rw [hcfg] at hroom
          have hmod : T.fns.length % 2 ^ 16 = fs.length := by
            rw [Nat.mod_eq_of_lt (by omega), ht.fnLen]
          rw [hmod] at he
          cases he
          refine ⟨S', _, _, rfl, ss ++ [name], ?_, ?_, ?_⟩
          · refine ⟨h2, by simpa [h4] using ht.size, hbytes, ht.srcLen, ht.srcCap, ?_, ht.srcOk,
              by simp [ht.fnLen], by simpa using hroom, ?_, ?_, ?_⟩
            · intro i e hi
              obtain ⟨nm, k1, k2⟩ := ht.src i e hi
              exact ⟨nm, k1, k2.snoc _⟩
            · intro i off hi
              by_cases hlt : i < T.fns.length
              · simp only [List.getElem?_append_left hlt] at hi
                obtain ⟨nm, k1, k2⟩ := ht.fn i off hi
                exact ⟨nm, by rw [List.getElem?_append_left (by rw [← ht.fnLen]; exact hlt)]; exact k1,
                  k2.snoc _⟩
              · simp only [List.getElem?_append_right (Nat.le_of_not_lt hlt)] at hi
                have hi0 : i - T.fns.length = 0 := by
                  rcases Nat.eq_zero_or_pos (i - T.fns.length) with h | h
                  · exact h
                  · rw [List.getElem?_eq_none (by simp only [List.length_cons, List.length_nil]; omega)] at hi; cases hi
                rw [hi0] at hi
                simp only [List.getElem?_cons_zero, Option.some.injEq] at hi
                subst hi
                have hieq : i = fs.length := by rw [← ht.fnLen]; omega
                refine ⟨name, by rw [hieq]; simp, ?_⟩
                have := InTab.last ss name
                rw [← ht.strs.pos] at this
                exact this
            · rw [List.zipIdx_append]; simp
            · rw [List.nodup_append]
              exact ⟨ht.nodup, by simp, fun a ha b hb => by
                simp only [List.mem_singleton] at hb; subst hb; rintro rfl; exact hmem ha⟩
          · rw [List.idxOf_append]; simp [hmem]
          · have := ht.fnLen; omega
        · cases he
      · simp only [h1, Res.bind_ok, Res.pure_eq] at he
        cases he
    · rw [show StrTab.addString T.strings name = .fatal by
        unfold StrTab.addString; rw [if_pos (by omega)]] at he
      simp at he

/-! ### Labels and index -/

theorem act_small {W : Nat} {B B' : Bitmap} {a : BAct} {r : Bool} (h : B.act a = .ok (B', r))
    (hW : B.W = W) (hs : ∀ b ∈ B.buckets, b < 2 ^ W)
    (ha : ∀ b m, a = .bits b m → m < 2 ^ W) : ∀ b ∈ B'.buckets, b < 2 ^ W := by
  cases a with
  | bits b m =>
    simp only [Bitmap.act] at h
    split at h
    · cases h
    · rename_i old hold
      split at h
      · cases h; exact hs
      · cases h
        intro x hx
        rcases List.mem_or_eq_of_mem_set hx with hx | rfl
        · exact hs x hx
        · exact Nat.or_lt_two_pow (hs old (List.mem_of_getElem? hold)) (ha b m rfl)
  | fill b =>
    simp only [Bitmap.act] at h
    split at h
    · cases h
    · cases h
      intro x hx
      rcases List.mem_or_eq_of_mem_set hx with hx | rfl
      · exact hs x hx
      · simp only [Bitmap.allBits, hW]
        have := Nat.two_pow_pos W
        omega
  | used b =>
    simp only [Bitmap.act] at h
    split at h <;> cases h <;> exact hs

theorem acts_small {W : Nat} (as : List BAct) : ∀ {B B' : Bitmap}, B.acts as = .ok B' →
    B.W = W → (∀ b ∈ B.buckets, b < 2 ^ W) →
    (∀ a ∈ as, ∀ b m, a = .bits b m → m < 2 ^ W) → ∀ b ∈ B'.buckets, b < 2 ^ W := by
  induction as with
  | nil => intro B B' h _ hs _; cases h; exact hs
  | cons a as ih =>
    intro B B' h hW hs ha
    simp only [Bitmap.acts, Res.bind_eq_ok] at h
    obtain ⟨⟨B1, r⟩, h1, h2⟩ := h
    have hW1 := (Bitmap.act_shape h1).1
    exact ih h2 (by rw [hW1, hW]) (act_small h1 hW hs (fun b m e => ha a (by simp) b m e))
      (fun x hx => ha x (by simp [hx]))

theorem setRangeActs_masks {W b n : Nat} : ∀ a ∈ Bitmap.setRangeActs W b n, ∀ k m,
    a = .bits k m → m < 2 ^ W := by
  have hall : Bitmap.allBits W < 2 ^ W := by
    simp only [Bitmap.allBits]; have := Nat.two_pow_pos W; omega
  have hshr : ∀ k, Bitmap.allBits W >>> k < 2 ^ W := fun k =>
    Nat.lt_of_le_of_lt (Nat.shiftRight_le _ _) hall
  have hif : ∀ (p : Prop) [Decidable p] (x y : BAct), y ∈ (if p then [x] else []) → y = x := by
    intro p _ x y h
    split at h
    · simpa using h
    · cases h
  intro a ha k m e
  subst e
  simp only [Bitmap.setRangeActs, List.mem_append, List.mem_map, List.mem_singleton] at ha
  rcases ha with ha | ha | ha | ha
  · have := hif _ _ _ ha
    simp only [BAct.bits.injEq] at this
    obtain ⟨-, rfl⟩ := this
    exact Nat.lt_of_le_of_lt Nat.and_le_right (hshr _)
  · obtain ⟨_, -, h⟩ := ha; cases h
  · have := hif _ _ _ ha
    simp only [BAct.bits.injEq] at this
    obtain ⟨-, rfl⟩ := this
    exact hshr _
  · cases ha

theorem setRange_spec {c : Config} {rs : List Ins} {B : Bitmap}
    (hI : Bitmap.Inv 64 c.indexCap rs B) (hsm : ∀ b ∈ B.buckets, b < 2 ^ 64) {b n : Nat}
    (hn : 0 < n) (hb : b + n ≤ c.indexCap) (hcap : c.indexCap ≤ 2 ^ 31) :
    ∃ B', B.setRange b n = .ok B' ∧ Bitmap.Inv 64 c.indexCap (rs ++ [.range b n]) B' ∧
      B'.used ≤ max B.used ((b + n - 1) / 64 + 2) ∧ ∀ x ∈ B'.buckets, x < 2 ^ 64 := by
  obtain ⟨B', ret, h1, h2, h3, -⟩ := Bitmap.exec_ok (by decide) hI (.range b n)
    (fun i hi => by simp only [Ins.covers] at hi; omega) (by simp only [Bitmap.NoWrap]; omega)
  simp only [Bitmap.exec, Res.bind_eq_ok] at h1
  obtain ⟨B1, h1, h4⟩ := h1
  cases h4
  refine ⟨_, h1, h2, ?_, ?_⟩
  all_goals
    simp only [Bitmap.setRange] at h1
    rw [if_neg (by omega), hI.c, if_neg (by omega), Nat.mod_eq_of_lt (by omega), if_neg (by omega),
      hI.w] at h1
  · obtain ⟨pre, k, hp, hpu, -, hc2, -, -⟩ := Bitmap.setRangeActs_used (W := 64) (b := b) (n := n)
      (by decide) hn (by omega)
    rw [hp, Bitmap.acts_append, Res.bind_eq_ok] at h1
    obtain ⟨B0, e1, e2⟩ := h1
    have e3 := Bitmap.acts_used e1 hpu
    obtain ⟨B2, k1, k2, -⟩ := Bitmap.act_used_eq B0 k
    simp only [Bitmap.acts, k1, Res.bind_ok] at e2
    cases e2
    rw [k2, e3]
    omega
  · exact acts_small _ h1 hI.w hsm setRangeActs_masks

theorem setLabels_eq (n : Nat) : ∀ (sh : Shadow) (addr lbl a : Nat), setLabels sh addr lbl n a =
    if addr ≤ a ∧ a < addr + n then lbl + (a - addr) else sh a := by
  induction n with
  | zero => intro sh addr lbl a; rw [if_neg (by omega)]; rfl
  | succ n ih =>
    intro sh addr lbl a
    rw [setLabels, ih]
    by_cases h : addr + 1 ≤ a ∧ a < addr + 1 + n
    · rw [if_pos h, if_pos (by omega)]; omega
    · rw [if_neg h, Dfsan.upd]
      by_cases ha : a = addr
      · rw [if_pos ha, if_pos (by omega)]; omega
      · rw [if_neg ha, if_neg (by omega)]

/-- What a successful read does to labels, index and shadow. -/
theorem createSourceTaint_spec {c : Config} {base : Nat} (hc : c.Ok base) {es : List Event} {T : Tracker}
    (hl : LabSim c es T.labels T.index) {src : Nat} (hsrc : src < 256) {addr : Option Nat} {len off : Nat}
    (hoff : off + len ≤ 2 ^ 54) {T' : Tracker} {rng : Nat × Nat}
    (he : T.createSourceTaint src addr len off = .ok (T', rng)) :
    ∃ L B, T' = { T with labels := L, index := B, shadow := markMem T.shadow addr rng.1 len } ∧
      LabSim c (es ++ [.source src off len rng.1]) L B ∧ rng = (T.labels.words.length,
        T.labels.words.length + len - 1) ∧ 0 < len ∧ L.words.length = T.labels.words.length + len := by
  simp only [createSourceTaint, Res.bind_eq_ok] at he
  obtain ⟨⟨L, r⟩, h1, B, h2, h3⟩ := he
  have hgood := hl.reach.good hc.lab0 hc.lab
  have hcap := hl.reach.cap hc.lab0 hc.lab
  have h1' := h1
  simp only [Labels.createSourceLabels] at h1
  split at h1
  · cases h1
  · rename_i hlen
    split at h1
    · rename_i hroom
      cases h1
      simp only [Res.pure_eq] at h3
      cases h3
      have hex : T.labels.exec (.source src off len) =
          .ok (Labels.mk T.labels.cap (T.labels.words ++ (List.range len).map
            (fun k => encode (.source false src (off + k)))),
            .source src off len T.labels.words.length) := by
        simp [Labels.exec, h1']
      have hall : T.labels.Allowed (.source src off len) := ⟨hsrc, by omega, hoff, hroom⟩
      have hi := hc.idx
      obtain ⟨B', k1, k2, k3, k4⟩ := setRange_spec hl.index hl.small (b := T.labels.words.length)
        (n := len) (by omega) (by omega) hc.idxMax
      rw [k1] at h2; cases h2
      refine ⟨_, _, rfl, ⟨.snoc hl.reach hall hex, ?_, ?_, k4⟩, rfl, by omega, by simp⟩
      · rw [idxIns_append]; exact k2
      · simp only [List.length_append, List.length_map, List.length_range]
        have hu := hl.used
        have : (T.labels.words.length - 1) / 64 ≤ (T.labels.words.length + len - 1) / 64 :=
          Nat.div_le_div_right (by omega)
        omega
    · cases h1

end Tracker
end Verif
