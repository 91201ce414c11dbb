import Verif.LabelsConc
import Verif.HistoryLemmas
/- Helper lemmas: invariant of the concurrent label store. -/
namespace Verif
open Spec

namespace Labels

/-- `V'` has at least the entries of `V`, with flags possibly added. -/
structure Grows (V V' : Labels) : Prop where
  cap : V'.cap = V.cap
  len : V.words.length ≤ V'.words.length
  word : ∀ l w : Nat, V.words[l]? = some w → V'.words[l]? = some w ∨ V'.words[l]? = some (addCf w)

theorem Grows.refl (V : Labels) : Grows V V := ⟨rfl, Nat.le_refl _, fun _ _ h => Or.inl h⟩

theorem FlagOnly.grows {V V' : Labels} (h : FlagOnly V V') : Grows V V' :=
  ⟨h.cap, by rw [h.len]; exact Nat.le_refl _, h.word⟩

theorem Grows.append (V : Labels) (ws : List Nat) : Grows V { V with words := V.words ++ ws } :=
  ⟨rfl, by simp, fun l w hw => Or.inl (by
    show (V.words ++ ws)[l]? = some w
    rw [List.getElem?_append_left (List.getElem?_eq_some_iff.1 hw).1]; exact hw)⟩

theorem Grows.graph {V V' : Labels} (hwf : V.WF) (h : Grows V V') {l : Nat} {t : Taint}
    (hg : V.graph l = some t) : V'.graph l = some t ∨ V'.graph l = some (withFlag true t) := by
  obtain ⟨w, hw, hd⟩ := graph_eq_some.1 hg
  have hlt := hwf.word w (List.mem_of_getElem? hw)
  rcases h.word l w hw with h' | h'
  · exact Or.inl (graph_of_word h' hd)
  · exact Or.inr (graph_of_word h' ((C02_addCf w hlt).2.2.1 t hd))

theorem withFlag_withFlag (a b : Bool) (t : Taint) : withFlag a (withFlag b t) = withFlag a t := by
  cases t <;> rfl

theorem Grows.graph' {V V' : Labels} (hwf : V.WF) (h : Grows V V') {l : Nat} {t : Taint}
    (hg : V.graph l = some t) : ∃ u, V'.graph l = some u ∧ withFlag false u = withFlag false t ∧
      (flagOf t = true → flagOf u = true) := by
  rcases h.graph hwf hg with h' | h'
  · exact ⟨t, h', rfl, id⟩
  · exact ⟨_, h', withFlag_withFlag _ _ _, fun _ => by cases t <;> rfl⟩

theorem Grows.same {V V' : Labels} (hwf : V.WF) (hwf' : V'.WF) (h : Grows V V') {l : Nat}
    (hl : l < V.words.length) : SameTaint V.graph V'.graph l := by
  unfold SameTaint
  by_cases h0 : l = 0
  · subst h0; rw [hwf.graph.none 0 (Or.inl rfl), hwf'.graph.none 0 (Or.inl rfl)]
  · obtain ⟨t, ht, -⟩ := hwf.read (by omega) hl
    obtain ⟨u, hu, e, -⟩ := h.graph' hwf ht
    rw [ht, hu]; simp [e]

theorem Grows.denotes {V V' : Labels} (hwf : V.WF) (hwf' : V'.WF) (h : Grows V V') {l : Nat}
    (hl : l < V.words.length) (b : Nat × Nat) : Denotes V'.graph l b ↔ Denotes V.graph l b :=
  (denotes_congr (n := V.words.length) (hwf.refs_lt _) (fun _ hx => h.same hwf hwf' hx) l hl b).symm

theorem Grows.built {V V' : Labels} (hwf : V.WF) (hwf' : V'.WF) (h : Grows V V') {l k : Nat}
    (hl : l < V.words.length) (hb : BuiltFrom V.graph l k) : BuiltFrom V'.graph l k :=
  builtFrom_congr (hwf.refs_lt _) (fun _ hx => h.same hwf hwf' hx) l k hl hb

theorem Grows.built' {V V' : Labels} (hwf : V.WF) (hwf' : V'.WF) (h : Grows V V') {l k : Nat}
    (hl : l < V.words.length) (hb : BuiltFrom V'.graph l k) : BuiltFrom V.graph l k :=
  builtFrom_congr (hwf'.refs_lt _) (fun _ hx => sameTaint_symm (h.same hwf hwf' hx)) l k hl hb

theorem Grows.flagged {V V' : Labels} (hwf : V.WF) (h : Grows V V') {l : Nat}
    (hf : Flagged V.graph l) : Flagged V'.graph l := by
  obtain ⟨t, ht, hft⟩ := hf
  obtain ⟨u, hu, -, hfu⟩ := h.graph' hwf ht
  exact ⟨u, hu, hfu hft⟩

/-- A label in use. -/
def Lab (V : Labels) (l : Nat) : Prop := 0 < l ∧ l < V.words.length

theorem Grows.lab {V V' : Labels} (h : Grows V V') {l : Nat} (hl : V.Lab l) : V'.Lab l :=
  ⟨hl.1, Nat.lt_of_lt_of_le hl.2 h.len⟩

theorem lab_graph {V : Labels} (hwf : V.WF) {l : Nat} : V.Lab l ↔ ∃ t, V.graph l = some t :=
  ⟨fun h => let ⟨t, ht, _⟩ := hwf.read h.1 h.2; ⟨t, ht⟩, fun ⟨_, ht⟩ => ⟨(hwf.refs ht).1, (hwf.refs ht).2.1⟩⟩

/-- The word `e` encodes a taint that may be stored for the union of `l` and `r`. -/
def UnionReady (V : Labels) (l r e : Nat) : Prop :=
  ∃ ty, e = encode ty ∧ OkAt (max l r + 1) ty ∧
    ∀ b, DenT (Denotes V.graph) ty b ↔ Denotes V.graph l b ∨ Denotes V.graph r b

theorem Grows.ready {V V' : Labels} (hwf : V.WF) (hwf' : V'.WF) (h : Grows V V') {l r e : Nat}
    (hl : V.Lab l) (hr : V.Lab r) (hu : V.UnionReady l r e) : V'.UnionReady l r e := by
  obtain ⟨ty, he, hok, hd⟩ := hu
  refine ⟨ty, he, hok, fun b => ?_⟩
  rw [h.denotes hwf hwf' hl.2, h.denotes hwf hwf' hr.2, ← hd b]
  apply DenT_mono
  intro k hk
  have := (hok.2.1 k hk).2
  exact h.denotes hwf hwf' (by have := hl.2; have := hr.2; omega) b

/-- The labels in a queue. -/
def content : LabelDeq → List Nat
  | .arr a => a.items queueSlots
  | .deq d => d

/-- The queue is in a legal state. -/
def ValidQ (q : LabelDeq) : Prop := q.Holds queueSlots (content q)

theorem holds_content {q : LabelDeq} {l : List Nat} (h : q.Holds queueSlots l) :
    ValidQ q ∧ content q = l := by
  cases q with
  | arr a => exact ⟨⟨h.1, rfl⟩, h.2⟩
  | deq d => exact ⟨rfl, h⟩

end Labels

namespace CSys
open Labels

/-- The thread holds the mutex. -/
def InCS : PC → Prop
  | .uWrite .. => True
  | .uUnlock .. => True
  | .sWrite .. => True
  | _ => False

/-- The labels passed by the caller. -/
def operands : PC → List Nat
  | .uLeft l r => [l, r]
  | .uRight l r _ => [l, r]
  | .uSize l r _ => [l, r]
  | .uScan l r _ _ _ => [l, r]
  | .uAlloc l r _ => [l, r]
  | .uWrite l r _ _ => [l, r]
  | .uUnlock l r _ => [l, r]
  | _ => []

/-- The label whose marking is in progress. -/
def root : PC → Option Nat
  | .mChild x _ _ _ => some x
  | .mSrcLoad x _ _ _ => some x
  | .mSrcStore x _ _ _ _ => some x
  | .mPop x _ => some x
  | .mEnc x _ _ => some x
  | .mSetLoad x _ _ _ => some x
  | .mSetStore x _ _ _ _ => some x
  | _ => none

/-- Labels the thread will still look at. -/
def owed : PC → List Nat
  | .mChild _ q c rest => content q ++ c :: rest
  | .mSrcLoad _ q c rest => content q ++ c :: rest
  | .mSrcStore _ q c rest _ => content q ++ c :: rest
  | .mPop _ q => content q
  | .mEnc _ q l => l :: content q
  | .mSetLoad _ q l _ => l :: content q
  | .mSetStore _ q l _ _ => l :: content q
  | _ => []

/-- What a thread in the middle of marking knows. -/
def Marking (V : Labels) (x : Nat) (q : LabelDeq) (pc : PC) : Prop :=
  ValidQ q ∧ V.Lab x ∧ (∀ l ∈ owed pc, V.Lab l ∧ BuiltFrom V.graph x l) ∧
    (Flagged V.graph x ∨ x ∈ owed pc)

/-- The word read before is still there, up to the flag. -/
def Stale (V : Labels) (l w : Nat) : Prop := V.words[l]? = some w ∨ V.words[l]? = some (addCf w)

/-- What a thread knows at each place; `V` is the published part of the section, `tail` the part
reserved by the holder of the mutex. -/
def Local (V : Labels) (tail : List Nat) : PC → Prop
  | .idle => True
  | .uLeft l r => l ≠ r ∧ V.Lab l ∧ V.Lab r
  | .uRight l r lv => l ≠ r ∧ V.Lab l ∧ V.Lab r ∧
      ∃ u, V.graph l = some u ∧ withFlag false u = withFlag false lv
  | .uSize l r e => V.Lab l ∧ V.Lab r ∧ V.UnionReady l r e
  | .uScan l r e i n => V.Lab l ∧ V.Lab r ∧ V.UnionReady l r e ∧ max l r + n ≤ i ∧ i ≤ V.words.length
  | .uAlloc l r e => V.Lab l ∧ V.Lab r ∧ V.UnionReady l r e
  | .uWrite l r e idx => V.Lab l ∧ V.Lab r ∧ V.UnionReady l r e ∧ idx = V.words.length ∧ tail.length = 1
  | .uUnlock l r idx => V.Lab l ∧ V.Lab r ∧ idx = V.words.length ∧ ∃ e, V.UnionReady l r e ∧ tail = [e]
  | .sAlloc src off n => src < 256 ∧ 0 < n ∧ off + n ≤ 2 ^ 54
  | .sWrite src off n first k => (src < 256 ∧ 0 < n ∧ off + n ≤ 2 ^ 54) ∧ first = V.words.length ∧
      tail.length = n ∧ k ≤ n ∧ ∀ j : Nat, j < k → tail[j]? = some (encode (.source false src (off + j)))
  | .mChild x q c rest => Marking V x q (.mChild x q c rest)
  | .mSrcLoad x q c rest => Marking V x q (.mSrcLoad x q c rest) ∧
      ∃ cf i o, V.graph c = some (.source cf i o)
  | .mSrcStore x q c rest w => Marking V x q (.mSrcStore x q c rest w) ∧
      (∃ cf i o, V.graph c = some (.source cf i o)) ∧ Stale V c w
  | .mPop x q => Marking V x q (.mPop x q)
  | .mEnc x q l => Marking V x q (.mEnc x q l)
  | .mSetLoad x q l e => Marking V x q (.mSetLoad x q l e) ∧
      ∃ ty u, decode e = .ok ty ∧ V.graph l = some u ∧ withFlag false u = withFlag false ty
  | .mSetStore x q l e w => Marking V x q (.mSetStore x q l e w) ∧
      (∃ ty u, decode e = .ok ty ∧ V.graph l = some u ∧ withFlag false u = withFlag false ty) ∧ Stale V l w

theorem Marking.mono {V V' : Labels} (hwf : V.WF) (hwf' : V'.WF) (h : Grows V V') {x : Nat} {q : LabelDeq}
    {pc : PC} (hm : Marking V x q pc) : Marking V' x q pc :=
  ⟨hm.1, h.lab hm.2.1, fun l hl => ⟨h.lab (hm.2.2.1 l hl).1, h.built hwf hwf' hm.2.1.2 (hm.2.2.1 l hl).2⟩,
    hm.2.2.2.imp (h.flagged hwf) id⟩

theorem Stale.mono {V V' : Labels} (h : Grows V V') {l w : Nat} (hs : Stale V l w) : Stale V' l w := by
  rcases hs with hs | hs
  · exact h.word l w hs
  · rcases h.word l _ hs with h' | h'
    · exact Or.inr h'
    · rw [C02_addCf_idem] at h'; exact Or.inr h'

theorem same_mono {V V' : Labels} (hwf : V.WF) (h : Grows V V') {l : Nat} {lv : Taint}
    (hs : ∃ u, V.graph l = some u ∧ withFlag false u = withFlag false lv) :
    ∃ u, V'.graph l = some u ∧ withFlag false u = withFlag false lv := by
  obtain ⟨u, hu, e⟩ := hs
  obtain ⟨u', hu', e', -⟩ := h.graph' hwf hu
  exact ⟨u', hu', e'.trans e⟩

theorem source_mono {V V' : Labels} (hwf : V.WF) (h : Grows V V') {c : Nat}
    (hs : ∃ cf i o, V.graph c = some (.source cf i o)) : ∃ cf i o, V'.graph c = some (.source cf i o) := by
  obtain ⟨cf, i, o, hg⟩ := hs
  rcases h.graph hwf hg with h' | h'
  · exact ⟨cf, i, o, h'⟩
  · exact ⟨true, i, o, h'⟩

theorem Local.mono {V V' : Labels} {tail tail' : List Nat} (hwf : V.WF) (hwf' : V'.WF) (h : Grows V V')
    {pc : PC} (hcs : InCS pc → V'.words.length = V.words.length ∧ tail' = tail) (hl : Local V tail pc) :
    Local V' tail' pc := by
  cases pc with
  | idle => trivial
  | uLeft l r => exact ⟨hl.1, h.lab hl.2.1, h.lab hl.2.2⟩
  | uRight l r lv => exact ⟨hl.1, h.lab hl.2.1, h.lab hl.2.2.1, same_mono hwf h hl.2.2.2⟩
  | uSize l r e => exact ⟨h.lab hl.1, h.lab hl.2.1, h.ready hwf hwf' hl.1 hl.2.1 hl.2.2⟩
  | uScan l r e i n =>
    exact ⟨h.lab hl.1, h.lab hl.2.1, h.ready hwf hwf' hl.1 hl.2.1 hl.2.2.1, hl.2.2.2.1,
      Nat.le_trans hl.2.2.2.2 h.len⟩
  | uAlloc l r e => exact ⟨h.lab hl.1, h.lab hl.2.1, h.ready hwf hwf' hl.1 hl.2.1 hl.2.2⟩
  | uWrite l r e idx =>
    obtain ⟨h1, rfl⟩ := hcs trivial
    exact ⟨h.lab hl.1, h.lab hl.2.1, h.ready hwf hwf' hl.1 hl.2.1 hl.2.2.1, by rw [h1]; exact hl.2.2.2.1,
      hl.2.2.2.2⟩
  | uUnlock l r idx =>
    obtain ⟨h1, rfl⟩ := hcs trivial
    obtain ⟨a, b, c, e, hr, ht⟩ := hl
    exact ⟨h.lab a, h.lab b, by rw [h1]; exact c, e, h.ready hwf hwf' a b hr, ht⟩
  | sAlloc => exact hl
  | sWrite src off n first k =>
    obtain ⟨h1, rfl⟩ := hcs trivial
    exact ⟨hl.1, by rw [h1]; exact hl.2.1, hl.2.2⟩
  | mChild => exact Marking.mono hwf hwf' h hl
  | mSrcLoad => exact ⟨Marking.mono hwf hwf' h hl.1, source_mono hwf h hl.2⟩
  | mSrcStore => exact ⟨Marking.mono hwf hwf' h hl.1, source_mono hwf h hl.2.1, hl.2.2.mono h⟩
  | mPop => exact Marking.mono hwf hwf' h hl
  | mEnc => exact Marking.mono hwf hwf' h hl
  | mSetLoad =>
    obtain ⟨hm, ty, u, hd, hs⟩ := hl
    obtain ⟨u', hs'⟩ := same_mono hwf h ⟨u, hs⟩
    exact ⟨hm.mono hwf hwf' h, ty, u', hd, hs'⟩
  | mSetStore =>
    obtain ⟨hm, ⟨ty, u, hd, hs⟩, hw⟩ := hl
    obtain ⟨u', hs'⟩ := same_mono hwf h ⟨u, hs⟩
    exact ⟨hm.mono hwf hwf' h, ⟨ty, u', hd, hs'⟩, hw.mono h⟩

/-- Somebody asked for `x` to be marked. -/
def Requested (S : CSys) (x : Nat) : Prop := .mark x ∈ S.log ∨ ∃ t, root (S.threads t) = some x

/-- The call got what it asked for. -/
def Answered (V : Labels) : Event → Prop
  | .source src off n first => ∀ k, k < n → ∃ cf, V.graph (first + k) = some (.source cf src (off + k))
  | .union l r u => V.Lab l ∧ V.Lab r ∧ V.Lab u ∧
      ∀ b, Denotes V.graph u b ↔ Denotes V.graph l b ∨ Denotes V.graph r b
  | .mark _ => True

theorem Answered.mono {V V' : Labels} (hwf : V.WF) (hwf' : V'.WF) (h : Grows V V') {e : Event}
    (ha : Answered V e) : Answered V' e := by
  cases e with
  | source src off n first =>
    intro k hk
    obtain ⟨cf, hg⟩ := ha k hk
    rcases h.graph hwf hg with h' | h'
    · exact ⟨cf, h'⟩
    · exact ⟨true, h'⟩
  | union l r u =>
    obtain ⟨a, b, c, d⟩ := ha
    refine ⟨h.lab a, h.lab b, h.lab c, fun x => ?_⟩
    rw [h.denotes hwf hwf' a.2, h.denotes hwf hwf' b.2, h.denotes hwf hwf' c.2]
    exact d x
  | mark => trivial

/-- Invariant. -/
structure Inv (S : CSys) (V : Labels) (tail : List Nat) : Prop where
  mem : S.mem = V.words ++ tail
  cap : V.cap = S.cap
  fits : S.mem.length ≤ S.cap
  wf : V.WF
  free : S.lock = none → tail = []
  holder : ∀ t, InCS (S.threads t) ↔ S.lock = some t
  loc : ∀ t, Local V tail (S.threads t)
  ops : ∀ t, ∀ l ∈ operands (S.threads t), S.Known l
  known : ∀ l, S.Known l → V.Lab l
  meaning : ∀ l, S.Known l → ∀ b, Denotes V.graph l b ↔ Meaning S.log l b
  answered : ∀ e ∈ S.log, Answered V e
  closed : ∀ l ty k, V.graph l = some ty → flagOf ty = true → Ref ty k →
    Flagged V.graph k ∨ ∃ t, k ∈ owed (S.threads t)
  marked : ∀ x, .mark x ∈ S.log → Flagged V.graph x
  asked : ∀ l, Flagged V.graph l → ∃ x, S.Requested x ∧ V.Lab x ∧ BuiltFrom V.graph x l

/-- What one step of thread `t` from `pc` to `pc'` may do, completing the calls `es`. -/
structure Moves (S S' : CSys) (V V' : Labels) (tail tail' : List Nat) (t : Nat) (pc' : PC) (es : List Event) :
    Prop where
  threads : S'.threads = fun u => if u = t then pc' else S.threads u
  log : S'.log = S.log ++ es
  cap : S'.cap = S.cap
  mem : S'.mem = V'.words ++ tail'
  fits : S'.mem.length ≤ S'.cap
  grows : Grows V V'
  wf : V'.WF
  free : S'.lock = none → tail' = []
  holder : InCS pc' ↔ S'.lock = some t
  others : ∀ u, u ≠ t → (S'.lock = some u ↔ S.lock = some u)
  keep : ∀ u, u ≠ t → S.lock = some u → V'.words.length = V.words.length ∧ tail' = tail
  loc : Local V' tail' pc'
  ops : ∀ l ∈ operands pc', l ∈ operands (S.threads t) ∨ S.Known l
  ret : ∀ e ∈ es, ∀ l, Returned e l → V'.Lab l
  meaning : ∀ l, S'.Known l → ∀ b, Denotes V'.graph l b ↔ Meaning S'.log l b
  ans : ∀ e ∈ es, Answered V' e
  owed : ∀ k ∈ owed (S.threads t), Flagged V'.graph k ∨ k ∈ CSys.owed pc'
  fresh : ∀ l, Flagged V'.graph l → Flagged V.graph l ∨
    ∃ x, root (S.threads t) = some x ∧ V'.Lab x ∧ BuiltFrom V'.graph x l
  children : ∀ l ty k, V'.graph l = some ty → flagOf ty = true → ¬ Flagged V.graph l → Ref ty k →
    k ∈ CSys.owed pc'
  root : ∀ x, root (S.threads t) = some x → CSys.root pc' = some x ∨ .mark x ∈ es
  done : ∀ x, .mark x ∈ es → Flagged V'.graph x

theorem Moves.inv {S S' : CSys} {V V' : Labels} {tail tail' : List Nat} {t : Nat} {pc' : PC} {es : List Event}
    (h : Inv S V tail) (m : Moves S S' V V' tail tail' t pc' es) : Inv S' V' tail' := by
  have hth : ∀ u, S'.threads u = if u = t then pc' else S.threads u := fun u => by rw [m.threads]
  have htt : S'.threads t = pc' := by rw [hth, if_pos rfl]
  have hkn : ∀ l, S.Known l → S'.Known l := by
    rintro l ⟨e, he, hr⟩
    exact ⟨e, by rw [m.log]; exact List.mem_append_left _ he, hr⟩
  refine ⟨m.mem, by rw [m.grows.cap, h.cap, m.cap], m.fits, m.wf, m.free, ?_, ?_, ?_, ?_, m.meaning, ?_, ?_, ?_, ?_⟩
  · intro u
    rw [hth]
    by_cases hu : u = t
    · rw [if_pos hu, hu]; exact m.holder
    · rw [if_neg hu, m.others u hu]; exact h.holder u
  · intro u
    rw [hth]
    by_cases hu : u = t
    · rw [if_pos hu]; exact m.loc
    · rw [if_neg hu]
      exact (h.loc u).mono h.wf m.wf m.grows fun hc => m.keep u hu ((h.holder u).1 hc)
  · intro u l hl
    rw [hth] at hl
    by_cases hu : u = t
    · rw [if_pos hu] at hl
      rcases m.ops l hl with h' | h'
      · exact hkn l (h.ops t l h')
      · exact hkn l h'
    · rw [if_neg hu] at hl; exact hkn l (h.ops u l hl)
  · rintro l ⟨e, he, hr⟩
    rw [m.log, List.mem_append] at he
    rcases he with he | he
    · exact m.grows.lab (h.known l ⟨e, he, hr⟩)
    · exact m.ret e he l hr
  · intro e he
    rw [m.log, List.mem_append] at he
    rcases he with he | he
    · exact (h.answered e he).mono h.wf m.wf m.grows
    · exact m.ans e he
  · intro l ty k hg hf hr
    by_cases hold : Flagged V.graph l
    · obtain ⟨t0, ht0, hf0⟩ := hold
      obtain ⟨u, hu, e, -⟩ := m.grows.graph' h.wf ht0
      rw [hg] at hu; cases hu
      have hr0 : Ref t0 k := (Ref_congr_flag e k).1 hr
      rcases h.closed l t0 k ht0 hf0 hr0 with h' | ⟨u, hu⟩
      · exact Or.inl (m.grows.flagged h.wf h')
      · by_cases hut : u = t
        · subst hut
          rcases m.owed k hu with h' | h'
          · exact Or.inl h'
          · exact Or.inr ⟨u, by rw [htt]; exact h'⟩
        · exact Or.inr ⟨u, by rw [hth, if_neg hut]; exact hu⟩
    · exact Or.inr ⟨t, by rw [htt]; exact m.children l ty k hg hf hold hr⟩
  · intro x hx
    rw [m.log, List.mem_append] at hx
    rcases hx with hx | hx
    · exact m.grows.flagged h.wf (h.marked x hx)
    · exact m.done x hx
  · intro l hl
    have conv : ∀ x, S.Requested x → S'.Requested x := by
      rintro x (hx | ⟨u, hu⟩)
      · exact Or.inl (by rw [m.log]; exact List.mem_append_left _ hx)
      · by_cases hut : u = t
        · subst hut
          rcases m.root x hu with h' | h'
          · exact Or.inr ⟨u, by rw [htt]; exact h'⟩
          · exact Or.inl (by rw [m.log]; exact List.mem_append_right _ h')
        · exact Or.inr ⟨u, by rw [hth, if_neg hut]; exact hu⟩
    rcases m.fresh l hl with h' | ⟨x, hx, hlab, hb⟩
    · obtain ⟨x, hx, hlab, hb⟩ := h.asked l h'
      exact ⟨x, conv x hx, m.grows.lab hlab, m.grows.built h.wf m.wf hlab.2 hb⟩
    · exact ⟨x, conv x (Or.inr ⟨t, hx⟩), hlab, hb⟩

/-- The meaning part when no call completes. -/
theorem Inv.meaning_grows {S S' : CSys} {V V' : Labels} {tail : List Nat} (h : Inv S V tail) (hg : Grows V V')
    (hwf' : V'.WF) (hl : S'.log = S.log) : ∀ l, S'.Known l → ∀ b, Denotes V'.graph l b ↔ Meaning S'.log l b := by
  intro l hk b
  have hk' : S.Known l := by obtain ⟨e, he, hr⟩ := hk; exact ⟨e, by rw [← hl]; exact he, hr⟩
  rw [hg.denotes h.wf hwf' (h.known l hk').2, h.meaning l hk', hl]

/-- The meaning part when a union completes. -/
theorem Inv.meaning_union {S S' : CSys} {V V' : Labels} {tail : List Nat} (h : Inv S V tail) (hg : Grows V V')
    (hwf' : V'.WF) {l r u : Nat} (hlog : S'.log = S.log ++ [.union l r u]) (hl : S.Known l) (hr : S.Known r)
    (hden : ∀ b, Denotes V'.graph u b ↔ Denotes V.graph l b ∨ Denotes V.graph r b) :
    ∀ x, S'.Known x → ∀ b, Denotes V'.graph x b ↔ Meaning S'.log x b := by
  intro x hk b
  rw [hlog, Meaning_snoc]
  simp only [after]
  by_cases hx : x = u
  · subst hx
    rw [if_pos rfl, hden, h.meaning l hl, h.meaning r hr]
  · rw [if_neg hx]
    have hk' : S.Known x := by
      obtain ⟨e, he, hr⟩ := hk
      rw [hlog, List.mem_append, List.mem_singleton] at he
      rcases he with he | rfl
      · exact ⟨e, he, hr⟩
      · exact absurd hr hx
    rw [hg.denotes h.wf hwf' (h.known x hk').2, h.meaning x hk']

/-- The meaning part when a read completes. -/
theorem Inv.meaning_source {S S' : CSys} {V V' : Labels} {tail : List Nat} (h : Inv S V tail) (hg : Grows V V')
    (hwf' : V'.WF) {src off n first : Nat} (hlog : S'.log = S.log ++ [.source src off n first])
    (hden : ∀ k, k < n → V'.graph (first + k) = some (.source false src (off + k))) :
    ∀ x, S'.Known x → ∀ b, Denotes V'.graph x b ↔ Meaning S'.log x b := by
  intro x hk b
  rw [hlog, Meaning_snoc]
  simp only [after]
  by_cases hx : first ≤ x ∧ x < first + n
  · rw [if_pos hx]
    have := hden (x - first) (by omega)
    rw [show first + (x - first) = x by omega] at this
    rw [denotes_iff this]; rfl
  · rw [if_neg hx]
    have hk' : S.Known x := by
      obtain ⟨e, he, hr⟩ := hk
      rw [hlog, List.mem_append, List.mem_singleton] at he
      rcases he with he | rfl
      · exact ⟨e, he, hr⟩
      · exact absurd hr hx
    rw [hg.denotes h.wf hwf' (h.known x hk').2, h.meaning x hk']

/-- The meaning part when a marking completes. -/
theorem Inv.meaning_mark {S S' : CSys} {V V' : Labels} {tail : List Nat} (h : Inv S V tail) (hg : Grows V V')
    (hwf' : V'.WF) {x : Nat} (hlog : S'.log = S.log ++ [.mark x]) :
    ∀ l, S'.Known l → ∀ b, Denotes V'.graph l b ↔ Meaning S'.log l b := by
  intro l hk b
  rw [hlog, Meaning_snoc]
  simp only [after]
  have hk' : S.Known l := by
    obtain ⟨e, he, hr⟩ := hk
    rw [hlog, List.mem_append, List.mem_singleton] at he
    rcases he with he | rfl
    · exact ⟨e, he, hr⟩
    · exact absurd hr id
  rw [hg.denotes h.wf hwf' (h.known l hk').2, h.meaning l hk']

/-- A step that touches neither memory nor mutex and completes nothing. -/
theorem Inv.goto {S : CSys} {V : Labels} {tail : List Nat} (h : Inv S V tail) {t : Nat} {pc' : PC}
    (hcs : InCS pc' ↔ InCS (S.threads t)) (hloc : Local V tail pc')
    (hops : ∀ l ∈ operands pc', l ∈ operands (S.threads t) ∨ S.Known l)
    (howed : ∀ k ∈ owed (S.threads t), Flagged V.graph k ∨ k ∈ owed pc')
    (hroot : ∀ x, root (S.threads t) = some x → root pc' = some x) : Inv (S.goto t pc') V tail := by
  refine Moves.inv h (t := t) (pc' := pc') (es := []) ⟨rfl, by simp [CSys.goto], rfl, h.mem, h.fits, Grows.refl V, h.wf, h.free, ?_,
    fun _ _ => Iff.rfl, fun _ _ _ => ⟨rfl, rfl⟩, hloc, hops, by simp, h.meaning_grows (Grows.refl V) h.wf rfl, by simp, howed,
    fun l hl => Or.inl hl, fun l ty k hg hf hn _ => absurd ⟨ty, hg, hf⟩ hn, fun x hx => Or.inl (hroot x hx), by simp⟩
  rw [hcs]; exact h.holder t

/-- Completing a union without touching memory. -/
theorem Inv.finish_union {S : CSys} {V : Labels} {tail : List Nat} (h : Inv S V tail) {t l r u : Nat}
    (hcs : ¬ InCS (S.threads t)) (hl : S.Known l) (hr : S.Known r) (hu : V.Lab u)
    (hden : ∀ b, Denotes V.graph u b ↔ Denotes V.graph l b ∨ Denotes V.graph r b)
    (howed : owed (S.threads t) = []) (hroot : root (S.threads t) = none) :
    Inv (S.finish t (.union l r u)) V tail := by
  refine Moves.inv h (t := t) (pc' := .idle) (es := [.union l r u]) ⟨rfl, rfl, rfl, h.mem, h.fits, Grows.refl V, h.wf,
    h.free, ?_, fun _ _ => Iff.rfl, fun _ _ _ => ⟨rfl, rfl⟩, trivial, by simp [operands], ?_,
    h.meaning_union (Grows.refl V) h.wf rfl hl hr hden, ?_, by simp [howed], fun l hl => Or.inl hl,
    fun l ty k hg hf hn _ => absurd ⟨ty, hg, hf⟩ hn, by simp [hroot], by simp⟩
  · constructor
    · intro h'; exact absurd h' id
    · intro h'; exact absurd ((h.holder t).2 h') hcs
  · intro e he x hx
    simp only [List.mem_singleton] at he
    subst he
    cases (hx : x = u)
    exact hu
  · intro e he
    simp only [List.mem_singleton] at he
    subst he
    exact ⟨h.known l hl, h.known r hr, hu, hden⟩

end CSys
end Verif
