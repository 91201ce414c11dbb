import Verif.PassIrVisit
import Verif.Props.C45
/- Helper lemmas: execution of inserted code. -/
namespace Verif
namespace PassIr
open Ir Spec Labels DfsanMem

/-! ### Labels and the sets they stand for -/

/-- The label is in the store and denotes `T`. -/
def Den (L : Labels) (l : Nat) (T : Nat × Nat → Prop) : Prop :=
  l < L.words.length ∧ ∀ b, Denotes L.graph l b ↔ T b

/-- The labels of the bytes of application memory denote `tm`. -/
def TaintedBy (L : Labels) (mem : Mem) (tm : Nat → Nat × Nat → Prop) : Prop :=
  ∀ a, IsApp a → Den L (labelOf mem a) (tm a)

structure Store (cap : Nat) (L : Labels) : Prop where
  good : Good L
  cap : L.cap = cap

/-- The label reported to affect control flow by an event. -/
def markOf : Event → Option Nat
  | .mark l => some l
  | _ => none

/-- Everything but unions. -/
def keyOf : Event → Option Event
  | .union _ _ _ => none
  | e => some e

/-- Permitted calls lead from `L` to `L'`, make at most `k` labels, and, apart from unions, are `ms` in this
order. -/
def GrowsM (ms : List Event) (k : Nat) (L L' : Labels) : Prop :=
  (∃ es, Runs L es L' ∧ es.filterMap keyOf = ms) ∧ L'.words.length ≤ L.words.length + k

/-- The same when labels are only combined. -/
abbrev Grows (k : Nat) (L L' : Labels) : Prop := GrowsM [] k L L'

theorem GrowsM.refl {k : Nat} (L : Labels) : GrowsM [] k L L := ⟨⟨[], .nil _, rfl⟩, by omega⟩

theorem GrowsM.trans {ms ms' : List Event} {j k : Nat} {L L1 L2 : Labels} (h : GrowsM ms j L L1)
    (h' : GrowsM ms' k L1 L2) : GrowsM (ms ++ ms') (j + k) L L2 := by
  obtain ⟨⟨es, h, m⟩, e⟩ := h
  obtain ⟨⟨es', h', m'⟩, e'⟩ := h'
  exact ⟨⟨_, h.trans h', by rw [List.filterMap_append, m, m']⟩, by omega⟩

theorem GrowsM.mono {ms : List Event} {j k : Nat} {L L' : Labels} (h : GrowsM ms j L L') (hk : j ≤ k) :
    GrowsM ms k L L' :=
  ⟨h.1, by have := h.2; omega⟩

theorem Store.grows {cap : Nat} {ms : List Event} {k : Nat} {L L' : Labels} (h : Store cap L)
    (g : GrowsM ms k L L') : Store cap L' := by
  obtain ⟨⟨es, g, -⟩, -⟩ := g
  exact ⟨g.good h.good, (runs_cap g h.good).trans h.cap⟩

theorem Store.pos {cap : Nat} {L : Labels} (h : Store cap L) : 0 < L.words.length := h.good.wf.nonempty

theorem GrowsM.len {cap : Nat} {ms : List Event} {k : Nat} {L L' : Labels} (h : Store cap L)
    (g : GrowsM ms k L L') : L.words.length ≤ L'.words.length := by
  obtain ⟨⟨es, g, -⟩, -⟩ := g
  exact (g.old h.good).1

theorem GrowsM.denotes {cap : Nat} {ms : List Event} {k : Nat} {L L' : Labels} (h : Store cap L)
    (g : GrowsM ms k L L') {l : Nat}
    (hl : l < L.words.length) (b : Nat × Nat) : Denotes L'.graph l b ↔ Denotes L.graph l b := by
  obtain ⟨⟨es, g, -⟩, -⟩ := g
  exact (g.old h.good).2.2 l b hl

theorem Den.grows {cap : Nat} {ms : List Event} {k : Nat} {L L' : Labels} (h : Store cap L)
    (g : GrowsM ms k L L') {l : Nat}
    {T : Nat × Nat → Prop} (d : Den L l T) : Den L' l T :=
  ⟨Nat.lt_of_lt_of_le d.1 (g.len h), fun b => (g.denotes h d.1 b).trans (d.2 b)⟩

theorem Store.den_zero {cap : Nat} {L : Labels} (h : Store cap L) : Den L 0 (fun _ => False) :=
  ⟨h.pos, fun b => ⟨fun hd => denotes_zero h.good b hd, False.elim⟩⟩

theorem Den.congr {L : Labels} {l : Nat} {T U : Nat × Nat → Prop} (d : Den L l T)
    (h : ∀ b, T b ↔ U b) : Den L l U := ⟨d.1, fun b => (d.2 b).trans (h b)⟩

/-- The computation ends well, in `Q`, or the store has no room for `k` more labels. -/
def Goes {α : Type} (cap k : Nat) (L : Labels) (r : Res α) (Q : α → Prop) : Prop :=
  (∃ x, r = .ok x ∧ Q x) ∨ ((r = .fatal ∨ r = .ub) ∧ cap < L.words.length + k)

theorem Goes.ok {α : Type} {cap k : Nat} {L : Labels} {x : α} {Q : α → Prop} (h : Q x) :
    Goes cap k L (.ok x) Q := Or.inl ⟨x, rfl, h⟩

theorem Goes.bind {α β : Type} {cap k : Nat} {L : Labels} {r : Res α} {f : α → Res β} {Q : α → Prop}
    {R : β → Prop} (h : Goes cap k L r Q) (hf : ∀ x, Q x → Goes cap k L (f x) R) :
    Goes cap k L (r >>= f) R := by
  rcases h with ⟨x, rfl, hx⟩ | ⟨rfl | rfl, h⟩
  · exact hf x hx
  · exact Or.inr ⟨Or.inl rfl, h⟩
  · exact Or.inr ⟨Or.inr rfl, h⟩

theorem Goes.mono {α : Type} {cap k : Nat} {L : Labels} {r : Res α} {Q R : α → Prop}
    (h : Goes cap k L r Q) (hf : ∀ x, Q x → R x) : Goes cap k L r R := by
  rcases h with ⟨x, rfl, hx⟩ | h
  · exact Or.inl ⟨x, rfl, hf x hx⟩
  · exact Or.inr h

theorem Goes.weak {α : Type} {cap j k : Nat} {L : Labels} {r : Res α} {Q : α → Prop}
    (h : Goes cap j L r Q) (hk : j ≤ k) : Goes cap k L r Q := by
  rcases h with h | ⟨h, e⟩
  · exact Or.inl h
  · exact Or.inr ⟨h, by omega⟩

theorem Goes.from {α : Type} {cap j k : Nat} {ms : List Event} {L L' : Labels} {r : Res α} {Q : α → Prop}
    (g : GrowsM ms j L L') (h : Goes cap k L' r Q) : Goes cap (j + k) L r Q := by
  rcases h with h | ⟨h, e⟩
  · exact Or.inl h
  · exact Or.inr ⟨h, by have := g.2; omega⟩

theorem goes_of_combines {cap k : Nat} {L : Labels} {S : Nat × Nat → Prop} {r : Res (Labels × Nat)}
    (h : CombinesTo cap k L S r) : Goes cap k L r (fun x => Grows k L x.1 ∧ Den x.1 x.2 S) := by
  rcases h with ⟨L', u, es, e, h1, h2, h3, h4, hq⟩ | ⟨e, h1⟩
  · refine Or.inl ⟨(L', u), e, ⟨⟨es, h1, ?_⟩, h4⟩, h2, h3⟩
    refine List.filterMap_eq_nil_iff.2 (fun x hx => ?_)
    obtain ⟨l, r, u, rfl⟩ := hq x hx
    rfl
  · exact Or.inr ⟨Or.inl e, h1⟩

/-! ### Labels in shadows -/

/-- The label in a shadow value. -/
def labS (senv sargs : Nat → Nat) : SV → Nat
  | .zero => 0
  | .arg i => sargs i
  | .v n => senv n

theorem lab_eq (fr : IFrame) (s : SV) : fr.lab s = labS fr.senv fr.sargs s := by cases s <;> rfl

/-- The shadows `D` have labels, and those made by unions denote the union of their elements. -/
structure Labelled (fin : PSt) (D : Nat → Prop) (senv sargs : Nat → Nat) (L : Labels) : Prop where
  lab : ∀ n, D n → senv n < L.words.length
  arg : ∀ i, sargs i < L.words.length
  eqn : ∀ n E, D n → fin.elems (.v n) = some E →
    ∀ b, Denotes L.graph (senv n) b ↔ ∃ e ∈ E, Denotes L.graph (labS senv sargs e) b

def Closed (fin : PSt) (D : Nat → Prop) : Prop :=
  ∀ n E m, D n → fin.elems (.v n) = some E → .v m ∈ E → D m

theorem Labelled.lt {cap : Nat} {fin : PSt} {D : Nat → Prop} {senv sargs : Nat → Nat} {L : Labels}
    (hs : Store cap L) (h : Labelled fin D senv sargs L) {s : SV} (hD : ∀ n, s = .v n → D n) :
    labS senv sargs s < L.words.length := by
  cases s with
  | zero => exact hs.pos
  | arg i => exact h.arg i
  | v n => exact h.lab n (hD n rfl)

theorem Labelled.grows {cap k : Nat} {ms : List Event} {fin : PSt} {D : Nat → Prop} {senv sargs : Nat → Nat}
    {L L' : Labels} (hs : Store cap L) (g : GrowsM ms k L L') (hc : Closed fin D)
    (h : Labelled fin D senv sargs L) : Labelled fin D senv sargs L' := by
  have hl := g.len hs
  refine ⟨fun n hn => Nat.lt_of_lt_of_le (h.lab n hn) hl, fun i => Nat.lt_of_lt_of_le (h.arg i) hl, ?_⟩
  intro n E hn hE b
  rw [g.denotes hs (h.lab n hn), h.eqn n E hn hE]
  constructor
  · rintro ⟨e, he, hd⟩
    exact ⟨e, he, (g.denotes hs (h.lt hs (fun m hm => hc n E m hn hE (hm ▸ he))) b).2 hd⟩
  · rintro ⟨e, he, hd⟩
    exact ⟨e, he, (g.denotes hs (h.lt hs (fun m hm => hc n E m hn hE (hm ▸ he))) b).1 hd⟩

theorem Labelled.mono {fin : PSt} {D D' : Nat → Prop} {senv sargs : Nat → Nat} {L : Labels}
    (h : Labelled fin D senv sargs L) (hD : ∀ n, D' n → D n) : Labelled fin D' senv sargs L :=
  ⟨fun n hn => h.lab n (hD n hn), h.arg, fun n E hn => h.eqn n E (hD n hn)⟩

/-- Writing a shadow. -/
def upd (f : Nat → Nat) (n l : Nat) : Nat → Nat := fun m => if m = n then l else f m

theorem labS_upd {senv sargs : Nat → Nat} {k l : Nat} {s : SV} (h : s ≠ .v k) :
    labS (upd senv k l) sargs s = labS senv sargs s := by
  cases s with
  | zero => rfl
  | arg i => rfl
  | v n =>
    simp only [labS, upd]
    rw [if_neg (fun e => h (by rw [e]))]

theorem Labelled.put {fin : PSt} {D : Nat → Prop} {senv sargs : Nat → Nat} {L : Labels}
    (h : Labelled fin D senv sargs L) (hc : Closed fin D) {k l : Nat} (hk : ¬ D k)
    (hl : l < L.words.length)
    (hE : ∀ E, fin.elems (.v k) = some E → .v k ∉ E ∧
      ∀ b, Denotes L.graph l b ↔ ∃ e ∈ E, Denotes L.graph (labS senv sargs e) b) :
    Labelled fin (fun n => D n ∨ n = k) (upd senv k l) sargs L := by
  refine ⟨?_, h.arg, ?_⟩
  · intro n hn
    simp only [upd]
    split
    · exact hl
    · exact h.lab n (by tauto)
  · intro n E hn he b
    by_cases c : n = k
    · subst c
      obtain ⟨h1, h2⟩ := hE E he
      simp only [upd, if_true]
      rw [h2]
      constructor
      · rintro ⟨e, hm, hd⟩
        exact ⟨e, hm, by rw [labS_upd (fun x => h1 (x ▸ hm))]; exact hd⟩
      · rintro ⟨e, hm, hd⟩
        exact ⟨e, hm, by rwa [labS_upd (fun x => h1 (x ▸ hm))] at hd⟩
    · have hn' : D n := by tauto
      have hne : ∀ e ∈ E, e ≠ .v k := fun e hm x => hk (hc n E k hn' he (x ▸ hm))
      simp only [upd, if_neg c]
      rw [h.eqn n E hn' he]
      constructor
      · rintro ⟨e, hm, hd⟩
        exact ⟨e, hm, by rw [labS_upd (hne e hm)]; exact hd⟩
      · rintro ⟨e, hm, hd⟩
        exact ⟨e, hm, by rwa [labS_upd (hne e hm)] at hd⟩

/-! ### Shadows computed when a place is reached -/

/-- Shadows computed before `p`, and those at `p` below `k`. -/
def DM (F : Func) (fin : PSt) (p : Pt) (k n : Nat) : Prop :=
  n < fin.next ∧ (F.Avail (fin.place n) p ∨ (fin.place n = p ∧ n < k))

/-- Shadows computed before `p`. -/
def D0 (F : Func) (fin : PSt) (p : Pt) (n : Nat) : Prop := n < fin.next ∧ F.Avail (fin.place n) p

/-- Shadows computed before or at `p`. -/
def D1 (F : Func) (fin : PSt) (p : Pt) (n : Nat) : Prop :=
  n < fin.next ∧ (F.Avail (fin.place n) p ∨ fin.place n = p)

theorem closed_DM {F : Func} {V : Pt → Prop} {fin : PSt} (hf : SInv F V fin) (p : Pt) (k : Nat) :
    Closed fin (DM F fin p k) := by
  rintro n E m ⟨hn, hp⟩ hE hm
  obtain ⟨n', e, -, h⟩ := hf.elems _ _ hE
  cases e
  obtain ⟨h1, h2⟩ := h m hm
  refine ⟨by omega, ?_⟩
  rcases h2 with h2 | h2
  · rcases hp with hp | ⟨hp, -⟩
    · exact Or.inl (Func.avail_trans h2 hp)
    · rw [hp] at h2; exact Or.inl h2
  · rw [h2]
    rcases hp with hp | ⟨hp, hk⟩
    · exact Or.inl hp
    · exact Or.inr ⟨hp, by omega⟩

theorem closed_D0 {F : Func} {V : Pt → Prop} {fin : PSt} (hf : SInv F V fin) (p : Pt) :
    Closed fin (D0 F fin p) := by
  rintro n E m ⟨hn, hp⟩ hE hm
  obtain ⟨n', e, -, h⟩ := hf.elems _ _ hE
  cases e
  obtain ⟨h1, h2⟩ := h m hm
  refine ⟨by omega, ?_⟩
  rcases h2 with h2 | h2
  · exact Func.avail_trans h2 hp
  · rw [h2]; exact hp

/-- What is known at a place: the state of the pass before it and the final one. -/
structure Env (dom : Nat → Nat → Bool) (F : Func) (V : Pt → Prop) (p : Pt) (st0 fin : PSt) : Prop where
  ctx : Ctx F V p
  ds : DomSound F dom
  inv0 : SInv F V st0
  em0 : st0.em = []
  vis : Visited F V p st0 (visitPt dom F st0 p)
  ext : Ext (fun q => V q ∨ q = p) (visitPt dom F st0 p) fin
  inv : ∃ W, SInv F W fin

variable {dom : Nat → Nat → Bool} {F : Func} {V : Pt → Prop} {p : Pt} {st0 fin : PSt}

theorem Env.below0 (h : Env dom F V p st0 fin) : Below st0 fin := h.vis.ext.toBelow.trans h.ext.toBelow

theorem Env.closed (h : Env dom F V p st0 fin) (k : Nat) : Closed fin (DM F fin p k) := by
  obtain ⟨W, hW⟩ := h.inv
  exact closed_DM hW p k

/-- Shadows available in the middle of `p`. -/
theorem okAt_DM {st : PSt} (hb : Below st fin) {n : Nat} (h : st.OkAt F p (.v n)) :
    DM F fin p st.next n := by
  obtain ⟨h1, h2⟩ := h n rfl
  refine ⟨Nat.lt_of_lt_of_le h1 hb.next, ?_⟩
  rw [hb.place n h1]
  rcases h2 with h2 | h2
  · exact Or.inl h2
  · exact Or.inr ⟨h2, h1⟩

theorem Env.d0 (h : Env dom F V p st0 fin) {n : Nat} : DM F fin p st0.next n ↔ D0 F fin p n := by
  constructor
  · rintro ⟨h1, h2 | ⟨h2, h3⟩⟩
    · exact ⟨h1, h2⟩
    · rw [h.below0.place n h3] at h2
      exact absurd (h2 ▸ h.inv0.seen n h3) h.ctx.notin
  · rintro ⟨h1, h2⟩; exact ⟨h1, Or.inl h2⟩

theorem Env.d1 (h : Env dom F V p st0 fin) {n : Nat} (hn : D1 F fin p n) :
    DM F fin p (visitPt dom F st0 p).next n := by
  obtain ⟨h1, h2 | h2⟩ := hn
  · exact ⟨h1, Or.inl h2⟩
  · refine ⟨h1, Or.inr ⟨h2, ?_⟩⟩
    by_contra c
    exact h.ext.away n (by omega) h1 (Or.inr h2)

/-! ### Running inserted code -/

theorem sexecs_append (avoid : Bool) : ∀ (is js : List SIns) (fr : IFrame) (g : IGlob),
    sexecs avoid (is ++ js) fr g = (sexecs avoid is fr g >>= fun x => sexecs avoid js x.1 x.2) := by
  intro is
  induction is with
  | nil => intro js fr g; rfl
  | cons i is ih =>
    intro js fr g
    simp only [List.cons_append, sexecs]
    cases sexec avoid fr g i with
    | ok x => simp only [Res.bind_ok, ih]
    | fatal => rfl
    | ub => rfl
    | hang => rfl

theorem sexecs_one (avoid : Bool) (i : SIns) (fr : IFrame) (g : IGlob) :
    sexecs avoid [i] fr g = sexec avoid fr g i := by
  simp only [sexecs]
  cases sexec avoid fr g i <;> rfl

/-- The state while the code at `p` runs: `st` is the state of the pass when the code so far had been
inserted, and at most `k` labels have been made; `ms` are the calls other than unions. -/
structure RunInv (F : Func) (fin : PSt) (p : Pt) (st0 : PSt) (fr0 : IFrame) (g0 : IGlob)
    (k : Nat) (st : PSt) (x : IFrame × IGlob) (ms : List Event := []) : Prop where
  lab : Labelled fin (DM F fin p st.next) x.1.senv x.1.sargs x.2.L
  frame : x.1 = { fr0 with senv := x.1.senv }
  glob : x.2 = { g0 with L := x.2.L }
  grows : GrowsM ms k g0.L x.2.L
  keep : ∀ n, DM F fin p st0.next n → x.1.senv n = fr0.senv n

variable {fr0 : IFrame} {g0 : IGlob} {k : Nat}

theorem RunInv.sargs {st : PSt} {x : IFrame × IGlob} {ms : List Event}
    (h : RunInv F fin p st0 fr0 g0 k st x ms) :
    x.1.sargs = fr0.sargs := by rw [h.frame]

theorem RunInv.get {st : PSt} {x : IFrame × IGlob} {ms : List Event}
    (h : RunInv F fin p st0 fr0 g0 k st x ms) (o : Opd) :
    x.1.get o = fr0.get o := by
  rw [h.frame]; cases o <;> rfl

theorem RunInv.lab_keep {st : PSt} {x : IFrame × IGlob} {ms : List Event}
    (h : RunInv F fin p st0 fr0 g0 k st x ms) {s : SV}
    (hs : ∀ n, s = .v n → DM F fin p st0.next n) :
    labS x.1.senv x.1.sargs s = labS fr0.senv fr0.sargs s := by
  rw [h.sargs]
  cases s with
  | zero => rfl
  | arg i => rfl
  | v n => exact h.keep n (hs n rfl)

theorem RunInv.den_keep {cap : Nat} (hs : Store cap g0.L) {st : PSt} {x : IFrame × IGlob} {ms : List Event}
    (h : RunInv F fin p st0 fr0 g0 k st x ms) {s : SV} (hD : ∀ n, s = .v n → DM F fin p st0.next n)
    {T : Nat × Nat → Prop} (hd : Den g0.L (labS fr0.senv fr0.sargs s) T) :
    Den x.2.L (labS x.1.senv x.1.sargs s) T := by
  rw [h.lab_keep hD]
  exact hd.grows hs h.grows

theorem RunInv.start (hl : Labelled fin (DM F fin p st0.next) fr0.senv fr0.sargs g0.L) :
    RunInv F fin p st0 fr0 g0 k st0 (fr0, g0) :=
  ⟨hl, rfl, rfl, .refl _, fun _ _ => rfl⟩

theorem RunInv.weak {j : Nat} {st : PSt} {x : IFrame × IGlob} (h : RunInv F fin p st0 fr0 g0 k st x)
    (hk : k ≤ j) : RunInv F fin p st0 fr0 g0 j st x :=
  { h with grows := h.grows.mono hk }

/-- The next shadow at `p` gets its label. -/
theorem RunInv.put {cap j : Nat} (hE : Env dom F V p st0 fin) (hs : Store cap g0.L) {st st' : PSt}
    {x : IFrame × IGlob} (h : RunInv F fin p st0 fr0 g0 k st x) (h0 : st0.next ≤ st.next)
    (hn : st'.next = st.next + 1) (hp : st'.place st.next = p) (hb : Below st' fin) {l : Nat}
    {L' : Labels} {ms : List Event} (hg : GrowsM ms j x.2.L L') (hl : l < L'.words.length)
    (hel : ∀ E, st'.elems (.v st.next) = some E → .v st.next ∉ E ∧
      ∀ b, Denotes L'.graph l b ↔ ∃ e ∈ E, Denotes L'.graph (labS x.1.senv x.1.sargs e) b) :
    RunInv F fin p st0 fr0 g0 (k + j) st' (x.1.put st.next l, { x.2 with L := L' }) ms := by
  have hpl : fin.place st.next = p := by rw [hb.place _ (by omega)]; exact hp
  have hfe : fin.elems (.v st.next) = st'.elems (.v st.next) :=
    hb.elems _ (fun m e => by cases e; omega)
  have hnot : ¬ DM F fin p st.next st.next := by
    rintro ⟨-, h | ⟨-, h⟩⟩
    · rw [hpl] at h; exact Func.avail_irrefl hE.ctx.reach h
    · omega
  have hlab := (h.lab.grows (hs.grows h.grows) hg (hE.closed _)).put (hE.closed _) hnot hl
    (fun E e => hel E (hfe ▸ e))
  refine ⟨hlab.mono ?_, ?_, ?_, h.grows.trans hg, ?_⟩
  · rintro n ⟨h1, h2⟩
    rcases h2 with h2 | ⟨h2, h3⟩
    · exact Or.inl ⟨h1, Or.inl h2⟩
    · by_cases c : n = st.next
      · exact Or.inr c
      · exact Or.inl ⟨h1, Or.inr ⟨h2, by omega⟩⟩
  · have := h.frame
    simp only [IFrame.put]
    rw [this]
  · have := h.glob
    simp only
    rw [this]
  · intro n hn
    simp only [IFrame.put]
    rw [if_neg, h.keep n hn]
    intro e
    subst e
    refine hnot ⟨hn.1, ?_⟩
    rcases hn.2 with h2 | ⟨h2, h3⟩
    · exact Or.inl h2
    · omega

theorem RunInv.emit {st : PSt} {x : IFrame × IGlob} (h : RunInv F fin p st0 fr0 g0 k st x)
    {st' : PSt} (hn : st'.next = st.next) : RunInv F fin p st0 fr0 g0 k st' x :=
  ⟨by rw [hn]; exact h.lab, h.frame, h.glob, h.grows, h.keep⟩

/-- A shadow denotes the union of what its elements denote. -/
theorem denotes_elems {st : PSt} {W : Pt → Prop} (hi : SInv F W st) (hb : Below st fin)
    {senv sargs : Nat → Nat} {L : Labels} (h : Labelled fin (DM F fin p st.next) senv sargs L) {a : SV}
    (ha : st.OkAt F p a) (b : Nat × Nat) :
    Denotes L.graph (labS senv sargs a) b ↔
      ∃ e ∈ st.elemsOf a, Denotes L.graph (labS senv sargs e) b := by
  unfold PSt.elemsOf
  cases he : st.elems a with
  | none => simp
  | some E =>
    obtain ⟨n, rfl, hn, -⟩ := hi.elems a E he
    rw [Option.getD_some]
    exact h.eqn n E (okAt_DM hb ha) (by rw [hb.elems _ ha.old]; exact he) b

theorem Den.or {cap : Nat} {L : Labels} (_ : Store cap L) {l r u : Nat} {A B : Nat × Nat → Prop}
    (ha : Den L l A) (hb : Den L r B) (hu : u < L.words.length)
    (h : ∀ b, Denotes L.graph u b ↔ Denotes L.graph l b ∨ Denotes L.graph r b) :
    Den L u (fun b => A b ∨ B b) :=
  ⟨hu, fun b => by rw [h, ha.2, hb.2]⟩

/-- The code for a union. -/
theorem combine_run {cap : Nat} (hE : Env dom F V p st0 fin) (hs : Store cap g0.L) {st : PSt}
    {x : IFrame × IGlob} (hm : Mid F V p st0 st) (h : RunInv F fin p st0 fr0 g0 k st x) {a b : SV}
    (ha : st.OkAt F p a) (hb : st.OkAt F p b) (hbel : Below (combine dom p st a b).1 fin)
    {A B : Nat × Nat → Prop} (hA : Den x.2.L (labS x.1.senv x.1.sargs a) A)
    (hB : Den x.2.L (labS x.1.senv x.1.sargs b) B) (avoid : Bool) (ins : List SIns)
    (hins : (combine dom p st a b).1.em = st.em ++ ins) :
      Goes cap (k + 1) g0.L (sexecs avoid ins x.1 x.2) (fun y =>
        RunInv F fin p st0 fr0 g0 (k + 1) (combine dom p st a b).1 y ∧
        Den y.2.L (labS y.1.senv y.1.sargs (combine dom p st a b).2) (fun c => A c ∨ B c)) := by
  have hsx := hs.grows h.grows
  rw [combine_eq] at hbel hins ⊢
  cases hf : found dom p st a b with
  | some s =>
    rw [hf] at hbel hins
    have : ins = [] := by simpa using hins
    subst this
    refine .ok ⟨h.weak (Nat.le_succ k), ?_⟩
    simp only at hbel ⊢
    have hca := found_case hE.ctx hE.ds hm.inv hf
    have ea := denotes_elems hm.inv hbel h.lab ha
    have eb := denotes_elems hm.inv hbel h.lab hb
    cases hca with
    | zeroL e =>
      subst e
      refine hB.congr (fun c => ⟨Or.inr, ?_⟩)
      rintro (hc | hc)
      · exact absurd ((hA.2 c).2 hc) (denotes_zero hsx.good c)
      · exact hc
    | zeroR e =>
      subst e
      refine hA.congr (fun c => ⟨Or.inl, ?_⟩)
      rintro (hc | hc)
      · exact hc
      · exact absurd ((hB.2 c).2 hc) (denotes_zero hsx.good c)
    | same e =>
      subst e
      refine hA.congr (fun c => ⟨Or.inl, ?_⟩)
      rintro (hc | hc)
      · exact hc
      · exact (hA.2 c).1 ((hB.2 c).2 hc)
    | inL E hE1 hE2 =>
      refine hA.or hsx hB hA.1 (fun c => ⟨Or.inl, ?_⟩)
      rintro (hc | hc)
      · exact hc
      · rw [eb] at hc
        obtain ⟨e, he, hd⟩ := hc
        rw [ea]
        exact ⟨e, by simp only [PSt.elemsOf, hE1, Option.getD_some]; exact hE2 e he, hd⟩
    | inR E hE1 hE2 =>
      refine hA.or hsx hB hB.1 (fun c => ⟨Or.inr, ?_⟩)
      rintro (hc | hc)
      · rw [ea] at hc
        obtain ⟨e, he, hd⟩ := hc
        rw [eb]
        exact ⟨e, by simp only [PSt.elemsOf, hE1, Option.getD_some]; exact hE2 e he, hd⟩
      · exact hc
    | hit n E hok hE1 hE2 =>
      refine hA.or hsx hB (h.lab.lab n (okAt_DM hbel hok)) (fun c => ?_)
      rw [denotes_elems hm.inv hbel h.lab hok, ea, eb]
      simp only [PSt.elemsOf, hE1, Option.getD_some]
      constructor
      · rintro ⟨e, he, hd⟩
        rcases (hE2 e).1 he with he | he
        · exact Or.inl ⟨e, he, hd⟩
        · exact Or.inr ⟨e, he, hd⟩
      · rintro (⟨e, he, hd⟩ | ⟨e, he, hd⟩)
        · exact ⟨e, (hE2 e).2 (Or.inl he), hd⟩
        · exact ⟨e, (hE2 e).2 (Or.inr he), hd⟩
  | none =>
    rw [hf] at hbel hins
    simp only at hbel hins ⊢
    have hb0 : Below st fin := (united_below a b).trans hbel
    have : ins = [.union st.next a b] := (List.append_cancel_left hins).symm
    subst this
    have hlt : ∀ s, st.OkAt F p s → labS x.1.senv x.1.sargs s < x.2.L.words.length :=
      fun s hok => h.lab.lt hsx (fun n e => by subst e; exact okAt_DM hb0 hok)
    have hcomb := goes_of_combines (combineCode_combines (avoid := avoid) hsx.good hsx.cap
      (Or.inl rfl : Started true x.2.L) (hlt a ha) (hlt b hb))
    simp only [sexecs_one, sexec, lab_eq]
    refine Goes.bind (hcomb.from h.grows) ?_
    rintro ⟨L', l⟩ ⟨hg, hd⟩
    simp only at hg hd
    have hsl := hsx.grows hg
    refine .ok ⟨?_, ?_⟩
    · refine h.put hE hs hm.next rfl (by simp [united]) hbel hg hd.1 ?_
      intro E e
      have e' : st.elemsOf a ++ st.elemsOf b = E := by simpa [united] using e
      subst e'
      have hnew : ∀ c, c ∈ st.elemsOf a ++ st.elemsOf b → (∀ m, c = .v m → DM F fin p st.next m ∧ m < st.next) := by
        intro c hc m e
        subst e
        rcases List.mem_append.1 hc with hc | hc
        · have := elemsOf_ok hm.inv ha hc
          exact ⟨okAt_DM hb0 (fun k e => by cases e; exact this), this.1⟩
        · have := elemsOf_ok hm.inv hb hc
          exact ⟨okAt_DM hb0 (fun k e => by cases e; exact this), this.1⟩
      refine ⟨fun hc => Nat.lt_irrefl _ (hnew _ hc _ rfl).2, fun c => ?_⟩
      rw [hd.2]
      dsimp only
      rw [denotes_elems hm.inv hb0 h.lab ha, denotes_elems hm.inv hb0 h.lab hb]
      have hgr : ∀ e, e ∈ st.elemsOf a ++ st.elemsOf b → (Denotes L'.graph (labS x.1.senv x.1.sargs e) c ↔
          Denotes x.2.L.graph (labS x.1.senv x.1.sargs e) c) :=
        fun e he => hg.denotes hsx (h.lab.lt hsx (fun m hm => (hnew e he m hm).1)) c
      constructor
      · rintro (⟨e, he, hd⟩ | ⟨e, he, hd⟩)
        · exact ⟨e, List.mem_append.2 (Or.inl he), (hgr e (List.mem_append.2 (Or.inl he))).2 hd⟩
        · exact ⟨e, List.mem_append.2 (Or.inr he), (hgr e (List.mem_append.2 (Or.inr he))).2 hd⟩
      · rintro ⟨e, he, hd⟩
        rw [hgr e he] at hd
        rcases List.mem_append.1 he with he | he
        · exact Or.inl ⟨e, he, hd⟩
        · exact Or.inr ⟨e, he, hd⟩
    · simp only [IFrame.put, labS, if_true]
      exact hd.congr (fun c => by rw [hA.2, hB.2])

theorem combine_em (dom : Nat → Nat → Bool) (p : Pt) (st : PSt) (a b : SV) :
    ∃ ins, (combine dom p st a b).1.em = st.em ++ ins := by
  rw [combine_eq]
  cases found dom p st a b with
  | some s => exact ⟨[], by simp⟩
  | none => exact ⟨[.union st.next a b], rfl⟩

theorem combineLoop_em (dom : Nat → Nat → Bool) (F : Func) (p : Pt) : ∀ (os : List Opd) (st : PSt)
    (s : SV), ∃ ins, (combineLoop dom F p os st s).1.em = st.em ++ ins := by
  intro os
  induction os with
  | nil => intro st s; exact ⟨[], by simp [combineLoop]⟩
  | cons o os ih =>
    intro st s
    obtain ⟨i1, h1⟩ := combine_em dom p st s (st.getShadow F o)
    obtain ⟨i2, h2⟩ := ih (combine dom p st s (st.getShadow F o)).1 (combine dom p st s (st.getShadow F o)).2
    exact ⟨i1 ++ i2, by rw [← List.append_assoc, ← h1, ← h2]; rfl⟩

theorem getShadow_congr {st st' : PSt} (h : st'.shadow = st.shadow) (o : Opd) :
    st'.getShadow F o = st.getShadow F o := by
  cases o <;> simp only [PSt.getShadow, h]

/-- Shadows of operands are computed before `p`. -/
theorem Env.opd (hE : Env dom F V p st0 fin) {o : Opd} (ho : F.Usable p o) :
    ∀ n, st0.getShadow F o = .v n → DM F fin p st0.next n :=
  fun _ e => okAt_DM hE.below0 (e ▸ (Mid.start (p := p) hE.inv0).getShadow ho)

theorem combineLoop_run {cap : Nat} (hE : Env dom F V p st0 fin) (hs : Store cap g0.L) (avoid : Bool)
    (val : Opd → Nat × Nat → Prop) : ∀ (os : List Opd) {k : Nat} {st : PSt} {x : IFrame × IGlob} {s : SV}
    {T : Nat × Nat → Prop} {ins : List SIns}, Mid F V p st0 st → RunInv F fin p st0 fr0 g0 k st x →
    st.OkAt F p s → Den x.2.L (labS x.1.senv x.1.sargs s) T → (∀ o ∈ os, F.Usable p o) →
    (∀ o ∈ os, Den g0.L (labS fr0.senv fr0.sargs (st0.getShadow F o)) (val o)) →
    Below (combineLoop dom F p os st s).1 fin →
    (combineLoop dom F p os st s).1.em = st.em ++ ins →
    Goes cap (k + os.length) g0.L (sexecs avoid ins x.1 x.2) (fun y =>
      RunInv F fin p st0 fr0 g0 (k + os.length) (combineLoop dom F p os st s).1 y ∧
      Den y.2.L (labS y.1.senv y.1.sargs (combineLoop dom F p os st s).2)
        (fun b => T b ∨ ∃ o ∈ os, val o b)) := by
  intro os
  induction os with
  | nil =>
    intro k st x s T ins hm h hok hd _ _ _ hins
    have : ins = [] := by simpa [combineLoop] using hins
    subst this
    exact .ok ⟨h, hd.congr (fun b => by simp)⟩
  | cons o os ih =>
    intro k st x s T ins hm h hok hd hu hv hbel hins
    have hob := hm.getShadow (hu o (by simp))
    have hdo : Den x.2.L (labS x.1.senv x.1.sargs (st.getShadow F o)) (val o) := by
      rw [getShadow_congr hm.shadow]
      exact h.den_keep hs (hE.opd (hu o (by simp))) (hv o (by simp))
    obtain ⟨m1, m2, m3⟩ := hm.combine hE.ctx hE.ds hok hob
    obtain ⟨n1, n2, n3⟩ := Mid.combineLoop hE.ctx hE.ds os m1 m3 (fun o h => hu o (by simp [h]))
    obtain ⟨i1, h1⟩ := combine_em dom p st s (st.getShadow F o)
    obtain ⟨i2, h2⟩ := combineLoop_em dom F p os (combine dom p st s (st.getShadow F o)).1
      (combine dom p st s (st.getShadow F o)).2
    have : ins = i1 ++ i2 := by
      have h3 : st.em ++ (i1 ++ i2) = st.em ++ ins := by
        rw [← hins, ← List.append_assoc, ← h1, ← h2]; rfl
      exact (List.append_cancel_left h3).symm
    subst this
    rw [sexecs_append]
    rw [show k + (o :: os).length = k + 1 + os.length by simp only [List.length_cons]; omega]
    refine Goes.bind ((combine_run hE hs hm h hok hob (n2.trans hbel) hd hdo avoid i1 h1).weak (by omega)) ?_
    rintro y ⟨r1, r2⟩
    refine (ih m1 r1 m3 r2 (fun o h => hu o (by simp [h])) (fun o h => hv o (by simp [h])) hbel
      h2).mono ?_
    rintro z ⟨q1, q2⟩
    exact ⟨q1, q2.congr (fun b => by simp only [List.mem_cons, exists_eq_or_imp, or_assoc])⟩

theorem combineOperands_run {cap : Nat} (hE : Env dom F V p st0 fin) (hs : Store cap g0.L)
    (avoid : Bool) (val : Opd → Nat × Nat → Prop) (os : List Opd)
    (h : RunInv F fin p st0 fr0 g0 0 st0 (fr0, g0)) (hu : ∀ o ∈ os, F.Usable p o)
    (hv : ∀ o ∈ os, Den g0.L (labS fr0.senv fr0.sargs (st0.getShadow F o)) (val o))
    (hbel : Below (combineOperands dom F p st0 os).1 fin) :
    Goes cap (os.length - 1) g0.L (sexecs avoid (combineOperands dom F p st0 os).1.em fr0 g0) (fun y =>
      RunInv F fin p st0 fr0 g0 (os.length - 1) (combineOperands dom F p st0 os).1 y ∧
      Den y.2.L (labS y.1.senv y.1.sargs (combineOperands dom F p st0 os).2)
        (fun b => ∃ o ∈ os, val o b)) := by
  have hm : Mid F V p st0 st0 := .start hE.inv0
  cases os with
  | nil =>
    simp only [combineOperands, hE.em0, sexecs]
    exact .ok ⟨h, hs.den_zero.congr (fun b => by simp)⟩
  | cons o os =>
    rw [show (o :: os).length - 1 = 0 + os.length by simp]
    refine (combineLoop_run hE hs avoid val os hm h (hm.getShadow (hu o (by simp))) (hv o (by simp))
      (fun o h => hu o (by simp [h])) (fun o h => hv o (by simp [h])) hbel
      (by rw [hE.em0]; rfl)).mono ?_
    rintro z ⟨q1, q2⟩
    exact ⟨q1, q2.congr (fun b => by simp)⟩

end PassIr
end Verif
