import Verif.FtraceCalls
import Verif.FtraceOver
import Verif.LinkedMain
import Verif.Props.C25
/- Helper lemmas: the linked program with function tracing does what the original program does, and its trace
of functions tells the calls and returns. -/
namespace Verif
namespace Ftrace
open Ir PassIr CfPass Spec Labels DfsanMem Tracker EndToEnd Linked

variable {c : Config} {base : Nat} {io : Io} {src snk : Nat} {hv h : Trace} {g : IGlob} {T : Tracker}

/-- The room a new name needs. -/
def cost (fs : List (List Nat)) (name : List Nat) : Nat :=
  if name ∈ fs then 0 else StrTab.allocatedLen name.length

theorem entry_pos (hc : c.Ok base) (hr : Tracker.Reach c base h T) {name : List Nat} (hlen : name.length ≤ 65535)
    {T' : Tracker} {i : Nat} (he : T.functionEntry name = .ok (T', i)) :
    T'.strings.pos ≤ T.strings.pos + cost (functions h) name := by
  obtain ⟨ss, ht⟩ := (hr.sim hc).tab
  simp only [Tracker.functionEntry, Res.bind_eq_ok] at he
  obtain ⟨⟨T1, j⟩, h1, h2⟩ := he
  cases j with
  | none => cases h2
  | some j =>
    simp only [Res.bind_eq_ok] at h2
    obtain ⟨T2, h3, h4⟩ := h2
    cases h4
    have hs : T'.strings = T1.strings := by
      unfold Tracker.logEvent at h3
      split at h3
      · cases h3; rfl
      · cases h3
    rw [hs]
    unfold Tracker.addMapping at h1
    rw [ht.fnMap, findFn_zipIdx] at h1
    unfold cost
    by_cases hmem : name ∈ functions h
    · simp only [hmem, if_true] at h1 ⊢
      cases h1
      omega
    · simp only [hmem, if_false] at h1 ⊢
      rcases StrTab.addString_spec ht.strs (s := name) hlen with ⟨-, S', k1, k2, -⟩ | ⟨k1, k2⟩
      · rw [k1] at h1
        simp only [Res.bind_ok] at h1
        have : S'.pos = T.strings.pos + StrTab.allocatedLen name.length := by
          rw [k2.pos, ht.strs.pos, List.flatMap_append, List.length_append]
          simp [StrTab.block_length]
        split at h1
        · cases h1; exact Nat.le_of_eq this
        · cases h1
      · rw [k2] at h1
        simp only [Res.bind_ok] at h1
        cases h1

/-- Entering a function. -/
theorem Link.entry (hc : c.Ok base) (hl : Link c base io src snk hv g T h) {name : List Nat} (hb : ∀ b ∈ name, b < 256)
    (hlen : name.length ≤ 65535) (hev : (fnEvents h).length < c.evCap)
    (hroom : name ∈ functions h ∨ ((functions h).length < c.fnCap ∧
      T.strings.pos + StrTab.allocatedLen name.length ≤ c.strSize)) :
    ∃ T' i r, T.functionEntry name = .ok (T', i) ∧
      Link c base io src snk ((.fnEntry name, r) :: hv) g T' ((.fnEntry name, r) :: h) ∧
      (functions ((.fnEntry name, r) :: h))[i]? = some name ∧
      fnEvents ((.fnEntry name, r) :: h) = fnEvents h ++ [(true, i)] ∧
      T'.strings.pos ≤ T.strings.pos + cost (functions h) name := by
  obtain ⟨T', he⟩ := C25_enter c base hc h T hl.reach name hev
    (hroom.imp id (fun k => ⟨hlen, k.1, k.2⟩))
  have he' := he
  simp only [Tracker.exec, Res.bind_eq_ok] at he'
  obtain ⟨⟨T1, i⟩, h1, h2⟩ := he'
  cases h2
  have hov := over_entry h1
  refine ⟨T1, _, _, h1, ⟨hl.reach.snoc hb he, ?_, hl.reg, hl.rd, hl.wr, hl.written, hl.cf, ?_, ?_⟩, ?_, rfl,
    entry_pos hc hl.reach hlen h1⟩
  · rw [← hov]; exact hl.labels
  · simp only [functions, hl.fns]
  · exact hl.given
  · have hmem : name ∈ functions ((.fnEntry name, Ret.unit) :: h) := by
      simp only [functions]
      split
      · assumption
      · simp
    have hlt := List.idxOf_lt_length_of_mem hmem
    exact (List.getElem?_eq_getElem hlt).trans (congrArg some (List.getElem_idxOf hlt))

/-- Leaving a function. -/
theorem Link.exit (hc : c.Ok base) (hl : Link c base io src snk hv g T h) {i : Nat} (hi : i < 2 ^ 16)
    (hev : (fnEvents h).length < c.evCap) :
    ∃ T', T.functionExit i = .ok T' ∧ Link c base io src snk ((.fnExit i, .unit) :: hv) g T' ((.fnExit i, .unit) :: h) ∧
      T'.strings = T.strings := by
  have hs := hl.reach.sim hc
  have h1 : T.functionExit i = .ok { T with events := T.events ++ [⟨1, i⟩] } := by
    have : T.events.length + 1 ≤ c.evCap := by rw [hs.events, List.length_map]; omega
    simp only [Tracker.functionExit, Tracker.logEvent, hs.cfg, if_pos this]
  refine ⟨_, h1, ⟨hl.reach.snoc hi ?_, hl.labels, hl.reg, hl.rd, hl.wr, hl.written, hl.cf, hl.fns, hl.given⟩, rfl⟩
  simp only [Tracker.exec, h1, Res.bind_ok, Res.pure_eq]

/-! ### What is known between steps -/

/-- Histories that differ only in function tracing. -/
structure Base (h0 hv : Trace) : Prop where
  reg : registered hv = registered h0
  written : Spec.written hv = Spec.written h0
  cf : cfEvents hv = cfEvents h0
  given : ∀ b, Given hv b ↔ Given h0 b

theorem Base.entry {h0 hv : Trace} (hb : Base h0 hv) (name : List Nat) (r : Ret) : Base h0 ((.fnEntry name, r) :: hv) :=
  ⟨hb.reg, hb.written, hb.cf, hb.given⟩

theorem Base.exit {h0 hv : Trace} (hb : Base h0 hv) (i : Nat) (r : Ret) : Base h0 ((.fnExit i, r) :: hv) :=
  ⟨hb.reg, hb.written, hb.cf, hb.given⟩

variable {N : Fns} {P : Prog} {h0 : Trace}

/-- The names that may be entered, and those that have not been entered yet. -/
def names (N : Fns) (P : Prog) : List (List Nat) := ((List.range P.length).filter N.traced).map N.passed

def todo (N : Fns) (P : Prog) (fs : List (List Nat)) : List (List Nat) := (names N P).filter (fun n => n ∉ fs)

/-- An event tells of a call or return. -/
def Tells (N : Fns) (fs : List (List Nat)) (e : Bool × Nat) (x : Bool × Nat) : Prop :=
  e.1 = x.1 ∧ fs[e.2]? = some (N.passed x.2)

/-- The saved index is that of the function of the frame. -/
def Knows {τ : Type} (N : Fns) (fs : List (List Nat)) (i : Nat) (fr : Frame τ) : Prop :=
  N.traced fr.fn = true → fs[i]? = some (N.passed fr.fn)

/-- The events up to now tell the calls and returns `done` of traced functions, and there is room for the names
still to come. -/
structure FInv (N : Fns) (P : Prog) (c : Config) (h0 : Trace) (T : Tracker) (h : Trace) (done : List (Bool × Nat)) : Prop where
  said : ∃ evs, fnEvents h = fnEvents h0 ++ evs ∧
    List.Forall₂ (Tells N (functions h)) evs (done.filter (fun x => N.traced x.2))
  strs : T.strings.pos + ((todo N P (functions h)).map (fun n => StrTab.allocatedLen n.length)).sum ≤ c.strSize
  fns : (functions h).length + (todo N P (functions h)).length ≤ c.fnCap
  only : ∀ n ∈ functions h, n ∈ functions h0 ∨ n ∈ names N P

theorem FInv.count {done : List (Bool × Nat)} (hi : FInv N P c h0 T h done) :
    (fnEvents h).length = (fnEvents h0).length + (done.filter (fun x => N.traced x.2)).length := by
  obtain ⟨evs, h1, h2⟩ := hi.said
  rw [h1, List.length_append, h2.length_eq]

/-- The indices saved for frames that have begun. -/
def Kept {τ : Type} (N : Fns) (fs : List (List Nat)) (saved : List Nat) (frames : List (Frame τ)) : Prop :=
  ∃ fr rest i is, frames = fr :: rest ∧ saved = i :: is ∧ (Fresh fr ∨ Knows N fs i fr) ∧
    List.Forall₂ (Knows N fs) is rest

theorem get_more {fs more : List (List Nat)} {i : Nat} {n : List Nat} (h : fs[i]? = some n) :
    (fs ++ more)[i]? = some n := by
  rw [List.getElem?_append_left (List.getElem?_eq_some_iff.1 h).1, h]

theorem Tells.more {fs : List (List Nat)} {e x : Bool × Nat} (h : Tells N fs e x) (more : List (List Nat)) :
    Tells N (fs ++ more) e x := ⟨h.1, get_more h.2⟩

theorem Knows.more {τ : Type} {fs : List (List Nat)} {i : Nat} {fr : Frame τ} (h : Knows N fs i fr) (more : List (List Nat)) :
    Knows N (fs ++ more) i fr := fun ht => get_more (h ht)

theorem functions_entry (name : List Nat) (r : Ret) (h : Trace) :
    ∃ more, functions ((.fnEntry name, r) :: h) = functions h ++ more := by
  simp only [functions]
  split
  · exact ⟨[], by simp⟩
  · exact ⟨_, rfl⟩

theorem passed_len (N : Fns) (f : Nat) : (N.passed f).length ≤ 65535 := by
  unfold Fns.passed
  rw [List.length_take]
  have := Nat.mod_lt (N.name f).length (show 2 ^ 16 > 0 by decide)
  omega

theorem mem_names {f : Nat} (hf : f < P.length) (ht : N.traced f = true) : N.passed f ∈ names N P :=
  List.mem_map.2 ⟨f, List.mem_filter.2 ⟨List.mem_range.2 hf, ht⟩, rfl⟩

theorem sum_one (l : List (List Nat)) : (l.map (fun _ => 1)).sum = l.length := by
  induction l with
  | nil => rfl
  | cons x l ih => rw [List.map_cons, List.sum_cons, ih, List.length_cons]; omega

theorem sum_filter (w : List Nat → Nat) {n : List Nat} : ∀ (l : List (List Nat)), n ∈ l →
    ((l.filter (fun x => x ≠ n)).map w).sum + w n ≤ (l.map w).sum
  | [], h => by cases h
  | x :: l, h => by
    have hle : ∀ l : List (List Nat), ((l.filter (fun x => x ≠ n)).map w).sum ≤ (l.map w).sum := by
      intro l
      induction l with
      | nil => simp
      | cons y l ih =>
        rw [List.filter_cons]
        split <;> simp only [List.map_cons, List.sum_cons] <;> omega
    rw [List.filter_cons]
    by_cases hx : x = n
    · subst hx
      simp only [ne_eq, not_true_eq_false, decide_false, Bool.false_eq_true, if_false, List.map_cons, List.sum_cons]
      have := hle l
      simp only [ne_eq] at this
      omega
    · have := sum_filter w l ((List.mem_cons.1 h).resolve_left (fun e => hx e.symm))
      simp only [ne_eq] at this
      simp only [ne_eq, hx, not_false_iff, decide_true, if_true, List.map_cons, List.sum_cons]
      omega

theorem todo_entry {f : Nat} (hf : f < P.length) (ht : N.traced f = true) (r : Ret) {h : Trace} (hn : N.passed f ∉ functions h)
    (w : List Nat → Nat) :
    ((todo N P (functions ((.fnEntry (N.passed f), r) :: h))).map w).sum + w (N.passed f) ≤
      ((todo N P (functions h)).map w).sum := by
  have e : todo N P (functions ((.fnEntry (N.passed f), r) :: h)) =
      (todo N P (functions h)).filter (fun x => x ≠ N.passed f) := by
    unfold todo
    rw [List.filter_filter]
    congr 1
    ext n
    simp only [functions, hn, if_false, List.mem_append, List.mem_singleton, not_or, ne_eq, decide_not, Bool.decide_and]
    exact Bool.and_comm _ _
  rw [e]
  refine sum_filter w _ ?_
  exact List.mem_filter.2 ⟨mem_names hf ht, by simpa using hn⟩

/-- The entry of a function that is at its start and still to be logged. -/
def pend {τ : Type} (frames : List (Frame τ)) : List (Bool × Nat) :=
  match frames with
  | [] => []
  | fr :: _ => if fr.blk = 0 ∧ fr.idx = 0 then [(true, fr.fn)] else []

/-- The call at the start of a function. -/
theorem enters_ok {τ : Type} (hc : c.Ok base) (hnm : ∀ f, f < P.length → N.traced f = true → ∀ b ∈ N.name f, b < 256)
    (hl : Link c base io src snk hv g T h) (hb : Base h0 hv) {done : List (Bool × Nat)}
    (hi : FInv N P c h0 T h done) {fr : IFrame} {sf : Frame τ} {rest : List (Frame τ)} (e1 : fr.fn = sf.fn)
    (e2 : fr.blk = sf.blk) (e3 : fr.idx = sf.idx) {saved : List Nat} (hk : Kept N (functions h) saved (sf :: rest))
    (hf : sf.fn < P.length)
    (hev : (fnEvents h0).length + ((done ++ pend (sf :: rest)).filter (fun x => N.traced x.2)).length ≤ c.evCap) :
    ∃ T' saved' h' hv', enters N fr T saved = .ok (T', saved') ∧ Link c base io src snk hv' g T' h' ∧ Base h0 hv' ∧
      FInv N P c h0 T' h' (done ++ pend (sf :: rest)) ∧ List.Forall₂ (Knows N (functions h')) saved' (sf :: rest) := by
  obtain ⟨_, _, i, is, ⟨⟩, rfl, hhead, htail⟩ := hk
  by_cases hfresh : sf.blk = 0 ∧ sf.idx = 0
  · have hp : pend (sf :: rest) = [(true, sf.fn)] := by simp only [pend, if_pos hfresh]
    rw [hp] at hev ⊢
    by_cases ht : N.traced sf.fn = true
    · have hcond : (N.traced fr.fn && fr.blk == 0 && fr.idx == 0) = true := by
        simp [e1, e2, e3, ht, hfresh.1, hfresh.2]
      rw [List.filter_append, List.length_append] at hev
      have hone : [((true, sf.fn) : Bool × Nat)].filter (fun x => N.traced x.2) = [(true, sf.fn)] := by simp [ht]
      rw [hone, List.length_singleton] at hev
      have hlen := hi.count
      have hroom : N.passed sf.fn ∈ functions h ∨ ((functions h).length < c.fnCap ∧
          T.strings.pos + StrTab.allocatedLen (N.passed sf.fn).length ≤ c.strSize) := by
        by_cases hmem : N.passed sf.fn ∈ functions h
        · exact Or.inl hmem
        · right
          have h1 := todo_entry hf ht .unit hmem (fun _ => 1)
          have h2 := todo_entry hf ht .unit hmem (fun n => StrTab.allocatedLen n.length)
          have h3 := hi.strs
          have h4 := hi.fns
          rw [sum_one, sum_one] at h1
          exact ⟨by omega, by omega⟩
      have hbytes : ∀ b ∈ N.passed sf.fn, b < 256 := fun b hm => hnm _ hf ht b (List.mem_of_mem_take hm)
      obtain ⟨T', j, r, k1, k2, k3, k4, k5⟩ := Link.entry hc hl hbytes (passed_len N _) (by omega) hroom
      obtain ⟨more, hmore⟩ := functions_entry (N.passed sf.fn) r h
      refine ⟨T', j :: is, _, _, ?_, k2, hb.entry _ r, ⟨?_, ?_, ?_, ?_⟩, ?_⟩
      · unfold enters
        rw [if_pos hcond, e1, k1]
        rfl
      · obtain ⟨evs, a1, a2⟩ := hi.said
        refine ⟨evs ++ [(true, j)], by rw [k4, a1, List.append_assoc], ?_⟩
        rw [List.filter_append, hone]
        refine List.rel_append ?_ (.cons ⟨rfl, k3⟩ .nil)
        rw [hmore]
        exact a2.imp (fun _ _ q => q.more more)
      · by_cases hmem : N.passed sf.fn ∈ functions h
        · have := hi.strs
          simp only [cost, hmem, if_true] at k5
          simp only [functions, hmem, if_true]
          omega
        · have := hi.strs
          have h2 := todo_entry hf ht r hmem (fun n => StrTab.allocatedLen n.length)
          simp only [cost, hmem, if_false] at k5
          omega
      · by_cases hmem : N.passed sf.fn ∈ functions h
        · have := hi.fns
          simp only [functions, hmem, if_true]
          exact this
        · have := hi.fns
          have h1 := todo_entry hf ht r hmem (fun _ => 1)
          rw [sum_one, sum_one] at h1
          have : (functions ((.fnEntry (N.passed sf.fn), r) :: h)).length = (functions h).length + 1 := by
            simp only [functions, hmem, if_false, List.length_append, List.length_singleton]
          omega
      · intro n hn
        simp only [functions] at hn
        split at hn
        · exact hi.only n hn
        · rcases List.mem_append.1 hn with hn | hn
          · exact hi.only n hn
          · rw [List.mem_singleton.1 hn]
            exact Or.inr (mem_names hf ht)
      · refine .cons (fun _ => k3) ?_
        rw [hmore]
        exact htail.imp (fun _ _ q => q.more more)
    · have ht' : N.traced sf.fn = false := by simpa using ht
      have hcond : ¬ (N.traced fr.fn && fr.blk == 0 && fr.idx == 0) = true := by simp [e1, ht']
      refine ⟨T, i :: is, h, hv, by unfold enters; rw [if_neg hcond]; rfl, hl, hb, ⟨?_, hi.strs, hi.fns, hi.only⟩,
        .cons (fun k => absurd k ht) htail⟩
      rw [List.filter_append]
      simpa [ht'] using hi.said
  · have hp : pend (sf :: rest) = [] := by simp only [pend, if_neg hfresh]
    have hcond : ¬ (N.traced fr.fn && fr.blk == 0 && fr.idx == 0) = true := by
      rw [e2, e3]
      simp only [Bool.and_eq_true, beq_iff_eq, not_and]
      intro k1 k2
      exact hfresh ⟨k1.2, k2⟩
    rw [hp, List.append_nil]
    exact ⟨T, i :: is, h, hv, by unfold enters; rw [if_neg hcond]; rfl, hl, hb, hi,
      .cons (hhead.resolve_left hfresh) htail⟩

theorem atRet_iff {τ : Type} {fr : IFrame} {sf : Frame τ} (e1 : fr.fn = sf.fn) (e2 : fr.blk = sf.blk) (e3 : fr.idx = sf.idx) :
    atRet P fr = true ↔ AtRet P sf := by
  unfold atRet AtRet
  rw [e1, e2, e3]
  constructor
  · intro h
    split at h
    · cases h
    · split at h
      · cases h
      · split at h
        · exact ⟨_, _, _, by assumption, by assumption, by assumption, by assumption⟩
        · cases h
  · rintro ⟨F, B, v, h1, h2, h3, h4⟩
    simp only [h1, h2, h3, h4]

/-- The return that the next step makes. -/
def outOf {τ : Type} (P : Prog) (frames : List (Frame τ)) (l : List (Bool × Nat)) : Prop :=
  ∃ fr rest, frames = fr :: rest ∧ ((AtRet P fr ∧ l = [(false, fr.fn)]) ∨ (¬ AtRet P fr ∧ l = []))

/-- The call before a return. -/
theorem leaves_ok {τ : Type} (hc : c.Ok base) (hl : Link c base io src snk hv g T h) (hb : Base h0 hv)
    {done l : List (Bool × Nat)} (hi : FInv N P c h0 T h done) {fr : IFrame} {sf : Frame τ} {rest : List (Frame τ)}
    (e1 : fr.fn = sf.fn) (e2 : fr.blk = sf.blk) (e3 : fr.idx = sf.idx) {saved : List Nat}
    (hk : List.Forall₂ (Knows N (functions h)) saved (sf :: rest)) (ho : outOf P (sf :: rest) l)
    (hev : (fnEvents h0).length + ((done ++ l).filter (fun x => N.traced x.2)).length ≤ c.evCap) :
    ∃ T' h' hv', leaves N P fr T saved = .ok T' ∧ Link c base io src snk hv' g T' h' ∧ Base h0 hv' ∧
      FInv N P c h0 T' h' (done ++ l) ∧ functions h' = functions h := by
  obtain ⟨_, _, ⟨⟩, ho⟩ := ho
  cases hk with
  | @cons i _ is _ hki _ =>
    rcases ho with ⟨hr, rfl⟩ | ⟨hr, rfl⟩
    · by_cases ht : N.traced sf.fn = true
      · have hcond : (N.traced fr.fn && atRet P fr) = true := by
          rw [Bool.and_eq_true, atRet_iff e1 e2 e3, e1]
          exact ⟨ht, hr⟩
        have hone : [((false, sf.fn) : Bool × Nat)].filter (fun x => N.traced x.2) = [(false, sf.fn)] := by simp [ht]
        rw [List.filter_append, List.length_append, hone, List.length_singleton] at hev
        have hlen := hi.count
        have hname := hki ht
        have hlt := (List.getElem?_eq_some_iff.1 hname).1
        have hfn := hi.fns
        have hcf := hc.fn
        obtain ⟨T', k1, k2, k3⟩ := Link.exit hc hl (i := i) (by omega) (by omega)
        refine ⟨T', _, _, ?_, k2, hb.exit i _, ⟨?_, by rw [k3]; exact hi.strs, hi.fns, hi.only⟩, rfl⟩
        · unfold leaves
          rw [if_pos hcond]
          exact k1
        · obtain ⟨evs, a1, a2⟩ := hi.said
          refine ⟨evs ++ [(false, i)], by simp only [fnEvents, a1, List.append_assoc], ?_⟩
          rw [List.filter_append, hone]
          exact List.rel_append a2 (.cons ⟨rfl, hname⟩ .nil)
      · have ht' : N.traced sf.fn = false := by simpa using ht
        have hcond : ¬ (N.traced fr.fn && atRet P fr) = true := by simp [e1, ht']
        refine ⟨T, h, hv, by unfold leaves; rw [if_neg hcond]; rfl, hl, hb, ⟨?_, hi.strs, hi.fns, hi.only⟩, rfl⟩
        rw [List.filter_append]
        simpa [ht'] using hi.said
    · have hcond : ¬ (N.traced fr.fn && atRet P fr) = true := by
        rw [Bool.and_eq_true, atRet_iff e1 e2 e3]
        exact fun k => hr k.2
      rw [List.append_nil]
      exact ⟨T, h, hv, by unfold leaves; rw [if_neg hcond]; rfl, hl, hb, hi, rfl⟩

end Ftrace
end Verif
