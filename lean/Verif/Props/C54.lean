import Verif.PyTrace
import Verif.Props.C27
import Verif.Props.C39
import Verif.Props.C52
import Mathlib.Data.List.Forall2
/-
C54: the queries of a loaded trace: the inputs, the tainted outputs, and the input bytes that affected control
flow.
-/
namespace Verif
namespace C54
open Spec Py File Tracker

/-! ### Specification -/

/-- Some byte of input `i` was read. -/
def Read (es : List Event) (i : Nat) : Prop := ∃ off n first, Event.source i off n first ∈ es ∧ 0 < n

/-- Input `i` was read before input `j`: at some moment something had been read from `i` and nothing from `j`. -/
def FirstBefore (es : List Event) (i j : Nat) : Prop :=
  ∃ pre post, es = pre ++ post ∧ Read pre i ∧ ¬ Read pre j

/-- What Python should show for a registered input or output. -/
def shown (e : List Nat × Int × Nat) : Input := ⟨e.2.1, pathStr e.1, e.2.2⟩

/-! ### Inputs -/

theorem inputOf_reg {h : Trace} {F : TDFile}
    (hsrc : F.fdHeaders.map (fun p => (p.1, p.2.fd, p.2.size)) =
      (registered h).map fun e => (pathStr e.1, e.2.1, e.2.2)) (i : Nat) :
    F.inputOf i = ((registered h)[i]?).map shown := by
  have := congrArg (fun x => x[i]?) hsrc
  simp only [List.getElem?_map] at this
  rw [TDFile.inputOf]
  cases h1 : F.fdHeaders[i]? with
  | none =>
    cases h2 : (registered h)[i]? with
    | none => rfl
    | some e => rw [h1, h2] at this; cases this
  | some p =>
    cases h2 : (registered h)[i]? with
    | none => rw [h1, h2] at this; cases this
    | some e =>
      rw [h1, h2] at this
      simp only [Option.map_some, Option.some.injEq, Prod.mk.injEq] at this
      obtain ⟨e1, e2, e3⟩ := this
      simp only [Option.bind_eq_bind, Option.bind_some, Option.map_some]
      show some _ = some (shown e)
      rw [shown, e1, e2, e3]

/-- The inputs yielded for a list of source labels: those not seen before, each once, in order of their first
label in the list. -/
theorem inputsLoop_spec {F : TDFile} {g : Graph} {n : Nat} (hF : F.Shows g n) :
    ∀ (ls seen : List Nat), ls.Pairwise (· < ·) → (∀ l ∈ ls, ∃ cf i o, g l = some (.source cf i o)) →
    ∃ is ins, inputsLoop F ls seen = some ins ∧ List.Forall₂ (fun i x => F.inputOf i = some x) is ins ∧
      is.Nodup ∧ (∀ i, i ∈ is ↔ i ∉ seen ∧ ∃ l ∈ ls, ∃ cf o, g l = some (.source cf i o)) ∧
      is.Pairwise fun i j => ∃ l ∈ ls, (∃ cf o, g l = some (.source cf i o)) ∧
        ∀ l' ∈ ls, ∀ cf o, g l' = some (.source cf j o) → l < l' := by
  intro ls
  induction ls with
  | nil => intro seen _ _; exact ⟨[], [], rfl, .nil, by simp, by simp, by simp⟩
  | cons l ls ih =>
    intro seen hp hs
    obtain ⟨hl, hp'⟩ := List.pairwise_cons.1 hp
    have hs' : ∀ x ∈ ls, ∃ cf i o, g x = some (.source cf i o) := fun x hx => hs x (List.mem_cons_of_mem _ hx)
    obtain ⟨cf, i, o, hg⟩ := hs l List.mem_cons_self
    have h0 : 0 < l := by
      apply Nat.pos_of_ne_zero
      rintro rfl
      rw [hF.wf.none 0 (Or.inl rfl)] at hg
      cases hg
    have hdec : F.decodeNode l = some (.source i o cf) := by rw [hF.node l h0, hg]; rfl
    by_cases hi : i ∈ seen
    · obtain ⟨is, ins, h1, h2, h3, h4, h5⟩ := ih seen hp' hs'
      refine ⟨is, ins, ?_, h2, h3, ?_, ?_⟩
      · simp only [inputsLoop, hdec, Option.bind_eq_bind, Option.bind_some, if_pos hi, h1]
      · intro k
        rw [h4]
        constructor
        · rintro ⟨k1, x, hx, k2⟩; exact ⟨k1, x, List.mem_cons_of_mem _ hx, k2⟩
        · rintro ⟨k1, x, hx, cf', o', k2⟩
          refine ⟨k1, x, ?_, cf', o', k2⟩
          rcases List.mem_cons.1 hx with rfl | hx
          · rw [hg] at k2; cases k2; exact absurd hi k1
          · exact hx
      · refine h5.imp_of_mem ?_
        rintro a b ha hb ⟨x, hx, k1, k2⟩
        refine ⟨x, List.mem_cons_of_mem _ hx, k1, ?_⟩
        intro y hy cf' o' k3
        rcases List.mem_cons.1 hy with rfl | hy
        · rw [hg] at k3; cases k3
          exact absurd hi ((h4 _).1 hb).1
        · exact k2 y hy cf' o' k3
    · obtain ⟨is, ins, h1, h2, h3, h4, h5⟩ := ih (i :: seen) hp' hs'
      have hin : F.inputOf i = some ⟨F.fdHeaders[i]'(hF.header l cf i o hg) |>.2.fd,
          (F.fdHeaders[i]'(hF.header l cf i o hg)).1, (F.fdHeaders[i]'(hF.header l cf i o hg)).2.size⟩ := by
        rw [TDFile.inputOf, List.getElem?_eq_getElem (hF.header l cf i o hg)]; rfl
      refine ⟨i :: is, _ :: ins, ?_, .cons hin h2, ?_, ?_, ?_⟩
      · simp only [inputsLoop, hdec, Option.bind_eq_bind, Option.bind_some, if_neg hi, hin, h1]
        rfl
      · rw [List.nodup_cons]
        exact ⟨fun hm => ((h4 i).1 hm).1 List.mem_cons_self, h3⟩
      · intro k
        rw [List.mem_cons, h4]
        constructor
        · rintro (rfl | ⟨k1, x, hx, k2⟩)
          · exact ⟨hi, l, List.mem_cons_self, cf, o, hg⟩
          · exact ⟨fun hm => k1 (List.mem_cons_of_mem _ hm), x, List.mem_cons_of_mem _ hx, k2⟩
        · rintro ⟨k1, x, hx, cf', o', k2⟩
          by_cases hk : k = i
          · exact Or.inl hk
          · refine Or.inr ⟨by simp [hk, k1], x, ?_, cf', o', k2⟩
            rcases List.mem_cons.1 hx with rfl | hx
            · rw [hg] at k2; cases k2; exact absurd rfl hk
            · exact hx
      · rw [List.pairwise_cons]
        constructor
        · intro b hb
          refine ⟨l, List.mem_cons_self, ⟨cf, o, hg⟩, ?_⟩
          intro y hy cf' o' k3
          rcases List.mem_cons.1 hy with rfl | hy
          · rw [hg] at k3; cases k3
            exact absurd List.mem_cons_self ((h4 i).1 hb).1
          · exact hl y hy
        · refine h5.imp_of_mem ?_
          rintro a b ha hb ⟨x, hx, k1, k2⟩
          refine ⟨x, List.mem_cons_of_mem _ hx, k1, ?_⟩
          intro y hy cf' o' k3
          rcases List.mem_cons.1 hy with rfl | hy
          · rw [hg] at k3; cases k3
            exact absurd List.mem_cons_self ((h4 i).1 hb).1
          · exact k2 y hy cf' o' k3

/-- A read in the middle of a history was given labels above all labels given before. -/
theorem source_above {cap : Nat} (h0 : 0 < cap) (hcap : cap ≤ 2 ^ 31) {es : List Event} {L : Labels}
    (hr : Labels.Reach cap es L) {pre post : List Event} {i off n first : Nat}
    (he : es = pre ++ .source i off n first :: post) : ∀ l b, GivenTo pre l b → l < first := by
  unfold Labels.Reach at hr
  generalize hi : Labels.init cap = L0 at hr
  induction hr generalizing pre post with
  | nil => simp at he
  | @snoc es L1 op L2 e hr ha hx ih =>
    have hreach : Labels.Reach cap es L1 := by unfold Labels.Reach; rw [hi]; exact hr
    rcases List.eq_nil_or_concat post with rfl | ⟨p, x, rfl⟩
    · obtain ⟨h1, h2⟩ := List.append_inj' he rfl
      subst h1
      cases h2
      intro l b hl
      cases op with
      | source src off' n' =>
        obtain ⟨a1, a2, a3, a4⟩ := ha
        obtain ⟨L', e', -⟩ := Labels.createSourceLabels_spec (hreach.good h0 hcap).wf a2 a1 a3 a4
        have : L1.exec (.source src off' n') = .ok (L', .source src off' n' L1.words.length) := by
          simp [Labels.exec, e']
        rw [this] at hx
        cases hx
        exact ((hreach.kinds h0 hcap).1 l b hl).2
      | union l' r' => simp only [Labels.exec] at hx; obtain ⟨_, _, h⟩ := Res.bind_eq_ok.1 hx; cases h
      | mark m => simp only [Labels.exec] at hx; obtain ⟨_, _, h⟩ := Res.bind_eq_ok.1 hx; cases h
    · have h' : es ++ [e] = (pre ++ Event.source i off n first :: p) ++ [x] := by simpa using he
      exact ih (List.append_inj' h' rfl).1

/-- A label decodes to a source exactly if a read gave it to that byte. -/
theorem source_iff {c : Config} {base : Nat} (hc : c.Ok base) {h : Trace} {T : Tracker}
    (hr : Tracker.Reach c base h T) (l i o : Nat) :
    (∃ cf, T.labels.graph l = some (.source cf i o)) ↔ GivenTo (labelEvents h) l (i, o) := by
  have hs := hr.sim hc
  have hg := hs.lab.reach.good hc.lab0 hc.lab
  obtain ⟨k1, k2⟩ := hs.lab.reach.kinds hc.lab0 hc.lab
  constructor
  · rintro ⟨cf, hgr⟩
    have hl : 0 < l ∧ l < T.labels.words.length := by
      by_cases hl : l = 0 ∨ T.labels.words.length ≤ l
      · rw [hg.wf.graph.none l hl] at hgr; cases hgr
      · omega
    rcases k2 l hl.1 hl.2 with ⟨b, cf', hb, hg'⟩ | ⟨-, x, y, hne, hx, hy⟩
    · rw [hgr] at hg'
      cases hg'
      exact (hb _).2 rfl
    · rw [denotes_iff hgr] at hx hy
      exact absurd (hx.trans hy.symm) hne
  · intro hb
    obtain ⟨l0, ll⟩ := k1 l _ hb
    rcases k2 l l0 ll with ⟨x, cf, hx, hg'⟩ | ⟨hn, -⟩
    · rw [← (hx _).1 hb] at hg'
      exact ⟨cf, hg'⟩
    · exact absurd hb (hn _)

theorem read_iff {es : List Event} {i : Nat} : Read es i ↔ ∃ l o, GivenTo es l (i, o) := by
  constructor
  · rintro ⟨off, n, first, hm, hn⟩
    exact ⟨first, _, i, off, n, first, hm, Nat.le_refl _, by omega, rfl⟩
  · rintro ⟨l, o, s, off, n, first, hm, h1, h2, h3⟩
    cases h3
    exact ⟨off, n, first, hm, by omega⟩

/-- C54 (inputs): for every run that ends in an orderly way, `inputs` lists every input from which something was
read, each opening once, in the order in which they were first read, with the descriptor, path and size recorded
when it was opened. -/
theorem C54_inputs (c : Config) (base : Nat) (hc : c.Ok base) (h : Trace) (T : Tracker)
    (hr : Tracker.Reach c base h T) (hroom : T.labels.words.length + 64 ≤ c.indexCap)
    (hu : ∀ n ∈ names h, utf8 n = true) (pads : Pads) :
    ∃ F is ins, parse (closed pads c base T) = some F ∧ inputs F = some ins ∧
      List.Forall₂ (fun i x => ((registered h)[i]?).map shown = some x) is ins ∧
      is.Nodup ∧ (∀ i, i ∈ is ↔ Read (labelEvents h) i) ∧ is.Pairwise (FirstBefore (labelEvents h)) := by
  obtain ⟨F, hF, hs, hrec⟩ := shows_reach c base hc h T hr hroom hu pads
  obtain ⟨ls, hls, hlt, hmem⟩ := hs.index
  obtain ⟨is, ins, h1, h2, h3, h4, h5⟩ := inputsLoop_spec hs ls [] hlt (fun l hl => (hmem l).1 hl)
  have hsrc : ∀ l i o, (∃ cf, T.labels.graph l = some (.source cf i o)) ↔ GivenTo (labelEvents h) l (i, o) :=
    source_iff hc hr
  have hread : ∀ i, i ∈ is ↔ Read (labelEvents h) i := by
    intro i
    rw [h4, read_iff]
    constructor
    · rintro ⟨-, l, hl, cf, o, hg⟩
      exact ⟨l, o, (hsrc l i o).1 ⟨cf, hg⟩⟩
    · rintro ⟨l, o, hg⟩
      obtain ⟨cf, hg⟩ := (hsrc l i o).2 hg
      exact ⟨by simp, l, (hmem l).2 ⟨cf, i, o, hg⟩, cf, o, hg⟩
  refine ⟨F, is, ins, hF, ?_, ?_, h3, hread, ?_⟩
  · rw [inputs, hls]; exact h1
  · refine h2.imp ?_
    intro i x hx
    rw [← inputOf_reg hrec.sources, hx]
  · refine (h3.and h5).imp ?_
    rintro i j ⟨hne, l, hl, ⟨cf, o, hg⟩, hj⟩
    obtain ⟨s, off, n, first, hm, k1, k2, k3⟩ := (hsrc l i o).1 ⟨cf, hg⟩
    cases k3
    obtain ⟨pre, post, he⟩ := List.append_of_mem hm
    refine ⟨pre ++ [.source i off n first], post, by simp [he], ⟨off, n, first, by simp, by omega⟩, ?_⟩
    rintro ⟨off', n', first', hm', hn'⟩
    rcases List.mem_append.1 hm' with hm' | hm'
    · have hgive : GivenTo pre first' (j, off') := ⟨j, off', n', first', hm', Nat.le_refl _, by omega, by simp⟩
      have hlow := source_above hc.lab0 hc.lab (hr.sim hc).lab.reach he _ _ hgive
      obtain ⟨cf', hg'⟩ := (hsrc first' j off').2
        ⟨j, off', n', first', by rw [he]; simp [hm'], Nat.le_refl _, by omega, by simp⟩
      have := hj first' ((hmem _).2 ⟨cf', j, off', hg'⟩) cf' off' hg'
      omega
    · simp only [List.mem_singleton, Event.source.injEq] at hm'
      exact hne hm'.1.symm

/-! ### Outputs -/

/-- C54 (outputs): `output_taints` lists the tainted bytes written, in the order they were written, with the
output, the offset and the label; at most as many as the sink log holds. -/
theorem C54_outputs (c : Config) (base : Nat) (hc : c.Ok base) (h : Trace) (T : Tracker)
    (hr : Tracker.Reach c base h T) (hroom : T.labels.words.length + 64 ≤ c.indexCap)
    (hu : ∀ n ∈ names h, utf8 n = true) (pads : Pads) :
    ∃ F outs, parse (closed pads c base T) = some F ∧ outputTaints F = some outs ∧
      List.Forall₂ (fun w x => ((registered h)[w.out]?).map shown = some x.1 ∧ x.2 = ((w.offset : Int), w.label))
        ((written h).take c.sinkCap) outs := by
  obtain ⟨F, hF, hs, hrec⟩ := shows_reach c base hc h T hr hroom hu pads
  have hout := fun o ho => ((hr.sim hc).sinkOk o ho).2.2.2
  rw [show (∃ F outs, parse (closed pads c base T) = some F ∧ outputTaints F = some outs ∧
      List.Forall₂ (fun w x => ((registered h)[w.out]?).map shown = some x.1 ∧ x.2 = ((w.offset : Int), w.label))
        ((written h).take c.sinkCap) outs) ↔ ∃ outs, outputTaints F = some outs ∧
      List.Forall₂ (fun w x => ((registered h)[w.out]?).map shown = some x.1 ∧ x.2 = ((w.offset : Int), w.label))
        ((written h).take c.sinkCap) outs by
    constructor
    · rintro ⟨F', outs, h1, h2⟩
      rw [hF] at h1
      cases h1
      exact ⟨outs, h2⟩
    · rintro ⟨outs, h2⟩; exact ⟨F, outs, hF, h2⟩]
  unfold outputTaints
  rw [hrec.sinks]
  simp only [Option.bind_eq_bind, Option.bind_some]
  have hall : ∀ w ∈ (written h).take c.sinkCap, w.out < (registered h).length :=
    fun w hw => hout w (List.mem_of_mem_take hw)
  generalize (written h).take c.sinkCap = ws at hall
  induction ws with
  | nil => exact ⟨[], rfl, .nil⟩
  | cons w ws ih =>
    obtain ⟨outs, h1, h2⟩ := ih (fun x hx => hall x (List.mem_cons_of_mem _ hx))
    have hw := hall w List.mem_cons_self
    have hin : F.inputOf w.out = some (shown (registered h)[w.out]) := by
      rw [inputOf_reg hrec.sources, List.getElem?_eq_getElem hw]; rfl
    refine ⟨(shown (registered h)[w.out], w.offset, w.label) :: outs, ?_, .cons ⟨?_, rfl⟩ h2⟩
    · rw [List.map_cons, List.mapM_cons, h1]
      simp only [hin, Option.bind_eq_bind, Option.bind_some, Option.pure_def]
    · rw [List.getElem?_eq_getElem hw]; rfl

/-! ### Bytes that affected control flow -/

theorem mem_addNew {α : Type} [DecidableEq α] (s : List α) (x y : α) : y ∈ addNew s x ↔ y ∈ s ∨ y = x := by
  unfold addNew
  split
  · rename_i h
    constructor
    · exact Or.inl
    · rintro (k | rfl)
      · exact k
      · exact h
  · simp

theorem affectingLoop_spec {F : TDFile} {g : Graph} {n : Nat} (hF : F.Shows g n) :
    ∀ (ls : List Nat) (acc : List ByteOffset) (st : Forest), Forest.Reachable F st →
    (∀ l ∈ ls, ∃ cf i o, g l = some (.source cf i o)) →
    ∃ res st', affectingLoop F ls acc st = some (res, st') ∧ Forest.Reachable F st' ∧
      ∀ x, x ∈ res ↔ x ∈ acc ∨ ∃ l ∈ ls, ∃ i inp, g l = some (.source true i x.offset) ∧
        F.inputOf i = some inp ∧ x.source = inp.ref := by
  intro ls
  induction ls with
  | nil => intro acc st hr _; exact ⟨acc, st, rfl, hr, by simp⟩
  | cons l ls ih =>
    intro acc st hr hs
    have hs' : ∀ x ∈ ls, ∃ cf i o, g x = some (.source cf i o) := fun x hx => hs x (List.mem_cons_of_mem _ hx)
    obtain ⟨cf, i, o, hg⟩ := hs l List.mem_cons_self
    have hl : 0 < l ∧ l < n := by
      by_cases hl : l = 0 ∨ n ≤ l
      · rw [hF.wf.none l hl] at hg; cases hg
      · omega
    have hdec : F.decodeNode l = some (.source i o cf) := by rw [hF.node l hl.1, hg]; rfl
    cases cf with
    | false =>
      obtain ⟨res, st', h1, h2, h3⟩ := ih acc st hr hs'
      refine ⟨res, st', ?_, h2, ?_⟩
      · simp only [affectingLoop, hdec, Option.bind_eq_bind, Option.bind_some, Node.affects, h1]
        rfl
      · intro x
        rw [h3]
        constructor
        · rintro (k | ⟨y, hy, k⟩)
          · exact Or.inl k
          · exact Or.inr ⟨y, List.mem_cons_of_mem _ hy, k⟩
        · rintro (k | ⟨y, hy, i', inp, k1, k⟩)
          · exact Or.inl k
          · rcases List.mem_cons.1 hy with rfl | hy
            · rw [hg] at k1; cases k1
            · exact Or.inr ⟨y, hy, i', inp, k1, k⟩
    | true =>
      obtain ⟨nd, st1, hget, -⟩ := C27_node F g n hF st hr l hl.2
      obtain ⟨-, hi', -, hm⟩ := Forest.get_some hF (hr.inv hF) hget
      obtain ⟨t, hgt, hnt⟩ := hi'.real l nd hl.1 hm
      rw [hg] at hgt
      cases hgt
      have hnt' := hnt
      obtain ⟨inp, hin, -⟩ := hnt'
      have hoff : Forest.fileOffset F nd = some (inp, o) :=
        (Forest.fileOffset_real hF hl.1 hg hnt (inp, o)).2 ⟨true, i, o, rfl, hin, rfl⟩
      obtain ⟨res, st', h1, h2, h3⟩ := ih (addNew acc ⟨inp.ref, o⟩) st1 (.query hr hget) hs'
      refine ⟨res, st', ?_, h2, ?_⟩
      · simp only [affectingLoop, hdec, Option.bind_eq_bind, Option.bind_some, Node.affects, if_true, hget, hoff, h1]
      · intro x
        rw [h3, mem_addNew]
        constructor
        · rintro ((k | rfl) | ⟨y, hy, k⟩)
          · exact Or.inl k
          · exact Or.inr ⟨l, List.mem_cons_self, i, inp, hg, hin, rfl⟩
          · exact Or.inr ⟨y, List.mem_cons_of_mem _ hy, k⟩
        · rintro (k | ⟨y, hy, i', inp', k1, k2, k3⟩)
          · exact Or.inl (Or.inl k)
          · rcases List.mem_cons.1 hy with rfl | hy
            · rw [hg] at k1
              cases k1
              rw [hin] at k2
              cases k2
              refine Or.inl (Or.inr ?_)
              cases x
              simp only at k3
              rw [k3]
            · exact Or.inr ⟨y, hy, i', inp', k1, k2, k3⟩

/-- What `inputs_affecting_control_flow` returns for a file that shows a label graph, whatever was asked of the
forest before, and in whatever order Python iterates over the set it collects. -/
theorem affecting_shows {F : TDFile} {g : Graph} {n : Nat} (hF : F.Shows g n) {st : Forest}
    (hr : Forest.Reachable F st) :
    ∃ res st', affecting F st = some (res, st') ∧ Forest.Reachable F st' ∧
      ∀ l, (∀ x, x ∈ l ↔ x ∈ res) → (Taints.iter (Taints.mk l)).Nodup ∧
        ∀ x, x ∈ Taints.iter (Taints.mk l) ↔ ∃ i inp, FlaggedByte g (i, x.offset) ∧ F.inputOf i = some inp ∧
          x.source = inp.ref := by
  obtain ⟨ls, hls, -, hmem⟩ := hF.index
  obtain ⟨res, st', h1, h2, h3⟩ := affectingLoop_spec hF ls [] st hr (fun l hl => (hmem l).1 hl)
  refine ⟨res, st', by rw [affecting, hls]; exact h1, h2, ?_⟩
  intro l hl
  obtain ⟨k1, k2, -⟩ := C39_iterates l
  refine ⟨k1, fun x => ?_⟩
  rw [k2, hl, h3]
  constructor
  · rintro (k | ⟨y, -, i, inp, e1, e2, e3⟩)
    · simp at k
    · exact ⟨i, inp, ⟨y, e1⟩, e2, e3⟩
  · rintro ⟨i, inp, ⟨y, e1⟩, e2, e3⟩
    exact Or.inr ⟨y, (hmem y).2 ⟨_, _, _, e1⟩, i, inp, e1, e2, e3⟩

/-- C54 (control flow): for every run that ends in an orderly way, whatever was asked before,
`inputs_affecting_control_flow` returns exactly the bytes that influenced control flow in the run, each once,
named by descriptor and path of their input. -/
theorem C54_affecting (c : Config) (base : Nat) (hc : c.Ok base) (h : Trace) (T : Tracker)
    (hr : Tracker.Reach c base h T) (hroom : T.labels.words.length + 64 ≤ c.indexCap)
    (hu : ∀ n ∈ names h, utf8 n = true) (pads : Pads) :
    ∃ F, parse (closed pads c base T) = some F ∧ (Forest.new F).isSome = true ∧
      ∀ st, Forest.Reachable F st → ∃ res st', affecting F st = some (res, st') ∧ Forest.Reachable F st' ∧
        ∀ l, (∀ x, x ∈ l ↔ x ∈ res) → (Taints.iter (Taints.mk l)).Nodup ∧
          ∀ fd p o, ⟨⟨fd, p⟩, o⟩ ∈ Taints.iter (Taints.mk l) ↔
            ∃ i name size, (registered h)[i]? = some (name, fd, size) ∧ pathStr name = p ∧
              Influenced (labelEvents h) (i, o) := by
  obtain ⟨F, hF, hs, hrec⟩ := shows_reach c base hc h T hr hroom hu pads
  refine ⟨F, hF, ?_, ?_⟩
  · obtain ⟨st, h1, -⟩ := Forest.new_inv hs
    rw [h1]; rfl
  · intro st hst
    obtain ⟨res, st', h1, h2, h3⟩ := affecting_shows hs hst
    refine ⟨res, st', h1, h2, ?_⟩
    intro l hl
    obtain ⟨k1, k2⟩ := h3 l hl
    refine ⟨k1, ?_⟩
    intro fd p o
    rw [k2]
    have hinf := C09_influenced _ hc.lab0 hc.lab _ _ (hr.sim hc).lab.reach
    constructor
    · rintro ⟨i, inp, e1, e2, e3⟩
      rw [inputOf_reg hrec.sources] at e2
      cases h5 : (registered h)[i]? with
      | none => rw [h5] at e2; cases e2
      | some e =>
        rw [h5] at e2
        cases e2
        obtain ⟨name, fd', size⟩ := e
        cases e3
        exact ⟨i, name, size, h5, rfl, (hinf (i, o)).1 e1⟩
    · rintro ⟨i, name, size, e1, rfl, e2⟩
      exact ⟨i, shown (name, fd, size), (hinf (i, o)).2 e2, by rw [inputOf_reg hrec.sources, e1]; rfl, rfl⟩

/-! ### The whole pipeline -/

section
open Ir PassIr CfPass EndToEnd Linked

/-- C54 (pipeline, any history): insert the reports of the taint-tracking pass into a program, instrument it, run
it with the runtime, on any input, and load the trace in Python. Unless the run ran out of labels,
`inputs_affecting_control_flow` gives exactly the bytes that influenced control flow before and those on which a
decision of the original program depended. -/
theorem C54_pipeline_any (c : Config) (base : Nat) (hc : c.Ok base) (h : Trace) (T : Tracker)
    (hr : Tracker.Reach c base h T) (hu : ∀ n ∈ names h, utf8 n = true)
    (dom : Nat → Nat → Nat → Bool) (P : Prog) (hP : C47.Accepted dom P) (hP2 : C49.Accepted P)
    (hN : C49.NoHooks P) (C : Nat → Marks) (hC : ∀ f, ∃ lg cd, C f = taintTracking lg cd)
    (io : Io) (src snk : Nat) (hS : Streams h io src snk) (inp : World) (fn : Nat) (F : Func)
    (hF : P[fn]? = some F) (hne : F.blocks ≠ []) (args : List Nat) (mem : Mem) (hm : Spec.IsBytes mem)
    {tm : Nat → Nat × Nat → Prop} (hz : TaintedBy T.labels mem tm) (sp n : Nat) (o : Out (Nat × Nat → Prop))
    (gs : Glob (Nat × Nat → Prop)) (hs : Ir.run (sets src) P inp n (start (sets src) fn args mem sp tm) = o)
    (ho : globAfter o = some gs) (hpos : gs.pos < 2 ^ 54) (hbytes : ∀ y ∈ gs.out, y.1 < 256)
    (hlen : gs.out.length < 2 ^ 54) :
    ∃ k, C52.Does c (runCost plain P inp n (start plain fn args mem sp)) T
      (trun dom (pass C P) inp io k (istart (passFunc (C fn) F) fn args mem sp T.labels) T)
      (fun x => ∃ g, Stands o x.1 g ∧
        (x.2.labels.words.length + 64 ≤ c.indexCap → ∀ pads, ∃ D,
          parse (closed pads c base x.2) = some D ∧
          ∀ st, Forest.Reachable D st → ∃ res st', affecting D st = some (res, st') ∧
            ∀ l, (∀ x, x ∈ l ↔ x ∈ res) → (Taints.iter (Taints.mk l)).Nodup ∧
              ∀ y, y ∈ Taints.iter (Taints.mk l) ↔ ∃ i e, (registered h)[i]? = some e ∧ y.source = (shown e).ref ∧
                (Influenced (labelEvents h) (i, y.offset) ∨
                  C51.Decided C P inp src n (start (sets src) fn args mem sp tm) (i, y.offset)))) := by
  obtain ⟨k, hk⟩ := linked (C := C) (dom := dom) (inp := inp) hP hP2 hc hr hS hF hne hm hz hs ho hpos
    (C52.fine hC hN hbytes hlen)
  rw [C52.silent hC hN] at hk
  refine ⟨k, C52.does hk ?_⟩
  rintro ⟨x, T'⟩ ⟨g, h', hst, hg, he, hl⟩
  refine ⟨g, hst, ?_⟩
  intro hroom pads
  have hflag := C51.flags_pass hc.lab0 hc.lab (hr.sim hc).lab.reach rfl he hC hN hg
  obtain ⟨D, hD, hsh, hrec⟩ := shows_reach c base hc h' T' hl.reach hroom (by rw [hl.names]; exact hu) pads
  refine ⟨D, hD, ?_⟩
  intro st hst'
  obtain ⟨res, st', k1, -, k3⟩ := affecting_shows hsh hst'
  refine ⟨res, st', k1, ?_⟩
  intro l hl'
  obtain ⟨k4, k5⟩ := k3 l hl'
  refine ⟨k4, ?_⟩
  intro y
  rw [k5]
  have hfl : ∀ b, FlaggedByte T'.labels.graph b ↔ Influenced (labelEvents h) b ∨
      C51.Decided C P inp src n (start (sets src) fn args mem sp tm) b := by
    intro b
    rw [hl.labels]
    exact hflag b
  constructor
  · rintro ⟨i, inp', e1, e2, e3⟩
    rw [inputOf_reg hrec.sources, hl.reg] at e2
    cases h5 : (registered h)[i]? with
    | none => rw [h5] at e2; cases e2
    | some e =>
      rw [h5] at e2
      cases e2
      exact ⟨i, e, h5, e3, (hfl _).1 e1⟩
  · rintro ⟨i, e, e1, e2, e3⟩
    exact ⟨i, shown e, (hfl _).2 e3, by rw [inputOf_reg hrec.sources, hl.reg, e1]; rfl, e2⟩

/-- C54 (pipeline): insert the reports of the taint-tracking pass into a program, instrument it, run it with the
runtime, on any input, when nothing was read before, and load the trace in Python. Unless the run ran out of
labels, `inputs` gives the input file (if anything was read), and `inputs_affecting_control_flow` exactly the
bytes of it on which a decision of the original program depended. -/
theorem C54_pipeline (c : Config) (base : Nat) (hc : c.Ok base) (h : Trace) (T : Tracker)
    (hr : Tracker.Reach c base h T) (hu : ∀ n ∈ names h, utf8 n = true) (hfresh : labelEvents h = [])
    (dom : Nat → Nat → Nat → Bool) (P : Prog) (hP : C47.Accepted dom P) (hP2 : C49.Accepted P)
    (hN : C49.NoHooks P) (C : Nat → Marks) (hC : ∀ f, ∃ lg cd, C f = taintTracking lg cd)
    (io : Io) (src snk : Nat) (hS : Streams h io src snk) (e : List Nat × Int × Nat)
    (hsrc : (registered h)[src]? = some e) (inp : World) (fn : Nat) (F : Func)
    (hF : P[fn]? = some F) (hne : F.blocks ≠ []) (args : List Nat) (mem : Mem) (hm : Spec.IsBytes mem)
    {tm : Nat → Nat × Nat → Prop} (hz : TaintedBy T.labels mem tm) (sp n : Nat) (o : Out (Nat × Nat → Prop))
    (gs : Glob (Nat × Nat → Prop)) (hs : Ir.run (sets src) P inp n (start (sets src) fn args mem sp tm) = o)
    (ho : globAfter o = some gs) (hpos : gs.pos < 2 ^ 54) (hbytes : ∀ y ∈ gs.out, y.1 < 256)
    (hlen : gs.out.length < 2 ^ 54) :
    ∃ k, C52.Does c (runCost plain P inp n (start plain fn args mem sp)) T
      (trun dom (pass C P) inp io k (istart (passFunc (C fn) F) fn args mem sp T.labels) T)
      (fun x => ∃ g, Stands o x.1 g ∧
        (x.2.labels.words.length + 64 ≤ c.indexCap → ∀ pads, ∃ D,
          parse (closed pads c base x.2) = some D ∧
          inputs D = some (if gs.pos = 0 then [] else [shown e]) ∧
          ∀ st, Forest.Reachable D st → ∃ res st', affecting D st = some (res, st') ∧
            ∀ l, (∀ x, x ∈ l ↔ x ∈ res) → (Taints.iter (Taints.mk l)).Nodup ∧
              ∀ y, y ∈ Taints.iter (Taints.mk l) ↔ y.source = (shown e).ref ∧
                C51.Decided C P inp src n (start (sets src) fn args mem sp tm) (src, y.offset))) := by
  obtain ⟨k, hk⟩ := linked (C := C) (dom := dom) (inp := inp) hP hP2 hc hr hS hF hne hm hz hs ho hpos
    (C52.fine hC hN hbytes hlen)
  rw [C52.silent hC hN] at hk
  refine ⟨k, C52.does hk ?_⟩
  rintro ⟨x, T'⟩ ⟨g, h', hst, hg, he, hl⟩
  refine ⟨g, hst, ?_⟩
  intro hroom pads
  have hflag := C51.flags_pass hc.lab0 hc.lab (hr.sim hc).lab.reach rfl he hC hN hg
  have hnone : ∀ b, ¬ Influenced (labelEvents h) b := fun b => not_influenced (by rw [hfresh]; simp) b
  have hu' : ∀ n ∈ names h', utf8 n = true := by rw [hl.names]; exact hu
  have hread : ∀ i, C54.Read (labelEvents h') i ↔ i = src ∧ 0 < gs.pos := by
    intro i
    rw [read_iff]
    constructor
    · rintro ⟨l, b, hb⟩
      rcases (hl.given (i, b)).1 ⟨l, hb⟩ with ⟨l, s, o, n, f, hm, -⟩ | h5
      · rw [hfresh] at hm; simp at hm
      · have := hg.pos
        simp only at h5 this
        exact ⟨h5.1, by omega⟩
    · rintro ⟨rfl, k⟩
      obtain ⟨l, hb⟩ := (hl.given (i, 0)).2 (Or.inr ⟨rfl, by have := hg.pos; simp only at this ⊢; omega⟩)
      exact ⟨l, 0, hb⟩
  obtain ⟨D, is, ins, hD, h1, h2, h3, h4, -⟩ := C54_inputs c base hc h' T' hl.reach hroom hu' pads
  obtain ⟨D', hD', hsh, hrec⟩ := shows_reach c base hc h' T' hl.reach hroom hu' pads
  rw [hD] at hD'
  cases hD'
  refine ⟨D, hD, ?_, ?_⟩
  · rw [h1]
    by_cases hp : gs.pos = 0
    · rw [if_pos hp]
      have : is = [] := by
        rw [List.eq_nil_iff_forall_not_mem]
        intro i hi
        have := (hread i).1 ((h4 i).1 hi)
        omega
      subst this
      cases h2
      rfl
    · rw [if_neg hp]
      have : is = [src] := by
        have hmem : ∀ i, i ∈ is ↔ i = src := fun i => by
          rw [h4, hread]
          exact ⟨fun k => k.1, fun k => ⟨k, by omega⟩⟩
        match is, h3, hmem with
        | [], _, hmem => exact absurd ((hmem src).2 rfl) (by simp)
        | [a], _, hmem => rw [(hmem a).1 (by simp)]
        | a :: b :: r, h3, hmem =>
          have ha := (hmem a).1 (by simp)
          have hb := (hmem b).1 (by simp)
          rw [ha, hb] at h3
          simp at h3
      subst this
      cases h2 with
      | cons a b =>
        cases b
        rw [hl.reg, hsrc] at a
        cases a
        rfl
  · intro st hst'
    obtain ⟨res, st', k1, -, k3⟩ := affecting_shows hsh hst'
    refine ⟨res, st', k1, ?_⟩
    intro l hl'
    obtain ⟨k4, k5⟩ := k3 l hl'
    refine ⟨k4, ?_⟩
    intro y
    rw [k5]
    have hfl : ∀ b, FlaggedByte T'.labels.graph b ↔
        C51.Decided C P inp src n (start (sets src) fn args mem sp tm) b := by
      intro b
      have := hflag b
      rw [hl.labels]
      exact this.trans ⟨fun k => k.elim (fun k => absurd k (hnone b)) id, Or.inr⟩
    constructor
    · rintro ⟨i, inp', e1, e2, e3⟩
      have hi : i = src := by
        obtain ⟨l, e1'⟩ := e1
        have := (source_iff hc hl.reach l i y.offset).1 ⟨_, e1'⟩
        exact ((hread i).1 (read_iff.2 ⟨l, _, this⟩)).1
      subst hi
      rw [inputOf_reg hrec.sources, hl.reg, hsrc] at e2
      cases e2
      exact ⟨e3, (hfl _).1 e1⟩
    · rintro ⟨e1, e2⟩
      exact ⟨src, shown e, (hfl _).2 e2, by rw [inputOf_reg hrec.sources, hl.reg, hsrc]; rfl, e1⟩

end

/-! ### What is false -/

/-- Runs the calls, closes the file and parses it. -/
def loaded (calls : List Call) : Option TDFile :=
  (run exCfg 4096 calls).bind fun p => parse (closed zeroPads exCfg 4096 p.1)

theorem loaded_spec {calls : List Call} {α : Type} [DecidableEq α] (f : TDFile → α) (g : Trace → Bool) (a : α)
    (hk : (match run exCfg 4096 calls with
      | none => false
      | some (T, h) => g h && decide ((parse (closed zeroPads exCfg 4096 T)).map f = some a)) = true) :
    ∃ h T F, Tracker.Reach exCfg 4096 h T ∧ parse (closed zeroPads exCfg 4096 T) = some F ∧ f F = a ∧ g h = true := by
  cases hx : run exCfg 4096 calls with
  | none => rw [hx] at hk; cases hk
  | some p =>
    obtain ⟨T, h⟩ := p
    rw [hx] at hk
    simp only [Bool.and_eq_true, decide_eq_true_eq] at hk
    obtain ⟨hg, hk⟩ := hk
    cases hF : parse (closed zeroPads exCfg 4096 T) with
    | none => rw [hF] at hk; cases hk
    | some F => rw [hF] at hk; exact ⟨h, T, F, run_reach hx, hF, by simpa using hk, hg⟩

/-- The file "a" is read and closed, then "b" is opened on the same descriptor and read. -/
def reuseCalls : List Call :=
  [.openFile 3 [97] (some 10), .read 3 (some 1000) none 6, .closeFile 3, .openFile 3 [98] none,
   .read 3 (some 2000) none 2, .union 1 7, .mark 9]

/-- Inputs do not have the unique id their documentation promises: two different files that were open one after
the other have the same one. Nor is their size the number of bytes read from them: 6 bytes of 10 were read
from the first, and 2 from the second. -/
theorem C54_uid_refuted : ∃ h T F, Tracker.Reach exCfg 4096 h T ∧
    parse (closed zeroPads exCfg 4096 T) = some F ∧ inputs F = some [⟨3, [97], 10⟩, ⟨3, [98], unknownSize⟩] ∧
    labelEvents h = [.source 0 0 6 1, .source 1 0 2 7, .union 1 7 9, .mark 9] := by
  obtain ⟨h, T, F, h1, h2, h3, h4⟩ := loaded_spec (calls := reuseCalls) inputs
    (fun h => decide (labelEvents h = [.source 0 0 6 1, .source 1 0 2 7, .union 1 7 9, .mark 9]))
    (some [⟨3, [97], 10⟩, ⟨3, [98], unknownSize⟩]) (by decide +kernel)
  exact ⟨h, T, F, h1, h2, h3, of_decide_eq_true h4⟩

/-- The file "a" is opened twice on the same descriptor, for instance because it was replaced in between; only
byte 0 of the second opening affects control flow. -/
def mergeCalls (l : Nat) : List Call :=
  [.openFile 3 [97] (some 10), .read 3 (some 1000) none 1, .closeFile 3, .openFile 3 [97] (some 10),
   .read 3 (some 2000) none 1, .mark l]

/-- The answer cannot tell two openings of a path on the same descriptor apart: two runs in which bytes of
different openings affected control flow, and no others, give the same answer. -/
theorem C54_opening_refuted : ∃ h T F h' T' F' st st' st1 st1' res,
    Tracker.Reach exCfg 4096 h T ∧ parse (closed zeroPads exCfg 4096 T) = some F ∧ Forest.new F = some st ∧
    Tracker.Reach exCfg 4096 h' T' ∧ parse (closed zeroPads exCfg 4096 T') = some F' ∧ Forest.new F' = some st' ∧
    labelEvents h = [.source 0 0 1 1, .source 1 0 1 2, .mark 1] ∧
    labelEvents h' = [.source 0 0 1 1, .source 1 0 1 2, .mark 2] ∧
    affecting F st = some (res, st1) ∧ affecting F' st' = some (res, st1') := by
  obtain ⟨h, T, F, h1, h2, h3, h4⟩ := loaded_spec (calls := mergeCalls 1)
    (fun F => (Forest.new F).bind fun st => (affecting F st).map (·.1))
    (fun h => decide (labelEvents h = [.source 0 0 1 1, .source 1 0 1 2, .mark 1]))
    (some [⟨⟨3, [97]⟩, 0⟩]) (by decide +kernel)
  obtain ⟨h', T', F', h1', h2', h3', h4'⟩ := loaded_spec (calls := mergeCalls 2)
    (fun F => (Forest.new F).bind fun st => (affecting F st).map (·.1))
    (fun h => decide (labelEvents h = [.source 0 0 1 1, .source 1 0 1 2, .mark 2]))
    (some [⟨⟨3, [97]⟩, 0⟩]) (by decide +kernel)
  cases hn : Forest.new F with
  | none => rw [hn] at h3; cases h3
  | some st =>
    cases hn' : Forest.new F' with
    | none => rw [hn'] at h3'; cases h3'
    | some st' =>
      rw [hn] at h3
      rw [hn'] at h3'
      simp only [Option.bind_some] at h3 h3'
      cases ha : affecting F st with
      | none => rw [ha] at h3; cases h3
      | some p =>
        cases ha' : affecting F' st' with
        | none => rw [ha'] at h3'; cases h3'
        | some p' =>
          rw [ha] at h3
          rw [ha'] at h3'
          obtain ⟨r, s⟩ := p
          obtain ⟨r', s'⟩ := p'
          simp only [Option.map_some, Option.some.injEq] at h3 h3'
          subst h3
          subst h3'
          exact ⟨h, T, F, h', T', F', st, st', s, s', _, h1, h2, hn, h1', h2', hn', of_decide_eq_true h4,
            of_decide_eq_true h4', ha, ha'⟩

/-- Byte 0 of the input is written to one file, byte 1 to another. -/
def twoOutCalls : List Call :=
  [.openFile 3 [97] (some 10), .read 3 (some 1000) none 2, .openFile 4 [98] none, .openFile 5 [99] none,
   .write 4 none 1000 1, .write 5 none 1001 1]

/-- Outputs of different bytes to different files compare equal, as soon as the offsets agree. -/
theorem C54_output_eq_refuted : ∃ h T F x y, Tracker.Reach exCfg 4096 h T ∧
    parse (closed zeroPads exCfg 4096 T) = some F ∧ outputTaints F = some [x, y] ∧ outputEq x y = true ∧
    x.1.path ≠ y.1.path ∧ x.2.2 ≠ y.2.2 := by
  obtain ⟨h, T, F, h1, h2, h3, -⟩ := loaded_spec (calls := twoOutCalls) outputTaints (fun _ => true)
    (some [(⟨4, [98], unknownSize⟩, 0, 1), (⟨5, [99], unknownSize⟩, 0, 2)]) (by decide +kernel)
  exact ⟨h, T, F, _, _, h1, h2, h3, by decide, by decide, by decide⟩

theorem taintsLoop_seen (F : TDFile) (seen : List FNode) (st : Forest) : ∀ (k : Nat) (stack : List FNode),
    (∀ x ∈ stack, x ∈ seen) → stack.length < k → taintsLoop F k stack seen [] st = some ([], st) := by
  intro k
  induction k with
  | zero => intro _ _ h; omega
  | succ k ih =>
    intro stack h1 h2
    cases stack with
    | nil => rw [taintsLoop]
    | cons x xs =>
      rw [taintsLoop, if_pos (h1 x (by simp))]
      exact ih xs (fun y hy => h1 y (by simp [hy])) (by simp only [List.length_cons] at h2; omega)

/-- `ProgramTrace.taints` (the general query, not the one of the trace class for control flow) never reports a
byte, whatever nodes it is given and however they are ordered: every node on its stack has been seen from the
start. -/
theorem C54_taints_refuted (F : TDFile) (st : Forest) (nodes : List FNode) :
    ∃ N, ∀ fuel, N ≤ fuel → nodeTaints F fuel st nodes = some ([], st) :=
  ⟨(nodes.foldl addNew []).length + 1, fun fuel hf => taintsLoop_seen F _ st fuel _ (fun _ h => h) (by omega)⟩

/-- So a node that denotes two bytes has none according to it. -/
theorem C54_taints_node_refuted : ∃ h T F st nd st' i o, Tracker.Reach exCfg 4096 h T ∧
    parse (closed zeroPads exCfg 4096 T) = some F ∧ Forest.new F = some st ∧ st.get F 9 = some (nd, st') ∧
    Denotes T.labels.graph 9 (i, o) ∧ ∀ fuel, 2 ≤ fuel → nodeTaints F fuel st' [nd] = some ([], st') := by
  have hrun : (run exCfg 4096 reuseCalls).isSome = true := by decide +kernel
  obtain ⟨⟨T, h⟩, hx⟩ := Option.isSome_iff_exists.1 hrun
  have key : (match run exCfg 4096 reuseCalls with
      | none => false
      | some (T, h) => decide (T.labels.words.length + 64 ≤ exCfg.indexCap ∧ 9 < T.labels.words.length ∧
          (∀ n ∈ names h, utf8 n = true) ∧ T.labels.graph 9 = some (.union true 1 7) ∧
          T.labels.graph 1 = some (.source true 0 0))) = true := by decide +kernel
  rw [hx] at key
  simp only [decide_eq_true_eq] at key
  obtain ⟨k1, k2, k3, k4, k5⟩ := key
  obtain ⟨F, h1, h2, -⟩ := shows_reach exCfg 4096 exCfg_ok h T (run_reach hx) k1 k3 zeroPads
  obtain ⟨st, h3, -⟩ := Forest.new_inv h2
  obtain ⟨nd, st', h4, -⟩ := C27_node F _ _ h2 st (.new h3) 9 k2
  exact ⟨h, T, F, st, nd, st', 0, 0, run_reach hx, h1, h3, h4, .lower k4 (.source k5), fun fuel hf =>
    taintsLoop_seen F _ st' fuel _ (fun _ h => h) (by show [nd].length < fuel; simp; omega)⟩

/-! ### Examples -/

/-- The hypotheses of the theorems about runs hold of the run with two files on one descriptor. -/
example : ∃ h T, exCfg.Ok 4096 ∧ Tracker.Reach exCfg 4096 h T ∧ T.labels.words.length + 64 ≤ exCfg.indexCap ∧
    (∀ n ∈ names h, utf8 n = true) ∧ labelEvents h ≠ [] := by
  have hrun : (run exCfg 4096 reuseCalls).isSome = true := by decide +kernel
  obtain ⟨⟨T, h⟩, hx⟩ := Option.isSome_iff_exists.1 hrun
  have key : (match run exCfg 4096 reuseCalls with
      | none => false
      | some (T, h) => decide (T.labels.words.length + 64 ≤ exCfg.indexCap ∧
          (∀ n ∈ names h, utf8 n = true) ∧ labelEvents h ≠ [])) = true := by decide +kernel
  rw [hx] at key
  simp only [decide_eq_true_eq] at key
  exact ⟨h, T, exCfg_ok, run_reach hx, key⟩

/-- There, byte 0 of each file affects control flow. -/
example : ((loaded reuseCalls).bind fun F => (Forest.new F).bind fun st => (affecting F st).map (·.1)) =
    some [⟨⟨3, [97]⟩, 0⟩, ⟨⟨3, [98]⟩, 0⟩] := by decide +kernel

/-- The pipeline: on the example program of C52 (its hypotheses are met, see there), bytes 0 and 1 of "a". -/
example : ((Tracker.run exCfg 4096 C52.opens).bind fun p =>
    match Linked.trun C47.dom0 (CfPass.pass C51.marks C52.prog) (.file [1, 1, 1, 1, 1, 1]) C52.exIo 30
        (PassIr.istart (CfPass.passFunc (C51.marks 0) C52.mainF) 0 [] (fun _ => 0) 0 p.1.labels) p.1 with
    | .ok (.done _ _ _, T) => (parse (closed zeroPads exCfg 4096 T)).bind fun F =>
      (inputs F).bind fun i => (Forest.new F).bind fun st => (affecting F st).map fun r => (i, r.1)
    | _ => none) = some ([⟨3, [97], 6⟩], [⟨⟨3, [97]⟩, 0⟩, ⟨⟨3, [97]⟩, 1⟩]) := by decide +kernel

end C54
end Verif
