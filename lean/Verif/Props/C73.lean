import Verif.Props.C48
import Verif.Props.C52
import Verif.PyMutateFacts
/-
C73: verifying cavities by changing them. A program whose trace has the cavity [b, e) of its input file writes the
same output for any contents of the cavity. The tools that check this read the list of cavities and run the program
on a changed file; they do not change what was listed.
-/
namespace Verif
namespace C73
open Ir PassIr CfPass Spec Labels DfsanMem Tracker EndToEnd Linked Py File Mutate

/-! ### Cavities do not matter -/

/-- Every branch is on a constant or is reported. -/
def Reported (C : Nat → Marks) (P : Prog) : Prop :=
  ∀ (f : Nat) F (b : Nat) B c g ts, P[f]? = some F → F.blocks[b]? = some B → B.term = .br c g ts →
    (∃ k, c = .const k) ∨ (C f).cond b = true

/-- The bytes `b` of the input that are in no report and in no output are not used for anything that is not seen by
the analysis: callees, addresses of stores, ranges, untracked code, atomic instructions. -/
def Seen (C : Nat → Marks) (P : Prog) (inp : World) (src n : Nat) (s : State (Nat × Nat → Prop))
    (out : List (Nat × (Nat × Nat → Prop))) : Prop :=
  ∀ b, ¬ C51.Decided C P inp src n s (src, b) → (∀ y ∈ out, ¬ y.2 (src, b)) →
    ∀ (m : Nat) t, m < n → Ir.run (sets src) P inp m s = .next t → ∀ fr rest F B I, t.frames = fr :: rest →
      P[fr.fn]? = some F → F.blocks[fr.blk]? = some B → B.body[fr.idx]? = some I →
      C48.InstrClear (sets src) (src, b) fr t.glob I

theorem clear_of {C : Nat → Marks} {P : Prog} {inp : World} {src n : Nat} {s : State (Nat × Nat → Prop)}
    {out : List (Nat × (Nat × Nat → Prop))} (hC : ∀ f, ∃ lg cd, C f = taintTracking lg cd) (hR : Reported C P)
    (hS : Seen C P inp src n s out) {b : Nat}
    (h1 : ¬ C51.Decided C P inp src n s (src, b)) (h2 : ∀ y ∈ out, ¬ y.2 (src, b)) :
    C48.ClearRun (sets src) (src, b) P inp n s := by
  intro m t hm ht fr rest F B hf hF hB
  refine ⟨fun I hI => hS b h1 h2 m t hm ht fr rest F B I hf hF hB hI, fun hI => ?_⟩
  cases hT : B.term with
  | br c g ts =>
    simp only [C48.TermClear]
    rcases hR fr.fn F fr.blk B c g ts hF hB hT with ⟨k, rfl⟩ | hc
    · simp [Frame.get, sets]
    · intro hb
      refine h1 ⟨m, t, hm, ht, fr.report (sets src) (C fr.fn).hk c, ?_, ?_⟩
      · unfold observe
        rw [hf]
        simp only [hF, hB, hI, hT, hc]
        simp
      · obtain ⟨lg, cd, hcd⟩ := hC fr.fn
        rw [hcd]
        exact hb
  | _ => trivial

/-- The output of the program on a file, if it ends within `n` steps. -/
def runTool (P : Prog) (n fn : Nat) (args : List Nat) (mem : Mem) (sp : Nat) (data : Data) : Option Data :=
  match Ir.run plain P (.file data) n (start plain fn args mem sp) with
  | .done _ g => some (g.out.map fun x => Fin.ofNat 256 x.1)
  | _ => none

/-- Two files that differ only in bytes that neither decide nor go to the output. -/
theorem same_output {C : Nat → Marks} {P : Prog} {src n : Nat} {data data' : Data} {fn : Nat} {args : List Nat}
    {mem : Mem} {sp : Nat} {tm : Nat → Nat × Nat → Prop} {v : Nat × (Nat × Nat → Prop)}
    {gs : Glob (Nat × Nat → Prop)}
    (hs : Ir.run (sets src) P (.file data) n (start (sets src) fn args mem sp tm) = .done v gs)
    (hC : ∀ f, ∃ lg cd, C f = taintTracking lg cd) (hR : Reported C P)
    (hS : Seen C P (.file data) src n (start (sets src) fn args mem sp tm) gs.out)
    (hl : data'.length = data.length)
    (hd : ∀ o : Nat, data'[o]? ≠ data[o]? →
      ¬ C51.Decided C P (.file data) src n (start (sets src) fn args mem sp tm) (src, o) ∧
      ∀ y ∈ gs.out, ¬ y.2 (src, o)) :
    Ir.run plain P (.file data') n (start plain fn args mem sp) = .stuck ∨
    ∃ v' g', Ir.run plain P (.file data') n (start plain fn args mem sp) = .done v' g' ∧
      g'.out.map (·.1) = gs.out.map (·.1) := by
  have hi : C48.DifferIn src (fun b => b.1 = src ∧ data'[b.2]? ≠ data[b.2]?) (.file data) (.file data') := by
    constructor
    · intro o ho
      have : data'[o]? = data[o]? := by
        by_contra h
        exact ho ⟨rfl, h⟩
      exact this.symm
    · intro o
      simp only [World.file]
      by_cases h : o < data.length
      · rw [List.getElem?_eq_getElem h, List.getElem?_eq_getElem (by omega)]; rfl
      · rw [List.getElem?_eq_none (by omega), List.getElem?_eq_none (by omega)]
    · simp only [World.file, hl]
    · rfl
  have := C48.C48_bytes P (.file data) (.file data') src _ n hi fn args mem tm sp (fun b hb => by
    obtain ⟨x, o⟩ := b
    obtain ⟨rfl, h⟩ := hb
    exact clear_of hC hR hS (hd o h).1 (hd o h).2) v gs hs
  rcases this with h | ⟨v', g', h1, -, h3, -, h4⟩
  · exact Or.inl h
  · refine Or.inr ⟨v', g', h1, ?_⟩
    apply List.ext_getElem?
    intro j
    simp only [List.getElem?_map]
    by_cases hj : j < gs.out.length
    · rw [List.getElem?_eq_getElem hj, List.getElem?_eq_getElem (by omega)]
      simp only [Option.map_some, Option.some.injEq]
      refine (h4 j _ _ (List.getElem?_eq_getElem hj) (List.getElem?_eq_getElem (by omega)) ?_).symm
      rintro ⟨x, o⟩ ⟨rfl, h⟩
      exact (hd o h).2 _ (List.getElem_mem hj)
    · rw [List.getElem?_eq_none (by omega), List.getElem?_eq_none (by omega)]
      rfl

/-- C73 (output): take any program all of whose branches are reported, run its instrumented version on a file and let
Python compute the cavities from the trace. The program as it is, without instrumentation, run on any file of the
same length that differs from the first one only within the cavities `[b, e)`, writes the same output (or has undefined
behaviour: it may load from an address that depends on bytes of the cavities). Provided that bytes in no report and
in no output are used for nothing that the analysis does not see. -/
theorem C73_output (c : Config) (base : Nat) (hc : c.Ok base) (h : Trace) (T : Tracker)
    (hr : Tracker.Reach c base h T) (hu : ∀ n ∈ names h, utf8 n = true) (hfresh : labelEvents h = [])
    (dom : Nat → Nat → Nat → Bool) (P : Prog) (hP : C47.Accepted dom P) (hP2 : C49.Accepted P)
    (hN : C49.NoHooks P) (C : Nat → Marks) (hC : ∀ f, ∃ lg cd, C f = taintTracking lg cd) (hR : Reported C P)
    (io : Io) (src snk : Nat) (hS : Streams h io src snk) (e : List Nat × Int × Nat)
    (hsrc : (registered h)[src]? = some e) (data : Data) (fn : Nat) (F : Func)
    (hF : P[fn]? = some F) (hne : F.blocks ≠ []) (args : List Nat) (mem : Mem) (hm : Spec.IsBytes mem)
    {tm : Nat → Nat × Nat → Prop} (hz : TaintedBy T.labels mem tm) (sp n : Nat) (v : Nat × (Nat × Nat → Prop))
    (gs : Glob (Nat × Nat → Prop))
    (hs : Ir.run (sets src) P (.file data) n (start (sets src) fn args mem sp tm) = .done v gs)
    (hpos : gs.pos < 2 ^ 54) (hbytes : ∀ y ∈ gs.out, y.1 < 256)
    (hlen : gs.out.length < 2 ^ 54) (hlog : (Spec.written h).length + gs.out.length ≤ c.sinkCap)
    (hSeen : Seen C P (.file data) src n (start (sets src) fn args mem sp tm) gs.out) :
    ∃ k, C52.Does c (runCost plain P (.file data) n (start plain fn args mem sp)) T
      (trun dom (pass C P) (.file data) io k (istart (passFunc (C fn) F) fn args mem sp T.labels) T)
      (fun x => ∃ g, Stands (.done v gs) x.1 g ∧
        (x.2.labels.words.length + 64 ≤ c.indexCap → ∀ pads, ∃ D N d,
          parse (closed pads c base x.2) = some D ∧ (∀ fuel, N ≤ fuel → fileCavities D fuel = some d) ∧
          ∀ rs, d.get (pathStr e.1) = some rs → ∀ data' : Data, data'.length = data.length →
            (∀ o : Nat, (∀ r ∈ rs, o < r.1 ∨ r.2 ≤ o) → data'[o]? = data[o]?) →
            Ir.run plain P (.file data') n (start plain fn args mem sp) = .stuck ∨
            ∃ v' g', Ir.run plain P (.file data') n (start plain fn args mem sp) = .done v' g' ∧
              g'.out.map (·.1) = gs.out.map (·.1))) := by
  obtain ⟨k, hk⟩ := C52.C52_cavities c base hc h T hr hu hfresh dom P hP hP2 hN C hC io src snk hS e hsrc (.file data)
    fn F hF hne args mem hm hz sp n _ gs hs rfl hpos hbytes hlen hlog
  refine ⟨k, ?_⟩
  rcases hk with ⟨x, h1, g, h2, h3⟩ | hk
  · refine Or.inl ⟨x, h1, g, h2, ?_⟩
    intro hroom pads
    obtain ⟨D, N, d, k1, k2, k3, k4⟩ := h3 hroom pads
    refine ⟨D, N, d, k1, k2, ?_⟩
    intro rs hrs data' hl hd
    have hx := k4 rs hrs
    refine same_output hs hC hR hSeen hl ?_
    intro o ho
    have : ∃ r ∈ rs, r.1 ≤ o ∧ o < r.2 := by
      by_contra hno
      refine ho (hd o ?_)
      intro r hr
      by_contra hx
      exact hno ⟨r, hr, by omega, by omega⟩
    exact ((hx.covers o).1 this).2
  · exact Or.inr hk

/-- The hypotheses of `C73_output` beyond those of `C52_cavities` are met by the first example of C52. -/
theorem prog_reported : Reported C51.marks C52.prog := by
  intro f F b B c g ts hF hB hT
  match f, hF with
  | 0, hF =>
    cases hF
    match b, hB with
    | 0, hB => cases hB; exact Or.inr rfl
    | 1, hB => cases hB; cases hT; exact Or.inl ⟨_, rfl⟩
    | 2, hB => cases hB; cases hT
    | n + 3, hB => cases hB
  | n + 1, hF => cases hF

theorem prog_seen (inp : World) (n : Nat) (s : State (Nat × Nat → Prop)) (out : List (Nat × (Nat × Nat → Prop))) :
    Seen C51.marks C52.prog inp 0 n s out := by
  intro b _ _ m t _ _ fr rest F B I _ hF hB hI
  have hm := List.mem_of_getElem? hI
  generalize fr.fn = f at hF
  generalize fr.blk = k at hB
  match f, hF with
  | 0, hF =>
    cases hF
    match k, hB with
    | 0, hB =>
      cases hB
      simp only [List.mem_cons, List.not_mem_nil, or_false] at hm
      rcases hm with rfl | rfl | rfl | rfl | rfl <;> trivial
    | 1, hB =>
      cases hB
      simp only [List.mem_cons, List.not_mem_nil, or_false] at hm
      rcases hm with rfl
      trivial
    | 2, hB => cases hB; simp at hm
    | n + 3, hB => cases hB
  | n + 1, hF => cases hF

example : Reported C51.marks C52.prog ∧ ∀ inp n s out, Seen C51.marks C52.prog inp 0 n s out :=
  ⟨prog_reported, prog_seen⟩

/-! ### The list is read back -/

/-- C73 (reading back), for plain paths (no comma, no end of a line, not beginning with a double quote): the ranges
read for a name are those printed for the path that is that name. -/
theorem C73_read_back_partial (d : List (Text × List (Nat × Nat)))
    (hd : ∀ e ∈ d, (∀ c ∈ e.1, c ≠ 44 ∧ c ≠ 10 ∧ c ≠ 13) ∧ e.1.head? ≠ some 34) (name : Text) :
    iterCavities name (printCavities d) = some ((d.filter (·.1 = name)).flatMap fun e =>
      e.2.map fun r => ((r.1 : Int), (r.2 : Int))) :=
  iterCavities_printed (fun e he => ⟨(hd e he).1, (hd e he).2⟩) name

/-- Two files with cavities. -/
example : iterCavities [97] (printCavities [([97], [(3, 6), (10, 12)]), ([98], [(0, 1)])]) =
    some [(3, 6), (10, 12)] := by
  decide +kernel

/-- C73 is false of paths with a comma: the file "a,b" with the cavity [3, 6) has no cavities when they are read, and
for a file "a" reading fails. -/
theorem C73_comma_refuted : iterCavities [97, 44, 98] (printCavities [([97, 44, 98], [(3, 6)])]) = some [] ∧
    iterCavities [97] (printCavities [([97, 44, 98], [(3, 6)])]) = none := by
  decide +kernel

/-- C73 is false of paths that begin with a double quote and of paths with a carriage return: the first takes the rest
of the list, the cavities of other files included, for its name; the second is taken for two rows. -/
theorem C73_quote_refuted :
    iterCavities [34, 97] (printCavities [([34, 97], [(3, 6)]), ([98], [(0, 1)])]) = some [] ∧
    iterCavities [98] (printCavities [([34, 97], [(3, 6)]), ([98], [(0, 1)])]) = some [] ∧
    iterCavities [97, 13, 98] (printCavities [([97, 13, 98], [(3, 6)])]) = some [] ∧
    iterCavities [98] (printCavities [([97, 13, 98], [(3, 6)])]) = some [(3, 6)] := by
  decide +kernel

/-- C73 is false of files in directories: the cavities are listed with the path under which the program opened the
file, and are read by the name of the file alone. Whatever was detected for files in directories, nothing is changed. -/
theorem C73_directory_refuted (d : List (Text × List (Nat × Nat)))
    (hd : ∀ e ∈ d, (∀ c ∈ e.1, c ≠ 44 ∧ c ≠ 10 ∧ c ≠ 13) ∧ e.1.head? ≠ some 34) (hdir : ∀ e ∈ d, 47 ∈ e.1)
    (name : Text) (hname : 47 ∉ name) {β : Type} [DecidableEq β] (H : Data → β) (tool : Data → Option Data)
    (out : Data) (hout : out ≠ []) (m : Data → Data) (limit skip : Int) (data : Data) :
    verify H tool (some out) name (printCavities d) m limit skip data = some .noCavities := by
  have hf : d.filter (·.1 = name) = [] := by
    rw [List.filter_eq_nil_iff]
    intro e he h
    have h1 : e.1 = name := by simpa using h
    exact hname (h1 ▸ hdir e he)
  unfold verify mutateCavities
  simp only [if_neg hout, C73_read_back_partial d hd name, hf]
  simp [mutateLoop]

/-- The file "/i/a" and its name "a". -/
example : ∃ (d : List (Text × List (Nat × Nat))) (name : Text),
    (∀ e ∈ d, (∀ c ∈ e.1, c ≠ 44 ∧ c ≠ 10 ∧ c ≠ 13) ∧ e.1.head? ≠ some 34) ∧ (∀ e ∈ d, 47 ∈ e.1) ∧ 47 ∉ name ∧
    ∃ e ∈ d, ∃ dir, e.1 = dir ++ 47 :: name ∧ e.2 ≠ [] :=
  ⟨[([47, 105, 47, 97], [(3, 6)])], [97], by decide, by decide, by decide, _, List.mem_singleton.2 rfl, [47, 105], rfl, by simp⟩

/-! ### Changing the file -/

/-- C73 (mutation): of the ranges that were read, as many as `skip` says are left out and at most as many as `limit`
says are used (-1: all). The bytes from the first to the last of each of these, both included, are replaced by `m` of
them; all other bytes stay and the length of the file stays. If no range is used there is no changed file. -/
theorem C73_mutates (name db : Text) (m : Data → Data) (hm : ∀ c, (m c).length = c.length) (data : Data)
    (qs : List (Nat × Nat)) (hq : iterCavities name db = some (qs.map fun r => ((r.1 : Int), (r.2 : Int))))
    (hle : ∀ q ∈ qs, q.1 ≤ q.2) (limit skip : Int) (sel : List (Nat × Nat))
    (hsel : sel = if limit = -1 then qs.drop skip.toNat else (qs.drop skip.toNat).take limit.toNat) :
    (sel = [] → mutateCavities name db m limit skip data = some none) ∧
    (sel ≠ [] → ∃ data', mutateCavities name db m limit skip data = some (some data') ∧ data'.length = data.length ∧
      (∀ i : Nat, (∀ q ∈ sel, i < q.1 ∨ q.2 < i) → data'[i]? = data[i]?) ∧
      (qs.Pairwise (fun a b => a.2 < b.1) → ∀ q ∈ sel,
        (data'.take (q.2 + 1)).drop q.1 = m ((data.take (q.2 + 1)).drop q.1))) := by
  have hle' : ∀ q ∈ qs, q.1 ≤ q.2 + 1 := fun q hq => by have := hle q hq; omega
  have hsub : sel.Sublist qs := by rw [hsel]; exact chosen_sublist limit skip qs
  have hle2 : ∀ q ∈ sel, q.1 ≤ q.2 + 1 := fun q hq => hle' q (hsub.subset hq)
  have hloop := mutateLoop_all m limit skip qs hle' data
  rw [show chosen limit skip qs = sel from hsel.symm] at hloop
  constructor
  · rintro rfl
    unfold mutateCavities
    rw [hq]
    simp only [Option.map_some, hloop]
    rfl
  · intro hne
    refine ⟨sel.foldl (change m) data, ?_, foldl_length hm hle2 data, fun i hi => foldl_outside hm hle2 data hi,
      fun hp => foldl_slice hm hle2 (hp.sublist hsub) data⟩
    unfold mutateCavities
    rw [hq]
    simp only [Option.map_some, hloop]
    rw [if_neg]
    cases sel with
    | nil => exact absurd rfl hne
    | cons q qs => simp

/-- Two ranges are changed. -/
example : iterCavities [97] (printCavities [([97], [(1, 2), (4, 6)])]) =
      some ([(1, 2), (4, 6)].map fun r : Nat × Nat => ((r.1 : Int), (r.2 : Int))) ∧
    mutateCavities [97] (printCavities [([97], [(1, 2), (4, 6)])]) methodZero (-1) 0 [1, 2, 3, 4, 5, 6] =
      some (some [1, 0, 0, 4, 0, 0]) ∧
    mutateCavities [97] (printCavities [([97], [(1, 2), (4, 6)])]) methodReverse (-1) 1 [1, 2, 3, 4, 5, 6] =
      some (some [1, 2, 3, 4, 6, 5]) ∧
    mutateCavities [97] (printCavities [([97], [(1, 2), (4, 6)])]) methodFlip 1 0 [1, 2, 3, 4, 5, 6] =
      some (some [1, 253, 252, 4, 5, 6]) := by
  decide +kernel

/-- C73 (meaning of the verdicts): "OK" is reported exactly if there is an original output that is not empty, a changed
file with another checksum, and an output for it with the checksum of the original; a difference exactly if the
checksums of the outputs are not the same. -/
theorem C73_verdicts {β : Type} [DecidableEq β] (H : Data → β) (tool : Data → Option Data) (orig : Option Data)
    (name db : Text) (m : Data → Data) (limit skip : Int) (data : Data) :
    (verify H tool orig name db m limit skip data = some .ok ↔ ∃ out data' out', orig = some out ∧ out ≠ [] ∧
      mutateCavities name db m limit skip data = some (some data') ∧ H data ≠ H data' ∧ tool data' = some out' ∧
      H out = H out') ∧
    (verify H tool orig name db m limit skip data = some .differ ↔ ∃ out data' out', orig = some out ∧ out ≠ [] ∧
      mutateCavities name db m limit skip data = some (some data') ∧ H data ≠ H data' ∧ tool data' = some out' ∧
      H out ≠ H out') := by
  unfold verify
  cases orig with
  | none => simp
  | some out =>
    by_cases h1 : out = []
    · simp [h1]
    · cases h2 : mutateCavities name db m limit skip data with
      | none => simp [h1]
      | some o =>
        cases o with
        | none => simp [h1]
        | some data' =>
          by_cases h3 : H data = H data'
          · simp [h1, h3]
          · cases h4 : tool data' with
            | none => simp [h1, h3, h4]
            | some out' =>
              by_cases h5 : H out = H out' <;> simp [h1, h3, h4, h5]

/-- C73 (verdict): if the ranges read for the file, with their last bytes, contain bytes of the file only inside its
cavities, the verification never says that the outputs differ (nor that there is nothing to verify). As it is, the
ranges that are read contain one byte more than the cavities: the hypothesis holds only of files whose only cavity is
at the end of the file, opened without a directory. -/
theorem C73_verified_partial {C : Nat → Marks} {P : Prog} {src n : Nat} {data : Data} {fn : Nat} {args : List Nat}
    {mem : Mem} {sp : Nat} {tm : Nat → Nat × Nat → Prop} {v : Nat × (Nat × Nat → Prop)}
    {gs : Glob (Nat × Nat → Prop)}
    (hs : Ir.run (sets src) P (.file data) n (start (sets src) fn args mem sp tm) = .done v gs)
    (hC : ∀ f, ∃ lg cd, C f = taintTracking lg cd) (hR : Reported C P)
    (hS : Seen C P (.file data) src n (start (sets src) fn args mem sp tm) gs.out) {rs : List (Nat × Nat)} {L : Nat}
    (hrs : MaximalRuns rs fun b => b < L ∧
      ¬ C51.Decided C P (.file data) src n (start (sets src) fn args mem sp tm) (src, b) ∧
      ∀ y ∈ gs.out, ¬ y.2 (src, b)) (name db : Text) (qs : List (Nat × Nat))
    (hq : iterCavities name db = some (qs.map fun r => ((r.1 : Int), (r.2 : Int))))
    (hle : ∀ q ∈ qs, q.1 ≤ q.2) (limit skip : Int)
    (hne : (if limit = -1 then qs.drop skip.toNat else (qs.drop skip.toNat).take limit.toNat) ≠ [])
    (hin : ∀ q ∈ qs, ∀ o, q.1 ≤ o → o ≤ q.2 → o < data.length → ∃ r ∈ rs, r.1 ≤ o ∧ o < r.2)
    (m : Data → Data) (hm : ∀ c, (m c).length = c.length) {β : Type} [DecidableEq β] (H : Data → β) (hout : gs.out ≠ []) :
    ∃ r, verify H (runTool P n fn args mem sp) (some (gs.out.map fun x => Fin.ofNat 256 x.1)) name db m limit skip data =
      some r ∧ (r = .ok ∨ r = .noOutput ∨ r = .notMutated) := by
  obtain ⟨data', h1, h2, h3', -⟩ := (C73_mutates name db m hm data qs hq hle limit skip _ rfl).2 hne
  have h3 : ∀ i : Nat, (∀ q ∈ qs, i < q.1 ∨ q.2 < i) → data'[i]? = data[i]? :=
    fun i hi => h3' i fun q hq => hi q ((chosen_sublist limit skip qs).subset hq)
  have key := same_output (data' := data') hs hC hR hS h2 (fun o ho => by
    have hlt : o < data.length := by
      by_contra hx
      exact ho (by rw [List.getElem?_eq_none (by omega), List.getElem?_eq_none (by omega)])
    have : ∃ q ∈ qs, q.1 ≤ o ∧ o ≤ q.2 := by
      by_contra hno
      refine ho (h3 o ?_)
      intro q hq
      by_contra hx
      exact hno ⟨q, hq, by omega, by omega⟩
    obtain ⟨q, hq, k1, k2⟩ := this
    exact ((hrs.covers o).1 (hin q hq o k1 k2 hlt)).2)
  unfold verify
  simp only [h1, Option.map_some]
  rw [if_neg (by simpa using hout)]
  refine ⟨_, rfl, ?_⟩
  split
  · exact Or.inr (Or.inr rfl)
  · rcases key with key | ⟨v', g', k1, k2⟩
    · simp only [runTool, key]
      simp
    · have : g'.out.map (fun x => Fin.ofNat 256 x.1) = gs.out.map fun x => Fin.ofNat 256 x.1 := by
        have := congrArg (List.map (Fin.ofNat 256)) k2
        rw [List.map_map, List.map_map] at this
        exact this
      simp only [runTool, k1, this]
      simp

/-- The first example of C52 on a file of six bytes: bytes 3, 4 and 5 are the cavity, which is at the end. -/
example : ∃ v gs, Ir.run (sets 0) C52.prog (.file [1, 1, 1, 1, 1, 1]) 20 (start (sets 0) 0 [] (fun _ => 0) 0) = .done v gs ∧
    (∀ f, ∃ lg cd, C51.marks f = taintTracking lg cd) ∧ Reported C51.marks C52.prog ∧
    Seen C51.marks C52.prog (.file [1, 1, 1, 1, 1, 1]) 0 20 (start (sets 0) 0 [] (fun _ => 0) 0) gs.out ∧
    (MaximalRuns [(3, 6)] fun b => b < 6 ∧
      ¬ C51.Decided C51.marks C52.prog (.file [1, 1, 1, 1, 1, 1]) 0 20 (start (sets 0) 0 [] (fun _ => 0) 0) (0, b) ∧
      ∀ y ∈ gs.out, ¬ y.2 (0, b)) ∧
    iterCavities [97] (printCavities [([97], [(3, 6)])]) =
      some ([(3, 6)].map fun r : Nat × Nat => ((r.1 : Int), (r.2 : Int))) ∧
    (∀ q ∈ [(3, 6)], ∀ o, q.1 ≤ o → o ≤ q.2 → o < 6 → ∃ r ∈ [(3, 6)], r.1 ≤ o ∧ o < r.2) ∧ gs.out ≠ [] ∧
    verify id (runTool C52.prog 20 0 [] (fun _ => 0) 0) (some (gs.out.map fun x => Fin.ofNat 256 x.1)) [97]
      (printCavities [([97], [(3, 6)])]) methodFlip (-1) 0 [1, 1, 1, 1, 1, 1] = some .ok := by
  obtain ⟨v, gs, h1, h2, h3⟩ : ∃ v gs, Ir.run (sets 0) C52.prog (.file [1, 1, 1, 1, 1, 1]) 20
      (start (sets 0) 0 [] (fun _ => 0) 0) = .done v gs ∧ gs.out = [(1, (sets 0).src 2)] ∧
      gs.out.map (·.1) = [1] := ⟨_, _, rfl, rfl, rfl⟩
  obtain ⟨t, h4, h5⟩ : ∃ t, observeRun (sets 0) C51.marks C52.prog (.file [1, 1, 1, 1, 1, 1]) 20
      (start (sets 0) 0 [] (fun _ => 0) 0) = [(.noted, 2, t)] ∧
      t = (sets 0).join ((sets 0).src 0) ((sets 0).join ((sets 0).src 1) (sets 0).zero) := ⟨_, rfl, rfl⟩
  have hdec : ∀ b, C51.Decided C51.marks C52.prog (.file [1, 1, 1, 1, 1, 1]) 0 20 (start (sets 0) 0 [] (fun _ => 0) 0)
      (0, b) ↔ b = 0 ∨ b = 1 := by
    intro b
    rw [← C51.decided_iff, h4]
    simp [h5, sets]
  have hout : ∀ b, (∀ y ∈ gs.out, ¬ y.2 (0, b)) ↔ b ≠ 2 := by
    intro b
    rw [h2]
    simp [sets]
  refine ⟨v, gs, h1, fun _ => ⟨_, _, rfl⟩, prog_reported, prog_seen _ _ _ _, ?_, by decide +kernel, ?_,
    by rw [h2]; simp, ?_⟩
  · simp only [hdec, hout]
    refine ⟨by simp, by simp, ?_, ?_⟩
    · intro o
      simp only [List.mem_singleton, exists_eq_left]
      omega
    · intro r hr
      rw [List.mem_singleton.1 hr]
      simp
  · intro q hq o h6 h7 h8
    rw [List.mem_singleton.1 hq] at h6 h7
    exact ⟨_, List.mem_singleton.2 rfl, h6, h8⟩
  · rw [h2]
    decide +kernel

/-- Python's answer for the second example of C52: the cavities [1, 2) and [4, 6) of "a". -/
theorem block_cavities : C52.blockAnswer.map (·.2) = some [([97], [(1, 2), (4, 6)])] := by
  decide +kernel

/-- C73 is false of cavities that do not end at the end of the file: a range is listed with the offset after its last
byte and read as if this were its last byte, and that byte, being outside of the cavity, mattered. For the second
example of C52 the output is declared to differ; with the cavities themselves changed it does not. -/
theorem C73_end_refuted : C52.blockAnswer.map (·.2) = some [([97], [(1, 2), (4, 6)])] ∧
    verify id (runTool [C52.blockF] 30 0 [] (fun _ => 0) 0) (runTool [C52.blockF] 30 0 [] (fun _ => 0) 0
      [1, 2, 3, 4, 5, 6]) [97] (printCavities [([97], [(1, 2), (4, 6)])]) methodFlip (-1) 0 [1, 2, 3, 4, 5, 6] =
      some .differ ∧
    verify id (runTool [C52.blockF] 30 0 [] (fun _ => 0) 0) (runTool [C52.blockF] 30 0 [] (fun _ => 0) 0
      [1, 2, 3, 4, 5, 6]) [97] (printCavities [([97], [(1, 1), (4, 5)])]) methodFlip (-1) 0 [1, 2, 3, 4, 5, 6] =
      some .ok := by
  refine ⟨block_cavities, ?_, ?_⟩ <;> decide +kernel

/-- C73 is false of files for which the detection failed: with failure `k` (2: timeout of the computation of the
cavities, 3: error of the program, 4: error of the computation) the byte at distance `k` from the end is changed. With
failure 1 nothing is changed, but it is reported as a change without effect. -/
theorem C73_failed_refuted (name : Text) (hn : (∀ c ∈ name, c ≠ 44 ∧ c ≠ 10 ∧ c ≠ 13) ∧ name.head? ≠ some 34)
    (m : Data → Data) (data : Data) :
    (∀ k, 2 ≤ k → k ≤ data.length → mutateCavities name (detection name (.failed k)) m (-1) 0 data =
      some (some (data.take (data.length - k) ++ m ((data.drop (data.length - k)).take 1) ++
        data.drop (data.length - k + 1)))) ∧
    (m [] = [] → data ≠ [] → mutateCavities name (detection name (.failed 1)) m (-1) 0 data = some (some data)) := by
  have hp : Plain name := ⟨hn.1, hn.2⟩
  have hit : ∀ k, iterCavities name (detection name (.failed k)) = some [(-(k : Int), -(k : Int))] := by
    intro k
    have hno : 13 ∉ detection name (.failed k) := by
      intro h
      simp only [detection, List.mem_append, List.mem_cons, List.not_mem_nil, or_false] at h
      rcases h with ((((h | h) | h) | h) | h) | h
      · exact (hp.inner _ h).2.2 rfl
      · omega
      · have := dec_digit h; omega
      · omega
      · have := dec_digit h; omega
      · omega
    have e : detection name (.failed k) = name ++ 44 :: ((45 :: dec k) ++ 44 :: ((45 :: dec k) ++ 10 :: [])) := by
      simp [detection]
    have hi : ∀ c ∈ 45 :: dec k, Inner c := by
      intro c hc
      rcases List.mem_cons.1 hc with rfl | hc
      · exact ⟨by omega, by omega⟩
      · exact dec_inner k c hc
    unfold iterCavities
    rw [universal_same hno, e, csv_first hp.csv hp.head, csv_field hi (by simp), csv_last hi (by simp)]
    simp [csvRows, Csv.init, iterRows, pyInt_neg]
  refine ⟨fun k hk hl => ?_, fun hm hne => ?_⟩
  · unfold mutateCavities
    rw [hit]
    simp only [Option.map_some, mutateLoop]
    simp only [lt_irrefl, Nat.cast_zero, if_false, true_or, if_true, Nat.zero_add, Nat.one_ne_zero]
    have c1 : clamp data.length (-(k : Int)) = data.length - k := by
      unfold clamp; rw [if_pos (by omega)]; omega
    have c2 : clamp data.length (-(k : Int) + 1) = data.length - k + 1 := by
      unfold clamp; rw [if_pos (by omega)]; omega
    simp only [setSlice, getSlice, c1, c2, Nat.add_sub_cancel_left]
    rw [Nat.max_eq_right (by omega)]
  · unfold mutateCavities
    rw [hit]
    simp only [Option.map_some, mutateLoop]
    simp only [lt_irrefl, Nat.cast_zero, if_false, true_or, if_true, Nat.zero_add, Nat.one_ne_zero]
    have hl : 0 < data.length := List.length_pos_iff.2 hne
    have c1 : clamp data.length (-((1 : Nat) : Int)) = data.length - 1 := by
      unfold clamp; rw [if_pos (by omega)]; omega
    have c2 : clamp data.length (-((1 : Nat) : Int) + 1) = 0 := by
      simp [clamp]
    simp only [setSlice, getSlice, c1, c2]
    simp [hm]

/-- The last but one byte of a file. -/
example : mutateCavities [97] (detection [97] (.failed 2)) methodFlip (-1) 0 [1, 2, 3, 4] = some (some [1, 2, 252, 4]) := by
  decide +kernel

/-! ### Single bytes -/

theorem doMutation_none {β : Type} [DecidableEq β] {H : Data → β} {tool : Data → Option Data} {want : β} {buf : Data} :
    ∀ {os : List Int} {c : Stats}, (∃ o ∈ os, writeMutated buf o = none ∨
      ∃ w b, writeMutated buf o = some (w, b) ∧ tool w = none) → doMutation H tool want os buf c = none := by
  intro os
  induction os with
  | nil => intro c h; simp at h
  | cons o os ih =>
    intro c h
    unfold doMutation
    cases hw : writeMutated buf o with
    | none => rfl
    | some p =>
      obtain ⟨w, b⟩ := p
      dsimp only
      have hb : b = buf := by
        unfold writeMutated at hw
        split at hw
        · simp at hw
        · rename_i hx
          have hlt : o.toNat < buf.length := by omega
          simp [hlt] at hw
          exact hw.2.symm
      cases ht : tool w with
      | none => rfl
      | some out =>
        dsimp only
        rw [hb]
        apply ih
        obtain ⟨o', ho', h⟩ := h
        rcases List.mem_cons.1 ho' with rfl | ho'
        · rcases h with h | ⟨w', b', h1, h2⟩
          · rw [hw] at h; simp at h
          · rw [hw] at h1
            cases h1
            rw [ht] at h2
            simp at h2
        · exact ⟨o', ho', h⟩

theorem offsets_mem {name db : Text} {qs : List (Nat × Nat)}
    (hq : iterCavities name db = some (qs.map fun r => ((r.1 : Int), (r.2 : Int)))) :
    ∃ os, cavityOffsets name db = some os ∧ os.Nodup ∧
      ∀ x, x ∈ os ↔ ∃ o : Nat, x = (o : Int) ∧ ∃ q ∈ qs, q.1 ≤ o ∧ o ≤ q.2 := by
  unfold cavityOffsets
  rw [hq]
  refine ⟨_, rfl, List.nodup_dedup _, ?_⟩
  intro x
  rw [List.mem_dedup, List.mem_flatMap]
  constructor
  · rintro ⟨r, hr, hx⟩
    obtain ⟨q, hq, rfl⟩ := List.mem_map.1 hr
    obtain ⟨k, hk, rfl⟩ := List.mem_map.1 hx
    rw [List.mem_range] at hk
    exact ⟨q.1 + k, by simp, q, hq, by omega, by simp only at hk; omega⟩
  · rintro ⟨o, rfl, q, hq, h1, h2⟩
    refine ⟨_, List.mem_map.2 ⟨q, hq, rfl⟩, List.mem_map.2 ⟨o - q.1, ?_, ?_⟩⟩
    · rw [List.mem_range]; simp only; omega
    · simp only; omega

theorem offsets_any {os : List Int} (h : ∀ x ∈ os, 0 ≤ x) :
    (if os.any (fun x => 0 ≤ x) then os else []) = os := by
  cases os with
  | nil => rfl
  | cons x xs => rw [if_pos]; simp [h x (by simp)]

/-- C73 (single bytes): if the program leaves an output for every file with one byte of a range changed and all ranges
lie in the file, every byte of every range (its last one included) is tried once, in the file that is otherwise
unchanged, and it is counted how often the checksum of the output is that of the original. -/
theorem C73_single_partial (name db : Text) (data : Data) (qs : List (Nat × Nat))
    (hq : iterCavities name db = some (qs.map fun r => ((r.1 : Int), (r.2 : Int))))
    (hin : ∀ q ∈ qs, q.2 < data.length) {β : Type} [DecidableEq β] (H : Data → β) (tool : Data → Option Data)
    (out : Data) (hout : tool data = some out) (res : Nat → Data)
    (hres : ∀ (o : Nat) (x : Fin 256), data[o]? = some x → tool (data.set o (255 - x)) = some (res o)) :
    ∃ os : List Nat, os.Nodup ∧ (∀ o, o ∈ os ↔ ∃ q ∈ qs, q.1 ≤ o ∧ o ≤ q.2) ∧
      singleByte H tool name db data = some (some ⟨os.length, (os.filter fun o => H (res o) = H out).length,
        (os.filter fun o => H (res o) ≠ H out).length⟩) := by
  obtain ⟨xs, hxs, hnd, hmem⟩ := offsets_mem hq
  obtain ⟨os, rfl⟩ : ∃ os : List Nat, xs = os.map fun o : Nat => (o : Int) := by
    refine ⟨xs.map Int.toNat, ?_⟩
    rw [List.map_map]
    conv_lhs => rw [← List.map_id xs]
    apply List.map_congr_left
    intro x hx
    obtain ⟨o, rfl, -⟩ := (hmem x).1 hx
    simp
  have hmem' : ∀ o, o ∈ os ↔ ∃ q ∈ qs, q.1 ≤ o ∧ o ≤ q.2 := by
    intro o
    have := hmem (o : Int)
    rw [List.mem_map] at this
    constructor
    · intro h
      obtain ⟨o', h1, h2⟩ := this.1 ⟨o, h, rfl⟩
      have : o' = o := by omega
      exact this ▸ h2
    · intro h
      obtain ⟨o', h1, h2⟩ := this.2 ⟨o, rfl, h⟩
      have : o' = o := by omega
      exact this ▸ h1
  refine ⟨os, List.Nodup.of_map _ hnd, hmem', ?_⟩
  have hlt : ∀ o ∈ os, o < data.length := by
    intro o ho
    obtain ⟨q, hq, -, h⟩ := (hmem' o).1 ho
    have := hin q hq
    omega
  unfold singleByte
  rw [hout]
  dsimp only
  rw [hxs]
  dsimp only
  rw [offsets_any (fun x hx => by obtain ⟨o, rfl, -⟩ := (hmem x).1 hx; omega)]
  clear hmem hmem' hnd hxs hq hin
  have : ∀ c : Stats, doMutation H tool (H out) (os.map fun o : Nat => (o : Int)) data c =
      some (⟨c.count + os.length, c.eq + (os.filter fun o => H (res o) = H out).length,
        c.diff + (os.filter fun o => H (res o) ≠ H out).length⟩, data) := by
    induction os with
    | nil => intro c; rfl
    | cons o os ih =>
      intro c
      have ho := hlt o (by simp)
      rw [List.map_cons, doMutation, writeMutated_some ho]
      dsimp only
      have hr := hres o data[o] (List.getElem?_eq_getElem ho)
      unfold flipByte
      rw [hr]
      dsimp only
      rw [ih (fun o ho => hlt o (by simp [ho]))]
      by_cases h : H (res o) = H out
      · simp [h]; omega
      · simp [h]; omega
  rw [this]
  simp

/-- The example of C52: bytes 1 and 2 and 4 and 5 are tried (`[5, 5]` is not what is printed for `[5, 6)`); one of
them, byte 2, is no byte of a cavity. -/
example : singleByte id (runTool [C52.blockF] 30 0 [] (fun _ => 0) 0) [97] (printCavities [([97], [(1, 2), (4, 5)])])
    [1, 2, 3, 4, 5, 6] = some (some ⟨4, 3, 1⟩) := by
  decide +kernel

/-- C73 is false of files with a cavity at the end: the offset after the last byte is tried too, which raises an
exception and ends the verification of the file without results. -/
theorem C73_eof_refuted (name db : Text) (data : Data) (qs : List (Nat × Nat))
    (hq : iterCavities name db = some (qs.map fun r => ((r.1 : Int), (r.2 : Int)))) (q : Nat × Nat) (hmem : q ∈ qs)
    (hle : q.1 ≤ q.2) (hend : data.length ≤ q.2) {β : Type} [DecidableEq β] (H : Data → β) (tool : Data → Option Data)
    (out : Data) (hout : tool data = some out) : singleByte H tool name db data = none := by
  obtain ⟨xs, hxs, -, hm⟩ := offsets_mem hq
  unfold singleByte
  rw [hout]
  dsimp only
  rw [hxs]
  dsimp only
  rw [offsets_any (fun x hx => by obtain ⟨o, rfl, -⟩ := (hm x).1 hx; omega), Option.map_eq_none_iff]
  exact doMutation_none ⟨(q.2 : Int), (hm _).2 ⟨q.2, rfl, q, hmem, hle, Nat.le_refl _⟩,
    Or.inl (writeMutated_none (Or.inr (by omega)))⟩

/-- The cavities of the second example of C52. -/
example : singleByte id (runTool [C52.blockF] 30 0 [] (fun _ => 0) 0) [97] (printCavities [([97], [(1, 2), (4, 6)])])
    [1, 2, 3, 4, 5, 6] = none := by
  decide +kernel

/-- C73 is false of programs that leave no output for a changed file: this is counted, and then deleting the output that
is not there raises an exception. -/
theorem C73_no_output_refuted (name db : Text) (data : Data) (qs : List (Nat × Nat))
    (hq : iterCavities name db = some (qs.map fun r => ((r.1 : Int), (r.2 : Int)))) (q : Nat × Nat) (hmem : q ∈ qs)
    (o : Nat) (h1 : q.1 ≤ o) (h2 : o ≤ q.2) (x : Fin 256) (hx : data[o]? = some x) {β : Type} [DecidableEq β]
    (H : Data → β) (tool : Data → Option Data) (out : Data) (hout : tool data = some out)
    (hno : tool (data.set o (255 - x)) = none) : singleByte H tool name db data = none := by
  obtain ⟨xs, hxs, -, hm⟩ := offsets_mem hq
  unfold singleByte
  rw [hout]
  dsimp only
  rw [hxs]
  dsimp only
  rw [offsets_any (fun x hx => by obtain ⟨o, rfl, -⟩ := (hm x).1 hx; omega), Option.map_eq_none_iff]
  obtain ⟨hlt, rfl⟩ := List.getElem?_eq_some_iff.1 hx
  exact doMutation_none ⟨(o : Int), (hm _).2 ⟨o, rfl, q, hmem, h1, h2⟩, Or.inr ⟨_, _, writeMutated_some hlt, hno⟩⟩

/-- A program that leaves no output when byte 1 is changed. -/
example : singleByte id (fun d : Data => if d[1]? = some 2 then some d else none) [97] (printCavities [([97], [(0, 1)])])
    [1, 2, 3] = none := by
  decide +kernel

end C73
end Verif
