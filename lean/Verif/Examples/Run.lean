import Verif.TrackerSim
/- Executable scripts of tracker calls, used to exhibit concrete runs. -/
namespace Verif
open Spec
namespace Tracker

instance (o : Option Nat) (p : Nat → Prop) [DecidablePred p] : Decidable (∀ i, o = some i → p i) :=
  match o with
  | none => .isTrue (fun _ h => by cases h)
  | some i => if h : p i then .isTrue (fun _ e => by cases e; exact h) else .isFalse (fun k => h (k i rfl))

instance (T : Tracker) (c : Call) : Decidable (T.Allowed c) := by
  cases c with
  | union l r => exact inferInstanceAs (Decidable (T.labels.Allowed (.union l r)))
  | mark l => exact inferInstanceAs (Decidable (T.labels.Allowed (.mark l)))
  | cf e => cases e <;> (unfold Allowed; infer_instance)
  | _ => unfold Allowed; infer_instance

/-- Perform calls (oldest first), checking the client contract before each; the history is returned
newest first. -/
def script : Tracker → Trace → List Call → Option (Tracker × Trace)
  | T, h, [] => some (T, h)
  | T, h, c :: cs =>
    if T.Allowed c then
      match T.exec c with
      | .ok (T', r) => script T' ((c, r) :: h) cs
      | _ => none
    else none

theorem script_runs {T₀ : Tracker} : ∀ (cs : List Call) (T : Tracker) (h : Trace) (T' : Tracker) (h' : Trace),
    Runs T₀ h T → script T h cs = some (T', h') → Runs T₀ h' T' := by
  intro cs
  induction cs with
  | nil => intro T h T' h' hr hs; cases hs; exact hr
  | cons c cs ih =>
    intro T h T' h' hr hs
    simp only [script] at hs
    split at hs
    · rename_i ha
      split at hs
      · rename_i T1 r he
        exact ih _ _ _ _ (.cons hr ha he) hs
      · cases hs
    · cases hs

/-- A whole run. -/
def run (c : Config) (base : Nat) (cs : List Call) : Option (Tracker × Trace) :=
  match init c base with
  | .ok T => script T [] cs
  | _ => none

theorem run_reach {c : Config} {base : Nat} {cs : List Call} {T : Tracker} {h : Trace}
    (hr : run c base cs = some (T, h)) : Reach c base h T := by
  simp only [run] at hr
  split at hr
  · rename_i T₀ h0
    exact ⟨T₀, h0, script_runs cs _ _ _ _ .nil hr⟩
  · cases hr

/-- History of a run. -/
def histOf (c : Config) (base : Nat) (cs : List Call) : Trace :=
  match run c base cs with
  | some (_, h) => h
  | none => []

theorem reach_of {c : Config} {base : Nat} {cs : List Call} (h : (run c base cs).isSome = true) :
    ∃ T, Reach c base (histOf c base cs) T := by
  obtain ⟨⟨T, h'⟩, hx⟩ := Option.isSome_iff_exists.1 h
  exact ⟨T, by simpa [histOf, hx] using run_reach hx⟩

/-- A small configuration. -/
def exCfg : Config :=
  { srcCap := 4, labelCap := 60, strSize := 64, sinkCap := 5, indexCap := 128, fnCap := 3, evCap := 4,
    logSize := 40 }

theorem exCfg_ok : exCfg.Ok 4096 := by
  refine ⟨?_, ?_, ?_, ?_, ?_, ?_, ?_, ?_⟩ <;> decide

/-- Two files, one of them read twice through a reused descriptor, an argument, unions, a tainted
write, functions and branches. -/
def exCalls : List Call :=
  [.openFile 3 [97, 46, 98] (some 10), .read 3 (some 1000) none 4, .openFile 4 [99] none,
   .union 1 2, .store 1000 5, .write 4 none 1000 3, .read 3 (some 1002) none 2,
   .closeFile 3, .openFile 3 [100, 100] (some 7), .read 3 (some 2000) (some 5) 2,
   .input [120] 3000 2, .cf (.enter 0), .cf (.tainted 0 5), .mark 5, .writeLabel 4 none 9 2,
   .fnEntry [102], .fnEntry [103], .fnExit 1, .fnEntry [102], .cf (.leave 0),
   .read 9 (some 5000) none 3]

theorem exReach : ∃ T, Reach exCfg 4096 (histOf exCfg 4096 exCalls) T :=
  reach_of (by decide +kernel)

end Tracker
end Verif
