import Verif.Props.C47
/-
C46: labels of arguments are passed to the called function through thread-local storage: the first 200
arrive exactly, all others are lost.
-/
namespace Verif
namespace C46
open Ir PassIr Spec Labels DfsanMem

/-- C46 (arguments): let `F` call `G` with any number of arguments. After the code inserted before the
call, whatever was in the TLS area before, parameter `i` of `G` has in `G` exactly the label that the
argument has in `F`, if it is one of the first 200; and label 0 otherwise. Neither depends on what the
pass knows in the two functions (`st`, `st'`). -/
theorem C46_arguments (F G : Func) (st st' : PSt) (avoid : Bool) (fr : IFrame) (g : IGlob) (fn : Nat)
    (os : List Opd) (hn : G.nparams = os.length) :
    ∃ g', sexecs avoid (argStores F st 0 os) fr g = .ok (fr, g') ∧
      (g'.mem = g.mem ∧ g'.L = g.L ∧ g'.out = g.out ∧ g'.sp = g.sp) ∧
      ∀ i o, os[i]? = some o →
        (newIFrame G fn (os.map fr.get) g').get (.arg i) = fr.get o ∧
        (newIFrame G fn (os.map fr.get) g').lab (st'.getShadow G (.arg i)) =
          if i < 200 then fr.lab (st.getShadow F o) else 0 := by
  obtain ⟨tls, h1, h2, -⟩ := argStores_run avoid F st fr os 0 g
  refine ⟨_, h1, ⟨rfl, rfl, rfl, rfl⟩, ?_⟩
  intro i o ho
  obtain ⟨hi, -⟩ := List.getElem?_eq_some_iff.1 ho
  refine ⟨?_, ?_⟩
  · simp [IFrame.get, newIFrame, ho]
  · have e : st'.getShadow G (.arg i) =
        if i < G.nparams ∧ 0 + 4 * i + 4 ≤ argTLSSize then .arg i else .zero := by
      simp only [PSt.getShadow, argOffset_eq]
      split <;> rfl
    rw [e]
    by_cases c : i < 200
    · have hc : i < G.nparams ∧ 0 + 4 * i + 4 ≤ argTLSSize := ⟨by omega, by unfold argTLSSize; omega⟩
      rw [if_pos hc, if_pos c, ← h2 i o ho hc.2]
      simp only [IFrame.lab, newIFrame, argOffset_eq]
      rw [if_pos hc]
    · have hc : ¬ (i < G.nparams ∧ 0 + 4 * i + 4 ≤ argTLSSize) := fun h => by
        have := h.2
        unfold argTLSSize at this
        omega
      rw [if_neg hc, if_neg c]
      rfl

/-- The hypotheses are met by a call with two arguments. -/
example : C47.twice.nparams = [Opd.reg (.ins 0 3), .reg (.ins 0 2)].length := rfl

/-! ### 201 arguments -/

/-- Returns its last parameter. -/
def lastF (n : Nat) : Func where
  nparams := n
  void := false
  blocks := [⟨[], [], .ret (some (.arg (n - 1)))⟩]

/-- Reads a byte, passes it as all of `n` arguments to `lastF n` and outputs the result. -/
def callF (n : Nat) : Func where
  nparams := 0
  void := false
  blocks := [⟨[], [.getc, .call false (.const 1) (List.replicate n (.reg (.ins 0 0))),
    .putc (.reg (.ins 0 1))], .ret (some (.const 0))⟩]

/-- What the instrumented program outputs. -/
def output (n : Nat) : Option (List (Nat × Nat)) :=
  match irun C47.dom0 [callF n, lastF n] (.file [65]) 0 10
    (istart (callF n) 0 [] (fun _ => 0) 0x7fff00000000 (Labels.init 100)) with
  | .ok (.done _ _ g) => some g.out
  | _ => none

set_option maxRecDepth 10000 in
/-- C46 (refuted from the 201st argument): the byte read arrives as 200th argument with its label, and as
201st with label 0, although the reference semantics taints it. -/
theorem C46_lost_refuted : output 200 = some [(65, 1)] ∧ output 201 = some [(65, 0)] ∧
    ∃ v g, run (sets 0) [callF 201, lastF 201] (.file [65]) 10
      (start (sets 0) 0 [] (fun _ => 0) 0x7fff00000000) = .done v g ∧
      ∃ x, g.out = [x] ∧ x.1 = 65 ∧ ∀ b, x.2 b ↔ b = (0, 0) := by
  refine ⟨by decide +kernel, by decide +kernel, _, _, rfl, _, rfl, rfl, fun b => Iff.rfl⟩

end C46
end Verif
