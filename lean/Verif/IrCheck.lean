import Verif.Spec.Ir
/- Helper definitions: a checker for valid programs, used for the examples. -/
namespace Verif
namespace Ir

def Func.nexts (F : Func) (p : Pt) : List Pt :=
  match F.blocks[p.1]? with
  | none => []
  | some B =>
    if p.2 ≤ B.body.length then [(p.1, p.2 + 1)]
    else if p.2 = B.body.length + 1 then B.succs.map (fun t => (t, 0)) else []

theorem Func.Edge.nexts {F : Func} {p q : Pt} (h : F.Edge p q) : q ∈ F.nexts p := by
  cases h with
  | seq hB hk => simp [Func.nexts, hB, hk]
  | jump hB ht =>
    simp only [Func.nexts, hB]
    rw [if_neg (by omega), if_pos trivial]
    exact List.mem_map.2 ⟨_, ht, rfl⟩

/-- The places reached from the entry without going on at `d`. -/
def Func.avoids (F : Func) (d : Pt) : Nat → List Pt → List Pt
  | 0, S => S
  | n + 1, S =>
    F.avoids d n ((S.flatMap (fun p => if p = d then [] else F.nexts p)).foldl
      (fun S q => if q ∈ S then S else q :: S) S)

def Func.size (F : Func) : Nat := (F.blocks.map (fun B => B.body.length + 2)).sum

def Func.availB (F : Func) (d p : Pt) : Bool :=
  let S := F.avoids d F.size [(0, 0)]
  decide ((0, 0) ∈ S) && S.all (fun x => x == d || (F.nexts x).all (fun q => decide (q ∈ S))) &&
    decide (p ∉ S)

theorem Func.availB_avail {F : Func} {d p : Pt} (h : F.availB d p = true) : F.Avail d p := by
  unfold availB at h
  generalize F.avoids d F.size [(0, 0)] = S at h
  simp only [Bool.and_eq_true, decide_eq_true_eq, List.all_eq_true, Bool.or_eq_true, beq_iff_eq] at h
  obtain ⟨⟨h0, hc⟩, hp⟩ := h
  intro ha
  apply hp
  clear hp
  induction ha with
  | entry => exact h0
  | step _ hne he ih =>
    rcases hc _ ih with h1 | h1
    · exact absurd h1 hne
    · exact h1 _ he.nexts

def Func.usableB (F : Func) (p : Pt) : Opd → Bool
  | .const _ => true
  | .arg i => decide (i < F.nparams)
  | .reg r =>
    (match r with
      | .phi b k => match F.blocks[b]? with
        | some B => decide (k < B.phis.length)
        | none => false
      | .ins b j => match F.blocks[b]? with
        | some B => decide (j < B.body.length)
        | none => false) && F.availB r.pt p

theorem Func.usableB_usable {F : Func} {p : Pt} {o : Opd} (h : F.usableB p o = true) : F.Usable p o := by
  cases o with
  | const v => trivial
  | arg i =>
    have h : i < F.nparams := by simpa [usableB] using h
    exact h
  | reg r =>
    simp only [usableB, Bool.and_eq_true] at h
    refine ⟨?_, availB_avail h.2⟩
    have h1 := h.1
    cases r with
    | phi b k =>
      simp only at h1
      split at h1
      · rename_i B hB
        exact ⟨B, hB, by simpa using h1⟩
      · cases h1
    | ins b j =>
      simp only at h1
      split at h1
      · rename_i B hB
        exact ⟨B, hB, by simpa using h1⟩
      · cases h1

/-- The checker. -/
def Func.check (F : Func) : Bool :=
  (match F.blocks[0]? with
    | some B => B.phis.isEmpty
    | none => false) &&
  F.blocks.zipIdx.all (fun (B, b) =>
    B.succs.all (fun t => decide (t < F.blocks.length)) &&
    B.body.zipIdx.all (fun (I, j) => I.opds.all (F.usableB (b, j + 1))) &&
    B.term.opds.all (F.usableB (b, B.body.length + 1)) &&
    B.succs.all (fun t => match F.blocks[t]? with
      | some T => T.phis.all (fun inc => match inc.lookup b with
        | some o => F.usableB (b, B.body.length + 1) o
        | none => true)
      | none => true))

theorem Func.check_valid {F : Func} (h : F.check = true) : F.Valid ∧ F.blocks ≠ [] := by
  simp only [check, Bool.and_eq_true] at h
  obtain ⟨h0, h⟩ := h
  have hb : ∀ (b : Nat) (B : Block), F.blocks[b]? = some B → _ := fun b B hB =>
    List.all_eq_true.1 h (B, b) (List.mk_mem_zipIdx_iff_getElem?.2 hB)
  simp only [Bool.and_eq_true] at hb
  refine ⟨⟨?_, ?_, ?_, ?_, ?_⟩, ?_⟩
  · intro b B t hB ht
    have := List.all_eq_true.1 (hb b B hB).1.1.1 t ht
    simpa using this
  · intro B hB
    rw [hB] at h0
    simpa using h0
  · intro b B j I hB hI _ o ho
    have := List.all_eq_true.1 (hb b B hB).1.1.2 (I, j) (List.mk_mem_zipIdx_iff_getElem?.2 hI)
    exact usableB_usable (List.all_eq_true.1 this o ho)
  · intro b B hB _ o ho
    exact usableB_usable (List.all_eq_true.1 (hb b B hB).1.2 o ho)
  · intro b B t T inc o hB ht hT _ hinc ho
    have := List.all_eq_true.1 (hb b B hB).2 t ht
    simp only [hT] at this
    have := List.all_eq_true.1 this inc hinc
    simp only [ho] at this
    exact usableB_usable this
  · intro e
    rw [e] at h0
    simp at h0

end Ir
end Verif
