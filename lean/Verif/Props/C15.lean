import Verif.SectionLemmas
import Verif.Spec.Bump
/- C15: entries in a section never overlap or escape it. -/
namespace Verif
open Spec Section

namespace Section

/-- Performing a sequence of reservations; the answers as (offset, length). -/
def serve (S : Section) : List Nat → List (Option (Nat × Nat))
  | [] => []
  | n :: ns =>
    match S.write n with
    | none => none :: S.serve ns
    | some (S', off) => some (off, n) :: S'.serve ns

/-- Storing a sequence of byte strings, skipping those that do not fit. -/
def fill (S : Section) : List (List Nat) → Section
  | [] => S
  | bs :: rest =>
    match S.append bs with
    | none => S.fill rest
    | some (S', _) => S'.fill rest

end Section

/-- Every sequence of requests (each a 64-bit size) to a section at any address is answered as by
the specification: in order, back to back, refusing exactly what does not fit. -/
theorem C15_refines (base avail : Nat) (h : base + avail < 2 ^ 64) (ns : List Nat)
    (hn : ∀ n ∈ ns, n < 2 ^ 64) : (new base avail).serve ns = grants avail 0 ns := by
  suffices ∀ (S : Section), S.Ok → S.serve ns = grants S.mem.length S.pos ns by
    have := this _ (new_ok h)
    simpa [new] using this
  induction ns with
  | nil => intro S _; rfl
  | cons n ns ih =>
    intro S hS
    have hn' : ∀ m ∈ ns, m < 2 ^ 64 := fun m hm => hn m (by simp [hm])
    simp only [serve, grants, write_eq hS (hn n (by simp))]
    by_cases hfit : S.pos + n ≤ S.mem.length
    · simp only [hfit, if_true]
      rw [ih hn' { S with pos := S.pos + n } ⟨hS.addr, hfit⟩]
    · simp only [hfit, if_false]
      rw [ih hn' _ hS]

theorem grants_ge {avail : Nat} : ∀ (ns : List Nat) {used j o l : Nat},
    (grants avail used ns)[j]? = some (some (o, l)) → used ≤ o ∧ o + l ≤ avail := by
  intro ns
  induction ns with
  | nil => intro used j o l h; simp [grants] at h
  | cons n ns ih =>
    intro used j o l h
    unfold grants at h
    split at h
    · cases j with
      | zero => simp only [List.getElem?_cons_zero, Option.some.injEq, Prod.mk.injEq] at h; omega
      | succ j => have := ih (by simpa using h); omega
    · cases j with
      | zero => simp at h
      | succ j => exact ih (by simpa using h)

/-- Granted intervals lie inside the section, and a later one starts at or after the end of every
earlier one; so they are mutually disjoint. -/
theorem C15_disjoint (base avail : Nat) (h : base + avail < 2 ^ 64) (ns : List Nat)
    (hn : ∀ n ∈ ns, n < 2 ^ 64) (i j o l o' l' : Nat) (hij : i < j)
    (hi : ((new base avail).serve ns)[i]? = some (some (o, l)))
    (hj : ((new base avail).serve ns)[j]? = some (some (o', l'))) :
    o + l ≤ o' ∧ o' + l' ≤ avail := by
  rw [C15_refines base avail h ns hn] at hi hj
  clear hn h
  generalize 0 = used at hi hj
  induction ns generalizing used i j with
  | nil => simp [grants] at hi
  | cons n ns ih =>
    unfold grants at hi hj
    obtain ⟨j, rfl⟩ : ∃ k, j = k + 1 := ⟨j - 1, by omega⟩
    split at hi
    · rename_i hfit
      rw [if_pos hfit] at hj
      cases i with
      | zero =>
        simp only [List.getElem?_cons_zero, Option.some.injEq, Prod.mk.injEq] at hi
        have := grants_ge ns (by simpa using hj : (grants avail (used + n) ns)[j]? = _)
        omega
      | succ i => exact ih i j (by omega) _ (by simpa using hi) (by simpa using hj)
    · rename_i hfit
      rw [if_neg hfit] at hj
      cases i with
      | zero => simp at hi
      | succ i => exact ih i j (by omega) _ (by simpa using hi) (by simpa using hj)

/-- No space is skipped: each granted interval starts where the granted ones before it end. -/
theorem C15_back_to_back (base avail : Nat) (h : base + avail < 2 ^ 64) (ns : List Nat)
    (hn : ∀ n ∈ ns, n < 2 ^ 64) (j o l : Nat)
    (hj : ((new base avail).serve ns)[j]? = some (some (o, l))) :
    o = ((((new base avail).serve ns).take j).filterMap id).foldl (fun s g => s + g.2) 0 := by
  rw [C15_refines base avail h ns hn] at hj ⊢
  clear hn h
  generalize hu : 0 = used at hj ⊢
  clear hu
  induction ns generalizing used j with
  | nil => simp [grants] at hj
  | cons n ns ih =>
    unfold grants at hj ⊢
    split at hj
    · rename_i hfit
      rw [if_pos hfit]
      cases j with
      | zero => simp at hj; simp [hj]
      | succ j => simpa using ih j _ (by simpa using hj)
    · rename_i hfit
      rw [if_neg hfit]
      cases j with
      | zero => simp at hj
      | succ j => simpa using ih j _ (by simpa using hj)

/-- What the section should contain after a sequence of store requests. -/
def kept (avail : Nat) : List Nat → List (List Nat) → List Nat
  | acc, [] => acc
  | acc, bs :: rest => if acc.length + bs.length ≤ avail then kept avail (acc ++ bs) rest
      else kept avail acc rest

/-- After any sequence of stores, the used part of the section holds exactly the accepted data, in
order and unaltered, and the rest of the section is still zero. -/
theorem C15_contents (base avail : Nat) (h : base + avail < 2 ^ 64) (reqs : List (List Nat))
    (hr : ∀ bs ∈ reqs, bs.length < 2 ^ 64) :
    let S := (new base avail).fill reqs
    S.size = (kept avail [] reqs).length ∧ S.mem.take S.size = kept avail [] reqs ∧
      (∀ i, S.size ≤ i → i < avail → S.mem[i]? = some 0) ∧ S.mem.length = avail := by
  suffices ∀ (S : Section), S.Ok → S.mem.length = avail →
      (∀ i, S.pos ≤ i → i < avail → S.mem[i]? = some 0) →
      (S.fill reqs).pos = (kept avail (S.mem.take S.pos) reqs).length ∧
      (S.fill reqs).mem.take (S.fill reqs).pos = kept avail (S.mem.take S.pos) reqs ∧
      (∀ i, (S.fill reqs).pos ≤ i → i < avail → (S.fill reqs).mem[i]? = some 0) ∧
      (S.fill reqs).mem.length = avail by
    have := this _ (new_ok h) (by simp [new]) (by simp [new, List.getElem?_replicate])
    simpa [new, size] using this
  induction reqs with
  | nil =>
    intro S hS hl hz
    refine ⟨?_, rfl, hz, hl⟩
    simp only [fill, kept, List.length_take]; have := hS.pos; omega
  | cons bs rest ih =>
    intro S hS hl hz
    have ih := ih (fun b hb => hr b (by simp [hb]))
    have hb := hr bs (by simp)
    have hlt : (S.mem.take S.pos).length = S.pos := by rw [List.length_take]; have := hS.pos; omega
    simp only [fill, kept, hlt, ← hl]
    by_cases hfit : S.pos + bs.length ≤ S.mem.length
    · have happ := append_eq hS hb
      rw [if_pos hfit] at happ
      obtain ⟨k1, -, k3, -, k5, k6, k7⟩ := append_ok hS hb happ
      rw [happ, if_pos hfit]
      simp only
      rw [← k6, hl]
      refine ih _ k1 (by rw [k5, hl]) (fun i hi hia => ?_)
      have := hz i (by rw [k3] at hi; omega) hia
      rw [← this]
      have e1 := congrArg (fun l => l[i - (S.pos + bs.length)]?) k7
      simp only [List.getElem?_drop] at e1
      simp only at hi
      rw [show S.pos + bs.length + (i - (S.pos + bs.length)) = i by omega] at e1
      exact e1
    · have happ := append_eq hS hb
      rw [if_neg hfit] at happ
      rw [happ, if_neg hfit]
      simp only
      rw [hl]
      exact ih _ hS hl hz

/-- A request for entries of a fixed size: one entry, or a run of entries. -/
inductive EntryReq where
  | one (bs : List Nat)
  | many (n : Nat) (gen : Nat → List Nat)

/-- Serving entry requests: the spans handed out, as (address, number of entries). -/
def serveEntries (es : Nat) (S : Section) : List EntryReq → Res (Section × List (Nat × Nat))
  | [] => .ok (S, [])
  | .one bs :: rest =>
    match S.construct bs with
    | none => serveEntries es S rest
    | some (S', p) => do
      let (S'', out) ← serveEntries es S' rest
      return (S'', (p, 1) :: out)
  | .many n gen :: rest => do
    match ← S.constructRange es n gen with
    | none => serveEntries es S rest
    | some (S', p, k) => do
      let (S'', out) ← serveEntries es S' rest
      return (S'', (p, k) :: out)

def EntryReq.fits (es : Nat) : EntryReq → Prop
  | .one bs => bs.length = es
  | .many n gen => es * n < 2 ^ 64 ∧ ∀ k, (gen k).length = es

theorem flatMap_range_length {es : Nat} {gen : Nat → List Nat} (hg : ∀ k, (gen k).length = es)
    (n : Nat) : ((List.range n).flatMap gen).length = es * n := by
  induction n with
  | zero => simp
  | succ n ih =>
    rw [List.range_succ, List.flatMap_append, List.length_append, ih]
    simp [hg, Nat.mul_succ]

theorem constructRange_eq {S : Section} {es n : Nat} (hes : 0 < es)
    (hn : es * n < 2 ^ 64) {gen : Nat → List Nat} (hg : ∀ k, (gen k).length = es) :
    S.constructRange es n gen = .ok (match S.append ((List.range n).flatMap gen) with
      | none => none
      | some (S', off) => some (S', S.base + off, n)) := by
  unfold constructRange append
  simp only
  rw [Nat.mod_eq_of_lt hn, flatMap_range_length hg]
  cases hw : S.write (es * n) with
  | none => rfl
  | some p =>
    obtain ⟨S', off⟩ := p
    simp only
    rw [if_neg (by simp), Nat.mul_div_cancel_left n hes]

/-- The spans handed out are the consecutive runs of entry positions, inside the section; every
entry's reported index is its position and, at any later time, index and address determine each
other. -/
theorem C15_index (base avail es : Nat) (h : base + avail < 2 ^ 64) (hes : 0 < es)
    (hes64 : es < 2 ^ 64) (reqs : List EntryReq) (hr : ∀ r ∈ reqs, r.fits es) :
    ∃ S out, serveEntries es (new base avail) reqs = .ok (S, out) ∧
      S.size ≤ avail ∧ S.size = es * S.count es ∧
      (out.map (·.2)).sum = S.count es ∧
      ∀ (k p n : Nat), out[k]? = some (p, n) → ∀ e, e < n →
        let i := ((out.take k).map (·.2)).sum + e
        p + es * e = base + es * i ∧ i < S.count es ∧ S.index es (p + es * e) = .ok i := by
  suffices ∀ (S0 : Section) (c : Nat), S0.Ok → S0.mem.length = avail → S0.base = base →
      S0.pos = es * c →
      ∃ S out, serveEntries es S0 reqs = .ok (S, out) ∧ S.Ok ∧ S.mem.length = avail ∧
        S.base = base ∧ S.pos = es * (c + (out.map (·.2)).sum) ∧
        ∀ (k p n : Nat), out[k]? = some (p, n) → p = base + es * (c + ((out.take k).map (·.2)).sum) ∧
          ((out.take k).map (·.2)).sum + n ≤ (out.map (·.2)).sum by
    obtain ⟨S, out, h1, h2, h3, h4, h5, h6⟩ := this _ 0 (new_ok h) (by simp [new]) rfl rfl
    rw [Nat.zero_add] at h5
    have hc : S.count es = (out.map (·.2)).sum := by
      rw [count, size, h5, Nat.mul_div_cancel_left _ hes]
    refine ⟨S, out, h1, by have := h2.pos; rw [size]; omega, by rw [size, hc, h5], hc.symm, ?_⟩
    intro k p n hk e he
    obtain ⟨g1, g2⟩ := h6 k p n hk
    rw [Nat.zero_add] at g1
    simp only
    have hlt : ((out.take k).map (·.2)).sum + e < (out.map (·.2)).sum := by omega
    refine ⟨by rw [g1, Nat.mul_add]; omega, by rw [hc]; exact hlt, ?_⟩
    have hpos : es * (((out.take k).map (·.2)).sum + e) < S.mem.length := by
      have := h2.pos
      rw [h5] at this
      exact Nat.lt_of_lt_of_le (Nat.mul_lt_mul_of_pos_left hlt hes) this
    rw [g1, Nat.add_assoc, ← Nat.mul_add]
    simp only [index, offset, h4]
    rw [if_neg (by omega)]
    simp only [Res.bind_ok, Nat.add_sub_cancel_left]
    rw [Nat.mul_div_cancel_left _ hes]; rfl
  have base_case : ∀ (S0 : Section) (c : Nat), S0.Ok → S0.mem.length = avail → S0.base = base →
      S0.pos = es * c → ∀ (S1 : Section) (off : Nat) (bs : List Nat) (n : Nat),
      bs.length = es * n → bs.length < 2 ^ 64 → S0.append bs = some (S1, off) →
      S1.Ok ∧ S1.mem.length = avail ∧ S1.base = base ∧ S1.pos = es * (c + n) ∧
        S0.base + off = base + es * c := by
    intro S0 c k1 k2 k3 k4 S1 off bs n hbs hb ha
    obtain ⟨g1, g2, g3, g4, g5, -, -⟩ := append_ok k1 hb ha
    exact ⟨g1, by rw [g5, k2], by rw [g4, k3], by rw [g3, k4, hbs, Nat.mul_add],
      by rw [g2, k3, k4]⟩
  induction reqs with
  | nil => intro S0 c k1 k2 k3 k4; exact ⟨S0, [], rfl, k1, k2, k3, by simpa using k4, by simp⟩
  | cons r rest ih =>
    intro S0 c k1 k2 k3 k4
    have ih := ih (fun x hx => hr x (by simp [hx]))
    have hrf := hr r (by simp)
    have finish : ∀ (S1 : Section) (p n : Nat), S1.Ok → S1.mem.length = avail → S1.base = base →
        S1.pos = es * (c + n) → p = base + es * c →
        ∃ S out, (do
            let (S'', out) ← serveEntries es S1 rest
            return (S'', (p, n) :: out) : Res (Section × List (Nat × Nat))) = .ok (S, out) ∧
          S.Ok ∧ S.mem.length = avail ∧
          S.base = base ∧ S.pos = es * (c + (out.map (·.2)).sum) ∧
          ∀ (k p n : Nat), out[k]? = some (p, n) →
            p = base + es * (c + ((out.take k).map (·.2)).sum) ∧
            ((out.take k).map (·.2)).sum + n ≤ (out.map (·.2)).sum := by
      intro S1 p n m1 m2 m3 m4 m5
      obtain ⟨S, out, h1, h2, h3, h4, h5, h6⟩ := ih S1 (c + n) m1 m2 m3 m4
      refine ⟨S, (p, n) :: out, by rw [h1]; rfl, h2, h3, h4, ?_, ?_⟩
      · rw [h5]; simp [Nat.add_assoc]
      · intro k p' n' hk
        cases k with
        | zero =>
          simp only [List.getElem?_cons_zero, Option.some.injEq, Prod.mk.injEq] at hk
          obtain ⟨rfl, rfl⟩ := hk
          simp [m5]
        | succ k =>
          have := h6 k p' n' (by simpa using hk)
          simp only [List.take_succ_cons, List.map_cons, List.sum_cons]
          rw [this.1, Nat.add_assoc c n]
          exact ⟨rfl, by omega⟩
    cases r with
    | one bs =>
      simp only [EntryReq.fits] at hrf
      simp only [serveEntries, construct]
      cases ha : S0.append bs with
      | none => exact ih S0 c k1 k2 k3 k4
      | some q =>
        obtain ⟨S1, off⟩ := q
        obtain ⟨m1, m2, m3, m4, m5⟩ := base_case S0 c k1 k2 k3 k4 S1 off bs 1 (by omega) (by omega) ha
        exact finish S1 _ 1 m1 m2 m3 m4 m5
    | many n gen =>
      simp only [EntryReq.fits] at hrf
      simp only [serveEntries]
      rw [constructRange_eq hes hrf.1 hrf.2]
      have hl := flatMap_range_length hrf.2 n
      cases ha : S0.append ((List.range n).flatMap gen) with
      | none => exact ih S0 c k1 k2 k3 k4
      | some q =>
        obtain ⟨S1, off⟩ := q
        obtain ⟨m1, m2, m3, m4, m5⟩ := base_case S0 c k1 k2 k3 k4 S1 off _ n hl (by omega) ha
        exact finish S1 _ n m1 m2 m3 m4 m5

/-- Why `C15_index` asks for the byte count of a run to be below 2^64: the multiplication is
unchecked, and a run of 2^61 eight-byte entries is granted in a 16-byte section. -/
theorem C15_range_wrap_refuted :
    (new 4096 16).constructRange 8 (2 ^ 61) (fun _ => List.replicate 8 0) =
      .ok (some (new 4096 16, 4096, 2 ^ 61)) := by
  decide +kernel

/-- A pointer outside the section is never given an index. -/
theorem C15_index_outside (S : Section) (es p : Nat)
    (h : p < S.base ∨ S.base + S.mem.length ≤ p) : S.index es p = .fatal := by
  simp [index, offset, h]

example : (new 4096 16).serve [8, 9, 3, 5, 0, 1] =
    [some (0, 8), none, some (8, 3), some (11, 5), some (16, 0), none] := by decide

example : ∃ S, serveEntries 4 (new 4096 16)
      [.one [1, 2, 3, 4], .many 2 (fun k => [k, k, k, k]), .many 2 (fun _ => [0, 0, 0, 0]),
       .one [9, 9, 9, 9]] = .ok (S, [(4096, 1), (4100, 2), (4108, 1)]) ∧
    S.mem = [1, 2, 3, 4, 0, 0, 0, 0, 1, 1, 1, 1, 9, 9, 9, 9] := ⟨_, by rfl, by rfl⟩

end Verif
