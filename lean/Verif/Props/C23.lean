import Verif.CfLogLemmas
import Verif.Spec.CallLog
/- C23: the control-flow log decodes to exactly the events logged. -/
namespace Verif
open Spec Py CfLog

/-- The reader's number decoding inverts the writer's encoding, whatever follows. -/
theorem C23_varint (n : Nat) (rest : List Nat) : decodeVarint 0 0 (varint n ++ rest) = (n, rest) := by
  have := decode_varint n 0 0 rest (by simp)
  simpa using this

/-- A 32-bit number takes between one and five bytes. -/
theorem C23_five (n : Nat) (h : n < 2 ^ 32) :
    0 < (varint n).length ∧ (varint n).length ≤ 5 ∧ ∀ b ∈ varint n, b < 256 :=
  ⟨varint_pos n, varint_length (k := 4) (Nat.lt_of_lt_of_le h (by decide)), varint_byte n⟩

theorem align_none (st : List Nat) : (align none st).1 = drain st := by
  induction st with
  | nil => rfl
  | cons x st ih => simp [align, drain, ih]

theorem align_some (f : Nat) (st : List Nat) : align (some f) st = (unwinding f st, unwound f st) := by
  induction st with
  | nil => rfl
  | cons x st ih =>
    by_cases h : x = f
    · simp [align, unwinding, unwound, h]
    · simp [align, unwinding, unwound, h, ih]

/-- For every sequence of events, iterating over the logged bytes reports what the specification
`replay` says about the sequence of events itself. -/
theorem C23_iter (es : List CfEvent) : ∀ st, iter (es.flatMap encode) st = replay es st := by
  induction es with
  | nil => intro st; rw [List.flatMap_nil, iter, replay, align_none]
  | cons e es ih =>
    intro st
    cases e with
    | enter f =>
      rw [List.flatMap_cons, encode, List.cons_append, iter, C23_varint]
      simp only [if_true, ih, replay]
    | leave f =>
      rw [List.flatMap_cons, encode, List.cons_append, iter, C23_varint, align_some]
      simp only [Nat.one_ne_zero, if_false, if_true, replay]
      cases unwound f st with
      | nil => rfl
      | cons t st' => simp only [ih]
    | tainted f l =>
      rw [List.flatMap_cons, encode, List.cons_append, List.append_assoc, iter, C23_varint, align_some]
      simp only [show (2 : Nat) ≠ 0 by decide, show (2 : Nat) ≠ 1 by decide, if_false, C23_varint, ih,
        replay]

/-- The event an item stands for: its function is the innermost one of the reported stack. -/
def Py.CfItem.event : CfItem → Option CfEvent
  | .enter st => st.getLast?.map .enter
  | .leave st => st.getLast?.map .leave
  | .tainted st l => st.getLast?.map (.tainted · l)

/-- `Nested es st`: starting with the functions `st` entered (innermost first), every leave and
branch event concerns the innermost function, and at the end none is left. -/
def Nested : List CfEvent → List Nat → Prop
  | [], st => st = []
  | .enter f :: es, st => Nested es (f :: st)
  | .leave f :: es, st => ∃ st', st = f :: st' ∧ Nested es st'
  | .tainted f _ :: es, st => (∃ st', st = f :: st') ∧ Nested es st

/-- For every properly nested sequence of events the reader recovers exactly the events that were
logged: same order, same function ids, same labels, nothing added. -/
theorem C23_exact (es : List CfEvent) (h : Nested es []) :
    (iter (es.flatMap encode) []).2 = false ∧
    (iter (es.flatMap encode) []).1.map CfItem.event = es.map some := by
  rw [C23_iter]
  suffices ∀ st, Nested es st → (replay es st).2 = false ∧
      (replay es st).1.map CfItem.event = es.map some from this [] h
  clear h
  induction es with
  | nil => intro st h; simp only [Nested] at h; subst h; simp [replay, drain]
  | cons e es ih =>
    intro st h
    cases e with
    | enter f =>
      obtain ⟨h1, h2⟩ := ih _ h
      simp [replay, h1, h2, CfItem.event]
    | leave f =>
      obtain ⟨st', rfl, h⟩ := h
      obtain ⟨h1, h2⟩ := ih _ h
      simp [replay, h1, h2, CfItem.event, unwound, unwinding]
    | tainted f l =>
      obtain ⟨⟨st', rfl⟩, h⟩ := h
      obtain ⟨h1, h2⟩ := ih _ h
      simp [replay, h1, h2, CfItem.event, unwound, unwinding]

/-- Different event sequences produce different logs: nothing is lost in the bytes themselves, also
for sequences that are not properly nested. -/
theorem C23_injective (es : List CfEvent) : ∀ es' : List CfEvent,
    es.flatMap encode = es'.flatMap encode → es = es' := by
  have hne : ∀ e : CfEvent, ∃ b r, encode e = b :: r := by intro e; cases e <;> exact ⟨_, _, rfl⟩
  induction es with
  | nil =>
    intro es' h
    cases es' with
    | nil => rfl
    | cons e es' => obtain ⟨b, r, hb⟩ := hne e; simp [hb] at h
  | cons e es ih =>
    intro es' h
    cases es' with
    | nil => obtain ⟨b, r, hb⟩ := hne e; simp [hb] at h
    | cons e' es' =>
      have key : ∀ (f f' : Nat) (r r' : List Nat), varint f ++ r = varint f' ++ r' → f = f' ∧ r = r' := by
        intro f f' r r' h
        have h1 := C23_varint f r
        rw [h, C23_varint] at h1
        exact ⟨(Prod.ext_iff.1 h1).1.symm, (Prod.ext_iff.1 h1).2.symm⟩
      cases e with
      | enter f => cases e' with
        | enter f' =>
          simp only [List.flatMap_cons, encode, List.cons_append, List.cons.injEq, true_and] at h
          obtain ⟨rfl, h1⟩ := key _ _ _ _ h
          rw [ih _ h1]
        | leave f' => simp [encode] at h
        | tainted f' l' => simp [encode] at h
      | leave f => cases e' with
        | enter f' => simp [encode] at h
        | leave f' =>
          simp only [List.flatMap_cons, encode, List.cons_append, List.cons.injEq, true_and] at h
          obtain ⟨rfl, h1⟩ := key _ _ _ _ h
          rw [ih _ h1]
        | tainted f' l' => simp [encode] at h
      | tainted f l => cases e' with
        | enter f' => simp [encode] at h
        | leave f' => simp [encode] at h
        | tainted f' l' =>
          simp only [List.flatMap_cons, encode, List.cons_append, List.cons.injEq, true_and,
            List.append_assoc] at h
          obtain ⟨rfl, h1⟩ := key _ _ _ _ h
          obtain ⟨rfl, h2⟩ := key _ _ _ _ h1
          rw [ih _ h2]

/-- The writer: as long as the events fit, the used part of the section holds exactly their
encodings; when the section is full the program ends. -/
theorem C23_written (base size : Nat) (hb : base + size < 2 ^ 64) (es : List CfEvent)
    (hf : ∀ e ∈ es, e.fits) :
    ((es.flatMap encode).length ≤ size ∧ ∃ S, logAll (Section.new base size) es = .ok S ∧
      S.size = (es.flatMap encode).length ∧ S.mem.take S.size = es.flatMap encode) ∨
    (size < (es.flatMap encode).length ∧ logAll (Section.new base size) es = .fatal) := by
  suffices ∀ (S : Section), S.Ok →
      (S.pos + (es.flatMap encode).length ≤ S.mem.length ∧ ∃ S', logAll S es = .ok S' ∧
        S'.pos = S.pos + (es.flatMap encode).length ∧
        S'.mem.take S'.pos = S.mem.take S.pos ++ es.flatMap encode) ∨
      (S.mem.length < S.pos + (es.flatMap encode).length ∧ logAll S es = .fatal) by
    have := this _ (Section.new_ok hb)
    simpa [Section.new, Section.size] using this
  induction es with
  | nil =>
    intro S hS
    left; exact ⟨by simpa using hS.pos, S, rfl, by simp, by simp⟩
  | cons e es ih =>
    intro S hS
    have hfe := hf e (by simp)
    have hlen := encode_length e hfe
    have ha := Section.append_eq hS (bs := encode e) (by omega)
    rw [List.flatMap_cons, List.length_append]
    by_cases hfit : S.pos + (encode e).length ≤ S.mem.length
    · rw [if_pos hfit] at ha
      obtain ⟨k1, -, k3, -, k5, k6, -⟩ := Section.append_ok hS (by omega) ha
      rcases ih (fun e he => hf e (by simp [he])) _ k1 with ⟨g1, S', g2, g3, g4⟩ | ⟨g1, g2⟩
      · left
        refine ⟨by omega, S', ?_, by omega, ?_⟩
        · simp only [logAll, log, ha, Res.bind_ok, g2]
        · rw [g4, k6, List.append_assoc]
      · right
        refine ⟨by omega, ?_⟩
        simp only [logAll, log, ha, Res.bind_ok, g2]
    · rw [if_neg hfit] at ha
      right
      refine ⟨by omega, ?_⟩
      simp only [logAll, log, ha, Res.bind_fatal]

example : (iter ([CfEvent.enter 300, .tainted 300 (2 ^ 31 - 1), .leave 300].flatMap encode) []).1 =
    [.enter [300], .tainted [300] (2 ^ 31 - 1), .leave [300]] ∧
    [CfEvent.enter 300, .tainted 300 5].flatMap encode = [0, 0xac, 2, 2, 0xac, 2, 5] ∧
    Nested [CfEvent.enter 300, .tainted 300 (2 ^ 31 - 1), .leave 300] [] := by
  refine ⟨?_, ?_, ?_⟩
  · rw [C23_iter]; rfl
  · simp [encode, varint]
  · simp [Nested]

end Verif
