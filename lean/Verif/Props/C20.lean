import Verif.Props.C19
/- C20: a read of n bytes yields n fresh consecutive labels with the right offsets. -/
namespace Verif
open Spec Tracker

namespace Tracker

theorem createSourceTaint_total {c : Config} {base : Nat} (hc : c.Ok base) {es : List Event} {T : Tracker}
    (hl : LabSim c es T.labels T.index) (src : Nat) (addr : Option Nat) (len off : Nat) :
    (0 < len ∧ T.labels.words.length + len ≤ c.labelCap ∧
      ∃ p, T.createSourceTaint src addr len off = .ok p) ∨
    (¬ (0 < len ∧ T.labels.words.length + len ≤ c.labelCap) ∧
      T.createSourceTaint src addr len off = .ub) := by
  have hcap := hl.reach.cap hc.lab0 hc.lab
  have hi := hc.idx
  simp only [createSourceTaint, Labels.createSourceLabels, hcap]
  by_cases h0 : len = 0
  · right; exact ⟨by omega, by simp [h0]⟩
  · by_cases hroom : T.labels.words.length + len ≤ c.labelCap
    · left
      obtain ⟨B', k1, -⟩ := setRange_spec hl.index hl.small (b := T.labels.words.length)
        (n := len) (by omega) (by omega) hc.idxMax
      refine ⟨by omega, hroom, ?_⟩
      simp only [h0, hroom, if_true, if_false, Res.bind_ok, k1]
      exact ⟨_, rfl⟩
    · right; exact ⟨by omega, by simp [h0, hroom]⟩

theorem shadow_read {c : Config} {base : Nat} (hc : c.Ok base) {h : Trace} {T T' : Tracker} {r : Ret}
    (hr : Reach c base h T) {fd : Int} {a : Nat} {off : Option Nat} {len first last : Nat}
    (ha : T.Allowed (.read fd (some a) off len))
    (he : T.exec (.read fd (some a) off len) = .ok (T', r)) (hrng : r = .range (some (first, last)))
    (x : Nat) : T'.shadow x = if a ≤ x ∧ x < a + len then first + (x - a) else T.shadow x := by
  have h1 := (hr.sim hc).shadow x
  have h2 := ((hr.snoc ha he).sim hc).shadow x
  subst hrng
  rw [h2, h1]; rfl

end Tracker

/-- A read of `len` bytes at offset `off` from tracked source `i` (any history before it): the
returned labels `first .. first+len-1` did not exist before and are exactly the new ones; label
`first+k` denotes exactly byte `off+k` of source `i`; the label of buffer byte `k` becomes `first+k`
and no other byte changes its label. Missing compared with the property: reads of zero bytes, reads
for which the label table has no room, offsets from 2^54 on (refuted below). -/
theorem C20_read_partial (c : Config) (base : Nat) (hc : c.Ok base) (h : Trace) (T : Tracker)
    (hr : Reach c base h T) (fd : Int) (a off len i : Nat) (hi : owner h fd = some i)
    (hoff : off + len ≤ 2 ^ 54) (hlen : 0 < len) (hroom : T.labels.words.length + len ≤ c.labelCap) :
    ∃ T' first, T.exec (.read fd (some a) (some off) len) = .ok (T', .range (some (first, first + len - 1))) ∧
      (∀ k, k < len → T.labels.graph (first + k) = none) ∧
      (∀ k b, k < len → (Denotes T'.labels.graph (first + k) b ↔ b = (i, off + k))) ∧
      (∀ l, l < first ∨ first + len ≤ l → ∀ b, Denotes T'.labels.graph l b ↔ Denotes T.labels.graph l b) ∧
      (∀ x, T'.shadow x = if a ≤ x ∧ x < a + len then first + (x - a) else T.shadow x) := by
  have hs := hr.sim hc
  obtain ⟨ss, ht⟩ := hs.tab
  have hm := ht.mapping hc.src fd
  have ha : T.Allowed (.read fd (some a) (some off) len) := fun j _ => hoff
  have hex : ∃ T' r, T.exec (.read fd (some a) (some off) len) = .ok (T', r) := by
    rcases createSourceTaint_total hc hs.lab i (some a) len off with ⟨-, -, p, hp⟩ | ⟨hn, -⟩
    · exact ⟨_, _, by simp [exec, sourceTaint, hm, hi, sourceOffset, hp]; exact ⟨rfl, rfl⟩⟩
    · exact absurd ⟨hlen, hroom⟩ hn
  obtain ⟨T', r, he⟩ := hex
  have hr' := hr.snoc ha he
  have hs' := hr'.sim hc
  rcases hr.read hc ha he with ⟨h3, -⟩ | ⟨j, h3, h4, h5, h6, h7⟩
  · rw [hi] at h3; cases h3
  · rw [hi] at h3; cases h3
    subst h5
    have hold : ∀ l b, Denotes T'.labels.graph l b ↔
        if T.labels.words.length ≤ l ∧ l < T.labels.words.length + len
        then b = (i, off + (l - T.labels.words.length)) else Denotes T.labels.graph l b := by
      intro l b
      rw [hs'.lab.reach.meaning hc.lab0 hc.lab]
      simp only [labelEvents, hi, Option.getD_some]
      rw [Labels.Meaning_snoc, after]
      split
      · rfl
      · rw [hs.lab.reach.meaning hc.lab0 hc.lab]
    refine ⟨T', T.labels.words.length, he, ?_, ?_, ?_, ?_⟩
    · intro k _; exact Labels.graph_none_of_ge (by omega)
    · intro k b hk
      rw [hold, if_pos (by omega), Nat.add_sub_cancel_left]
    · intro l hl b; rw [hold, if_neg (by omega)]
    · exact shadow_read hc hr ha he rfl

/-- Reads at the stream position behave the same, at the number of bytes read before. -/
theorem C20_stream_partial (c : Config) (base : Nat) (hc : c.Ok base) (h : Trace) (T : Tracker)
    (hr : Reach c base h T) (fd : Int) (a len i : Nat) (hi : owner h fd = some i)
    (hoff : readPos h i + len ≤ 2 ^ 54) (hlen : 0 < len)
    (hroom : T.labels.words.length + len ≤ c.labelCap) :
    ∃ T' first, T.exec (.read fd (some a) none len) = .ok (T', .range (some (first, first + len - 1))) ∧
      (∀ k, k < len → T.labels.graph (first + k) = none) ∧
      (∀ k b, k < len → (Denotes T'.labels.graph (first + k) b ↔ b = (i, readPos h i + k))) ∧
      (∀ x, T'.shadow x = if a ≤ x ∧ x < a + len then first + (x - a) else T.shadow x) := by
  have hs := hr.sim hc
  obtain ⟨ss, ht⟩ := hs.tab
  have hm := ht.mapping hc.src fd
  have ha : T.Allowed (.read fd (some a) none len) := by
    intro j hj
    rw [hm, hi] at hj; cases hj
    simpa [hs.rd i] using hoff
  have hi256 : ¬ i ≥ 256 := by
    have := owner_lt hi; have := ht.srcLen; have := ht.srcCap; have := hc.src; omega
  have hex : ∃ T' r, T.exec (.read fd (some a) none len) = .ok (T', r) := by
    rcases createSourceTaint_total hc (T := { T with rd := fun j => if j = i then (T.rd i + len) % 2 ^ 64 else T.rd j })
      hs.lab i (some a) len (T.rd i) with ⟨-, -, p, hp⟩ | ⟨hn, -⟩
    · refine ⟨p.1, .range (some p.2), ?_⟩
      simp only [exec, sourceTaint, hm, hi, sourceOffset, increase, hi256, if_false, Res.bind_ok, Res.pure_eq, hp]
    · exact absurd ⟨hlen, hroom⟩ hn
  obtain ⟨T', r, he⟩ := hex
  have hr' := hr.snoc ha he
  rcases hr.read hc ha he with ⟨h3, -⟩ | ⟨j, h3, h4, h5, h6, h7⟩
  · rw [hi] at h3; cases h3
  · rw [hi] at h3; cases h3
    subst h5
    refine ⟨T', T.labels.words.length, he, ?_, ?_, ?_⟩
    · intro k _; exact Labels.graph_none_of_ge (by omega)
    · intro k b hk
      exact (hr'.given hc (h7 k hk)).2.2 b
    · exact shadow_read hc hr ha he rfl

/-- A tracked read of zero bytes, or one for which the label table has no room, runs into undefined
behaviour (labels.h 38-48: an empty optional or the begin of an empty span is dereferenced). -/
theorem C20_undefined_refuted (c : Config) (base : Nat) (hc : c.Ok base) (h : Trace) (T : Tracker)
    (hr : Reach c base h T) (fd : Int) (a off len i : Nat) (hi : owner h fd = some i)
    (hbad : len = 0 ∨ c.labelCap < T.labels.words.length + len) :
    T.exec (.read fd (some a) (some off) len) = .ub := by
  have hs := hr.sim hc
  obtain ⟨ss, ht⟩ := hs.tab
  have hm := ht.mapping hc.src fd
  rcases createSourceTaint_total hc hs.lab i (some a) len off with ⟨h1, h2, -⟩ | ⟨-, hp⟩
  · omega
  · simp [exec, sourceTaint, hm, hi, sourceOffset, hp]

/-- Offsets from 2^54 on lose their upper bits: a byte read at offset 2^54 is recorded as byte 0. -/
theorem C20_offset_refuted (L L' : Labels) (src : Nat) (rng : Nat × Nat) (hs : src < 256)
    (h : L.createSourceLabels src (2 ^ 54) 1 = .ok (L', rng)) :
    L'.readLabel rng.1 = .ok (.source false src 0) := by
  simp only [Labels.createSourceLabels, Nat.one_ne_zero, if_false] at h
  split at h
  · cases h
    have he : encode (.source false src (2 ^ 54 + 0)) = encode (.source false src 0) := by
      rw [encode_source, encode_source]
    have hd := (C01_decode_encode (.source false src 0) ⟨hs, by decide⟩).1
    simp only [List.range_one, List.map_cons, List.map_nil, he, Labels.readLabel]
    rw [show getRes (L.words ++ [encode (.source false src 0)]) L.words.length =
      .ok (encode (.source false src 0)) by simp [getRes]]
    exact hd
  · cases h

/-- Hypotheses are met: in the example run, source 2 is open on descriptor 3 and there is room. -/
example : owner (histOf exCfg 4096 exCalls) 3 = some 2 ∧
    (run exCfg 4096 exCalls).map (fun p => (p.1.labels.words.length, p.2.length)) = some (12, 21) := by
  decide +kernel

end Verif
