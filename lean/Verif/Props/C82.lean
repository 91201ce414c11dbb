import Verif.StdioTrack
import Verif.Props.C81
/- C82: streams. The labels of bytes that are read through a FILE name the file and the position of the byte in it; the
records of bytes written through a FILE name the position they go to. -/
namespace Verif
open Spec Tracker Stdio

/-- As long as the program goes on it gets the results and the bytes it would get without PolyTracker, and files and pipes
get the same bytes. -/
theorem C82_same_partial {K₀ K : StdSys} {T₀ T : Tracker} {E : StdHist} (he : Exec K₀ T₀ E K T) :
    K₀.run (E.reverse.map Prod.fst) = (K, E.reverse.map Prod.snd) := he.same

/-- The file behind a stream got by fopen, in the source table. -/
theorem Stdio.Good.entry {c : Config} {base : Nat} (hc : c.Ok base) {h : Trace} {K : StdSys} {T : Tracker} {E : StdHist}
    (hr : Reach c base h T) (hg : Good h K E) {fd : Nat} {path : List Nat} {size : Option Nat}
    (ho : fopened E fd = some (path, size)) :
    ∃ i, owner h fd = some i ∧ (registered h)[i]? = some (path, (fd : Int), size.getD unknownSize) ∧
      T.SourceIs i path fd (size.getD unknownSize) := by
  obtain ⟨i, h1, h2⟩ := (owner_lastOpen (Files.nat_ne_neg fd) h).2 _ size (hg.last fd path size ho)
  exact ⟨i, h1, h2, sourceIs_of_registered (hr.sim hc) h2⟩

/-- Where PolyTracker thinks reading begins. -/
theorem Stdio.Good.known {h : Trace} {K : StdSys} {E : StdHist} (hg : Good h K E) {fd : Nat} {p : List Nat × Option Nat}
    (ho : fopened E fd = some p) {s : Strm} (hs : K.get fd = some s)
    (hp : s.regular = true ∧ s.back = [] ∨ evenIn E fd = true) {i : Nat} (hi : owner h fd = some i) :
    s.back = [] ∧ (knownPos (tell K fd)).getD (readPos h i) = s.pos := by
  have hb : s.back = [] := by
    rcases hp with hp | hp
    · exact hp.2
    · exact (hg.rd fd p s ho hs hp).1
  refine ⟨hb, ?_⟩
  rw [tell_some hs]
  cases hn : s.regular with
  | true =>
    rw [tell_file hn hb, knownPos_getD, if_neg (by omega)]; rfl
  | false =>
    rcases hp with hp | hp
    · rw [hn] at hp; cases hp.1
    · rw [tell_pipe hn]
      exact (hg.rd fd p s ho hs hp).2 hn i hi

theorem Stdio.next_get {s : Strm} {avail : Nat} (hb : s.back = []) {k : Nat} (hk : k < (s.next avail).length) :
    (s.next avail)[k]? = s.data[s.pos + k]? := by
  unfold Strm.next at hk ⊢
  rw [hb, List.nil_append] at hk ⊢
  cases hn : s.regular with
  | true => simp only [if_true, List.getElem?_drop]
  | false =>
    rw [hn] at hk
    simp only [Bool.false_eq_true, if_false, List.length_take] at hk ⊢
    rw [List.getElem?_take_of_lt (by omega), List.getElem?_drop]

theorem Stdio.line_get : ∀ (n : Nat) (s : List Nat) (k : Nat), k < (Strm.line n s).length → (Strm.line n s)[k]? = s[k]?
  | 0, _, k, h => by simp [Strm.line] at h
  | _ + 1, [], k, h => by simp [Strm.line] at h
  | n + 1, b :: s, k, h => by
    rw [Strm.line] at h ⊢
    split at h
    · rename_i e
      rw [if_pos e]
      simp only [List.length_singleton] at h
      obtain rfl : k = 0 := by omega
      rfl
    · rename_i e
      rw [if_neg e]
      cases k with
      | zero => rfl
      | succ k =>
        simp only [List.length_cons] at h
        simp only [List.getElem?_cons_succ]
        exact line_get n s k (by omega)

/-- fread from a stream that the program got from fopen. Every byte of the whole items is labelled, and its label stands for
exactly one input byte: the source is an entry with the path of the file and the descriptor, and the position is that of
the byte in the file or pipe. No other memory changes its label. This is right if no byte is pushed back, and for pipes and
terminals as long as bytes were taken only by calls whose results show how many (`C82_item_refuted`, `C82_ungetc_refuted`,
`C82_scan_refuted`, `C82_zero_refuted`). Streams from elsewhere are missing (`C82_adopt_refuted`), and so are the bytes of
an item that is not whole (`C82_item_refuted`). -/
theorem C82_fread_partial {c : Config} {base : Nat} (hc : c.Ok base) {h₀ : Trace} {K₀ K K' : StdSys} {T₀ T T' : Tracker}
    {E : StdHist} (hr : Reach c base h₀ T₀) (he : Exec K₀ T₀ E K T) {fd : Nat} {path : List Nat} {size : Option Nat}
    (ho : fopened E fd = some (path, size)) {s : Strm} (hs : K.get fd = some s)
    (hp : s.regular = true ∧ s.back = [] ∨ evenIn E fd = true) {buf isz count avail : Nat} {o : StdObs} {l : Nat}
    (hfit : Fits K T (.fread fd buf isz count avail)) (hx : step K T (.fread fd buf isz count avail) = .ok (K', T', o, l)) :
    ∃ i, T'.SourceIs i path fd (size.getD unknownSize) ∧
      Files.Attributed T T' buf (o.data.take (isz * o.ret.toNat)) i s.pos ∧ o.data.length < isz * o.ret.toNat + isz ∧
      ∀ k, k < o.data.length → o.data[k]? = s.data[s.pos + k]? := by
  obtain ⟨h, h1, h2⟩ := he.good hc hr
  obtain ⟨i, h3, h4, h5⟩ := h2.entry hc h1 ho
  obtain ⟨hb, hpos⟩ := h2.known ho hs hp h3
  obtain ⟨q1, q2⟩ := fread_obs (K := K) (fd := fd) (buf := buf) (count := count) (avail := avail) hfit.1
  have hk : (K.step (.fread fd buf isz count avail)).2 = o := congrArg Prod.snd (step_kernel hx)
  have q3 := q2 s hs
  rw [hk] at q1 q3
  have hd : ∀ k, k < o.data.length → o.data[k]? = s.data[s.pos + k]? := by
    intro k hk'
    rw [q3] at hk' ⊢
    simp only [List.length_take] at hk' ⊢
    rw [List.getElem?_take_of_lt (by omega), next_get hb (by omega)]
  have hlt : o.data.length < isz * o.ret.toNat + isz := by
    rw [q3]
    simp only [Int.toNat_natCast]
    have := Nat.div_add_mod ((s.next avail).take (isz * count)).length isz
    have := Nat.mod_lt ((s.next avail).take (isz * count)).length hfit.1
    omega
  have hl : (o.data.take (isz * o.ret.toNat)).length = isz * o.ret.toNat := by rw [List.length_take]; omega
  rcases step_fread hfit hx with ⟨k1, rfl⟩ | ⟨k1, r, k2⟩
  · rw [k1] at hl
    exact ⟨i, h5, ⟨fun k hk => by rw [k1] at hk; omega, fun _ _ => rfl⟩, hlt, hd⟩
  · rw [← hl] at k1 k2
    have ha := Files.attributed_of hc h1 h3 k1 k2
    rw [hpos] at ha
    exact ⟨i, sourceIs_of_registered ((h1.snoc k1 k2).sim hc) h4, ha, hlt, hd⟩

/-- getc, fgetc, getchar and the like: the label of the result stands for exactly the byte that is returned; no memory changes
its label. At the end nothing happens. -/
theorem C82_getc_partial {c : Config} {base : Nat} (hc : c.Ok base) {h₀ : Trace} {K₀ K K' : StdSys} {T₀ T T' : Tracker}
    {E : StdHist} (hr : Reach c base h₀ T₀) (he : Exec K₀ T₀ E K T) {fd : Nat} {path : List Nat} {size : Option Nat}
    (ho : fopened E fd = some (path, size)) {s : Strm} (hs : K.get fd = some s)
    (hp : s.regular = true ∧ s.back = [] ∨ evenIn E fd = true) {avail : Nat} {o : StdObs} {l : Nat}
    (hfit : Fits K T (.getc fd avail)) (hx : step K T (.getc fd avail) = .ok (K', T', o, l)) :
    (o.ret = -1 ∧ T' = T ∧ l = 0) ∨
    ∃ i, T'.SourceIs i path fd (size.getD unknownSize) ∧ (∀ b, Denotes T'.labels.graph l b ↔ b = (i, s.pos)) ∧
      T'.shadow = T.shadow ∧ s.data[s.pos]? = some o.ret.toNat := by
  obtain ⟨h, h1, h2⟩ := he.good hc hr
  obtain ⟨i, h3, h4, h5⟩ := h2.entry hc h1 ho
  obtain ⟨hb, hpos⟩ := h2.known ho hs hp h3
  have hk : (K.step (.getc fd avail)).2 = o := congrArg Prod.snd (step_kernel hx)
  rcases step_getc hfit hx with k1 | ⟨k0, k1, r, k2, k3⟩
  · exact Or.inl k1
  · refine Or.inr ⟨i, sourceIs_of_registered ((h1.snoc k1 k2).sim hc) h4, ?_, ?_, ?_⟩
    · rcases h1.read hc k1 k2 with ⟨m1, -⟩ | ⟨j, m1, -, m2, -, m3⟩
      · rw [h3] at m1; cases m1
      · rw [h3] at m1; cases m1
        cases m2
        have m4 := ((h1.snoc k1 k2).given hc (m3 0 (by omega))).2.2
        rw [hpos] at m4
        rw [k3]
        exact m4
    · funext x
      rw [((h1.snoc k1 k2).sim hc).shadow x, (h1.sim hc).shadow x]
      rfl
    · rw [show (K.step (.getc fd avail)).2 = _ from obs_on hs] at hk
      cases hn : s.next avail with
      | nil => rw [hn] at hk; subst hk; exact absurd rfl k0
      | cons b rest =>
        have hg := next_get (s := s) (avail := avail) hb (k := 0) (by rw [hn]; simp)
        rw [hn] at hk hg
        subst hk
        exact hg.symm

/-- fgets of a line without zero bytes. -/
theorem C82_fgets_partial {c : Config} {base : Nat} (hc : c.Ok base) {h₀ : Trace} {K₀ K K' : StdSys} {T₀ T T' : Tracker}
    {E : StdHist} (hr : Reach c base h₀ T₀) (he : Exec K₀ T₀ E K T) {fd : Nat} {path : List Nat} {size : Option Nat}
    (ho : fopened E fd = some (path, size)) {s : Strm} (hs : K.get fd = some s)
    (hp : s.regular = true ∧ s.back = [] ∨ evenIn E fd = true) {buf n avail : Nat} {o : StdObs} {l : Nat}
    (hfit : Fits K T (.fgets fd buf n avail)) (hx : step K T (.fgets fd buf n avail) = .ok (K', T', o, l)) (hz : 0 ∉ o.data) :
    ∃ i, T'.SourceIs i path fd (size.getD unknownSize) ∧ Files.Attributed T T' buf o.data i s.pos ∧
      ∀ k, k < o.data.length → o.data[k]? = s.data[s.pos + k]? := by
  obtain ⟨h, h1, h2⟩ := he.good hc hr
  obtain ⟨i, h3, h4, h5⟩ := h2.entry hc h1 ho
  obtain ⟨hb, hpos⟩ := h2.known ho hs hp h3
  have hk : (K.step (.fgets fd buf n avail)).2 = o := congrArg Prod.snd (step_kernel hx)
  rw [show (K.step (.fgets fd buf n avail)).2 = _ from obs_on hs] at hk
  have hd : ∀ k, k < o.data.length → o.data[k]? = s.data[s.pos + k]? := by
    intro k hk'
    subst hk
    simp only at hk' ⊢
    have := line_length (n - 1) (s.next avail)
    rw [line_get _ _ _ hk', next_get hb (by omega)]
  have hret : o.ret = o.data.length := by subst hk; rfl
  rcases step_fgets hfit hx with ⟨k1, rfl⟩ | ⟨m, k0, k1, r, k2⟩
  · exact ⟨i, h5, ⟨fun k hk => by omega, fun _ _ => rfl⟩, hd⟩
  · rw [k0 hz] at k1 k2
    have ha := Files.attributed_of hc h1 h3 k1 k2
    rw [hpos] at ha
    exact ⟨i, sourceIs_of_registered ((h1.snoc k1 k2).sim hc) h4, ha, hd⟩

/-- What the other side of a stream has: the file, or the bytes that were written to the pipe. -/
def Stdio.image (s : Strm) : List Nat := if s.regular then s.data else s.out

/-- Where bytes written now go in it, unless the stream was opened for appending. -/
def Stdio.cursor (s : Strm) : Nat := if s.regular then s.pos else s.out.length

theorem Stdio.emit_image {s : Strm} (ha : s.append = false) (bytes : List Nat) :
    ∀ j, j < bytes.length → (image (s.emit bytes))[cursor s + j]? = bytes[j]? := by
  intro j hj
  unfold image cursor
  rw [emit_regular]
  cases hn : s.regular with
  | false =>
    rw [emit_pipe hn]
    simp only [Bool.false_eq_true, if_false]
    rw [List.getElem?_append_right (by omega), Nat.add_sub_cancel_left]
  | true =>
    simp only [if_true, Strm.emit, hn, Strm.writeAt, ha, Bool.false_eq_true, if_false]
    have hl : ((s.data ++ List.replicate (s.pos - s.data.length) 0).take s.pos).length = s.pos := by
      rw [List.length_take, List.length_append, List.length_replicate]; omega
    rw [List.append_assoc, List.getElem?_append_right (by omega), hl, Nat.add_sub_cancel_left,
      List.getElem?_append_left (by omega)]

theorem Stdio.Good.knownW {h : Trace} {K : StdSys} {E : StdHist} (hg : Good h K E) {fd : Nat} {p : List Nat × Option Nat}
    (ho : fopened E fd = some p) {s : Strm} (hs : K.get fd = some s)
    (hp : s.regular = true ∧ s.back = [] ∨ s.regular = false ∧ evenOut E fd = true) {i : Nat} (hi : owner h fd = some i) :
    (knownPos (tell K fd)).getD (writePos h i) = cursor s := by
  rw [tell_some hs]
  unfold cursor
  rcases hp with ⟨hn, hb⟩ | ⟨hn, hev⟩
  · rw [tell_file hn hb, knownPos_getD, if_neg (by omega), hn]; rfl
  · rw [tell_pipe hn, hn]
    exact hg.wr fd p s ho hs hev hn i hi

/-- fwrite: exactly the labelled bytes among those that are taken are recorded, in order, each with its label, the entry of
the file and its position in the file or in what the pipe gets. This is right if no byte is pushed back and the stream does not
append (`C82_append_refuted`), for pipes as long as bytes were written only by fwrite and putc (`C82_puts_refuted`,
`C82_putc_refuted`); nothing is said when the log is full (C22). -/
theorem C82_fwrite_partial {c : Config} {base : Nat} (hc : c.Ok base) {h₀ : Trace} {K₀ K K' : StdSys} {T₀ T T' : Tracker}
    {E : StdHist} (hr : Reach c base h₀ T₀) (he : Exec K₀ T₀ E K T) {fd : Nat} {path : List Nat} {size : Option Nat}
    (ho : fopened E fd = some (path, size)) {s : Strm} (hs : K.get fd = some s) (happ : s.append = false)
    (hp : s.regular = true ∧ s.back = [] ∨ s.regular = false ∧ evenOut E fd = true)
    {buf isz k : Nat} {bytes : List Nat} {o : StdObs} {l : Nat} (hfit : Fits K T (.fwrite fd buf isz bytes k))
    (hx : step K T (.fwrite fd buf isz bytes k) = .ok (K', T', o, l)) (hroom : T.sinks.length + bytes.length ≤ c.sinkCap) :
    ∃ i, T'.SourceIs i path fd (size.getD unknownSize) ∧
      T'.sinks = T.sinks ++ ((List.range (isz * k)).filter fun j => T.shadow (buf + j) ≠ 0).map (fun j =>
        ⟨cursor s + j, T.shadow (buf + j), i⟩) ∧ T'.shadow = T.shadow ∧ T'.labels = T.labels ∧
      ∃ s', K'.get fd = some s' ∧ ∀ j, j < isz * k → (image s')[cursor s + j]? = bytes[j]? := by
  obtain ⟨h, h1, h2⟩ := he.good hc hr
  obtain ⟨i, h3, h4, h5⟩ := h2.entry hc h1 ho
  have hpos := h2.knownW ho hs hp h3
  have hK : (K.step (.fwrite fd buf isz bytes k)).1 = K' := congrArg Prod.fst (step_kernel hx)
  have hlen := hfit.2.1
  have hd : ∃ s', K'.get fd = some s' ∧ ∀ j, j < isz * k → (image s')[cursor s + j]? = bytes[j]? := by
    refine ⟨s.emit (bytes.take (isz * k)), ?_, fun j hj => ?_⟩
    · rw [← hK, show (K.step (.fwrite fd buf isz bytes k)).1.get fd = _ from get_on _ _ _ _, if_pos rfl, hs]; rfl
    · rw [emit_image happ _ j (by rw [List.length_take]; omega), List.getElem?_take_of_lt hj]
  rcases step_fwrite hs hfit hx with ⟨k1, rfl⟩ | ⟨k0, k1, r, k2⟩
  · rw [k1] at hd ⊢
    exact ⟨i, h5, by simp, rfl, rfl, hd⟩
  · have hal := k1 i (by rw [(((h1.sim hc).tab).choose_spec).mapping hc.src fd, h3])
    rw [(h1.sim hc).wr i] at hal
    have hle : ((List.range (isz * k)).filter fun j => T.shadow (buf + j) ≠ 0).length ≤ isz * k := by
      have := List.length_filter_le (fun j => decide (T.shadow (buf + j) ≠ 0)) (List.range (isz * k))
      rw [List.length_range] at this
      exact this
    obtain ⟨T1, m1, m2, m3, m4, m5, -⟩ := (sink_exact hc h1 fd buf (knownPos (tell K fd)) (some (isz * k))
      (fun e => by simp only [Option.some.injEq] at e; omega) Ret.unit).2 i h3 (by simp only [Option.getD_some]; omega)
      (by simp only [Option.getD_some]; omega) (by simp only [Option.getD_some]; omega)
    have e : T.exec (.write fd (knownPos (tell K fd)) buf (isz * k)) = .ok (T1, .unit) := m1
    rw [k2] at e
    cases e
    rw [hpos, Option.getD_some] at m2
    exact ⟨i, sourceIs_of_registered ((h1.snoc k1 k2).sim hc) h4, m2, m4, m3, hd⟩

/-- putc and fputc of a character in 0..255: it is recorded if it has a label, with its label, the entry of the file and its
position. -/
theorem C82_putc_partial {c : Config} {base : Nat} (hc : c.Ok base) {h₀ : Trace} {K₀ K K' : StdSys} {T₀ T T' : Tracker}
    {E : StdHist} (hr : Reach c base h₀ T₀) (he : Exec K₀ T₀ E K T) {fd : Nat} {path : List Nat} {size : Option Nat}
    (ho : fopened E fd = some (path, size)) {s : Strm} (hs : K.get fd = some s) (happ : s.append = false)
    (hp : s.regular = true ∧ s.back = [] ∨ s.regular = false ∧ evenOut E fd = true)
    {ch : Int} (h0 : 0 ≤ ch) (h255 : ch < 256) {label : Nat} {o : StdObs} {l : Nat} (hfit : Fits K T (.putc fd ch label))
    (hx : step K T (.putc fd ch label) = .ok (K', T', o, l)) (hroom : T.sinks.length < c.sinkCap) :
    ∃ i, T'.SourceIs i path fd (size.getD unknownSize) ∧
      T'.sinks = T.sinks ++ (if label = 0 then [] else [⟨cursor s, label, i⟩]) ∧ T'.shadow = T.shadow ∧ T'.labels = T.labels ∧
      ∃ s', K'.get fd = some s' ∧ (image s')[cursor s]? = some ch.toNat := by
  obtain ⟨h, h1, h2⟩ := he.good hc hr
  obtain ⟨i, h3, h4, h5⟩ := h2.entry hc h1 ho
  have hpos := h2.knownW ho hs hp h3
  have hkk := step_kernel hx
  have hK : (K.step (.putc fd ch label)).1 = K' := congrArg Prod.fst hkk
  have hO : (K.step (.putc fd ch label)).2 = o := congrArg Prod.snd hkk
  rw [show (K.step (.putc fd ch label)).2 = _ from obs_on hs] at hO
  have hch : ch % 256 = ch := Int.emod_eq_of_lt h0 h255
  have hret : o.ret = ch := by subst hO; exact hch
  have hd : ∃ s', K'.get fd = some s' ∧ (image s')[cursor s]? = some ch.toNat := by
    refine ⟨s.emit [(ch % 256).toNat], ?_, ?_⟩
    · rw [← hK, show (K.step (.putc fd ch label)).1.get fd = _ from get_on _ _ _ _, if_pos rfl, hs]; rfl
    · have := emit_image happ [(ch % 256).toNat] 0 (by simp)
      rw [Nat.add_zero] at this
      rw [this, hch]; rfl
  rcases step_putc hfit hx with ⟨k1, -⟩ | ⟨-, k1, r, k2⟩
  · exact absurd hret k1
  · have hal := k1.2 i (by rw [(((h1.sim hc).tab).choose_spec).mapping hc.src fd, h3])
    rw [(h1.sim hc).wr i] at hal
    have hpos54 : tell K fd < 2 ^ 54 := by
      have := hfit.2 i (by rw [(((h1.sim hc).tab).choose_spec).mapping hc.src fd, h3])
      split at this <;> omega
    have hle : ((List.range 1).filter fun _ => label ≠ 0).length ≤ 1 := by
      have := List.length_filter_le (fun _ => decide (label ≠ 0)) (List.range 1)
      simpa using this
    have hne : ¬ ch = -1 := by omega
    obtain ⟨T1, m1, m2, m3, m4, m5, -⟩ := (C42_putc_partial hc h1 fd ch label (tell K fd) ch hpos54 h0 (Or.inl rfl)).2 i h3
      (by rw [if_neg hne]; omega) (by rw [if_neg hne]; omega) (by
        rw [if_neg hne]
        show T.sinks.length + ((List.range 1).filter fun _ => label ≠ 0).length ≤ _
        omega)
    have e : T1 = T' := by
      have e1 := hx
      simp only [step, hkk, Res.bind_eq_ok, Res.pure_eq] at e1
      obtain ⟨⟨T2, p⟩, e2, e3⟩ := e1
      cases e3
      rw [hret, m1] at e2
      cases e2; rfl
    subst e
    rw [hpos, if_neg hne] at m2
    refine ⟨i, sourceIs_of_registered ((h1.snoc k1 k2).sim hc) h4, ?_, m4, m3, hd⟩
    rw [m2]
    by_cases hl : label = 0
    · simp [hl]
    · simp [hl, List.range_succ]

/-! ### What goes wrong -/

instance (K : StdSys) (T : Tracker) (op : StdOp) : Decidable (Stdio.Fits K T op) := by
  cases op with
  | fopen fd path s size => exact inferInstanceAs (Decidable (_ ∧ _ ∧ _ ∧ _ ∧ _ ∧ _ ∧ _ ∧ _ ∧ _))
  | fread fd buf size count avail => simp only [Stdio.Fits]; infer_instance
  | getc fd avail => simp only [Stdio.Fits]; infer_instance
  | fgets fd buf n avail => simp only [Stdio.Fits]; infer_instance
  | fwrite fd buf size bytes k => simp only [Stdio.Fits]; infer_instance
  | putc fd ch label => simp only [Stdio.Fits]; infer_instance
  | adopt | scan | ungetc | fseek | puts | fclose => exact inferInstanceAs (Decidable True)

/-- Make calls, oldest first, checking the limits before each. -/
def Stdio.script : StdSys → Tracker → StdHist → List StdOp → Option (StdSys × Tracker × StdHist)
  | K, T, E, [] => some (K, T, E)
  | K, T, E, op :: ops =>
    if Fits K T op then
      match step K T op with
      | .ok (K', T', o, _) => script K' T' ((op, o) :: E) ops
      | _ => none
    else none

theorem Stdio.script_exec {K₀ : StdSys} {T₀ : Tracker} (ops : List StdOp) : ∀ {K K' : StdSys} {T T' : Tracker}
    {E E' : StdHist}, Exec K₀ T₀ E K T → script K T E ops = some (K', T', E') → Exec K₀ T₀ E' K' T' := by
  induction ops with
  | nil => intro K K' T T' E E' he hs; cases hs; exact he
  | cons op ops ih =>
    intro K K' T T' E E' he hs
    simp only [script] at hs
    split at hs
    · rename_i hf
      split at hs
      · rename_i hst
        exact ih (.std he hf hst) hs
      · cases hs
    · cases hs

theorem Stdio.run_exec {ops : List StdOp} {P : StdSys → Tracker → StdHist → Prop} [∀ K T E, Decidable (P K T E)]
    (h : (match Tracker.init Net.exNetCfg 4096 with
      | .ok T₀ => match script [] T₀ [] ops with
        | some (K, T, E) => decide (P K T E)
        | none => false
      | _ => false) = true) :
    ∃ T₀ K T E, Reach Net.exNetCfg 4096 [] T₀ ∧ Exec [] T₀ E K T ∧ P K T E := by
  split at h
  · rename_i T₀ h0
    split at h
    · rename_i K T E hs
      exact ⟨T₀, K, T, E, ⟨T₀, h0, .nil⟩, script_exec ops .nil hs, by simpa using h⟩
    · cases h
  · cases h

/-- The path "f". -/
def Stdio.exPath : List Nat := [102]
/-- A file "abcde". -/
def Stdio.exF : Strm := { data := [97, 98, 99, 100, 101] }
/-- A pipe that delivers the same. -/
def Stdio.exP : Strm := { exF with regular := false }
/-- A file "xyz" opened with "a+". -/
def Stdio.exA : Strm := { data := [120, 121, 122], append := true }
/-- A pipe that delivers "a", a zero byte, a newline and "b". -/
def Stdio.exZ : Strm := { data := [97, 0, 10, 98], regular := false }

/-- Items of four bytes: the fifth byte is placed in the buffer and has no label. -/
theorem C82_item_refuted :
    ∃ T₀ K T E, Reach Net.exNetCfg 4096 [] T₀ ∧ Exec [] T₀ E K T ∧
      E = [(.fread 4 1000 4 2 0, { ret := 1, data := [97, 98, 99, 100, 101] }), (.fopen 4 exPath exF none, { ret := 4 })] ∧
      T.shadow 1003 ≠ 0 ∧ T.shadow 1004 = 0 :=
  Stdio.run_exec (ops := [.fopen 4 exPath exF none, .fread 4 1000 4 2 0]) (by decide +kernel)

/-- The same on a pipe: after three bytes were taken as one item of two, "d" is said to be the third byte. -/
theorem C82_item_pipe_refuted :
    ∃ T₀ K T E, Reach Net.exNetCfg 4096 [] T₀ ∧ Exec [] T₀ E K T ∧
      E = [(.fread 4 2000 1 1 1, { ret := 1, data := [100] }), (.fread 4 1000 2 2 3, { ret := 1, data := [97, 98, 99] }),
        (.fopen 4 exPath exP none, { ret := 4 })] ∧
      T.SourceIs 0 exPath 4 unknownSize ∧ ∀ b, Denotes T.labels.graph (T.shadow 2000) b ↔ b = (0, 2) := by
  obtain ⟨T₀, K, T, E, h1, h2, h3, h4, h5⟩ := Stdio.run_exec
    (ops := [.fopen 4 exPath exP none, .fread 4 1000 2 2 3, .fread 4 2000 1 1 1]) (P := fun _ T E =>
      E = [(.fread 4 2000 1 1 1, { ret := 1, data := [100] }), (.fread 4 1000 2 2 3, { ret := 1, data := [97, 98, 99] }),
        (.fopen 4 exPath exP none, { ret := 4 })] ∧
      Files.entryOf T 0 = some (.ok exPath, 4, unknownSize) ∧ T.labels.graph (T.shadow 2000) = some (.source false 0 2))
    (by decide +kernel)
  exact ⟨T₀, K, T, E, h1, h2, h3, Files.sourceIs_of_entry h4, Files.denotes_of_source h5⟩

/-- A byte "x" that is pushed back and read again is said to come from the file, which does not contain it. -/
theorem C82_ungetc_refuted :
    ∃ T₀ K T E, Reach Net.exNetCfg 4096 [] T₀ ∧ Exec [] T₀ E K T ∧
      E = [(.fread 4 2000 1 1 0, { ret := 1, data := [120] }), (.ungetc 4 120, { ret := 120, data := [120] }),
        (.getc 4 0, { ret := 97, data := [97] }), (.fopen 4 exPath exF none, { ret := 4 })] ∧
      T.SourceIs 0 exPath 4 unknownSize ∧ ∀ b, Denotes T.labels.graph (T.shadow 2000) b ↔ b = (0, 0) := by
  obtain ⟨T₀, K, T, E, h1, h2, h3, h4, h5⟩ := Stdio.run_exec
    (ops := [.fopen 4 exPath exF none, .getc 4 0, .ungetc 4 120, .fread 4 2000 1 1 0]) (P := fun _ T E =>
      E = [(.fread 4 2000 1 1 0, { ret := 1, data := [120] }), (.ungetc 4 120, { ret := 120, data := [120] }),
        (.getc 4 0, { ret := 97, data := [97] }), (.fopen 4 exPath exF none, { ret := 4 })] ∧
      Files.entryOf T 0 = some (.ok exPath, 4, unknownSize) ∧ T.labels.graph (T.shadow 2000) = some (.source false 0 0))
    (by decide +kernel)
  exact ⟨T₀, K, T, E, h1, h2, h3, Files.sourceIs_of_entry h4, Files.denotes_of_source h5⟩

/-- On a pipe, a byte that is pushed back and read again is counted twice: "a" is said to be the second byte. -/
theorem C82_ungetc_pipe_refuted :
    ∃ T₀ K T E, Reach Net.exNetCfg 4096 [] T₀ ∧ Exec [] T₀ E K T ∧
      E = [(.fread 4 2000 1 1 0, { ret := 1, data := [97] }), (.ungetc 4 97, { ret := 97, data := [97] }),
        (.getc 4 5, { ret := 97, data := [97] }), (.fopen 4 exPath exP none, { ret := 4 })] ∧
      T.SourceIs 0 exPath 4 unknownSize ∧ ∀ b, Denotes T.labels.graph (T.shadow 2000) b ↔ b = (0, 1) := by
  obtain ⟨T₀, K, T, E, h1, h2, h3, h4, h5⟩ := Stdio.run_exec
    (ops := [.fopen 4 exPath exP none, .getc 4 5, .ungetc 4 97, .fread 4 2000 1 1 0]) (P := fun _ T E =>
      E = [(.fread 4 2000 1 1 0, { ret := 1, data := [97] }), (.ungetc 4 97, { ret := 97, data := [97] }),
        (.getc 4 5, { ret := 97, data := [97] }), (.fopen 4 exPath exP none, { ret := 4 })] ∧
      Files.entryOf T 0 = some (.ok exPath, 4, unknownSize) ∧ T.labels.graph (T.shadow 2000) = some (.source false 0 1))
    (by decide +kernel)
  exact ⟨T₀, K, T, E, h1, h2, h3, Files.sourceIs_of_entry h4, Files.denotes_of_source h5⟩

/-- After two bytes were taken from a pipe by fscanf or getline, "c" is said to be the first byte. -/
theorem C82_scan_refuted :
    ∃ T₀ K T E, Reach Net.exNetCfg 4096 [] T₀ ∧ Exec [] T₀ E K T ∧
      E = [(.fread 4 2000 1 1 1, { ret := 1, data := [99] }), (.scan 4 2 5, { ret := 2, data := [97, 98] }),
        (.fopen 4 exPath exP none, { ret := 4 })] ∧
      T.SourceIs 0 exPath 4 unknownSize ∧ ∀ b, Denotes T.labels.graph (T.shadow 2000) b ↔ b = (0, 0) := by
  obtain ⟨T₀, K, T, E, h1, h2, h3, h4, h5⟩ := Stdio.run_exec
    (ops := [.fopen 4 exPath exP none, .scan 4 2 5, .fread 4 2000 1 1 1]) (P := fun _ T E =>
      E = [(.fread 4 2000 1 1 1, { ret := 1, data := [99] }), (.scan 4 2 5, { ret := 2, data := [97, 98] }),
        (.fopen 4 exPath exP none, { ret := 4 })] ∧
      Files.entryOf T 0 = some (.ok exPath, 4, unknownSize) ∧ T.labels.graph (T.shadow 2000) = some (.source false 0 0))
    (by decide +kernel)
  exact ⟨T₀, K, T, E, h1, h2, h3, Files.sourceIs_of_entry h4, Files.denotes_of_source h5⟩

/-- After fgets took a line with a zero byte from a pipe, the fourth byte is said to be the second. -/
theorem C82_zero_refuted :
    ∃ T₀ K T E, Reach Net.exNetCfg 4096 [] T₀ ∧ Exec [] T₀ E K T ∧
      E = [(.fread 4 2000 1 1 1, { ret := 1, data := [98] }), (.fgets 4 1000 10 4, { ret := 3, data := [97, 0, 10] }),
        (.fopen 4 exPath exZ none, { ret := 4 })] ∧
      T.SourceIs 0 exPath 4 unknownSize ∧ ∀ b, Denotes T.labels.graph (T.shadow 2000) b ↔ b = (0, 1) := by
  obtain ⟨T₀, K, T, E, h1, h2, h3, h4, h5⟩ := Stdio.run_exec
    (ops := [.fopen 4 exPath exZ none, .fgets 4 1000 10 4, .fread 4 2000 1 1 1]) (P := fun _ T E =>
      E = [(.fread 4 2000 1 1 1, { ret := 1, data := [98] }), (.fgets 4 1000 10 4, { ret := 3, data := [97, 0, 10] }),
        (.fopen 4 exPath exZ none, { ret := 4 })] ∧
      Files.entryOf T 0 = some (.ok exPath, 4, unknownSize) ∧ T.labels.graph (T.shadow 2000) = some (.source false 0 1))
    (by decide +kernel)
  exact ⟨T₀, K, T, E, h1, h2, h3, Files.sourceIs_of_entry h4, Files.denotes_of_source h5⟩

/-- A stream from fdopen, freopen, tmpfile or popen: nothing has a label. If the descriptor was used before, what is read is
attributed to that file: here the bytes "xy" of another file. -/
theorem C82_adopt_refuted :
    (∃ T₀ K T E, Reach Net.exNetCfg 4096 [] T₀ ∧ Exec [] T₀ E K T ∧
      E = [(.fread 4 1000 1 2 0, { ret := 2, data := [120, 121] }), (.adopt 4 exA, { ret := 4 })] ∧
      T.shadow 1000 = 0 ∧ T.shadow 1001 = 0) ∧
    ∃ T₀ K T E, Reach Net.exNetCfg 4096 [] T₀ ∧ Exec [] T₀ E K T ∧
      E = [(.fread 4 1000 1 2 0, { ret := 2, data := [120, 121] }), (.adopt 4 exA, { ret := 4 }), (.fclose 4, { ret := 0 }),
        (.fopen 4 exPath exF none, { ret := 4 })] ∧
      T.SourceIs 0 exPath 4 unknownSize ∧ ∀ b, Denotes T.labels.graph (T.shadow 1001) b ↔ b = (0, 1) := by
  refine ⟨Stdio.run_exec (ops := [.adopt 4 exA, .fread 4 1000 1 2 0]) (by decide +kernel), ?_⟩
  obtain ⟨T₀, K, T, E, h1, h2, h3, h4, h5⟩ := Stdio.run_exec
    (ops := [.fopen 4 exPath exF none, .fclose 4, .adopt 4 exA, .fread 4 1000 1 2 0]) (P := fun _ T E =>
      E = [(.fread 4 1000 1 2 0, { ret := 2, data := [120, 121] }), (.adopt 4 exA, { ret := 4 }), (.fclose 4, { ret := 0 }),
        (.fopen 4 exPath exF none, { ret := 4 })] ∧
      Files.entryOf T 0 = some (.ok exPath, 4, unknownSize) ∧ T.labels.graph (T.shadow 1001) = some (.source false 0 1))
    (by decide +kernel)
  exact ⟨T₀, K, T, E, h1, h2, h3, Files.sourceIs_of_entry h4, Files.denotes_of_source h5⟩

/-- A stream that appends: the byte goes to position 3 and is recorded at position 0. -/
theorem C82_append_refuted :
    ∃ T₀ K T E, Reach Net.exNetCfg 4096 [] T₀ ∧ Exec [] T₀ E K T ∧
      E.reverse.map Prod.fst = [.fopen 4 exPath exA none, .fread 4 1000 1 1 0, .fseek 4 0, .fwrite 4 1000 1 [120] 1] ∧
      (K.get 4).map (·.data) = some [120, 121, 122, 120] ∧ T.shadow 1000 = 1 ∧ T.sinks = [⟨0, 1, 0⟩] :=
  Stdio.run_exec (ops := [.fopen 4 exPath exA none, .fread 4 1000 1 1 0, .fseek 4 0, .fwrite 4 1000 1 [120] 1])
    (by decide +kernel)

/-- After two bytes were written to a pipe with fputs, the third byte is recorded as the first. -/
theorem C82_puts_refuted :
    ∃ T₀ K T E, Reach Net.exNetCfg 4096 [] T₀ ∧ Exec [] T₀ E K T ∧
      E.reverse.map Prod.fst = [.fopen 4 exPath exP none, .fread 4 1000 1 1 5, .puts 4 [111, 107], .fwrite 4 1000 1 [97] 1] ∧
      (K.get 4).map (·.out) = some [111, 107, 97] ∧ T.shadow 1000 = 1 ∧ T.sinks = [⟨0, 1, 0⟩] :=
  Stdio.run_exec (ops := [.fopen 4 exPath exP none, .fread 4 1000 1 1 5, .puts 4 [111, 107], .fwrite 4 1000 1 [97] 1])
    (by decide +kernel)

/-- putc of a `char` that is negative, here -31, which is written as 225: it has a label and is not recorded. -/
theorem C82_putc_refuted :
    ∃ T₀ K T E, Reach Net.exNetCfg 4096 [] T₀ ∧ Exec [] T₀ E K T ∧
      E.reverse.map Prod.fst = [.fopen 4 exPath exP none, .getc 4 5, .putc 4 (-31) 1] ∧
      (K.get 4).map (·.out) = some [225] ∧ T.sinks = [] ∧ T.labels.graph 1 = some (.source false 0 0) :=
  Stdio.run_exec (ops := [.fopen 4 exPath exP none, .getc 4 5, .putc 4 (-31) 1]) (by decide +kernel)

/-! ### The hypotheses are met -/

def Stdio.obsOf : Res (StdSys × Tracker × StdObs × Nat) → Option (StdObs × Nat)
  | .ok (_, _, o, l) => some (o, l)
  | _ => none

/-- C82_fread_partial, C82_getc_partial, C82_fgets_partial, C82_fwrite_partial, C82_putc_partial, C82_same_partial: a pipe and a
file that was used before under another name. -/
example : ∃ T₀ K T E, Reach Net.exNetCfg 4096 [] T₀ ∧ Exec [] T₀ E K T ∧
    (fopened E 4 = some (exPath, none) ∧ fopened E 5 = some ([103], some 5) ∧ evenIn E 4 = true ∧ evenOut E 4 = true) ∧
    ((K.get 4).map (fun s => (s.regular, s.append, s.pos, s.out)) = some (false, false, 3, [97, 98]) ∧
      (K.get 5).map (fun s => (s.regular, s.append, s.pos, s.back)) = some (true, false, 1, [])) ∧
    (Fits K T (.fread 5 1000 2 9 0) ∧ Fits K T (.getc 4 2) ∧ Fits K T (.fgets 5 1000 3 0) ∧ Fits K T (.fwrite 5 1000 2 [97, 98] 1) ∧
      Fits K T (.putc 4 98 2)) ∧
    (obsOf (step K T (.fread 5 1000 2 9 0)) = some ({ ret := 2, data := [98, 99, 100, 101] }, 0) ∧
      obsOf (step K T (.getc 4 2)) = some ({ ret := 100, data := [100] }, 4) ∧
      obsOf (step K T (.fgets 5 1000 3 0)) = some ({ ret := 2, data := [98, 99] }, 0) ∧
      obsOf (step K T (.fwrite 5 1000 2 [97, 98] 1)) = some ({ ret := 1 }, 0) ∧
      obsOf (step K T (.putc 4 98 2)) = some ({ ret := 98 }, 0)) ∧
    T.sinks.length + 2 ≤ Net.exNetCfg.sinkCap ∧ T.shadow 1000 = 1 :=
  set_option synthInstance.maxSize 1000 in
  set_option synthInstance.maxHeartbeats 200000 in
  Stdio.run_exec (ops := [.fopen 5 exPath exA none, .fclose 5, .fopen 4 exPath exP none, .fread 4 1000 2 1 5,
      .fopen 5 [103] exF (some 5), .fwrite 4 1000 1 [97, 98] 2, .getc 4 5, .fseek 5 1]) (by decide +kernel)

end Verif
