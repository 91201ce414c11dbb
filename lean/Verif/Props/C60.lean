import Verif.FilesSame
import Verif.Props.C42
import Verif.Props.C57
/- C60: files. The labels of bytes read name the file and the position they came from; the records of
bytes written name the position they went to; the instrumented program sees the same files. -/
namespace Verif
open Spec Tracker Files

/-- The open file behind an opened descriptor, in the source table. -/
theorem Files.Good.entry {c : Config} {base : Nat} (hc : c.Ok base) {h : Trace} {K : FileSys} {T : Tracker} {E : FHist}
    (hr : Reach c base h T) (hg : Good h K E) {fd : Nat} {path : List Nat} {size : Option Nat}
    (ho : openedAs E fd = some (path, size)) :
    ∃ i, owner h fd = some i ∧ (registered h)[i]? = some (path, (fd : Int), size.getD unknownSize) ∧
      T.SourceIs i path fd (size.getD unknownSize) := by
  obtain ⟨i, h1, h2⟩ := (owner_lastOpen (nat_ne_neg fd) h).2 path size (hg.last fd path size ho)
  exact ⟨i, h1, h2, sourceIs_of_registered (hr.sim hc) h2⟩

/-- Position of a descriptor as the wrappers find it: that of lseek, else what the tracker counted. -/
theorem Files.Good.known {h : Trace} {K : FileSys} {E : FHist} (hg : Good h K E) {fd : Nat} {p : List Nat × Option Nat}
    (ho : openedAs E fd = some p) {d : Nat} {f : OpenFile} {nd : INode} (hf : K.file fd = some (d, f, nd))
    (ha : nd.regular = true ∨ alone E fd = true) {i : Nat} (hi : owner h fd = some i) :
    (knownPos (K.tell fd)).getD (readPos h i) = f.pos ∧
    (knownPos (K.tell fd)).getD (writePos h i) = if nd.regular then f.pos else f.wpos := by
  cases hn : nd.regular with
  | true => rw [tell_regular hf hn]; exact ⟨rfl, rfl⟩
  | false =>
    rcases ha with ha | ha
    · rw [hn] at ha; cases ha
    · rw [tell_stream hf hn]
      exact hg.pos fd p d f nd ho ha hf hn i hi

theorem Files.read_data {K : FileSys} {fd buf n d : Nat} {f : OpenFile} {nd : INode} (hf : K.file fd = some (d, f, nd))
    (hn : nd.regular = true) {k : Nat} (hk : k < (K.step (.read fd buf n)).2.data.length) :
    (K.step (.read fd buf n)).2.data[k]? = nd.data[f.pos + k]? := by
  simp only [FileSys.step, hf, hn, if_true] at hk ⊢
  rw [List.length_take] at hk
  rw [List.getElem?_take_of_lt (by omega), List.getElem?_drop]

theorem Files.pread_data {K : FileSys} {fd buf n off d : Nat} {f : OpenFile} {nd : INode} (hf : K.file fd = some (d, f, nd))
    {k : Nat} (hk : k < (K.step (.pread fd buf n off)).2.data.length) :
    (K.step (.pread fd buf n off)).2.data[k]? = nd.data[off + k]? := by
  simp only [FileSys.step, hf] at hk ⊢
  split at hk
  · rename_i hn
    rw [if_pos hn]
    simp only [List.length_take] at hk ⊢
    rw [List.getElem?_take_of_lt (by omega), List.getElem?_drop]
  · simp at hk

theorem Files.splice_get (data : List Nat) (pos : Nat) (bytes : List Nat) {k : Nat} (hk : k < bytes.length) :
    (FileSys.splice data pos bytes)[pos + k]? = bytes[k]? := by
  have hl : ((data ++ List.replicate (pos - data.length) 0).take pos).length = pos := by
    rw [List.length_take, List.length_append, List.length_replicate]; omega
  unfold FileSys.splice
  rw [List.append_assoc, List.getElem?_append_right (by omega), hl, Nat.add_sub_cancel_left,
    List.getElem?_append_left hk]

/-- What a tracked read of `o.data` at position `pos` of input `i` into `buf` leaves behind. -/
def Files.Attributed (T T' : Tracker) (buf : Nat) (data : List Nat) (i pos : Nat) : Prop :=
  (∀ k, k < data.length → ∀ b, Denotes T'.labels.graph (T'.shadow (buf + k)) b ↔ b = (i, pos + k)) ∧
  ∀ x, ¬ (buf ≤ x ∧ x < buf + data.length) → T'.shadow x = T.shadow x

theorem Files.attributed_of {c : Config} {base : Nat} (hc : c.Ok base) {h : Trace} {T T' : Tracker} (hr : Reach c base h T)
    {fd i buf : Nat} (hi : owner h fd = some i) {off : Option Nat} {data : List Nat}
    (ha : T.Allowed (.read fd (some buf) off data.length)) {r : Ret}
    (he : T.exec (.read fd (some buf) off data.length) = .ok (T', r)) :
    Attributed T T' buf data i (off.getD (readPos h i)) := by
  have hr' := hr.snoc ha he
  rcases hr.read hc ha he with ⟨h3, -⟩ | ⟨j, h3, h4, h5, h6, h7⟩
  · rw [hi] at h3; cases h3
  · rw [hi] at h3; cases h3
    subst h5
    have hsh : ∀ x, T'.shadow x = if buf ≤ x ∧ x < buf + data.length then T.labels.words.length + (x - buf)
        else T.shadow x := by
      intro x
      rw [(hr'.sim hc).shadow x, (hr.sim hc).shadow x]
      rfl
    refine ⟨fun k hk b => ?_, fun x hx => ?_⟩
    · rw [hsh, if_pos (by omega), Nat.add_sub_cancel_left]
      exact (hr'.given hc (h7 k hk)).2.2 b
    · rw [hsh, if_neg hx]

/-- Reading from a descriptor the program got from open. Every byte delivered is labelled, and its label
stands for exactly one input byte: the position is that of the byte in the file, and the source is an
entry with the path the program opened, the descriptor and the size the file had then. No other memory
changes its label. Pipes, terminals and sockets have no position; there the bytes are counted, which is right as
long as the descriptor is not duplicated (`C60_stream_refuted`). Descriptors that do not come from open
are missing (`C60_openat_refuted`, `C60_dup_refuted`). -/
theorem C60_read_partial {c : Config} {base : Nat} (hc : c.Ok base) {h₀ : Trace} {K₀ K K' : FileSys}
    {T₀ T T' : Tracker} {E : FHist} (hr : Reach c base h₀ T₀) (hw : K₀.WF) (he : Exec K₀ T₀ E K T)
    {fd : Nat} {path : List Nat} {size : Option Nat} (ho : openedAs E fd = some (path, size))
    {d : Nat} {f : OpenFile} {nd : INode} (hf : K.file fd = some (d, f, nd))
    (ha : nd.regular = true ∨ alone E fd = true)
    {va buf n : Nat} {o : FObs} (hfit : Fits K T (.read fd buf n))
    (hs : step va K T (.read fd buf n) = .ok (K', T', o)) :
    ∃ i, T'.SourceIs i path fd (size.getD unknownSize) ∧ Attributed T T' buf o.data i f.pos ∧
      (nd.regular = true → ∀ k, k < o.data.length → o.data[k]? = nd.data[f.pos + k]?) := by
  obtain ⟨h, h1, h2⟩ := he.good hc hr hw
  obtain ⟨i, h3, h4, h5⟩ := h2.entry hc h1 ho
  have hk : K.step (.read fd buf n) = (K', o) := step_kernel hs
  have hd : nd.regular = true → ∀ k, k < o.data.length → o.data[k]? = nd.data[f.pos + k]? := by
    intro hn k hk'
    have := read_data (buf := buf) (n := n) hf hn (k := k)
    rw [hk] at this
    exact this hk'
  rcases step_read hfit hs with ⟨k1, rfl⟩ | ⟨-, k1, r, k2⟩
  · exact ⟨i, h5, ⟨fun k hk' => by omega, fun _ _ => rfl⟩, hd⟩
  · have ha' := attributed_of hc h1 h3 k1 k2
    rw [(h2.known ho hf ha h3).1] at ha'
    exact ⟨i, sourceIs_of_registered ((h1.snoc k1 k2).sim hc) h4, ha', hd⟩

/-- Reading at a given position, for every descriptor that came from open. -/
theorem C60_pread {c : Config} {base : Nat} (hc : c.Ok base) {h₀ : Trace} {K₀ K K' : FileSys}
    {T₀ T T' : Tracker} {E : FHist} (hr : Reach c base h₀ T₀) (hw : K₀.WF) (he : Exec K₀ T₀ E K T)
    {fd : Nat} {path : List Nat} {size : Option Nat} (ho : openedAs E fd = some (path, size))
    {d : Nat} {f : OpenFile} {nd : INode} (hf : K.file fd = some (d, f, nd))
    {va buf n off : Nat} {o : FObs} (hfit : Fits K T (.pread fd buf n off))
    (hs : step va K T (.pread fd buf n off) = .ok (K', T', o)) :
    ∃ i, T'.SourceIs i path fd (size.getD unknownSize) ∧ Attributed T T' buf o.data i off ∧
      ∀ k, k < o.data.length → o.data[k]? = nd.data[off + k]? := by
  obtain ⟨h, h1, h2⟩ := he.good hc hr hw
  obtain ⟨i, h3, h4, h5⟩ := h2.entry hc h1 ho
  have hk : K.step (.pread fd buf n off) = (K', o) := step_kernel hs
  have hd : ∀ k, k < o.data.length → o.data[k]? = nd.data[off + k]? := by
    intro k hk'
    have := pread_data (buf := buf) (n := n) (off := off) hf (k := k)
    rw [hk] at this
    exact this hk'
  rcases step_pread hfit hs with ⟨k1, rfl⟩ | ⟨-, k1, r, k2⟩
  · exact ⟨i, h5, ⟨fun k hk' => by omega, fun _ _ => rfl⟩, hd⟩
  · exact ⟨i, sourceIs_of_registered ((h1.snoc k1 k2).sim hc) h4, attributed_of hc h1 h3 k1 k2, hd⟩

/-- Where the bytes written through a description go. -/
def Files.writeAt (f : OpenFile) (nd : INode) : Nat := if nd.regular then f.pos else f.wpos

/-- Writing to a descriptor the program got from open, without O_APPEND: exactly the labelled bytes are recorded,
in order, each with its label, the entry of that open and the position at which it is in the
file afterwards (for streams: its position among the bytes written). With O_APPEND the position is
wrong (`C60_append_refuted`); nothing is said when the log is full (C22). -/
theorem C60_write_partial {c : Config} {base : Nat} (hc : c.Ok base) {h₀ : Trace} {K₀ K K' : FileSys}
    {T₀ T T' : Tracker} {E : FHist} (hr : Reach c base h₀ T₀) (hw : K₀.WF) (he : Exec K₀ T₀ E K T)
    {fd : Nat} {path : List Nat} {size : Option Nat} (ho : openedAs E fd = some (path, size))
    {d : Nat} {f : OpenFile} {nd : INode} (hf : K.file fd = some (d, f, nd))
    (ha : nd.regular = true ∨ alone E fd = true)
    {va buf : Nat} {bytes : List Nat} {o : FObs} (hfit : Fits K T (.write fd buf bytes))
    (hs : step va K T (.write fd buf bytes) = .ok (K', T', o))
    (hroom : T.sinks.length + bytes.length ≤ c.sinkCap) :
    ∃ i, T'.SourceIs i path fd (size.getD unknownSize) ∧
      T'.sinks = T.sinks ++ ((List.range bytes.length).filter fun k => T.shadow (buf + k) ≠ 0).map (fun k =>
        ⟨writeAt f nd + k, T.shadow (buf + k), i⟩) ∧ T'.shadow = T.shadow ∧ T'.labels = T.labels ∧
      (nd.regular = true → f.append = false → ∃ f' nd', K'.file fd = some (d, f', nd') ∧
        ∀ k, k < bytes.length → nd'.data[writeAt f nd + k]? = bytes[k]?) := by
  obtain ⟨h, h1, h2⟩ := he.good hc hr hw
  obtain ⟨i, h3, h4, h5⟩ := h2.entry hc h1 ho
  have hk : K.step (.write fd buf bytes) = (K', o) := step_kernel hs
  have hd : nd.regular = true → f.append = false → ∃ f' nd', K'.file fd = some (d, f', nd') ∧
        ∀ k, k < bytes.length → nd'.data[writeAt f nd + k]? = bytes[k]? := by
    intro hn hap
    obtain ⟨q1, q2, q3⟩ := FileSys.file_spec hf
    have hlt := (List.getElem?_eq_some_iff.1 q2).1
    have hnl := (List.getElem?_eq_some_iff.1 q3).1
    have hk' := congrArg Prod.fst hk
    simp only [FileSys.step, hf, hn, hap, if_true] at hk'
    subst hk'
    refine ⟨{ f with pos := f.pos + bytes.length }, { nd with data := FileSys.splice nd.data f.pos bytes }, ?_, ?_⟩
    · refine FileSys.file_of (o := d) q1 ?_ ?_
      · simp only [FileSys.setData, FileSys.setFile, List.getElem?_set, hlt, if_true]
        simp [hap]
      · simp only [FileSys.setData, FileSys.setFile, List.getElem?_set, hnl, if_true]
        simp
    · intro k hk
      simp only [writeAt, hn, if_true]
      exact splice_get _ _ _ hk
  rcases step_write hfit hs with ⟨k1, rfl⟩ | ⟨hb, k1, r, k2⟩
  · rcases k1 with k1 | rfl
    · rw [hf] at k1; cases k1
    · exact ⟨i, h5, by simp, rfl, rfl, hd⟩
  · have hal := k1 i (by rw [(((h1.sim hc).tab).choose_spec).mapping hc.src fd, h3])
    rw [(h1.sim hc).wr i] at hal
    have hle : ((List.range bytes.length).filter fun k => T.shadow (buf + k) ≠ 0).length ≤ bytes.length := by
      have := List.length_filter_le (fun k => decide (T.shadow (buf + k) ≠ 0)) (List.range bytes.length)
      rwa [List.length_range] at this
    obtain ⟨T1, m1, m2, m3, m4, m5, -⟩ := (sink_exact hc h1 fd buf (knownPos (K.tell fd)) (some bytes.length)
      (fun e => by simp only [Option.some.injEq] at e; omega) Ret.unit).2 i h3 hb
      (by simp only [Option.getD_some]; omega) (by simp only [Option.getD_some]; omega)
    have e : T.exec (.write fd (knownPos (K.tell fd)) buf bytes.length) = .ok (T1, .unit) := m1
    rw [k2] at e
    cases e
    rw [(h2.known ho hf ha h3).2] at m2
    exact ⟨i, sourceIs_of_registered ((h1.snoc k1 k2).sim hc) h4, m2, m4, m3, hd⟩

/-- A program that creates no files with open finds them as it would without instrumentation, and gets the
same results and the same bytes. -/
theorem C60_same_partial {K₀ K : FileSys} {T₀ T : Tracker} {E : FHist} (he : Exec K₀ T₀ E K T)
    (hc : ∀ path fl mode, .opn path fl mode ∈ E.map Prod.fst → fl.creat = false) :
    K₀.run (E.reverse.map Prod.fst) = (K, E.reverse.map Prod.snd) :=
  he.same hc

/-- A program for which permissions are not checked gets the same results and the same bytes, and
leaves the same files behind, except for the permission bits of the files it creates. -/
theorem C60_root_partial {K₀ K : FileSys} {T₀ T : Tracker} {E : FHist} (he : Exec K₀ T₀ E K T) (hroot : K₀.root = true) :
    FileSys.Alike K (K₀.run (E.reverse.map Prod.fst)).1 ∧
      E.reverse.map Prod.snd = (K₀.run (E.reverse.map Prod.fst)).2 :=
  ⟨(he.alike hroot).1, (he.alike hroot).2.2⟩

theorem Files.newMode_aligned (umask va : Nat) (hva : va % 8 = 0) : FileSys.newMode umask (va % 2 ^ 32) % 8 = 0 := by
  have e : ∀ a b : Nat, (a &&& b) % 8 = (a % 8) &&& (b % 8) := fun a b => Nat.and_mod_two_pow (n := 3)
  have h : va % 2 ^ 32 % 8 = 0 := by omega
  unfold FileSys.newMode
  rw [e, e, h]
  simp

/-- The mode given to open is lost. Whatever permissions for others the program asks for (and the umask
grants), the new file never has them: its mode is taken from the address of the argument list, which is a multiple
of eight. -/
theorem C60_mode_refuted {va : Nat} (hva : va % 8 = 0) {K K' : FileSys} {T T' : Tracker} {path : List Nat} {fl : OFlags}
    {mode : Nat} {o : FObs} (hn : K.names path = none) (hfl : fl.creat = true)
    (hm : FileSys.newMode K.umask mode % 8 ≠ 0) (hs : step va K T (.opn path fl mode) = .ok (K', T', o)) :
    ∃ n nd, K'.names path = some n ∧ K'.nodes[n]? = some nd ∧ nd.mode % 8 = 0 ∧ nd.mode ≠ FileSys.newMode K.umask mode ∧
      ((K.step (.opn path fl mode)).1.nodes[n]?).map (·.mode) = some (FileSys.newMode K.umask mode) := by
  have hk := congrArg Prod.fst (step_kernel hs)
  simp only [seen, FileSys.step, FileSys.opn, hn, hfl, if_true] at hk
  subst hk
  have h1 := newMode_aligned K.umask va hva
  refine ⟨K.nodes.length, { data := [], mode := FileSys.newMode K.umask (va % 2 ^ 32), regular := true }, ?_, ?_, h1, ?_, ?_⟩
  · simp [FileSys.attach, FileSys.install, FileSys.create]
  · simp [FileSys.attach, FileSys.install, FileSys.create]
  · intro e; rw [← e] at hm; exact hm h1
  · simp [FileSys.step, FileSys.opn, hn, hfl, FileSys.attach, FileSys.install, FileSys.create]

/-! ### Concrete runs -/

instance (K : FileSys) (T : Tracker) (op : FileOp) : Decidable (Fits K T op) := by
  cases op <;> (unfold Fits; infer_instance)

/-- Perform operations, oldest first, checking the limits before each. -/
def Files.script (va : Nat) : FileSys → Tracker → FHist → List FileOp → Option (FileSys × Tracker × FHist)
  | K, T, E, [] => some (K, T, E)
  | K, T, E, op :: ops =>
    if Fits K T op then
      match step va K T op with
      | .ok (K', T', o) => script va K' T' ((op, o) :: E) ops
      | _ => none
    else none

theorem Files.script_exec {va : Nat} {K₀ : FileSys} {T₀ : Tracker} (ops : List FileOp) : ∀ {K K' : FileSys} {T T' : Tracker}
    {E E' : FHist}, Exec K₀ T₀ E K T → script va K T E ops = some (K', T', E') → Exec K₀ T₀ E' K' T' := by
  induction ops with
  | nil => intro K K' T T' E E' he hs; cases hs; exact he
  | cons op ops ih =>
    intro K K' T T' E E' he hs
    simp only [script] at hs
    split at hs
    · rename_i hf
      split at hs
      · rename_i hst
        exact ih (.file he hf hst) hs
      · cases hs
    · cases hs

theorem Files.run_exec {va : Nat} {K₀ : FileSys} {ops : List FileOp} {P : FileSys → Tracker → FHist → Prop}
    [∀ K T E, Decidable (P K T E)]
    (h : (match Tracker.init exCfg 4096 with
      | .ok T₀ => match script va K₀ T₀ [] ops with
        | some (K, T, E) => decide (P K T E)
        | none => false
      | _ => false) = true) :
    ∃ T₀ K T E, Reach exCfg 4096 [] T₀ ∧ Exec K₀ T₀ E K T ∧ P K T E := by
  split at h
  · rename_i T₀ h0
    split at h
    · rename_i K T E hs
      exact ⟨T₀, K, T, E, ⟨T₀, h0, .nil⟩, script_exec ops .nil hs, by simpa using h⟩
    · cases h
  · cases h

/-- Files a = "hello", b = "world", a pipe p with "12345"; standard input, output and error are a terminal. -/
def Files.exK : FileSys where
  root := false
  umask := 0o022
  names := fun p => if p = [97] then some 1 else if p = [98] then some 2 else if p = [112] then some 3 else none
  nodes := [⟨[], 0o620, false⟩, ⟨[104, 101, 108, 108, 111], 0o644, true⟩, ⟨[119, 111, 114, 108, 100], 0o644, true⟩,
    ⟨[49, 50, 51, 52, 53], 0o644, false⟩]
  files := [⟨0, 0, 0, false⟩]
  fds := [some 0, some 0, some 0]

theorem Files.exK_wf : exK.WF := by
  refine ⟨fun fd o h => ?_, by decide, fun p n h => ?_⟩
  · have hlt := (List.getElem?_eq_some_iff.1 h).1
    have h3 : fd < 3 := hlt
    match fd, h3 with
    | 0, _ => cases h; decide
    | 1, _ => cases h; decide
    | 2, _ => cases h; decide
  · simp only [exK] at h ⊢
    repeat' split at h
    all_goals first | (cases h; decide) | cases h

/-- Entry `i` of the source table, spelled out. -/
def Files.entryOf (T : Tracker) (i : Nat) : Option (Res (List Nat) × Int × Nat) :=
  T.sources[i]?.map fun e => (StrTab.fromOffset T.strings e.nameOff, e.fd, e.size)

theorem Files.sourceIs_of_entry {T : Tracker} {i : Nat} {name : List Nat} {fd : Int} {size : Nat}
    (h : entryOf T i = some (.ok name, fd, size)) : T.SourceIs i name fd size := by
  unfold entryOf at h
  cases he : T.sources[i]? with
  | none => rw [he] at h; cases h
  | some e =>
    rw [he] at h
    simp only [Option.map_some, Option.some.injEq, Prod.mk.injEq] at h
    exact ⟨e, he, h.1, h.2.1, h.2.2⟩

theorem Files.denotes_of_source {g : Graph} {l i o : Nat} {cf : Bool} (h : g l = some (.source cf i o)) (b : Nat × Nat) :
    Denotes g l b ↔ b = (i, o) := by
  rw [denotes_iff h]; rfl

/-- The program creates a file for its owner to read and write, closes it and opens it again. Without
instrumentation that works; here the file has mode 0 and cannot be opened (for addresses of the argument list
with bit 8 clear, like half of all). -/
theorem C60_reopen_refuted :
    ∃ T₀ K T E, Reach exCfg 4096 [] T₀ ∧ Exec exK T₀ E K T ∧
      E.reverse.map Prod.fst = [.opn [110] { creat := true } 0o600, .close 3, .opn [110] {} 0] ∧
      E.reverse.map (·.2.ret) = [3, 0, -1] ∧
      (exK.run (E.reverse.map Prod.fst)).2.map (·.ret) = [3, 0, 3] :=
  run_exec (va := 0x7ffd12345008) (ops := [.opn [110] { creat := true } 0o600, .close 3, .opn [110] {} 0])
    (by decide +kernel)

/-- Files opened with openat are not tracked: the bytes read have no label. And if an earlier open used the
same number, they are attributed to the file opened then: here "he", the first bytes of a, to b. -/
theorem C60_openat_refuted :
    (∃ T₀ K T E, Reach exCfg 4096 [] T₀ ∧ Exec exK T₀ E K T ∧
      E = [(.read 3 1000 2, { ret := 2, data := [104, 101] }), (.openat [97] {} 0, { ret := 3, size := some 5 })] ∧
      T.shadow 1000 = 0) ∧
    ∃ T₀ K T E, Reach exCfg 4096 [] T₀ ∧ Exec exK T₀ E K T ∧
      E = [(.read 3 1000 2, { ret := 2, data := [104, 101] }), (.openat [97] {} 0, { ret := 3, size := some 5 }),
        (.close 3, { ret := 0 }), (.opn [98] {} 0, { ret := 3, size := some 5 })] ∧
      T.SourceIs 0 [98] 3 5 ∧ ∀ b, Denotes T.labels.graph (T.shadow 1000) b ↔ b = (0, 0) := by
  refine ⟨run_exec (va := 0x7ffd12345008) (ops := [.openat [97] {} 0, .read 3 1000 2]) (by decide +kernel), ?_⟩
  obtain ⟨T₀, K, T, E, h1, h2, h3, h4, h5⟩ := run_exec (va := 0x7ffd12345008) (K₀ := exK)
    (ops := [.opn [98] {} 0, .close 3, .openat [97] {} 0, .read 3 1000 2]) (P := fun _ T E =>
      E = [(.read 3 1000 2, { ret := 2, data := [104, 101] }), (.openat [97] {} 0, { ret := 3, size := some 5 }),
        (.close 3, { ret := 0 }), (.opn [98] {} 0, { ret := 3, size := some 5 })] ∧
      entryOf T 0 = some (.ok [98], 3, 5) ∧ T.labels.graph (T.shadow 1000) = some (.source false 0 0))
    (by decide +kernel)
  exact ⟨T₀, K, T, E, h1, h2, h3, sourceIs_of_entry h4, denotes_of_source h5⟩

/-- Duplicated descriptors are not tracked. -/
theorem C60_dup_refuted :
    ∃ T₀ K T E, Reach exCfg 4096 [] T₀ ∧ Exec exK T₀ E K T ∧
      E = [(.read 4 1000 2, { ret := 2, data := [104, 101] }), (.dup 3, { ret := 4 }),
        (.opn [97] {} 0, { ret := 3, size := some 5 })] ∧ T.shadow 1000 = 0 ∧ T.shadow 1001 = 0 :=
  run_exec (va := 0x7ffd12345008) (ops := [.opn [97] {} 0, .dup 3, .read 4 1000 2]) (by decide +kernel)

/-- A pipe read through a duplicate: the byte "3" read then through the original is its third, but the label says
first. -/
theorem C60_stream_refuted :
    ∃ T₀ K T E, Reach exCfg 4096 [] T₀ ∧ Exec exK T₀ E K T ∧
      E = [(.read 3 2000 1, { ret := 1, data := [51] }), (.read 4 1000 2, { ret := 2, data := [49, 50] }),
        (.dup 3, { ret := 4 }), (.opn [112] {} 0, { ret := 3 })] ∧
      T.SourceIs 0 [112] 3 unknownSize ∧ ∀ b, Denotes T.labels.graph (T.shadow 2000) b ↔ b = (0, 0) := by
  obtain ⟨T₀, K, T, E, h1, h2, h3, h4, h5⟩ := run_exec (va := 0x7ffd12345008) (K₀ := exK)
    (ops := [.opn [112] {} 0, .dup 3, .read 4 1000 2, .read 3 2000 1]) (P := fun _ T E =>
      E = [(.read 3 2000 1, { ret := 1, data := [51] }), (.read 4 1000 2, { ret := 2, data := [49, 50] }),
        (.dup 3, { ret := 4 }), (.opn [112] {} 0, { ret := 3 })] ∧
      entryOf T 0 = some (.ok [112], 3, unknownSize) ∧ T.labels.graph (T.shadow 2000) = some (.source false 0 0))
    (by decide +kernel)
  exact ⟨T₀, K, T, E, h1, h2, h3, sourceIs_of_entry h4, denotes_of_source h5⟩

/-- Appending: two bytes of a are appended to b, where they are bytes 5 and 6; the records say 0 and 1. -/
theorem C60_append_refuted :
    ∃ T₀ K T E, Reach exCfg 4096 [] T₀ ∧ Exec exK T₀ E K T ∧
      E.reverse.map Prod.fst = [.opn [97] {} 0, .read 3 1000 2, .opn [98] { append := true } 0, .write 4 1000 [104, 101]] ∧
      (K.nodes[2]?).map (·.data) = some [119, 111, 114, 108, 100, 104, 101] ∧
      T.sinks = [⟨0, 1, 1⟩, ⟨1, 2, 1⟩] ∧ T.shadow 1000 = 1 ∧ T.shadow 1001 = 2 :=
  run_exec (va := 0x7ffd12345008)
    (ops := [.opn [97] {} 0, .read 3 1000 2, .opn [98] { append := true } 0, .write 4 1000 [104, 101]])
    (by decide +kernel)

/-! ### The hypotheses are met -/

def Files.dataOf : Res (FileSys × Tracker × FObs) → Option (List Nat)
  | .ok (_, _, o) => some o.data
  | _ => none

/-- C60_read_partial and C60_pread: a and the pipe are open, the position of a was changed; the next read
succeeds. -/
example : ∃ T₀ K T E, Reach exCfg 4096 [] T₀ ∧ Exec exK T₀ E K T ∧
    openedAs E 3 = some ([97], some 5) ∧ openedAs E 4 = some ([112], none) ∧ alone E 4 = true ∧
    ((K.file 3).map (·.2.1.pos) = some 3 ∧ (K.file 4).map (·.2.1.pos) = some 2) ∧
    (Fits K T (.read 3 1000 2) ∧ Fits K T (.pread 3 1000 4 1)) ∧
    dataOf (step 0 K T (.read 3 1000 2)) = some [108, 111] ∧ dataOf (step 0 K T (.read 4 1000 2)) = some [51, 52] ∧
    dataOf (step 0 K T (.pread 3 1000 4 1)) = some [101, 108, 108, 111] :=
  set_option synthInstance.maxSize 1000 in
  set_option synthInstance.maxHeartbeats 200000 in
  run_exec (va := 0x7ffd12345008) (ops := [.opn [97] {} 0, .opn [112] {} 0, .read 4 1000 2, .lseek 3 3])
    (by decide +kernel)

/-- C60_write_partial: a tainted byte is written into the middle of b. -/
example : ∃ T₀ K T E, Reach exCfg 4096 [] T₀ ∧ Exec exK T₀ E K T ∧
    openedAs E 4 = some ([98], some 5) ∧ (K.file 4).map (fun x => (x.2.1.pos, x.2.2.regular)) = some (2, true) ∧
    Fits K T (.write 4 1000 [104, 120]) ∧ T.sinks.length + 2 ≤ exCfg.sinkCap ∧ T.shadow 1000 = 1 ∧ T.shadow 1001 = 0 ∧
    dataOf (step 0 K T (.write 4 1000 [104, 120])) = some [] :=
  run_exec (va := 0x7ffd12345008) (ops := [.opn [97] {} 0, .read 3 1000 1, .opn [98] {} 0, .lseek 4 2])
    (by decide +kernel)

/-- C60_same_partial: the run before. C60_root_partial: with permissions unchecked. C60_mode_refuted: mode 0666. -/
example : ∃ T₀ K T E, Reach exCfg 4096 [] T₀ ∧ Exec { exK with root := true } T₀ E K T ∧
    E.reverse.map Prod.fst = [.opn [110] { creat := true } 0o666, .write 3 1000 [1, 2], .close 3, .opn [110] {} 0, .read 3 1000 9] ∧
    E.reverse.map (·.2.ret) = [3, 2, 0, 3, 2] ∧ (K.nodes[4]?).map (·.mode) = some 0 ∧
    FileSys.newMode exK.umask 0o666 = 0o644 :=
  run_exec (va := 0x7ffd12346000)
    (ops := [.opn [110] { creat := true } 0o666, .write 3 1000 [1, 2], .close 3, .opn [110] {} 0, .read 3 1000 9])
    (by decide +kernel)

end Verif
