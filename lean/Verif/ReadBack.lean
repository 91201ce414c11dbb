import Verif.FileLemmas
import Verif.TraceLemmas
import Verif.Props.C14
import Verif.Props.C23
/- What the reader gets from the file of a finished run. -/
namespace Verif
open Spec Py File Tracker

/-! ### Strings -/

theorem readString_any (pre post : List (List Nat)) (s : List Nat) (hl : s.length ≤ 65535) :
    readString ((pre ++ s :: post).flatMap StrTab.block) (pre.flatMap StrTab.block).length =
      (do guard (utf8 s = true); return s) := by
  have hm : (pre ++ s :: post).flatMap StrTab.block = pre.flatMap StrTab.block ++ (le 2 s.length ++ (s ++
      (List.replicate (StrTab.allocatedLen s.length - (2 + s.length)) 0 ++ post.flatMap StrTab.block))) := by
    simp [StrTab.block, StrTab.lenSize]
  have hlen : (pre.flatMap StrTab.block).length + 2 + s.length ≤
      ((pre ++ s :: post).flatMap StrTab.block).length := by
    rw [hm]; simp only [List.length_append, le_length]; omega
  have h1 : uint 2 (pre.flatMap StrTab.block).length ((pre ++ s :: post).flatMap StrTab.block) =
      some s.length := by
    rw [uint, if_pos (by omega), hm, List.drop_left, List.take_left' (le_length _ _),
      unle_le_of_lt (by omega)]
  have h2 : slice ((pre ++ s :: post).flatMap StrTab.block) ((pre.flatMap StrTab.block).length + 2)
      ((pre.flatMap StrTab.block).length + 2 + s.length) = s := by
    rw [hm, ← List.append_assoc, slice_mid _ _ _ (by simp) (Nat.le_refl _), List.take_length]
  simp only [readString, h1, h2, hlen, guard, if_true, Option.bind_eq_bind, Option.bind_some, pure]

theorem readString_block (pre post : List (List Nat)) (s : List Nat) (hl : s.length ≤ 65535)
    (hu : utf8 s = true) :
    readString ((pre ++ s :: post).flatMap StrTab.block) (pre.flatMap StrTab.block).length = some s := by
  rw [readString_any pre post s hl, hu]; rfl

/-! ### Signed fields -/

theorem signed_fd {fd : Int} (h1 : -2 ^ 31 ≤ fd) (h2 : fd < 2 ^ 31) :
    signed 4 (fd % 2 ^ 32).toNat = fd := by
  unfold signed
  split <;> omega

theorem signed_small {k v : Nat} (h : v < 2 ^ (8 * k - 1)) : signed k v = v := by
  rw [signed, if_pos h]

theorem decFd_enc {e : SourceEntry} (h0 : e.nameOff < 2 ^ 32) (h1 : -2 ^ 31 ≤ e.fd) (h2 : e.fd < 2 ^ 31)
    (h3 : e.size < 2 ^ 64) : decFd (encSource e) = ⟨e.nameOff, e.fd, e.size⟩ := by
  have hlt : (e.fd % 2 ^ 32).toNat < 256 ^ 4 := by
    have := Int.emod_lt_of_pos e.fd (show (0 : Int) < 2 ^ 32 by decide)
    omega
  have e1 := fld_at (n := 4) (v := e.nameOff) (off := 0) [] (le 4 (e.fd % 2 ^ 32).toNat ++ le 8 e.size) rfl h0
  have e2 := fld_at (n := 4) (v := (e.fd % 2 ^ 32).toNat) (off := 4) (le 4 e.nameOff) (le 8 e.size) (by simp) hlt
  have e3 := fld_at (n := 8) (v := e.size) (off := 8) (le 4 e.nameOff ++ le 4 (e.fd % 2 ^ 32).toNat) [] (by simp) h3
  simp only [List.append_assoc, List.nil_append, List.append_nil] at e1 e2 e3
  simp only [decFd, encSource, List.append_assoc]
  rw [e1, e2, e3, signed_fd h1 h2]

theorem decSink_enc {e : SinkEntry} (p : Nat × Nat × Nat) (h0 : e.offset < 2 ^ 63) (h1 : e.label < 2 ^ 32)
    (h2 : e.sink < 256) : decSink (encSink p e) = ⟨e.offset, e.label, e.sink⟩ := by
  have e1 := fld_at (n := 8) (v := e.offset) (off := 0) [] (le 4 e.label ++ (le 1 e.sink ++ [p.1, p.2.1, p.2.2])) rfl
    (by omega)
  have e2 := fld_at (n := 4) (v := e.label) (off := 8) (le 8 e.offset) (le 1 e.sink ++ [p.1, p.2.1, p.2.2]) (by simp) h1
  have e3 := fld_at (n := 1) (v := e.sink) (off := 12) (le 8 e.offset ++ le 4 e.label) [p.1, p.2.1, p.2.2] (by simp) h2
  simp only [List.append_assoc, List.nil_append] at e1 e2 e3
  simp only [decSink, encSink, List.append_assoc]
  rw [e1, e2, e3, signed_small h0]

theorem decEvent_enc {e : FnEvent} (p : Nat) (h0 : e.kind < 256) (h1 : e.fn < 2 ^ 16) :
    decEvent (encEvent p e) = (e.kind, e.fn) := by
  have e1 := fld_at (n := 1) (v := e.kind) (off := 0) [] ([p] ++ le 2 e.fn) rfl h0
  have e2 := fld_at (n := 2) (v := e.fn) (off := 2) (le 1 e.kind ++ [p]) [] (by simp) h1
  simp only [List.append_assoc, List.nil_append, List.append_nil] at e1 e2
  simp only [decEvent, encEvent, List.append_assoc]
  rw [e1, e2]

/-! ### The section loop for the eight sections of a trace -/

/-- A trace file with the given sections, before the headers are read. -/
def fileOf (sec : Nat → List Nat) : TDFile :=
  TDFile.mk ⟨[84, 68, 65, 71], 44, 8⟩ (some (sec 0)) (some (sec 1)) (some (sec 2)) (some (sec 3))
    (some (sec 4)) (some (sec 5)) (some (sec 6)) (some (sec 7)) [] []

/-- The slice of the file described by entry `i` of the header. -/
def secOf (os : List (Nat × Nat)) (m : List Nat) (i : Nat) : List Nat :=
  match os[i]? with
  | some (o, z) => slice m o (o + z)
  | none => []

/-- The eight sections of a file, taken as slices. -/
theorem parse_header (c : Config) (os : List (Nat × Nat)) (rest : List Nat) (hos : os.length = 8)
    (hb : ∀ p ∈ os, p.1 < 2 ^ 64 ∧ p.2 < 2 ^ 64)
    (h5 : ∀ o z, os[4]? = some (o, z) →
      (slice (header c.specs os ++ rest) o (o + z)).length % 8 = 0) :
    let m := header c.specs os ++ rest
    let F : TDFile := fileOf (secOf os m)
    parse m = (do
      let fd ← readFdHeaders F
      let fn ← readFnHeaders F
      return { F with fdHeaders := fd, fnHeaders := fn }) := by
  match os, hos with
  | [p0, p1, p2, p3, p4, p5, p6, p7], _ =>
    intro m F
    obtain ⟨g1, g2, g3, g4⟩ := parse_meta c.specs [p0, p1, p2, p3, p4, p5, p6, p7] rest
      (by simp [magic, Config.specs]) (by simp [Config.specs])
    have hg := fun (i : Nat) (s : SecSpec) (p : Nat × Nat) (hi : (c.specs.zip [p0, p1, p2, p3, p4, p5, p6, p7])[i]? = some (s, p))
      (hs : s.tag < 2 ^ 32 ∧ s.align < 2 ^ 32) (hp : p.1 < 2 ^ 64 ∧ p.2 < 2 ^ 64) =>
      readSecMeta_header c.specs [p0, p1, p2, p3, p4, p5, p6, p7] rest (o := p.1) (z := p.2) hi hs.1 hs.2 hp.1 hp.2
    have r0 := hg 0 _ p0 rfl (by simp) (hb _ (by simp))
    have r1 := hg 1 _ p1 rfl (by simp) (hb _ (by simp))
    have r2 := hg 2 _ p2 rfl (by simp) (hb _ (by simp))
    have r3 := hg 3 _ p3 rfl (by simp) (hb _ (by simp))
    have r4 := hg 4 _ p4 rfl (by simp) (hb _ (by simp))
    have r5 := hg 5 _ p5 rfl (by simp) (hb _ (by simp))
    have r6 := hg 6 _ p6 rfl (by simp) (hb _ (by simp))
    have r7 := hg 7 _ p7 rfl (by simp) (hb _ (by simp))
    have h5' := h5 p4.1 p4.2 rfl
    simp only [parse, m, g1, g2, g3, g4, guard, if_true, Option.bind_eq_bind, pure, Option.bind_some]
    have hmag : magic c.specs = 44 := by simp [magic, Config.specs]
    have hlen : c.specs.length = 8 := rfl
    simp only [hmag, hlen, addSections, r0, r1, r2, r3, r4, r5, r6, r7, Nat.reduceAdd,
      Option.bind_eq_bind, Option.bind_some, addSection, h5', if_true]
    rfl

/-! ### The sections of a finished run -/

/-- The used bytes of each section. -/
def used (pads : Pads) (T : Tracker) : Nat → List Nat
  | 0 => T.sources.flatMap encSource
  | 1 => T.labels.words.flatMap (le 8)
  | 2 => T.strings.mem.take T.strings.pos
  | 3 => T.sinks.zipIdx.flatMap fun p => encSink (pads.sink p.2) p.1
  | 4 => (T.index.buckets.take T.index.used).flatMap (le 8)
  | 5 => T.fns.flatMap (le 4)
  | 6 => T.events.zipIdx.flatMap fun p => encEvent (pads.event p.2) p.1
  | 7 => T.cflog.mem.take T.cflog.pos
  | _ => []

theorem encSource_length (e : SourceEntry) : (encSource e).length = 16 := by simp [encSource]
theorem encSink_length (p : Nat × Nat × Nat) (e : SinkEntry) : (encSink p e).length = 16 := by simp [encSink]
theorem encEvent_length (p : Nat) (e : FnEvent) : (encEvent p e).length = 4 := by simp [encEvent]

theorem contents_length (pads : Pads) (T : Tracker) :
    (contents pads T).map (fun x => x.1.length) = [16 * T.sources.length, 8 * T.labels.words.length,
      T.strings.mem.length, 16 * T.sinks.length, 8 * T.index.buckets.length, 4 * T.fns.length,
      4 * T.events.length, T.cflog.mem.length] := by
  simp only [contents, List.map_cons, List.map_nil]
  rw [flatMap_length (sz := 16) _ (fun e _ => encSource_length e),
    flatMap_length (sz := 8) _ (fun e _ => le_length _ _),
    flatMap_length (sz := 16) T.sinks.zipIdx (fun e _ => encSink_length _ _),
    flatMap_length (sz := 8) _ (fun e _ => le_length _ _),
    flatMap_length (sz := 4) _ (fun e _ => le_length _ _),
    flatMap_length (sz := 4) T.events.zipIdx (fun e _ => encEvent_length _ _)]
  simp

/-- Everything fits its section. -/
structure Fits (c : Config) (T : Tracker) : Prop where
  src : T.sources.length ≤ c.srcCap
  lab : T.labels.words.length ≤ c.labelCap
  str : T.strings.mem.length = c.strSize
  sink : T.sinks.length ≤ c.sinkCap
  idx : T.index.buckets.length = Bitmap.bucketCount 64 c.indexCap
  idxW : T.index.W = 64
  fn : T.fns.length ≤ c.fnCap
  ev : T.events.length ≤ c.evCap
  log : T.cflog.mem.length = c.logSize
  strPos : T.strings.pos ≤ T.strings.mem.length
  logPos : T.cflog.pos ≤ T.cflog.mem.length

theorem Tracker.Sim.fits {c : Config} {base : Nat} (hc : c.Ok base) {h : Trace} {T : Tracker} (hs : Sim c h T) :
    Fits c T := by
  obtain ⟨ss, ht⟩ := hs.tab
  have hg := hs.lab.reach.good hc.lab0 hc.lab
  have hcap := hs.lab.reach.cap hc.lab0 hc.lab
  refine ⟨ht.srcCap, ?_, ht.size, ?_, hs.lab.index.len, hs.lab.index.w, ht.fnCap, hs.evLen, hs.logLen,
    ht.strs.ok.pos, hs.logOk.pos⟩
  · have := hg.wf.fits; omega
  · rw [hs.sinks, List.length_map]; exact List.length_take_le _ _

theorem Fits.all {c : Config} {T : Tracker} (hf : Fits c T) (pads : Pads) :
    ∀ x ∈ c.specs.zip ((contents pads T).map (·.1)), x.2.length ≤ x.1.alloc := by
  have hl := contents_length pads T
  simp only [contents, List.map_cons, List.map_nil, List.cons.injEq, and_true] at hl
  obtain ⟨l0, l1, l3, l4, l5, l6⟩ := hl
  obtain ⟨f0, f1, f2, f3, f4, f5, f6, f7, f8, f9, f10⟩ := hf
  intro x hx
  simp only [Config.specs, contents, List.map_cons, List.map_nil, List.zip_cons_cons, List.zip_nil_left,
    List.mem_cons, List.not_mem_nil, or_false] at hx
  have hal : Bitmap.allocationSize 64 c.indexCap = Bitmap.bucketCount 64 c.indexCap * 8 := rfl
  rcases hx with rfl | rfl | rfl | rfl | rfl | rfl | rfl | rfl <;> simp only <;> omega

/-- Offsets and allocations stay below 2^64. -/
theorem offsets_lt {c : Config} {base : Nat} (hc : c.Ok base) {i o : Nat} {s : SecSpec}
    (hs : c.specs[i]? = some s) (ho : (offsets c base)[i]? = some o) : o + s.alloc < 2 ^ 64 := by
  obtain ⟨b, hb2, rfl⟩ : ∃ b, (Layout.begins base c.specs)[i]? = some b ∧ b - base = o := by
    simpa [offsets] using ho
  have h1 := C16_disjoint base c.specs (by simp [Config.specs]) i b s hb2 hs
  have h2 := hc.addr
  omega

theorem offsets_length (c : Config) (base : Nat) : (offsets c base).length = 8 := by
  rw [offsets, List.length_map, C16_all]; rfl

/-- The slices named by the header of a finished file are the used bytes of the sections. -/
theorem closed_section {pads : Pads} {c : Config} {base : Nat} {T : Tracker}
    (hf : Fits c T) (hidx : T.index.used ≤ T.index.buckets.length) {i o z : Nat}
    (hi : ((offsets c base).zip ((contents pads T).map (·.2)))[i]? = some (o, z)) :
    slice (closed pads c base T) o (o + z) = used pads T i ∧
      ∃ s, c.specs[i]? = some s ∧ z ≤ s.alloc := by
  have hall := hf.all pads
  have hl := contents_length pads T
  rw [List.getElem?_zip_eq_some] at hi
  obtain ⟨ho, hz⟩ := hi
  have hlt : i < 8 := by
    have := (List.getElem?_eq_some_iff.1 ho).1
    rw [offsets_length] at this; exact this
  have key : ∀ (s : SecSpec) (bs : List Nat), c.specs[i]? = some s →
      ((contents pads T).map (·.1))[i]? = some bs → z ≤ bs.length →
      slice (closed pads c base T) o (o + z) = bs.take z ∧ z ≤ s.alloc := by
    intro s bs h1 h2 h3
    have hle : bs.length ≤ s.alloc := hall (s, bs) (List.mem_of_getElem? (i := i) (by
      rw [List.getElem?_zip_eq_some]; exact ⟨h1, h2⟩))
    refine ⟨?_, by omega⟩
    rw [closed, image_section (by simp [contents]) hall h1 h2 ho (by omega), padTo,
      List.take_append_of_le_length h3]
  simp only [contents, List.map_cons, List.map_nil, List.cons.injEq, and_true] at hl
  obtain ⟨l0, l1, l3, l4, l5, l6⟩ := hl
  obtain ⟨f0, f1, f2, f3, f4, f5, f6, f7, f8, f9, f10⟩ := hf
  obtain rfl | rfl | rfl | rfl | rfl | rfl | rfl | rfl : i = 0 ∨ i = 1 ∨ i = 2 ∨ i = 3 ∨ i = 4 ∨ i = 5 ∨ i = 6 ∨
      i = 7 := by omega
  · obtain rfl : z = 16 * T.sources.length := (Option.some.inj hz).symm
    obtain ⟨k1, k2⟩ := key _ (T.sources.flatMap encSource) rfl rfl (by omega)
    exact ⟨by rw [k1, List.take_of_length_le (by omega)]; rfl, _, rfl, k2⟩
  · obtain rfl : z = 8 * T.labels.words.length := (Option.some.inj hz).symm
    obtain ⟨k1, k2⟩ := key _ (T.labels.words.flatMap (le 8)) rfl rfl (by omega)
    exact ⟨by rw [k1, List.take_of_length_le (by omega)]; rfl, _, rfl, k2⟩
  · obtain rfl : z = T.strings.size := (Option.some.inj hz).symm
    obtain ⟨k1, k2⟩ := key _ (T.strings.mem) rfl rfl f9
    exact ⟨k1, _, rfl, k2⟩
  · obtain rfl : z = 16 * T.sinks.length := (Option.some.inj hz).symm
    obtain ⟨k1, k2⟩ := key _ (T.sinks.zipIdx.flatMap fun p => encSink (pads.sink p.2) p.1) rfl rfl (by omega)
    exact ⟨by rw [k1, List.take_of_length_le (by omega)]; rfl, _, rfl, k2⟩
  · obtain rfl : z = T.index.size := (Option.some.inj hz).symm
    have hsz : T.index.size = 8 * T.index.used := by rw [Bitmap.size, f5, Nat.mul_comm]
    obtain ⟨k1, k2⟩ := key _ (T.index.buckets.flatMap (le 8)) rfl rfl (by rw [hsz]; omega)
    refine ⟨?_, _, rfl, k2⟩
    rw [k1]
    show (T.index.buckets.flatMap (le 8)).take T.index.size = (T.index.buckets.take T.index.used).flatMap (le 8)
    conv => lhs; rw [← List.take_append_drop T.index.used T.index.buckets, List.flatMap_append]
    rw [List.take_left']
    rw [flatMap_length (sz := 8) _ (fun e _ => le_length _ _), List.length_take, Nat.min_eq_left hidx, hsz]
  · obtain rfl : z = 4 * T.fns.length := (Option.some.inj hz).symm
    obtain ⟨k1, k2⟩ := key _ (T.fns.flatMap (le 4)) rfl rfl (by omega)
    exact ⟨by rw [k1, List.take_of_length_le (by omega)]; rfl, _, rfl, k2⟩
  · obtain rfl : z = 4 * T.events.length := (Option.some.inj hz).symm
    obtain ⟨k1, k2⟩ := key _ (T.events.zipIdx.flatMap fun p => encEvent (pads.event p.2) p.1) rfl rfl (by omega)
    exact ⟨by rw [k1, List.take_of_length_le (by omega)]; rfl, _, rfl, k2⟩
  · obtain rfl : z = T.cflog.size := (Option.some.inj hz).symm
    obtain ⟨k1, k2⟩ := key _ (T.cflog.mem) rfl rfl f10
    exact ⟨k1, _, rfl, k2⟩

/-- Parsing a finished file: the section contents are the used bytes. -/
theorem parse_closed {pads : Pads} {c : Config} {base : Nat} (hc : c.Ok base) {T : Tracker}
    (hf : Fits c T) (hidx : T.index.used ≤ T.index.buckets.length) :
    parse (closed pads c base T) = (do
      let fd ← readFdHeaders (fileOf (used pads T))
      let fn ← readFnHeaders (fileOf (used pads T))
      return { fileOf (used pads T) with fdHeaders := fd, fnHeaders := fn }) := by
  have hol := offsets_length c base
  have hzl : ((contents pads T).map (·.2)).length = 8 := by simp [contents]
  have hsec := fun i o z h => closed_section (pads := pads) (base := base) hf hidx (i := i) (o := o) (z := z) h
  have hm : ∃ rest, closed pads c base T =
      header c.specs ((offsets c base).zip ((contents pads T).map (·.2))) ++ rest := by
    simp only [closed, image, List.append_assoc]
    exact ⟨_, rfl⟩
  obtain ⟨rest, hm⟩ := hm
  have hlen : ((offsets c base).zip ((contents pads T).map (·.2))).length = 8 := by
    rw [List.length_zip, hol, hzl]; rfl
  have hp := parse_header c ((offsets c base).zip ((contents pads T).map (·.2))) rest hlen (by
      intro p hp
      obtain ⟨i, hi⟩ := List.getElem?_of_mem hp
      obtain ⟨-, s, hs, hle⟩ := hsec i p.1 p.2 hi
      rw [List.getElem?_zip_eq_some] at hi
      have := offsets_lt hc hs hi.1
      omega) (by
      intro o z h4
      rw [← hm, (hsec 4 o z h4).1]
      show ((T.index.buckets.take T.index.used).flatMap (le 8)).length % 8 = 0
      rw [flatMap_length (sz := 8) _ (fun e _ => le_length _ _)]; omega)
  simp only [← hm] at hp
  rw [hp]
  have hF : fileOf (secOf ((offsets c base).zip ((contents pads T).map (·.2))) (closed pads c base T)) =
      fileOf (used pads T) := by
    have : ∀ i, i < 8 → secOf ((offsets c base).zip ((contents pads T).map (·.2))) (closed pads c base T) i =
        used pads T i := by
      intro i hi
      have hx : ((offsets c base).zip ((contents pads T).map (·.2)))[i]? =
        some (((offsets c base).zip ((contents pads T).map (·.2)))[i]'(by omega)) :=
          List.getElem?_eq_getElem (by omega)
      rw [secOf, hx]
      exact (hsec i _ _ hx).1
    simp only [fileOf]
    rw [this 0 (by omega), this 1 (by omega), this 2 (by omega), this 3 (by omega), this 4 (by omega),
      this 5 (by omega), this 6 (by omega), this 7 (by omega)]
  rw [hF]

/-! ### The index -/

theorem shift_and_one {b i : Nat} : (b >>> i) &&& 1 = 1 ↔ b.testBit i = true := by
  rw [Nat.testBit, Nat.and_comm]
  have : 1 &&& (b >>> i) = 0 ∨ 1 &&& (b >>> i) = 1 := by
    rw [Nat.and_comm, Nat.and_one_is_mod]; omega
  rcases this with h | h <;> simp [h]

theorem mem_setBits (bs : List Nat) : ∀ (k l : Nat), l ∈ TDFile.setBits k bs ↔
    k ≤ l ∧ ∃ b, bs[(l - k) / 64]? = some b ∧ b.testBit ((l - k) % 64) = true := by
  induction bs with
  | nil => intro k l; simp [TDFile.setBits]
  | cons b bs ih =>
    intro k l
    have hrec : k + 64 ≤ l → (b :: bs)[(l - k) / 64]? = bs[(l - (k + 64)) / 64]? ∧
        (l - k) % 64 = (l - (k + 64)) % 64 := by
      intro h
      have e1 : (l - k) / 64 = (l - (k + 64)) / 64 + 1 := by omega
      exact ⟨by rw [e1, List.getElem?_cons_succ], by omega⟩
    have hfst : k ≤ l → l < k + 64 → (b :: bs)[(l - k) / 64]? = some b ∧ (l - k) % 64 = l - k := by
      intro h1 h2
      have e1 : (l - k) / 64 = 0 := by omega
      exact ⟨by rw [e1, List.getElem?_cons_zero], by omega⟩
    have hz : l ∈ TDFile.setBits k (b :: bs) ↔
        (k ≤ l ∧ l < k + 64 ∧ b.testBit (l - k) = true) ∨ l ∈ TDFile.setBits (k + 64) bs := by
      rw [TDFile.setBits]
      split
      · rename_i h0; subst h0; simp
      · rw [List.mem_append, List.mem_map]
        refine or_congr ?_ Iff.rfl
        constructor
        · rintro ⟨i, hi, rfl⟩
          simp only [List.mem_filter, List.mem_range, decide_eq_true_eq, shift_and_one] at hi
          exact ⟨by omega, by omega, by rw [Nat.add_sub_cancel_left]; exact hi.2⟩
        · rintro ⟨h1, h2, h3⟩
          refine ⟨l - k, ?_, by omega⟩
          simp only [List.mem_filter, List.mem_range, decide_eq_true_eq, shift_and_one]
          exact ⟨by omega, h3⟩
    rw [hz, ih]
    constructor
    · rintro (⟨h1, h2, h3⟩ | ⟨h1, v, h2, h3⟩)
      · obtain ⟨e1, e2⟩ := hfst h1 h2
        exact ⟨h1, b, e1, by rw [e2]; exact h3⟩
      · obtain ⟨e1, e2⟩ := hrec h1
        exact ⟨by omega, v, by rw [e1]; exact h2, by rw [e2]; exact h3⟩
    · rintro ⟨h1, v, h2, h3⟩
      by_cases hlt : l < k + 64
      · obtain ⟨e1, e2⟩ := hfst h1 hlt
        rw [e1] at h2; cases h2
        rw [e2] at h3
        exact Or.inl ⟨h1, hlt, h3⟩
      · obtain ⟨e1, e2⟩ := hrec (by omega)
        rw [e1] at h2; rw [e2] at h3
        exact Or.inr ⟨by omega, v, h2, h3⟩

theorem setBits_sorted (bs : List Nat) : ∀ k, (TDFile.setBits k bs).Pairwise (· < ·) := by
  induction bs with
  | nil => intro k; simp [TDFile.setBits]
  | cons b bs ih =>
    intro k
    rw [TDFile.setBits]
    split
    · exact ih _
    · rw [List.pairwise_append]
      refine ⟨?_, ih _, ?_⟩
      · rw [List.pairwise_map]
        exact (List.pairwise_lt_range.filter _).imp (fun h => by omega)
      · intro a ha c hc
        rw [List.mem_map] at ha
        obtain ⟨i, hi, rfl⟩ := ha
        rw [List.mem_filter, List.mem_range] at hi
        have := ((mem_setBits bs _ _).1 hc).1
        omega

/-! ### The whole file -/

/-- What a reader gets from the file `F` is what the history `h` recorded and the words of `T`. -/
structure Recovered (c : Config) (h : Trace) (T : Tracker) (F : TDFile) : Prop where
  head : F.filemeta = ⟨[84, 68, 65, 71], 44, 8⟩
  count : F.labelCount = some T.labels.words.length
  node : ∀ l, F.readNode l = T.labels.words[l]?
  sources : F.fdHeaders.map (fun p => (p.1, p.2.fd, p.2.size)) =
    (registered h).map fun e => (pathStr e.1, e.2.1, e.2.2)
  sinks : F.sinks = some (((written h).take c.sinkCap).map fun o => ⟨o.offset, o.label, o.out⟩)
  fns : F.fnHeaders.map (·.1) = functions h
  events : F.events = some ((fnEvents h).map fun e => (if e.1 then 0 else 1, e.2))
  cf : F.cfItems = some (replay (cfEvents h) [])
  index : ∃ ls, F.inputLabels = some ls ∧ ls.Pairwise (· < ·) ∧
    ∀ l, l ∈ ls ↔ ∃ b, GivenTo (labelEvents h) l b

theorem readString_tab {ss : List (List Nat)} {off : Nat} {name : List Nat} (ht : InTab ss off name)
    (hl : ∀ s ∈ ss, s.length ≤ 65535) :
    readString (ss.flatMap StrTab.block) off = if utf8 name = true then some name else none := by
  obtain ⟨pre, post, rfl, rfl⟩ := ht
  have hl' := hl name (by simp)
  split
  · rename_i hu; exact readString_block pre post name hl' hu
  · rename_i hu
    cases hr : readString ((pre ++ name :: post).flatMap StrTab.block) (pre.flatMap StrTab.block).length with
    | none => rfl
    | some s =>
      exfalso
      rw [readString_any pre post name hl'] at hr
      simp only [hu, guard] at hr
      cases hr

theorem mapM_none {α β : Type} {f : α → Option β} {l : List α} {a : α} (ha : a ∈ l) (hf : f a = none) :
    l.mapM f = none := by
  induction l with
  | nil => cases ha
  | cons x l ih =>
    rw [List.mapM_cons]
    rcases List.mem_cons.1 ha with rfl | h
    · rw [hf]; rfl
    · cases f x with
      | none => rfl
      | some y => rw [ih h]; rfl

theorem Tracker.InTab.lt {S : Section} {ss : List (List Nat)} (hS : StrTab.Holds S ss) {off : Nat} {name : List Nat}
    (ht : InTab ss off name) : off < 2 ^ 32 := by
  have hp := hS.pos
  have h1 := hS.ok.pos
  have h2 := hS.small
  obtain ⟨pre, post, rfl, rfl⟩ := ht
  rw [List.flatMap_append, List.length_append] at hp
  omega

theorem words_read (ws : List Nat) (hw : ∀ w ∈ ws, w < 2 ^ 64) (l : Nat) :
    uint 8 (l * 8) (ws.flatMap (le 8)) = ws[l]? := by
  have hlen := flatMap_length (f := le 8) (sz := 8) ws (fun w _ => le_length _ _)
  rw [uint, hlen]
  by_cases h : l < ws.length
  · have hg : ws[l]? = some ws[l] := List.getElem?_eq_getElem h
    rw [if_pos (by omega), chunk (fun w _ => le_length _ _) hg, hg, unle_le_of_lt (hw _ (List.getElem_mem h))]
  · rw [if_neg (by omega), List.getElem?_eq_none (by omega)]

/-- The names occurring in a history that end up in the file. -/
def Spec.names (h : Trace) : List (List Nat) := (registered h).map (·.1) ++ functions h

theorem parse_reach {c : Config} {base : Nat} (hc : c.Ok base) {h : Trace} {T : Tracker}
    (hr : Reach c base h T) (hroom : T.labels.words.length + 64 ≤ c.indexCap) (pads : Pads) :
    ((∀ n ∈ names h, utf8 n = true) → ∃ F, parse (closed pads c base T) = some F ∧ Recovered c h T F) ∧
    ((∃ n ∈ names h, utf8 n = false) → parse (closed pads c base T) = none) := by
  have hs := hr.sim hc
  have hf := hs.fits hc
  have hg := hs.lab.reach.good hc.lab0 hc.lab
  have hlab31 : T.labels.words.length ≤ 2 ^ 31 := by
    have := hg.wf.fits; have := hg.wf.cap; omega
  have hidx : T.index.used ≤ T.index.buckets.length := by
    have h1 := hs.lab.used
    have h2 := hf.idx
    have h3 : Bitmap.bucketCount 64 c.indexCap = (c.indexCap + 64 - 1) / 64 := rfl
    have h4 := hg.wf.nonempty
    omega
  obtain ⟨ss, ht⟩ := hs.tab
  have hstr : used pads T 2 = ss.flatMap StrTab.block := ht.strs.used
  have hlen : ∀ s ∈ ss, s.length ≤ 65535 := ht.strs.len
  have hp := parse_closed (pads := pads) hc hf hidx
  -- sources
  have hdec : ∀ e ∈ T.sources, decFd (encSource e) = ⟨e.nameOff, e.fd, e.size⟩ := by
    intro e he
    obtain ⟨i, hi⟩ := List.getElem?_of_mem he
    obtain ⟨name, -, hin⟩ := ht.src i e hi
    obtain ⟨o1, o2, o3⟩ := ht.srcOk e he
    exact decFd_enc (hin.lt ht.strs) o1 o2 o3
  have hfd0 : readFdHeaders (fileOf (used pads T)) = (T.sources.map fun e => decFd (encSource e)).mapM fun x => do
      let n ← readString (ss.flatMap StrTab.block) x.nameOffset
      return (pathStr n, x) := by
    have e1 : (fileOf (used pads T)).source = some (T.sources.flatMap encSource) := rfl
    have e2 : (fileOf (used pads T)).string = some (ss.flatMap StrTab.block) := by rw [← hstr]; rfl
    rw [readFdHeaders, e1, e2]
    simp only [Option.bind_eq_bind, Option.bind_some]
    rw [enumStructs_eq (by decide) (fun e _ => encSource_length e)]
    rfl
  have hsrcRead : ∀ (i : Nat) (e : SourceEntry), T.sources[i]? = some e → ∃ name, (registered h)[i]? = some (name, e.fd, e.size) ∧
      readString (ss.flatMap StrTab.block) e.nameOff = if utf8 name = true then some name else none := by
    intro i e hi
    obtain ⟨name, h1, h2⟩ := ht.src i e hi
    exact ⟨name, h1, readString_tab h2 hlen⟩
  -- functions
  have hfn0 : readFnHeaders (fileOf (used pads T)) = T.fns.mapM fun o => do
      let n ← readString (ss.flatMap StrTab.block) o
      return (n, o) := by
    have e1 : (fileOf (used pads T)).fn = some (T.fns.flatMap (le 4)) := rfl
    have e2 : (fileOf (used pads T)).string = some (ss.flatMap StrTab.block) := by rw [← hstr]; rfl
    rw [readFnHeaders, e1, e2]
    simp only [Option.bind_eq_bind, Option.bind_some]
    rw [enumStructs_eq (by decide) (fun e _ => le_length _ _)]
    simp only [Option.bind_some]
    congr 1
    refine (List.map_congr_left ?_).trans (List.map_id _)
    intro o ho
    obtain ⟨i, hi⟩ := List.getElem?_of_mem ho
    obtain ⟨name, -, hin⟩ := ht.fn i o hi
    have := fld_at (n := 4) (v := o) (off := 0) [] [] rfl (hin.lt ht.strs)
    simpa using this
  have hfnRead : ∀ i o : Nat, T.fns[i]? = some o → ∃ name, (functions h)[i]? = some name ∧
      readString (ss.flatMap StrTab.block) o = if utf8 name = true then some name else none := by
    intro i o hi
    obtain ⟨name, h1, h2⟩ := ht.fn i o hi
    exact ⟨name, h1, readString_tab h2 hlen⟩
  constructor
  · intro hu
    have hureg : ∀ (i : Nat) (e : List Nat × Int × Nat), (registered h)[i]? = some e → utf8 e.1 = true := fun i e hi =>
      hu _ (List.mem_append_left _ (List.mem_map.2 ⟨e, List.mem_of_getElem? hi, rfl⟩))
    have hufn : ∀ (i : Nat) n, (functions h)[i]? = some n → utf8 n = true := fun i n hi =>
      hu _ (List.mem_append_right _ (List.mem_of_getElem? hi))
    have hfd := hfd0
    rw [mapM_some (g := fun x : FdHeader => (pathStr ((readString (ss.flatMap StrTab.block) x.nameOffset).getD []), x))
      (by
        intro x hx
        obtain ⟨e, he, rfl⟩ := List.mem_map.1 hx
        obtain ⟨i, hi⟩ := List.getElem?_of_mem he
        obtain ⟨name, k1, k2⟩ := hsrcRead i e hi
        rw [if_pos (hureg i _ k1)] at k2
        rw [hdec e he]
        simp only [k2]
        rfl)] at hfd
    have hfn := hfn0
    rw [mapM_some (g := fun o => ((readString (ss.flatMap StrTab.block) o).getD [], o))
      (by
        intro o ho
        obtain ⟨i, hi⟩ := List.getElem?_of_mem ho
        obtain ⟨name, k1, k2⟩ := hfnRead i o hi
        rw [if_pos (hufn i _ k1)] at k2
        simp only [k2]
        rfl)] at hfn
    rw [hfd, hfn] at hp
    refine ⟨_, hp, ⟨rfl, ?_, ?_, ?_, ?_, ?_, ?_, ?_, ?_⟩⟩
    · show some ((T.labels.words.flatMap (le 8)).length / 8) = _
      rw [flatMap_length (sz := 8) _ (fun w _ => le_length _ _)]
      congr 1; omega
    · intro l
      exact words_read _ hg.wf.word l
    · show List.map _ (List.map _ (List.map _ T.sources)) = _
      rw [List.map_map, List.map_map]
      apply List.ext_getElem?
      intro i
      rw [List.getElem?_map, List.getElem?_map]
      cases hi : T.sources[i]? with
      | none =>
        have : (registered h)[i]? = none := by
          rw [List.getElem?_eq_none_iff, ← ht.srcLen]; exact List.getElem?_eq_none_iff.1 hi
        rw [this]; rfl
      | some e =>
        obtain ⟨name, k1, k2⟩ := hsrcRead i e hi
        rw [if_pos (hureg i _ k1)] at k2
        rw [k1]
        simp only [Option.map_some, Function.comp_apply, hdec e (List.mem_of_getElem? hi), k2]
        rfl
    · show enumStructs 16 decSink (T.sinks.zipIdx.flatMap fun p => encSink (pads.sink p.2) p.1) = _
      rw [enumStructs_eq (f := fun p : SinkEntry × Nat => encSink (pads.sink p.2) p.1) (by decide)
        (fun e _ => encSink_length _ _)]
      congr 1
      have : (T.sinks.zipIdx.map fun a => decSink (encSink (pads.sink a.2) a.1)) =
          T.sinks.zipIdx.map ((fun e : SinkEntry => (⟨e.offset, e.label, e.sink⟩ : Py.Sink)) ∘ Prod.fst) := by
        apply List.map_congr_left
        intro a ha
        have ha' := List.fst_mem_of_mem_zipIdx ha
        rw [hs.sinks] at ha'
        obtain ⟨o, ho, hoe⟩ := List.mem_map.1 ha'
        obtain ⟨o1, o2, o3, o4⟩ := hs.sinkOk o (List.mem_of_mem_take ho)
        have hreg : (registered h).length ≤ 255 := by
          have := ht.srcLen; have := ht.srcCap; have := hc.src; omega
        rw [Function.comp_apply, ← hoe]
        exact decSink_enc _ (by simpa [toSink] using o1) (by show o.label < _; omega) (by show o.out < _; omega)
      rw [this, ← List.map_map, List.zipIdx_map_fst, hs.sinks, List.map_map]
      rfl
    · show List.map _ (List.map _ T.fns) = _
      rw [List.map_map]
      apply List.ext_getElem?
      intro i
      rw [List.getElem?_map]
      cases hi : T.fns[i]? with
      | none =>
        have : (functions h)[i]? = none := by
          rw [List.getElem?_eq_none_iff, ← ht.fnLen]; exact List.getElem?_eq_none_iff.1 hi
        rw [this]; rfl
      | some o =>
        obtain ⟨name, k1, k2⟩ := hfnRead i o hi
        rw [if_pos (hufn i _ k1)] at k2
        rw [k1]
        simp only [Option.map_some, Function.comp_apply, k2]
        rfl
    · show enumStructs 4 decEvent (T.events.zipIdx.flatMap fun p => encEvent (pads.event p.2) p.1) = _
      rw [enumStructs_eq (f := fun p : FnEvent × Nat => encEvent (pads.event p.2) p.1) (by decide)
        (fun e _ => encEvent_length _ _)]
      congr 1
      have : (T.events.zipIdx.map fun a => decEvent (encEvent (pads.event a.2) a.1)) =
          T.events.zipIdx.map ((fun e : FnEvent => (e.kind, e.fn)) ∘ Prod.fst) := by
        apply List.map_congr_left
        intro a ha
        have ha' := List.fst_mem_of_mem_zipIdx ha
        rw [hs.events] at ha'
        obtain ⟨o, ho, hoe⟩ := List.mem_map.1 ha'
        have o1 := hs.evOk o ho
        rw [Function.comp_apply, ← hoe]
        refine decEvent_enc _ ?_ o1
        simp only [toFnEvent]; split <;> decide
      rw [this, ← List.map_map, List.zipIdx_map_fst, hs.events, List.map_map]
      rfl
    · show some (iter (T.cflog.mem.take T.cflog.pos) []) = _
      rw [hs.log, C23_iter]
    · have hbs : ∀ b ∈ T.index.buckets.take T.index.used, fld 8 0 (le 8 b) = b := by
        intro b hb
        have := fld_at (n := 8) (v := b) (off := 0) [] [] rfl (hs.lab.small b (List.mem_of_mem_take hb))
        simpa using this
      refine ⟨TDFile.setBits 0 (T.index.buckets.take T.index.used), ?_, setBits_sorted _ _, ?_⟩
      · show (do
          let bs ← enumStructs 8 (fld 8 0) ((T.index.buckets.take T.index.used).flatMap (le 8))
          return TDFile.setBits 0 bs) = _
        rw [enumStructs_eq (by decide) (fun e _ => le_length _ _), List.map_congr_left hbs, List.map_id']
        rfl
      · intro l
        rw [mem_setBits, ← covered_idxIns, ← hs.lab.index.bits, Nat.sub_zero]
        simp only [Nat.zero_le, true_and, Bitmap.bit, hs.lab.index.w]
        constructor
        · rintro ⟨b, hb, ht⟩
          rw [List.getElem?_take] at hb
          split at hb
          · rw [hb]; exact ht
          · cases hb
        · intro hbit
          have hu := hs.lab.index.used l ((hs.lab.index.bits l).1 (by
            simp only [Bitmap.bit, hs.lab.index.w]; exact hbit))
          cases hb : T.index.buckets[l / 64]? with
          | none => rw [hb] at hbit; cases hbit
          | some b =>
            rw [hb] at hbit
            exact ⟨b, by rw [List.getElem?_take, if_pos hu]; exact hb, hbit⟩
  · rintro ⟨n, hn, hu⟩
    rw [hp]
    rcases List.mem_append.1 hn with hn | hn
    · obtain ⟨e0, he0, rfl⟩ := List.mem_map.1 hn
      obtain ⟨i, hi⟩ := List.getElem?_of_mem he0
      have hlt : i < T.sources.length := by
        rw [ht.srcLen]; exact (List.getElem?_eq_some_iff.1 hi).1
      obtain ⟨e, he⟩ : ∃ e, T.sources[i]? = some e := ⟨_, List.getElem?_eq_getElem hlt⟩
      obtain ⟨name, k1, k2⟩ := hsrcRead i e he
      rw [hi] at k1; cases k1
      have hem := List.mem_of_getElem? he
      have hd := hdec e hem
      have hm : decFd (encSource e) ∈ T.sources.map fun e => decFd (encSource e) :=
        List.mem_map_of_mem (f := fun e => decFd (encSource e)) hem
      rw [hfd0, mapM_none hm]
      · rfl
      · rw [hd]
        simp only [k2]
        simp only [hu]
        rfl
    · obtain ⟨i, hi⟩ := List.getElem?_of_mem hn
      have hlt : i < T.fns.length := by
        rw [ht.fnLen]; exact (List.getElem?_eq_some_iff.1 hi).1
      obtain ⟨o, he⟩ : ∃ e, T.fns[i]? = some e := ⟨_, List.getElem?_eq_getElem hlt⟩
      obtain ⟨name, k1, k2⟩ := hfnRead i o he
      rw [hi] at k1; cases k1
      rw [hfn0, mapM_none (List.mem_of_getElem? he)]
      · cases readFdHeaders (fileOf (used pads T)) <;> rfl
      · simp only [k2]
        simp only [hu]
        rfl

end Verif
