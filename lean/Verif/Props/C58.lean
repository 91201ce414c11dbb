import Verif.OutParamLemmas
import Verif.Props.C56
import Verif.Props.C57
/- C58: labels of memory that library and system calls fill in. -/
namespace Verif
open Spec DfsanMem OutParam Labels

/-- Exactly the bytes that the call has written lose their labels, no other label and no data of
application memory changes, and the wrapper does not crash. (Without the calls that are not `Regular`: see
the refutations.) -/
theorem C58_written_partial (k : Nat) (hk : k ≤ 40) (m : Mem) (c : Call) (hs : c.Stored m)
    (hr : c.Regular) :
    ∃ m', run (2 ^ k) m c = .ok m' ∧ Cleared c.written (labelOf m) (labelOf m') ∧
      ∀ b, IsApp b → m' b = m b := by
  show Clears m c.written (run (2 ^ k) m c)
  obtain ⟨happ, hstr, hfld⟩ := hs
  cases c with
  | stat ret p => exact onZero_clears hk happ
  | clockGettime ret p => exact onZero_clears hk happ
  | getrlimit ret p => exact onZero_clears hk happ
  | getrusage ret p => exact onZero_clears hk happ
  | schedGetaffinity ret n p => exact onZero_clears hk happ
  | socketpair ret p => exact onZero_clears hk happ
  | time ret t =>
    simp only [Call.written] at happ ⊢
    show Clears m _ (timeW (2 ^ k) m ret t)
    unfold timeW
    by_cases h1 : ret = -1
    · rw [if_pos h1, if_neg (fun h => h.1 h1)]
      exact Clears.skip m
    · rw [if_neg h1] at happ ⊢
      have := nonNull_clears (m := m) hk happ
      by_cases h2 : t ≠ 0
      · rw [if_pos ⟨h1, h2⟩]; rwa [clearIf, if_pos h2] at this
      · rw [if_neg (fun h => h2 h.2)]; rwa [clearIf, if_neg h2] at this
  | gettimeofday tv tz =>
    exact (nonNull_clears hk (fun r h => happ r (List.mem_append.2 (Or.inl h)))).bind
      (fun m' _ => nonNull_clears hk (fun r h => happ r (List.mem_append.2 (Or.inr h))))
  | sigemptyset p =>
    have := happ _ (List.mem_singleton.2 rfl)
    exact setAt_clears m hk this.1 this.2
  | getcwd ret len =>
    simp only [Call.written, Call.strings, nonNull] at happ hstr ⊢
    show Clears m _ (getcwdW (2 ^ k) m ret 0 >>= fun p => .ok p.1)
    unfold getcwdW
    by_cases h : ret ≠ 0
    · simp only [if_pos h] at happ hstr ⊢
      have h1 := happ _ (List.mem_singleton.2 rfl)
      obtain ⟨m', e, h2⟩ := clearStr_clears hk (hstr _ (List.mem_singleton.2 rfl)) h1.1 h1.2
      refine ⟨m', ?_, h2⟩
      rw [e]; rfl
    · simp only [if_neg h]
      exact Clears.skip m
  | getCurrentDirName ret len =>
    simp only [Call.written, Call.strings, nonNull] at happ hstr ⊢
    show Clears m _ (getCurrentDirNameW (2 ^ k) m ret)
    unfold getCurrentDirNameW
    by_cases h : ret ≠ 0
    · simp only [if_pos h] at happ hstr ⊢
      have h1 := happ _ (List.mem_singleton.2 rfl)
      exact clearStr_clears hk (hstr _ (List.mem_singleton.2 rfl)) h1.1 h1.2
    · simp only [if_neg h]
      exact Clears.skip m
  | gethostname ret name len =>
    simp only [Call.written, Call.strings] at happ hstr ⊢
    show Clears m _ (gethostnameW (2 ^ k) m ret name)
    unfold gethostnameW
    by_cases h : ret = 0
    · simp only [if_pos h] at happ hstr ⊢
      have h1 := happ _ (List.mem_singleton.2 rfl)
      exact clearStr_clears hk (hstr _ (List.mem_singleton.2 rfl)) h1.1 h1.2
    · simp only [if_neg h]
      exact Clears.skip m
  | getpwuid ret pwd buf used result =>
    simp only [Call.written, Call.strings] at happ hstr ⊢
    have hres := happ (result, 8) (by simp)
    show Clears m _ (getpwuidW (2 ^ k) m ret pwd buf result)
    unfold getpwuidW
    refine Clears.bind (rs := if ret = 0 then [(pwd, 48), (buf, (used.map (· + 1)).sum)] else []) ?_
      (fun m' _ => setAt_clears m' hk hres.1 hres.2)
    unfold clearPasswd
    by_cases h : ret = 0
    · have hu := hr h
      match used, hu with
      | [n], _ =>
        simp only [if_pos h] at happ hstr ⊢
        have h1 := happ (pwd, 48) (by simp)
        have h2 := happ (buf, n + 1) (by simp)
        have h3 := hstr (buf, n) (by simp)
        exact (setAt_clears m hk h1.1 h1.2).bind (f := fun m' => clearStr (2 ^ k) m' buf)
          (fun m' hm => clearStr_clears hk
            (IsStr.congr h3 h2.1 (by have := h2.2; simp only [] at this; omega) hm) h2.1 h2.2)
    · simp only [if_neg h]
      exact Clears.skip m
  | poll ret fds n =>
    simp only [Call.written] at happ ⊢
    show Clears m _ (pollW (2 ^ k) m ret fds n)
    unfold pollW
    by_cases h : 0 ≤ ret
    · simp only [if_pos h] at happ ⊢
      exact pollLoop_clears hk n m (fun i hi => happ (fds + 8 * i + 6, 2)
        (List.mem_map.2 ⟨i, List.mem_range.2 hi, rfl⟩))
    · simp only [if_neg h]
      exact Clears.skip m
  | select ret r w e t =>
    obtain ⟨h0, ht⟩ := hr
    simp only [Call.written, if_pos h0] at happ ⊢
    have ht' : nonNull t 16 = [(t, 16)] := if_pos ht
    have h1 := happ (t, 16) (by simp [ht'])
    show Clears m _ (selectW (2 ^ k) m r w e t)
    unfold selectW
    rw [List.append_assoc, List.append_assoc, ht']
    exact (nonNull_clears hk (fun x h => happ x (by simp [h]))).bind (fun m1 _ =>
      (nonNull_clears hk (fun x h => happ x (by simp [h]))).bind (fun m2 _ =>
        (nonNull_clears hk (fun x h => happ x (by simp [h]))).bind (fun m3 _ =>
          setAt_clears m3 hk h1.1 h1.2)))
  | nanosleep ret intr rem =>
    simp only [Call.written] at happ ⊢
    show Clears m _ (nanosleepW (2 ^ k) m ret rem)
    unfold nanosleepW
    by_cases h : ret = -1
    · obtain ⟨h1, h2⟩ := hr h
      rw [if_pos h, if_pos ⟨h, h1⟩]
      rw [if_pos ⟨h, h1⟩] at happ
      have := nonNull_clears (m := m) hk happ
      rwa [clearIf, if_pos h2] at this
    · rw [if_neg h, if_neg (fun h' => h h'.1)]
      exact Clears.skip m
  | calloc p nmemb size =>
    simp only [Call.written] at happ ⊢
    show Clears m _ (callocW (2 ^ k) m p nmemb size)
    unfold callocW
    by_cases hp : p = 0
    · have h0 : nmemb * size = 0 := hr.resolve_left (fun h => h hp)
      subst hp
      rw [h0]
      have e : setAt (2 ^ k) m 0 0 (0 % 2 ^ 64) = .ok m := by simp [setAt, setLabel_nil]
      rw [e]
      exact Clears.skip m
    · have e : nonNull p (nmemb * size) = [(p, nmemb * size)] := if_pos hp
      rw [e] at happ ⊢
      have h1 := happ _ (List.mem_singleton.2 rfl)
      have h2 := h1.2
      simp only [] at h2
      rw [Nat.mod_eq_of_lt (by omega)]
      exact setAt_clears m hk h1.1 h1.2
  | dlIterate info name len phdr phnum =>
    obtain ⟨f1, f2, f3⟩ := hfld _ _ _ _ _ rfl
    simp only [Call.written, Call.strings] at happ hstr ⊢
    have h1 := happ (info, 64) (by simp)
    have h2 := happ (name, len + 1) (by simp)
    have h3 := happ (phdr, 56 * phnum) (by simp)
    have hs := hstr (name, len) (by simp)
    simp only [] at h1 h2 h3 hs
    have fld : ∀ (m' : Mem) (o n : Nat), o + n ≤ 64 → (∀ b, IsApp b → m' b = m b) →
        leBytes m' (info + o) n = leBytes m (info + o) n := fun m' o n ho hm =>
      leBytes_congr n _ (fun b _ _ => hm b ⟨by omega, by omega⟩)
    show Clears m ([(info, 64)] ++ ([(name, len + 1)] ++ [(phdr, 56 * phnum)])) (dlIterateW (2 ^ k) m info)
    unfold dlIterateW
    refine (setAt_clears m hk h1.1 h1.2).bind (fun m1 g1 => ?_)
    rw [read64_le, fld m1 8 8 (by omega) g1, f1]
    refine (clearStr_clears hk (IsStr.congr hs h2.1 (by omega) g1) h2.1 h2.2).bind (fun m2 g2 => ?_)
    have g : ∀ b, IsApp b → m2 b = m b := fun b hb => (g2 b hb).trans (g1 b hb)
    have e3 : m2 (info + 24) + 2 ^ 8 * m2 (info + 25) = phnum := by
      rw [← f3, ← fld m2 24 2 (by omega) g]
      simp [leBytes]
    rw [read64_le, fld m2 16 8 (by omega) g, f2, e3]
    exact setAt_clears m2 hk h3.1 h3.2

/-- Outcome of a wrapper that gives `len` bytes at `dst` one label denoting `S` and returns label `rl`: no
other label of application memory and no data changes; or the label store is full. -/
def Spreads (cap n : Nat) (L : Labels) (m : Mem) (S : Nat × Nat → Prop) (dst len rl : Nat)
    (r : Res (Labels × Mem × Nat)) : Prop :=
  (∃ L' m' u es', r = .ok (L', m', rl) ∧
    (∀ b, IsApp b → labelOf m' b = fill (labelOf m) dst len u b) ∧ (∀ b, IsApp b → m' b = m b) ∧
    Runs L es' L' ∧ u < L'.words.length ∧ (∀ b, Denotes L'.graph u b ↔ S b) ∧
    L'.words.length ≤ L.words.length + n ∧ Quiet es') ∨
  (r = .fatal ∧ cap < L.words.length + n)

theorem spread_spec {k : Nat} (hk : k ≤ 40) {cap : Nat} {started : Bool} {L : Labels}
    (hL : InUse cap started L) {m : Mem} {src n dst len : Nat}
    (hsh : ∀ i, i < n → labelOf m (src + i) < L.words.length)
    (hd : 0x700000008000 ≤ dst) (he : dst + len < 0x800000000000) (rl : Nat) :
    Spreads cap (n - 1) L m (fun b => ∃ i, i < n ∧ Denotes L.graph (labelOf m (src + i)) b) dst len rl
      (spread (2 ^ k) started L m src n dst len >>= fun p => .ok (p.1, p.2, rl)) := by
  unfold spread
  rcases hL.read (sh := labelOf m) (addr := src) (size := n) hsh with
    ⟨L', u, es', e, h2, h3, h4, h5, h6⟩ | ⟨e, h⟩
  · have hw := (hL.runs h2 h6).good.wf
    have hcap := hw.cap
    have hfit := hw.fits
    obtain ⟨m', e', h7, h8⟩ := setAt_app (k := k) (l := u) (p := dst) (n := len) m hk (by omega) hd he
    refine Or.inl ⟨L', m', u, es', ?_, h7, h8, h2, h3, h4, h5, h6⟩
    rw [e]
    simp only [Res.bind_ok]
    rw [e']
    rfl
  · refine Or.inr ⟨?_, h⟩
    rw [e]
    rfl

/-- `ctime_r`: every character of the text, and its terminator, gets a label that denotes the taint of the
eight bytes of the time; the result has the label of the buffer pointer. A failed call changes nothing. -/
theorem C58_ctime (k : Nat) (hk : k ≤ 40) (cap : Nat) (started : Bool) (L : Labels)
    (hL : InUse cap started L) (m : Mem) (timep buf len bufLabel : Nat)
    (hsh : ∀ i, i < 8 → labelOf m (timep + i) < L.words.length) (hs : IsStr m buf len)
    (hd : 0x700000008000 ≤ buf) (he : buf + (len + 1) < 0x800000000000) :
    Spreads cap 7 L m (fun b => ∃ i, i < 8 ∧ Denotes L.graph (labelOf m (timep + i)) b) buf (len + 1)
      bufLabel (ctimeW (2 ^ k) started L m buf timep buf bufLabel) ∧
    ctimeW (2 ^ k) started L m 0 timep buf bufLabel = .ok (L, m, 0) := by
  refine ⟨?_, rfl⟩
  unfold ctimeW
  rw [if_pos (by omega), strlen_str hs (by omega)]
  exact spread_spec hk hL hsh hd he bufLabel

/-- `localtime_r`: every byte of the broken-down time gets a label that denotes the taint of the eight
bytes of the time; the result has the label of the result pointer. -/
theorem C58_localtime (k : Nat) (hk : k ≤ 40) (cap : Nat) (started : Bool) (L : Labels)
    (hL : InUse cap started L) (m : Mem) (timep result resultLabel : Nat)
    (hsh : ∀ i, i < 8 → labelOf m (timep + i) < L.words.length)
    (hd : 0x700000008000 ≤ result) (he : result + 56 < 0x800000000000) :
    Spreads cap 7 L m (fun b => ∃ i, i < 8 ∧ Denotes L.graph (labelOf m (timep + i)) b) result 56
      resultLabel (localtimeW (2 ^ k) started L m result timep result resultLabel) ∧
    localtimeW (2 ^ k) started L m 0 timep result resultLabel = .ok (L, m, 0) := by
  refine ⟨?_, rfl⟩
  unfold localtimeW
  rw [if_pos (by omega)]
  exact spread_spec hk hL hsh hd he resultLabel

/-- `inet_pton`: every byte of the address (4 for AF_INET = 2, else 16) gets a label that denotes the taint
of the text and its terminator; the result is untainted. A failed call changes nothing. -/
theorem C58_inet_pton (k : Nat) (hk : k ≤ 40) (cap : Nat) (started : Bool) (L : Labels)
    (hL : InUse cap started L) (m : Mem) (af src len dst : Nat) (hs : IsStr m src len)
    (hl : len < 2 ^ 63) (hsh : ∀ i, i ≤ len → labelOf m (src + i) < L.words.length)
    (hd : 0x700000008000 ≤ dst) (he : dst + 16 < 0x800000000000) :
    Spreads cap len L m (fun b => ∃ i, i ≤ len ∧ Denotes L.graph (labelOf m (src + i)) b) dst
      (if af = 2 then 4 else 16) 0 (inetPtonW (2 ^ k) started L m 1 af src dst) ∧
    ∀ ret : Int, ret ≠ 1 → inetPtonW (2 ^ k) started L m ret af src dst = .ok (L, m, 0) := by
  refine ⟨?_, fun ret h => if_neg h⟩
  unfold inetPtonW
  rw [if_pos rfl, strlen_str hs (by omega)]
  have := spread_spec (len := if af = 2 then 4 else 16) hk hL (n := len + 1)
    (fun i hi => hsh i (by omega)) hd (by split <;> omega) 0
  simp only [Nat.lt_succ_iff, Nat.add_sub_cancel] at this
  exact this

/-- `getcwd`: the result has the label of the buffer pointer, or 0 if it is null. -/
theorem C58_getcwd_label (page : Nat) (m m' : Mem) (ret bufLabel l : Nat)
    (h : getcwdW page m ret bufLabel = .ok (m', l)) : l = if ret = 0 then 0 else bufLabel := by
  unfold getcwdW at h
  by_cases hr : ret = 0
  · rw [if_neg (by simpa using hr)] at h
    cases h
    rw [if_pos hr]
  · rw [if_pos hr] at h
    simp only [Res.bind_eq_ok] at h
    obtain ⟨_, _, h⟩ := h
    cases h
    rw [if_neg hr]

theorem setAt_null (page : Nat) (m : Mem) (l n : Nat) (hn : n ≠ 0) : setAt page m l 0 n = .ub := by
  have h : shadowFor 0 = 0 := by simp [shadowFor]
  unfold setAt kShadowAddr
  rw [if_neg (by rw [h]; omega)]

/-- `select` without a timeout, the usual way to wait indefinitely, crashes: the wrapper sets labels at a
null pointer. -/
theorem C58_select_refuted (page : Nat) (m : Mem) : run page m (.select 1 0 0 0 0) = .ub :=
  setAt_null page m 0 16 (by omega)

/-- `nanosleep(req, NULL)` interrupted by a signal, and a failed `calloc`, crash in the same way. -/
theorem C58_null_refuted (page : Nat) (m : Mem) (size : Nat) (h : size % 2 ^ 64 ≠ 0) :
    run page m (.nanosleep (-1) true 0) = .ub ∧ run page m (.calloc 0 1 size) = .ub := by
  refine ⟨setAt_null page m 0 16 (by omega), ?_⟩
  show setAt page m 0 0 (1 * size % 2 ^ 64) = .ub
  rw [Nat.one_mul]
  exact setAt_null page m 0 _ h

/-- Two strings of two and one characters in a buffer, and labels 7 from 0x700000020000 on. -/
def exOutMem : Mem := fun a =>
  if a = 0x700000020000 then 97 else if a = 0x700000020001 then 98 else if a = 0x700000020003 then 99
  else if 0x80000 ≤ a ∧ a < 0x80400 ∧ a % 4 = 0 then 7 else 0

/-- `getpwuid_r` stores several strings in the buffer; only the first loses its old labels. -/
theorem C58_getpwuid_refuted :
    (Call.getpwuid 0 0x700000030000 0x700000020000 [2, 1] 0x700000040000).Stored exOutMem ∧
    Within (Call.getpwuid 0 0x700000030000 0x700000020000 [2, 1] 0x700000040000).written 0x700000020003 ∧
    ∃ m', run 4096 exOutMem (.getpwuid 0 0x700000030000 0x700000020000 [2, 1] 0x700000040000) = .ok m' ∧
      labelOf m' 0x700000020002 = 0 ∧ labelOf m' 0x700000020003 = 7 := by
  refine ⟨⟨by decide +kernel, ?_, fun _ _ _ _ _ h => (by cases h)⟩, ⟨(0x700000020000, 5), by decide +kernel,
    by decide +kernel⟩, Res.exists_ok (by decide +kernel)⟩
  intro s hs
  have : s = (0x700000020000, 2) := by simpa [Call.strings] using hs
  subst this
  exact ⟨by decide +kernel, by decide +kernel⟩

/-- A failed `select` leaves the sets alone, and `nanosleep` that fails without being interrupted leaves
`rem` alone; the wrappers clear their labels nevertheless. -/
theorem C58_failed_refuted :
    (Call.select (-1) 0x700000020000 0 0 0x700000040000).written = [] ∧
    (Call.nanosleep (-1) false 0x700000020000).written = [] ∧
    labelOf exOutMem 0x700000020000 = 7 ∧
    (∃ m', run 4096 exOutMem (.select (-1) 0x700000020000 0 0 0x700000040000) = .ok m' ∧
      labelOf m' 0x700000020000 = 0) ∧
    ∃ m', run 4096 exOutMem (.nanosleep (-1) false 0x700000020000) = .ok m' ∧
      labelOf m' 0x700000020000 = 0 :=
  ⟨by decide, by decide, by decide +kernel, Res.exists_ok (by decide +kernel),
    Res.exists_ok (by decide +kernel)⟩

/-- Hypotheses of `C58_written_partial`: three polled descriptors; a path; a `struct stat`. -/
example : (Call.poll 1 0x700000020000 3).Stored exOutMem ∧ (Call.poll 1 0x700000020000 3).Regular ∧
    (∃ m', run 4096 exOutMem (.poll 1 0x700000020000 3) = .ok m' ∧ labelOf m' 0x700000020005 = 7 ∧
      labelOf m' 0x700000020006 = 0 ∧ labelOf m' 0x70000002000f = 0 ∧ labelOf m' 0x700000020010 = 7 ∧
      labelOf m' 0x700000020017 = 0) ∧
    (Call.getcwd 0x700000020000 2).Stored exOutMem ∧ (Call.getcwd 0x700000020000 2).Regular ∧
    (Call.stat 0 0x700000020000).Stored exOutMem := by
  refine ⟨⟨by decide +kernel, fun _ h => (by cases h), fun _ _ _ _ _ h => (by cases h)⟩, trivial,
    Res.exists_ok (by decide +kernel), ⟨by decide +kernel, ?_, fun _ _ _ _ _ h => (by cases h)⟩, trivial,
    ⟨by decide +kernel, fun _ h => (by cases h), fun _ _ _ _ _ h => (by cases h)⟩⟩
  intro s hs
  have : s = (0x700000020000, 2) := by simpa [Call.strings, nonNull] using hs
  subst this
  exact ⟨by decide +kernel, by decide +kernel⟩

/-- What the callback of `dl_iterate_phdr` is given: a name of one character, two program headers. -/
def exInfoMem : Mem := fun a =>
  if a = 0x700000030000 + 8 + 2 then 2 else if a = 0x700000030000 + 8 + 5 then 0x70
  else if a = 0x700000030000 + 16 + 2 then 4 else if a = 0x700000030000 + 16 + 5 then 0x70
  else if a = 0x700000030000 + 24 then 2 else if a = 0x700000020000 then 97 else 0

example : (Call.dlIterate 0x700000030000 0x700000020000 1 0x700000040000 2).Stored exInfoMem ∧
    (Call.dlIterate 0x700000030000 0x700000020000 1 0x700000040000 2).Regular := by
  refine ⟨⟨by decide +kernel, ?_, ?_⟩, trivial⟩
  · intro s hs
    have : s = (0x700000020000, 1) := by simpa [Call.strings] using hs
    subst this
    exact ⟨by decide +kernel, by decide +kernel⟩
  · intro _ _ _ _ _ h
    cases h
    decide +kernel

/-- The label of one byte of a time at 0x700000030000 is 1; the text "ab" at 0x700000020000. -/
def exTimeMem : Mem := fun a =>
  if a = 0x700000020000 then 97 else if a = 0x700000020001 then 98
  else if a = 0xc0000 then 1 else 0

/-- Hypotheses of `C58_ctime`, `C58_localtime` and `C58_inet_pton`, and an outcome that is not `fatal`. -/
example : InUse 64 true exStore ∧ (∀ i, i < 8 → labelOf exTimeMem (0x700000030000 + i) < exStore.words.length) ∧
    (∀ i, i ≤ 2 → labelOf exTimeMem (0x700000020000 + i) < exStore.words.length) ∧
    IsStr exTimeMem 0x700000020000 2 ∧
    ∃ o, ctimeW 4096 true exStore exTimeMem 0x700000020000 0x700000030000 0x700000020000 5 = .ok o ∧
      o.2.2 = 5 ∧ labelOf o.2.1 0x700000020002 = 1 ∧ labelOf o.2.1 0x700000020003 = 0 :=
  ⟨exCmp_inUse, by decide +kernel, by decide +kernel, ⟨by decide +kernel, by decide +kernel⟩,
    Res.exists_ok (by decide +kernel)⟩

end Verif
