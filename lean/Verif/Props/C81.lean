import Verif.NetTrack
import Verif.Props.C60
/- C81: connections. The labels of bytes that are received name the connection and the position of the byte in what the
other side sent; the records of bytes that are sent name the position in what the other side gets. -/
namespace Verif
open Spec Tracker Net

/-- Different connections have different names. -/
theorem C81_names {l r l' r' : Endpoint} (h : connName l r = connName l' r') : l = l' ∧ r = r' := connName_inj h

/-- The name that PolyTracker makes of what getsockname and getpeername deliver. -/
theorem C81_name {l r : Endpoint} (hl : l.Ok) (hr : r.Ok) :
    connectName (some l.sockaddr) (some r.sockaddr) = .ok (some (connName l r)) := connectName_spec hl hr

/-- As long as the program goes on it gets the results and the bytes it would get without PolyTracker, and so do the
other sides. -/
theorem C81_same_partial {K₀ K : NetSys} {T₀ T : Tracker} {E : NetHist} (he : Exec K₀ T₀ E K T) :
    K₀.run (E.reverse.map Prod.fst) = (K, E.reverse.map Prod.snd) := he.same

/-- The socket behind a descriptor got by accept or connect, in the source table. -/
theorem Net.Good.entry {c : Config} {base : Nat} (hc : c.Ok base) {h : Trace} {K : NetSys} {T : Tracker} {E : NetHist}
    (hr : Reach c base h T) (hg : Good h K E) {fd : Nat} {l r : Endpoint} {size : Option Nat}
    (ho : joinedAs E fd = some (l, r, size)) :
    ∃ i, owner h fd = some i ∧ (registered h)[i]? = some (connName l r, (fd : Int), size.getD unknownSize) ∧
      T.SourceIs i (connName l r) fd (size.getD unknownSize) := by
  obtain ⟨i, h1, h2⟩ := (owner_lastOpen (Files.nat_ne_neg fd) h).2 _ size (hg.last fd l r size ho)
  exact ⟨i, h1, h2, sourceIs_of_registered (hr.sim hc) h2⟩

theorem Net.placed_get {s : Sock} {n avail k : Nat} (hk : k < (NetSys.placed s n false avail).length) :
    (NetSys.placed s n false avail)[k]? = s.inc[s.pos + k]? := by
  simp only [NetSys.placed, Bool.and_false, Bool.false_eq_true, if_false, NetSys.unit, List.length_take] at hk ⊢
  rw [List.getElem?_take_of_lt (by omega), List.getElem?_take_of_lt (by omega), List.getElem?_drop]

/-- Receiving from a connection over IPv4 that the program got from accept or from a connect that was done on return. Every
byte that is delivered is labelled, and its label stands for exactly one input byte: the source is an entry with the name of
the connection and the descriptor, and the position is that of the byte in what the other side sent. No other memory
changes its label. This is right as long as before nothing was taken with flags or by recvmsg and the like and no message was
cut (`C81_peek_refuted`, `C81_recvmsg_refuted`, `C81_message_refuted`), and without MSG_TRUNC (`C81_trunc_refuted`). Other
connections are missing (`C81_progress_refuted`, `C81_family_refuted`). -/
theorem C81_recv_partial {c : Config} {base : Nat} (hc : c.Ok base) {h₀ : Trace} {K₀ K K' : NetSys} {T₀ T T' : Tracker}
    {E : NetHist} (hr : Reach c base h₀ T₀) (he : Exec K₀ T₀ E K T) {fd : Nat} {l r : Endpoint} {size : Option Nat}
    (ho : joinedAs E fd = some (l, r, size)) {s : Sock} (hs : K.get fd = some s) (hp : plainIn s.stream E fd = true)
    {buf n avail : Nat} {peek : Bool} {o : NetObs} (hfit : Fits K T (.recv fd buf n peek false avail))
    (hx : step K T (.recv fd buf n peek false avail) = .ok (K', T', o)) :
    ∃ i, T'.SourceIs i (connName l r) fd (size.getD unknownSize) ∧ Files.Attributed T T' buf o.data i s.pos ∧
      ∀ k, k < o.data.length → o.data[k]? = s.inc[s.pos + k]? := by
  obtain ⟨h, h1, h2⟩ := he.good hc hr
  obtain ⟨i, h3, h4, h5⟩ := h2.entry hc h1 ho
  have hk := congrArg Prod.snd (step_kernel hx)
  simp only [NetSys.step, hs] at hk
  subst hk
  have hlen : NetSys.result s n false avail = (NetSys.placed s n false avail).length := by
    simp only [NetSys.result, NetSys.placed, Bool.and_false, Bool.false_eq_true, if_false]
  have hd : ∀ k, k < (NetSys.placed s n false avail).length → (NetSys.placed s n false avail)[k]? = s.inc[s.pos + k]? :=
    fun k hk => placed_get hk
  rcases step_recv hfit hx with ⟨k1, rfl⟩ | ⟨-, k1, q, k2⟩
  · simp only at k1
    exact ⟨i, h5, ⟨fun k hk => by simp only at hk; omega, fun _ _ => rfl⟩, hd⟩
  · simp only [Int.toNat_natCast, hlen] at k1 k2
    have ha := Files.attributed_of hc h1 h3 k1 k2
    rw [Option.getD_none, h2.rd fd _ s i ho hs hp h3] at ha
    exact ⟨i, sourceIs_of_registered ((h1.snoc k1 k2).sim hc) h4, ha, hd⟩

/-- Sending to such a connection: exactly the labelled bytes among those that the network takes are recorded, in order,
each with its label, the entry of the connection and its position in what the other side gets. This is right as long as
before nothing was sent by sendto and the like (`C81_sendto_refuted`); nothing is said when the log is full (C22). -/
theorem C81_send_partial {c : Config} {base : Nat} (hc : c.Ok base) {h₀ : Trace} {K₀ K K' : NetSys} {T₀ T T' : Tracker}
    {E : NetHist} (hr : Reach c base h₀ T₀) (he : Exec K₀ T₀ E K T) {fd : Nat} {l r : Endpoint} {size : Option Nat}
    (ho : joinedAs E fd = some (l, r, size)) {s : Sock} (hs : K.get fd = some s) (hp : plainOut E fd = true)
    {buf k : Nat} {bytes : List Nat} {o : NetObs} (hfit : Fits K T (.send fd buf bytes k))
    (hx : step K T (.send fd buf bytes k) = .ok (K', T', o)) (hroom : T.sinks.length + bytes.length ≤ c.sinkCap) :
    ∃ i, T'.SourceIs i (connName l r) fd (size.getD unknownSize) ∧
      T'.sinks = T.sinks ++ ((List.range (bytes.take k).length).filter fun j => T.shadow (buf + j) ≠ 0).map (fun j =>
        ⟨s.out.length + j, T.shadow (buf + j), i⟩) ∧ T'.shadow = T.shadow ∧ T'.labels = T.labels ∧
      ∃ s', K'.get fd = some s' ∧ ∀ j, j < (bytes.take k).length → s'.out[s.out.length + j]? = bytes[j]? := by
  obtain ⟨h, h1, h2⟩ := he.good hc hr
  obtain ⟨i, h3, h4, h5⟩ := h2.entry hc h1 ho
  have hk := step_kernel hx
  simp only [NetSys.step, hs, Prod.mk.injEq] at hk
  obtain ⟨hK, hk⟩ := hk
  subst hK hk
  have hd : ∃ s', (K.put fd { s with out := s.out ++ bytes.take k }).get fd = some s' ∧
      ∀ j, j < (bytes.take k).length → s'.out[s.out.length + j]? = bytes[j]? := by
    refine ⟨_, by rw [get_put, if_pos rfl], fun j hj => ?_⟩
    simp only
    rw [List.getElem?_append_right (by omega), Nat.add_sub_cancel_left]
    rw [List.length_take] at hj
    rw [List.getElem?_take_of_lt (by omega)]
  rcases step_send hfit hx with ⟨k1, rfl⟩ | ⟨hb, k1, q, k2⟩
  · simp only at k1
    have h0 : (bytes.take k).length = 0 := by omega
    rw [h0] at hd ⊢
    exact ⟨i, h5, by simp, rfl, rfl, hd⟩
  · simp only [Int.toNat_natCast] at hb k1 k2
    have hal := k1 i (by rw [(((h1.sim hc).tab).choose_spec).mapping hc.src fd, h3])
    rw [(h1.sim hc).wr i] at hal
    have hle : ((List.range (bytes.take k).length).filter fun j => T.shadow (buf + j) ≠ 0).length ≤ bytes.length := by
      have := List.length_filter_le (fun j => decide (T.shadow (buf + j) ≠ 0)) (List.range (bytes.take k).length)
      rw [List.length_range] at this
      have hb : (bytes.take k).length ≤ bytes.length := by rw [List.length_take]; omega
      exact Nat.le_trans this hb
    obtain ⟨T1, m1, m2, m3, m4, m5, -⟩ := (sink_exact hc h1 fd buf none (some (bytes.take k).length)
      (fun e => by simp only [Option.some.injEq] at e; omega) Ret.unit).2 i h3 (by simp only [Option.getD_some]; omega)
      (by simp only [Option.getD_some]; omega) (by simp only [Option.getD_some]; omega)
    have e : T.exec (.write fd none buf (bytes.take k).length) = .ok (T1, .unit) := m1
    rw [k2] at e
    cases e
    rw [Option.getD_none, h2.wr fd _ s i ho hs hp h3, Option.getD_some] at m2
    exact ⟨i, sourceIs_of_registered ((h1.snoc k1 k2).sim hc) h4, m2, m4, m3, hd⟩

/-- A connection whose other side is already gone: the program would get the descriptor and go on; here it is stopped. -/
theorem C81_gone_refuted (K : NetSys) (T : Tracker) (fd addr : Nat) (s : Sock) (size : Option Nat) (l r : Endpoint)
    (hs : s.ends = .inet l r false) : (K.step (.accept fd addr s size)).2.ret = fd ∧ step K T (.accept fd addr s size) = .fatal := by
  refine ⟨rfl, ?_⟩
  simp only [step]
  rw [if_pos (show (K.step (.accept fd addr s size)).2.ret ≥ 0 from Int.natCast_nonneg fd)]
  simp only [register, hs, sockname, peername, connectName, Endpoint.sockaddr, List.getD_cons_zero, List.getD_cons_succ,
    Bool.false_eq_true, if_false]
  rfl

/-! ### What goes wrong -/

instance (T : Tracker) (fd : Nat) (s : Sock) (size : Option Nat) : Decidable (Net.Room T fd s size) := by
  have : Decidable (match s.ends with
      | .inet l r _ => l.Ok ∧ r.Ok ∧ T.strings.size + ((connName l r).length + 3) / 2 * 2 ≤ T.cfg.strSize
      | .other f => f ≠ 2 ∧ f < 65536) := by
    cases s.ends with
    | inet l r b => exact inferInstanceAs (Decidable (_ ∧ _ ∧ _))
    | other f => exact inferInstanceAs (Decidable (_ ∧ _))
  exact inferInstanceAs (Decidable (_ ∧ _ ∧ _ ∧ _))

instance (K : NetSys) (T : Tracker) (op : NetOp) : Decidable (Net.Fits K T op) := by
  cases op with
  | accept fd addr s size => exact inferInstanceAs (Decidable (Net.Room T fd s size))
  | connect fd s now size => exact inferInstanceAs (Decidable (Net.Room T fd s size))
  | recv fd buf n peek trunc avail => simp only [Net.Fits]; infer_instance
  | send fd buf bytes k => simp only [Net.Fits]; infer_instance
  | recvmsg fd n avail => exact inferInstanceAs (Decidable True)
  | sendto fd bytes k => exact inferInstanceAs (Decidable True)
  | close fd => exact inferInstanceAs (Decidable True)

/-- Make calls, oldest first, checking the limits before each. -/
def Net.script : NetSys → Tracker → NetHist → List NetOp → Option (NetSys × Tracker × NetHist)
  | K, T, E, [] => some (K, T, E)
  | K, T, E, op :: ops =>
    if Fits K T op then
      match step K T op with
      | .ok (K', T', o) => script K' T' ((op, o) :: E) ops
      | _ => none
    else none

theorem Net.script_exec {K₀ : NetSys} {T₀ : Tracker} (ops : List NetOp) : ∀ {K K' : NetSys} {T T' : Tracker}
    {E E' : NetHist}, Exec K₀ T₀ E K T → script K T E ops = some (K', T', E') → Exec K₀ T₀ E' K' T' := by
  induction ops with
  | nil => intro K K' T T' E E' he hs; cases hs; exact he
  | cons op ops ih =>
    intro K K' T T' E E' he hs
    simp only [script] at hs
    split at hs
    · rename_i hf
      split at hs
      · rename_i hst
        exact ih (.net he hf hst) hs
      · cases hs
    · cases hs

/-- A trace file with room for the names. -/
def Net.exNetCfg : Config := { exCfg with strSize := 512 }

theorem Net.exNetCfg_ok : exNetCfg.Ok 4096 := by
  refine ⟨?_, ?_, ?_, ?_, ?_, ?_, ?_, ?_⟩ <;> decide

theorem Net.run_exec {ops : List NetOp} {P : NetSys → Tracker → NetHist → Prop} [∀ K T E, Decidable (P K T E)]
    (h : (match Tracker.init exNetCfg 4096 with
      | .ok T₀ => match script [] T₀ [] ops with
        | some (K, T, E) => decide (P K T E)
        | none => false
      | _ => false) = true) :
    ∃ T₀ K T E, Reach exNetCfg 4096 [] T₀ ∧ Exec [] T₀ E K T ∧ P K T E := by
  split at h
  · rename_i T₀ h0
    split at h
    · rename_i K T E hs
      exact ⟨T₀, K, T, E, ⟨T₀, h0, .nil⟩, script_exec ops .nil hs, by simpa using h⟩
    · cases h
  · cases h

def Net.exL : Endpoint := ⟨127, 0, 0, 1, 80⟩
def Net.exR : Endpoint := ⟨10, 0, 0, 7, 40000⟩
/-- The other side sends "abcd". -/
def Net.exS : Sock := { ends := .inet exL exR true, inc := [97, 98, 99, 100] }
/-- A second client. -/
def Net.exS2 : Sock := { ends := .inet exL ⟨10, 0, 0, 8, 1024⟩ true, inc := [120, 121] }
/-- A client over IPv6. -/
def Net.exS6 : Sock := { ends := .other 10, inc := [120, 121] }
/-- Messages "abcd". -/
def Net.exM : Sock := { exS with stream := false }

/-- After a look at the first two bytes with MSG_PEEK, the byte "a" is said to be the third. -/
theorem C81_peek_refuted :
    ∃ T₀ K T E, Reach exNetCfg 4096 [] T₀ ∧ Exec [] T₀ E K T ∧
      E = [(.recv 4 2000 1 false false 4, { ret := 1, data := [97] }), (.recv 4 1000 2 true false 4, { ret := 2, data := [97, 98] }),
        (.accept 4 0 exS none, { ret := 4, data := exR.sockaddr })] ∧
      T.SourceIs 0 (connName exL exR) 4 unknownSize ∧ ∀ b, Denotes T.labels.graph (T.shadow 2000) b ↔ b = (0, 2) := by
  obtain ⟨T₀, K, T, E, h1, h2, h3, h4, h5⟩ := run_exec
    (ops := [.accept 4 0 exS none, .recv 4 1000 2 true false 4, .recv 4 2000 1 false false 4]) (P := fun _ T E =>
      E = [(.recv 4 2000 1 false false 4, { ret := 1, data := [97] }), (.recv 4 1000 2 true false 4, { ret := 2, data := [97, 98] }),
        (.accept 4 0 exS none, { ret := 4, data := exR.sockaddr })] ∧
      Files.entryOf T 0 = some (.ok (connName exL exR), 4, unknownSize) ∧
      T.labels.graph (T.shadow 2000) = some (.source false 0 2))
    (by decide +kernel)
  exact ⟨T₀, K, T, E, h1, h2, h3, Files.sourceIs_of_entry h4, Files.denotes_of_source h5⟩

/-- After two bytes were taken by recvmsg, "c" is said to be the first byte. -/
theorem C81_recvmsg_refuted :
    ∃ T₀ K T E, Reach exNetCfg 4096 [] T₀ ∧ Exec [] T₀ E K T ∧
      E = [(.recv 4 2000 1 false false 2, { ret := 1, data := [99] }), (.recvmsg 4 2 4, { ret := 2, data := [97, 98] }),
        (.connect 4 exS true none, { ret := 0 })] ∧
      T.SourceIs 0 (connName exL exR) 4 unknownSize ∧ ∀ b, Denotes T.labels.graph (T.shadow 2000) b ↔ b = (0, 0) := by
  obtain ⟨T₀, K, T, E, h1, h2, h3, h4, h5⟩ := run_exec
    (ops := [.connect 4 exS true none, .recvmsg 4 2 4, .recv 4 2000 1 false false 2]) (P := fun _ T E =>
      E = [(.recv 4 2000 1 false false 2, { ret := 1, data := [99] }), (.recvmsg 4 2 4, { ret := 2, data := [97, 98] }),
        (.connect 4 exS true none, { ret := 0 })] ∧
      Files.entryOf T 0 = some (.ok (connName exL exR), 4, unknownSize) ∧
      T.labels.graph (T.shadow 2000) = some (.source false 0 0))
    (by decide +kernel)
  exact ⟨T₀, K, T, E, h1, h2, h3, Files.sourceIs_of_entry h4, Files.denotes_of_source h5⟩

/-- The message "abc" is read into a buffer of one byte, the rest of it is lost. The next message, "d", is said to start at
the second byte. -/
theorem C81_message_refuted :
    ∃ T₀ K T E, Reach exNetCfg 4096 [] T₀ ∧ Exec [] T₀ E K T ∧
      E = [(.recv 4 2000 1 false false 1, { ret := 1, data := [100] }), (.recv 4 1000 1 false false 3, { ret := 1, data := [97] }),
        (.connect 4 exM true none, { ret := 0 })] ∧
      T.SourceIs 0 (connName exL exR) 4 unknownSize ∧ ∀ b, Denotes T.labels.graph (T.shadow 2000) b ↔ b = (0, 1) := by
  obtain ⟨T₀, K, T, E, h1, h2, h3, h4, h5⟩ := run_exec
    (ops := [.connect 4 exM true none, .recv 4 1000 1 false false 3, .recv 4 2000 1 false false 1]) (P := fun _ T E =>
      E = [(.recv 4 2000 1 false false 1, { ret := 1, data := [100] }), (.recv 4 1000 1 false false 3, { ret := 1, data := [97] }),
        (.connect 4 exM true none, { ret := 0 })] ∧
      Files.entryOf T 0 = some (.ok (connName exL exR), 4, unknownSize) ∧
      T.labels.graph (T.shadow 2000) = some (.source false 0 1))
    (by decide +kernel)
  exact ⟨T₀, K, T, E, h1, h2, h3, Files.sourceIs_of_entry h4, Files.denotes_of_source h5⟩

/-- MSG_TRUNC on messages: the buffer has one byte, and the memory behind it gets the labels of the bytes that were lost.
On streams: no byte is placed in the buffer, which nevertheless gets labels. -/
theorem C81_trunc_refuted :
    (∃ T₀ K T E, Reach exNetCfg 4096 [] T₀ ∧ Exec [] T₀ E K T ∧
      E = [(.recv 4 1000 1 false true 3, { ret := 3, data := [97] }), (.connect 4 exM true none, { ret := 0 })] ∧
      T.shadow 1001 ≠ 0 ∧ T.shadow 1002 ≠ 0) ∧
    ∃ T₀ K T E, Reach exNetCfg 4096 [] T₀ ∧ Exec [] T₀ E K T ∧
      E = [(.recv 4 1000 3 false true 3, { ret := 3, data := [] }), (.connect 4 exS true none, { ret := 0 })] ∧
      T.shadow 1000 ≠ 0 :=
  ⟨run_exec (ops := [.connect 4 exM true none, .recv 4 1000 1 false true 3]) (by decide +kernel),
    run_exec (ops := [.connect 4 exS true none, .recv 4 1000 3 false true 3]) (by decide +kernel)⟩

/-- A connect that is in progress on return: nothing received over this connection has a label. -/
theorem C81_progress_refuted :
    ∃ T₀ K T E, Reach exNetCfg 4096 [] T₀ ∧ Exec [] T₀ E K T ∧
      E = [(.recv 4 1000 4 false false 4, { ret := 4, data := [97, 98, 99, 100] }), (.connect 4 exS false none, { ret := -1 })] ∧
      ∀ k, k < 4 → T.shadow (1000 + k) = 0 :=
  run_exec (ops := [.connect 4 exS false none, .recv 4 1000 4 false false 4]) (by decide +kernel)

/-- Connections over IPv6 are not tracked. If the descriptor was used for another connection before, what is received is
attributed to that: here "x", sent over IPv6, is said to be the second byte that the first client sent. -/
theorem C81_family_refuted :
    (∃ T₀ K T E, Reach exNetCfg 4096 [] T₀ ∧ Exec [] T₀ E K T ∧
      E = [(.recv 4 1000 2 false false 2, { ret := 2, data := [120, 121] }), (.accept 4 0 exS6 none, { ret := 4, data := [10, 0] })] ∧
      T.shadow 1000 = 0 ∧ T.shadow 1001 = 0) ∧
    ∃ T₀ K T E, Reach exNetCfg 4096 [] T₀ ∧ Exec [] T₀ E K T ∧
      E = [(.recv 4 2000 1 false false 2, { ret := 1, data := [120] }), (.accept 4 0 exS6 none, { ret := 4, data := [10, 0] }),
        (.close 4, { ret := 0 }), (.recv 4 1000 1 false false 4, { ret := 1, data := [97] }),
        (.accept 4 0 exS none, { ret := 4, data := exR.sockaddr })] ∧
      T.SourceIs 0 (connName exL exR) 4 unknownSize ∧ ∀ b, Denotes T.labels.graph (T.shadow 2000) b ↔ b = (0, 1) := by
  refine ⟨run_exec (ops := [.accept 4 0 exS6 none, .recv 4 1000 2 false false 2]) (by decide +kernel), ?_⟩
  obtain ⟨T₀, K, T, E, h1, h2, h3, h4, h5⟩ := run_exec
    (ops := [.accept 4 0 exS none, .recv 4 1000 1 false false 4, .close 4, .accept 4 0 exS6 none, .recv 4 2000 1 false false 2])
    (P := fun _ T E =>
      E = [(.recv 4 2000 1 false false 2, { ret := 1, data := [120] }), (.accept 4 0 exS6 none, { ret := 4, data := [10, 0] }),
        (.close 4, { ret := 0 }), (.recv 4 1000 1 false false 4, { ret := 1, data := [97] }),
        (.accept 4 0 exS none, { ret := 4, data := exR.sockaddr })] ∧
      Files.entryOf T 0 = some (.ok (connName exL exR), 4, unknownSize) ∧
      T.labels.graph (T.shadow 2000) = some (.source false 0 1))
    (by decide +kernel)
  exact ⟨T₀, K, T, E, h1, h2, h3, Files.sourceIs_of_entry h4, Files.denotes_of_source h5⟩

/-- The first byte received is sent on after two bytes were sent with sendto: it is the third byte that the other side gets,
and recorded as the first. -/
theorem C81_sendto_refuted :
    ∃ T₀ K T E, Reach exNetCfg 4096 [] T₀ ∧ Exec [] T₀ E K T ∧
      E.reverse.map Prod.fst = [.accept 4 0 exS none, .recv 4 1000 1 false false 4, .sendto 4 [111, 107] 2, .send 4 1000 [97] 1] ∧
      (K.get 4).map (·.out) = some [111, 107, 97] ∧ T.shadow 1000 = 1 ∧ T.sinks = [⟨0, 1, 0⟩] :=
  run_exec (ops := [.accept 4 0 exS none, .recv 4 1000 1 false false 4, .sendto 4 [111, 107] 2, .send 4 1000 [97] 1])
    (by decide +kernel)

/-- accept places the address of the other side in memory and leaves the labels that were there: the address of the second
client has the labels of the bytes the first client sent. -/
theorem C81_address_refuted :
    ∃ T₀ K T E, Reach exNetCfg 4096 [] T₀ ∧ Exec [] T₀ E K T ∧
      E = [(.accept 5 1000 exS2 none, { ret := 5, data := (⟨10, 0, 0, 8, 1024⟩ : Endpoint).sockaddr }),
        (.recv 4 1000 4 false false 4, { ret := 4, data := [97, 98, 99, 100] }),
        (.accept 4 0 exS none, { ret := 4, data := exR.sockaddr })] ∧
      ∀ b, Denotes T.labels.graph (T.shadow 1002) b ↔ b = (0, 2) := by
  obtain ⟨T₀, K, T, E, h1, h2, h3, h4⟩ := run_exec
    (ops := [.accept 4 0 exS none, .recv 4 1000 4 false false 4, .accept 5 1000 exS2 none])
    (P := fun _ T E =>
      E = [(.accept 5 1000 exS2 none, { ret := 5, data := (⟨10, 0, 0, 8, 1024⟩ : Endpoint).sockaddr }),
        (.recv 4 1000 4 false false 4, { ret := 4, data := [97, 98, 99, 100] }),
        (.accept 4 0 exS none, { ret := 4, data := exR.sockaddr })] ∧
      T.labels.graph (T.shadow 1002) = some (.source false 0 2))
    (by decide +kernel)
  exact ⟨T₀, K, T, E, h1, h2, h3, Files.denotes_of_source h4⟩

/-! ### The hypotheses are met -/

def Net.obsOf : Res (NetSys × Tracker × NetObs) → Option NetObs
  | .ok (_, _, o) => some o
  | _ => none

/-- C81_recv_partial, C81_send_partial, C81_same_partial: two clients; bytes of the first go to the second, the descriptor
of the first is then used again. -/
example : ∃ T₀ K T E, Reach exNetCfg 4096 [] T₀ ∧ Exec [] T₀ E K T ∧
    (joinedAs E 4 = some (exL, exR, none) ∧ joinedAs E 5 = some (exL, ⟨10, 0, 0, 8, 1024⟩, some 9)) ∧
    (plainIn true E 4 = true ∧ plainOut E 5 = true) ∧
    ((K.get 4).map (fun s => (s.stream, s.pos)) = some (true, 1) ∧ (K.get 5).map (·.out) = some [97, 98]) ∧
    (Fits K T (.recv 4 1000 2 false false 3) ∧ Fits K T (.send 5 1000 [99, 122] 2)) ∧
    obsOf (step K T (.recv 4 1000 2 true false 3)) = some { ret := 2, data := [98, 99] } ∧
    obsOf (step K T (.send 5 1000 [99, 122] 2)) = some { ret := 2 } ∧ T.sinks.length + 2 ≤ exNetCfg.sinkCap ∧
    T.shadow 1000 = 1 ∧ T.shadow 1003 = 0 :=
  set_option synthInstance.maxSize 1000 in
  set_option synthInstance.maxHeartbeats 200000 in
  run_exec (ops := [.accept 4 0 exS none, .accept 5 0 exS2 (some 9), .recv 4 1000 2 false false 4, .send 5 1000 [97, 98, 99] 2,
      .close 4, .connect 4 exS true none, .recv 4 1002 1 false false 4, .recv 5 1003 0 false false 2])
    (by decide +kernel)

/-- C81_name, C81_gone_refuted. -/
example : exL.Ok ∧ exR.Ok ∧ connName exL exR = Startup.chars "socket:127.0.0.1:80-10.0.0.7:40000".toList := by decide +kernel

end Verif
