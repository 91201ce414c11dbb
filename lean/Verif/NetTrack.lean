import Verif.Net
import Verif.FilesTrack
/- Lemmas for C81: names of connections and the calls at the tracker made for sockets. -/
namespace Verif
open Spec Tracker

/-! ### Names -/

namespace Net

theorem decimalF_digitsOf : ∀ (fuel n : Nat), n < 10 ^ (fuel + 1) → Startup.decimalF fuel n = digitsOf n := by
  have hd : ∀ n, n < 10 → (Nat.digitChar n).toNat = 48 + n := by decide
  intro fuel
  induction fuel with
  | zero =>
    intro n hn
    have hn' : n < 10 := by omega
    show [48 + n % 10] = _
    unfold digitsOf
    rw [Nat.toDigits_of_lt_base hn', List.map_cons, List.map_nil, hd n hn', Nat.mod_eq_of_lt hn']
  | succ fuel ih =>
    intro n hn
    rw [Startup.decimalF]
    by_cases h : n < 10
    · rw [if_pos h]
      unfold digitsOf
      rw [Nat.toDigits_of_lt_base h, List.map_cons, List.map_nil, hd n h]
    · rw [if_neg h, ih (n / 10) (by rw [Nat.pow_succ] at hn; omega)]
      unfold digitsOf
      rw [Nat.toDigits_of_base_le (n := n) (by omega) (by omega), List.map_append, List.map_cons, List.map_nil,
        hd _ (Nat.mod_lt _ (by omega))]

theorem decimal_digitsOf {n : Nat} (hn : n < 65536) : Startup.decimal n = digitsOf n :=
  decimalF_digitsOf 9 n (by omega)

theorem digitsOf_digit : ∀ (n x : Nat), x ∈ digitsOf n → 48 ≤ x ∧ x < 58 := by
  have hd : ∀ n, n < 10 → (Nat.digitChar n).toNat = 48 + n := by decide
  intro n
  induction n using Nat.strongRecOn with
  | ind n ih =>
    intro x hx
    unfold digitsOf at hx ih
    by_cases h : n < 10
    · rw [Nat.toDigits_of_lt_base h, List.map_cons, List.map_nil, hd n h] at hx
      simp only [List.mem_singleton] at hx
      omega
    · rw [Nat.toDigits_of_base_le (by omega) (by omega), List.map_append, List.map_cons, List.map_nil,
        hd _ (Nat.mod_lt _ (by omega)), List.mem_append, List.mem_singleton] at hx
      rcases hx with hx | hx
      · exact ih (n / 10) (by omega) x hx
      · have := Nat.mod_lt n (show 10 > 0 by omega)
        omega

theorem digitsOf_inj {m n : Nat} (h : digitsOf m = digitsOf n) : m = n := by
  have hinj : ∀ x y : Char, x.toNat = y.toNat → x = y := fun x y e => Char.ext (UInt32.toNat_inj.1 e)
  have h2 := (List.map_inj_right (f := Char.toNat) hinj).1 h
  have := congrArg (fun l => Nat.ofDigitChars 10 l 0) h2
  simpa [Nat.ofDigitChars_toDigits] using this

theorem split_at {s : Nat} : ∀ {a b c d : List Nat}, s ∉ a → s ∉ c → a ++ s :: b = c ++ s :: d → a = c ∧ b = d := by
  intro a
  induction a with
  | nil =>
    intro b c d _ hc h
    cases c with
    | nil => simp at h; exact ⟨rfl, h⟩
    | cons y c => simp at h; exact absurd (by rw [h.1]; exact List.mem_cons_self) hc
  | cons x a ih =>
    intro b c d ha hc h
    cases c with
    | nil => simp at h; exact absurd (by rw [h.1]; exact List.mem_cons_self) ha
    | cons y c =>
      simp only [List.cons_append, List.cons.injEq] at h
      obtain ⟨h1, h2⟩ := ih (fun e => ha (List.mem_cons_of_mem _ e)) (fun e => hc (List.mem_cons_of_mem _ e)) h.2
      exact ⟨by rw [h.1, h1], h2⟩

theorem not_digit {s n : Nat} (h : s < 48 ∨ 58 ≤ s) : s ∉ digitsOf n := fun e => by
  have := digitsOf_digit n s e; omega

theorem text_no_dash (e : Endpoint) : 45 ∉ e.text := by
  have hd : ∀ n, 45 ∉ digitsOf n := fun n => not_digit (by omega)
  simp [Endpoint.text, hd]

theorem text_byte (e : Endpoint) : ∀ b ∈ e.text, b < 256 := by
  have hd : ∀ n, ∀ b ∈ digitsOf n, b < 256 := fun n b hb => by have := digitsOf_digit n b hb; omega
  intro b hb
  simp only [Endpoint.text, List.mem_append, List.mem_cons] at hb
  rcases hb with h | h | h | h | h | h | h | h | h
  all_goals first | exact hd _ b h | omega

theorem text_inj {e f : Endpoint} (h : e.text = f.text) : e = f := by
  unfold Endpoint.text at h
  have hd : ∀ n, 46 ∉ digitsOf n := fun n => not_digit (by omega)
  have hc : ∀ n, 58 ∉ digitsOf n := fun n => not_digit (by omega)
  obtain ⟨h1, h⟩ := split_at (hd _) (hd _) h
  obtain ⟨h2, h⟩ := split_at (hd _) (hd _) h
  obtain ⟨h3, h⟩ := split_at (hd _) (hd _) h
  obtain ⟨h4, h5⟩ := split_at (hc _) (hc _) h
  cases e; cases f
  simp only at h1 h2 h3 h4 h5
  rw [digitsOf_inj h1, digitsOf_inj h2, digitsOf_inj h3, digitsOf_inj h4, digitsOf_inj h5]

theorem connName_inj {l r l' r' : Endpoint} (h : connName l r = connName l' r') : l = l' ∧ r = r' := by
  unfold connName at h
  obtain ⟨h1, h2⟩ := split_at (text_no_dash _) (text_no_dash _) (List.append_cancel_left h)
  exact ⟨text_inj h1, text_inj h2⟩

theorem connName_byte (l r : Endpoint) : ∀ b ∈ connName l r, b < 256 := by
  intro b hb
  simp only [connName, List.mem_append, List.mem_cons] at hb
  rcases hb with h | h | h | h
  · simp only [List.not_mem_nil, or_false] at h; omega
  · exact text_byte l b h
  · omega
  · exact text_byte r b h

theorem connectName_spec {l r : Endpoint} (hl : l.Ok) (hr : r.Ok) :
    connectName (some l.sockaddr) (some r.sockaddr) = .ok (some (connName l r)) := by
  obtain ⟨l1, l2, l3, l4, l5⟩ := hl
  obtain ⟨r1, r2, r3, r4, r5⟩ := hr
  have hn : ∀ p, p < 65536 → ntohs (p / 256) (p % 256) = p := by
    intro p hp; simp only [ntohs]; omega
  simp only [connectName, Endpoint.sockaddr, List.getD_cons_zero, List.getD_cons_succ, inetNtop]
  rw [if_neg (by simp)]
  rw [hn _ l5, hn _ r5, decimal_digitsOf (show l.a < 65536 by omega), decimal_digitsOf (show l.b < 65536 by omega),
    decimal_digitsOf (show l.c < 65536 by omega), decimal_digitsOf (show l.d < 65536 by omega), decimal_digitsOf l5,
    decimal_digitsOf (show r.a < 65536 by omega), decimal_digitsOf (show r.b < 65536 by omega),
    decimal_digitsOf (show r.c < 65536 by omega), decimal_digitsOf (show r.d < 65536 by omega), decimal_digitsOf r5]
  simp only [connName, Endpoint.text, Startup.chars, List.append_assoc, List.cons_append, List.nil_append]
  rfl

/-! ### The socket table -/

theorem get_del_ne {K : NetSys} {fd fd' : Nat} (h : fd' ≠ fd) : (K.del fd').get fd = K.get fd := by
  unfold NetSys.get NetSys.del
  congr 1
  induction K with
  | nil => rfl
  | cons x K ih =>
    rw [List.filter_cons]
    by_cases hx : x.1 = fd'
    · rw [if_neg (by simp [hx]), List.find?_cons_of_neg (by simp; omega), ih]
    · rw [if_pos (by simp [hx])]
      by_cases hy : x.1 = fd
      · rw [List.find?_cons_of_pos (by simp [hy]), List.find?_cons_of_pos (by simp [hy])]
      · rw [List.find?_cons_of_neg (by simp [hy]), List.find?_cons_of_neg (by simp [hy]), ih]

theorem get_put (K : NetSys) (fd' fd : Nat) (s : Sock) :
    (K.put fd' s).get fd = if fd' = fd then some s else K.get fd := by
  by_cases h : fd' = fd
  · rw [if_pos h]
    unfold NetSys.get NetSys.put
    rw [List.find?_cons_of_pos (by simp [h])]
    rfl
  · rw [if_neg h, ← get_del_ne (K := K) h]
    unfold NetSys.get NetSys.put
    rw [List.find?_cons_of_neg (by simp [h])]

/-! ### Calls at the tracker -/

theorem open_room {c : Config} {base : Nat} (hc : c.Ok base) {h : Trace} {T T' : Tracker} (hr : Reach c base h T) {fd : Int}
    {name : List Nat} {size : Option Nat} {i : Option Nat} (hn : name.length ≤ StrTab.maxLen)
    (h4 : T.sources.length < T.cfg.srcCap) (h5 : T.strings.size + (name.length + 3) / 2 * 2 ≤ T.cfg.strSize)
    (he : T.openFile fd name size = .ok (T', i)) : ∃ j, i = some j := by
  have hs := hr.sim hc
  obtain ⟨ss, ht⟩ := hs.tab
  unfold openFile addSource at he
  rcases StrTab.addString_spec ht.strs hn with ⟨-, S', k1, -⟩ | ⟨k1, -⟩
  · simp only [k1, Res.bind_ok] at he
    split at he
    · cases he; exact ⟨_, rfl⟩
    · rename_i hx; exact absurd (by omega) hx
  · exfalso
    rw [ht.size, ← hs.cfg] at k1
    have h2 : StrTab.lenSize = 2 := rfl
    have hal : StrTab.allocatedLen name.length = (name.length + 3) / 2 * 2 := by
      simp only [StrTab.allocatedLen]
      split <;> omega
    rw [hal] at k1
    simp only [Section.size] at h5
    omega

/-- The limits for registering a connection. -/
def Room (T : Tracker) (fd : Nat) (s : Sock) (size : Option Nat) : Prop :=
  fd < 2 ^ 31 ∧ size.getD 0 < 2 ^ 64 ∧ T.sources.length < T.cfg.srcCap ∧
      match s.ends with
      | .inet l r _ => l.Ok ∧ r.Ok ∧ T.strings.size + ((connName l r).length + 3) / 2 * 2 ≤ T.cfg.strSize
      | .other f => f ≠ 2 ∧ f < 65536

theorem digitsOf_length {n : Nat} (hn : n < 65536) : (digitsOf n).length ≤ 5 := by
  rw [← decimalF_digitsOf 4 n (by omega)]
  have : ∀ fuel n, (Startup.decimalF fuel n).length ≤ fuel + 1 := by
    intro fuel
    induction fuel with
    | zero => intro n; simp [Startup.decimalF]
    | succ fuel ih =>
      intro n
      rw [Startup.decimalF]
      split
      · simp
      · have := ih (n / 10); simp; omega
  exact this 4 n

theorem connName_length {l r : Endpoint} (hl : l.Ok) (hr : r.Ok) : (connName l r).length ≤ StrTab.maxLen := by
  have ht : ∀ e : Endpoint, e.Ok → e.text.length ≤ 29 := by
    intro e ⟨h1, h2, h3, h4, h5⟩
    have := digitsOf_length (show e.a < 65536 by omega)
    have := digitsOf_length (show e.b < 65536 by omega)
    have := digitsOf_length (show e.c < 65536 by omega)
    have := digitsOf_length (show e.d < 65536 by omega)
    have := digitsOf_length h5
    simp only [Endpoint.text, List.length_append, List.length_cons]
    omega
  have := ht l hl
  have := ht r hr
  have : StrTab.maxLen = 65535 := rfl
  simp only [connName, List.length_append, List.length_cons, List.length_nil]
  omega

theorem register_spec {c : Config} {base : Nat} (hc : c.Ok base) {h : Trace} {T T' : Tracker} (hr : Reach c base h T)
    {fd : Nat} {s : Sock} {size : Option Nat} (hf : Room T fd s size) (he : register T fd s size = .ok T') :
    ((∃ f, s.ends = .other f) ∧ T' = T) ∨
    ∃ l r b j, s.ends = .inet l r b ∧ T.Allowed (.openFile fd (connName l r) size) ∧
      T.exec (.openFile fd (connName l r) size) = .ok (T', .index (some j)) := by
  obtain ⟨f1, f2, f3, f4⟩ := hf
  cases hs : s.ends with
  | other f =>
    rw [hs] at f4
    simp only at f4
    refine Or.inl ⟨⟨f, rfl⟩, ?_⟩
    unfold register connectName at he
    rw [hs] at he
    simp only [sockname, List.getD_cons_zero, List.getD_cons_succ] at he
    rw [if_pos (by omega)] at he
    simp only [Res.bind_ok, Res.pure_eq] at he
    cases he; rfl
  | inet l r b =>
    rw [hs] at f4
    simp only at f4
    obtain ⟨f4, f5, f6⟩ := f4
    unfold register at he
    rw [hs] at he
    cases b with
    | false =>
      simp only [sockname, peername, connectName, Endpoint.sockaddr, List.getD_cons_zero, List.getD_cons_succ] at he
      rw [if_neg (by simp)] at he
      cases he
    | true =>
      simp only [sockname, peername, if_true, connectName_spec f4 f5, Res.bind_ok, Res.bind_eq_ok, Res.pure_eq] at he
      obtain ⟨⟨T1, i⟩, he, hx⟩ := he
      cases hx
      obtain ⟨j, rfl⟩ := open_room hc hr (connName_length f4 f5) f3 f6 he
      refine Or.inr ⟨l, r, true, j, rfl, ⟨by omega, by omega, connName_byte l r, fun z hz => ?_⟩, ?_⟩
      · subst hz; exact f2
      · simp only [exec, he, Res.bind_ok, Res.pure_eq]

theorem step_kernel {K K' : NetSys} {T T' : Tracker} {op : NetOp} {o : NetObs} (h : step K T op = .ok (K', T', o)) :
    K.step op = (K', o) := by
  cases op with
  | accept fd addr s size =>
    simp only [step, Res.bind_eq_ok, Res.pure_eq] at h
    obtain ⟨_, -, h⟩ := h
    cases h; rfl
  | connect fd s now size =>
    simp only [step, Res.bind_eq_ok, Res.pure_eq] at h
    obtain ⟨_, -, h⟩ := h
    cases h; rfl
  | recv fd buf n peek trunc avail =>
    simp only [step, Res.bind_eq_ok, Res.pure_eq] at h
    obtain ⟨_, -, h⟩ := h
    cases h; rfl
  | send fd buf bytes k =>
    simp only [step, Res.bind_eq_ok, Res.pure_eq] at h
    obtain ⟨_, -, h⟩ := h
    cases h; rfl
  | close fd =>
    simp only [step] at h
    split at h <;> cases h <;> rfl
  | recvmsg fd n avail => simp only [step] at h; cases h; rfl
  | sendto fd bytes k => simp only [step] at h; cases h; rfl

/-! ### The invariant -/

/-- The tracker's history fits the calls of the program. -/
structure Good (h : Trace) (K : NetSys) (E : NetHist) : Prop where
  last : ∀ (fd : Nat) l r z, joinedAs E fd = some (l, r, z) → lastOpen h fd = some (connName l r, z, true)
  sock : ∀ (fd : Nat) p, joinedAs E fd = some p → ∃ s, K.get fd = some s
  rd : ∀ (fd : Nat) p s i, joinedAs E fd = some p → K.get fd = some s → plainIn s.stream E fd = true →
    owner h fd = some i → readPos h i = s.pos
  wr : ∀ (fd : Nat) p s i, joinedAs E fd = some p → K.get fd = some s → plainOut E fd = true →
    owner h fd = some i → writePos h i = s.out.length

theorem Good.nil (h : Trace) (K : NetSys) : Good h K [] := by
  refine ⟨?_, ?_, ?_, ?_⟩
  · intro _ _ _ _ e; cases e
  · intro _ _ e; cases e
  · intro _ _ _ _ e; cases e
  · intro _ _ _ _ e; cases e

theorem Good.lift {h h' : Trace} {K K' : NetSys} {E E' : NetHist} (g : Good h K E)
    (H : ∀ (fd : Nat) p, joinedAs E' fd = some p → joinedAs E fd = some p ∧ lastOpen h' fd = lastOpen h fd ∧
      owner h' fd = owner h fd ∧ ∀ s, K.get fd = some s → ∃ s', K'.get fd = some s' ∧ s'.stream = s.stream ∧
        (plainIn s.stream E' fd = true → plainIn s.stream E fd = true ∧
          ∀ i, owner h fd = some i → readPos h i = s.pos → readPos h' i = s'.pos) ∧
        (plainOut E' fd = true → plainOut E fd = true ∧
          ∀ i, owner h fd = some i → writePos h i = s.out.length → writePos h' i = s'.out.length)) : Good h' K' E' := by
  refine ⟨fun fd l r z hj => ?_, fun fd p hj => ?_, fun fd p s' i hj hk hp ho => ?_, fun fd p s' i hj hk hp ho => ?_⟩
  · obtain ⟨h1, h2, -, -⟩ := H fd _ hj
    rw [h2]; exact g.last fd l r z h1
  · obtain ⟨h1, -, -, h4⟩ := H fd _ hj
    obtain ⟨s, hs⟩ := g.sock fd p h1
    obtain ⟨s', h5, -⟩ := h4 s hs
    exact ⟨s', h5⟩
  · obtain ⟨h1, -, h3, h4⟩ := H fd _ hj
    obtain ⟨s, hs⟩ := g.sock fd p h1
    obtain ⟨s1, h5, h6, h7, -⟩ := h4 s hs
    rw [hk] at h5; cases h5
    rw [h6] at hp
    obtain ⟨h8, h9⟩ := h7 hp
    rw [h3] at ho
    exact h9 i ho (g.rd fd p s i h1 hs h8 ho)
  · obtain ⟨h1, -, h3, h4⟩ := H fd _ hj
    obtain ⟨s, hs⟩ := g.sock fd p h1
    obtain ⟨s1, h5, -, -, h7⟩ := h4 s hs
    rw [hk] at h5; cases h5
    obtain ⟨h8, h9⟩ := h7 hp
    rw [h3] at ho
    exact h9 i ho (g.wr fd p s i h1 hs h8 ho)

theorem owner_cons_ne {h : Trace} {fd fd' : Int} {name : List Nat} {size : Option Nat} {r : Ret} (hne : fd' ≠ fd) :
    owner ((.openFile fd' name size, r) :: h) fd = owner h fd := by
  cases r with
  | index i =>
    cases i with
    | some j => rw [owner_cons_open, if_neg hne]
    | none => rfl
  | _ => rfl

theorem Good.call {h : Trace} {K : NetSys} {E : NetHist} (g : Good h K E) {c : Call} {r : Ret} (hc : Aside K c) :
    Good ((c, r) :: h) K E := by
  refine g.lift fun fd p hj => ⟨hj, ?_⟩
  obtain ⟨s, hs⟩ := g.sock fd p hj
  have hsome : (K.get fd).isSome = true := by rw [hs]; rfl
  by_cases hop : ∃ fd' name size, c = .openFile fd' name size
  · obtain ⟨fd', name, size, rfl⟩ := hop
    have hne : fd' ≠ (fd : Int) := hc fd hsome
    refine ⟨by simp only [lastOpen, if_neg hne], owner_cons_ne hne, fun s hs => ⟨s, hs, rfl, ?_, ?_⟩⟩
    · exact fun hp => ⟨hp, fun i _ e => e⟩
    · exact fun hp => ⟨hp, fun i _ e => e⟩
  · have hno : ∀ fd' name size, (c, r).1 ≠ .openFile fd' name size := fun fd' name size e => hop ⟨fd', name, size, e⟩
    refine ⟨lastOpen_cons_other hno, owner_cons_other (Files.nat_ne_neg fd) hno, fun s hs => ⟨s, hs, rfl,
      fun hp => ⟨hp, fun i ho e => ?_⟩, fun hp => ⟨hp, fun i ho e => ?_⟩⟩⟩
    · cases c with
      | read fd' a off len =>
        cases off with
        | none =>
          have hne : fd' ≠ (fd : Int) := hc fd hsome
          simp only [readPos]
          rw [if_neg (fun k => hne (owner_inj k ho)), Nat.add_zero, e]
        | some o => exact e
      | _ => exact e
    · cases c with
      | write fd' off a len =>
        cases off with
        | none =>
          have hne : fd' ≠ (fd : Int) := hc fd hsome
          simp only [writePos]
          rw [if_neg (fun k => hne (owner_inj k ho)), Nat.add_zero, e]
        | some o => exact e
      | writeLabel fd' off a len =>
        cases off with
        | none =>
          have hne : fd' ≠ (fd : Int) := hc fd hsome
          simp only [writePos]
          rw [if_neg (fun k => hne (owner_inj k ho)), Nat.add_zero, e]
        | some o => exact e
      | _ => exact e

/-- A call that leaves the tracker alone and takes the connection of `fd0` from the list, if any. -/
theorem Good.drop {h : Trace} {K K' : NetSys} {E : NetHist} (g : Good h K E) {x : NetOp × NetObs} {fd0 : Nat}
    (h0 : joinedAs (x :: E) fd0 = none) (hk : ∀ fd, fd ≠ fd0 → K'.get fd = K.get fd)
    (hj : ∀ fd, fd ≠ fd0 → joinedAs (x :: E) fd = joinedAs E fd)
    (hi : ∀ b fd, fd ≠ fd0 → plainIn b (x :: E) fd = plainIn b E fd)
    (ho : ∀ fd, fd ≠ fd0 → plainOut (x :: E) fd = plainOut E fd) : Good h K' (x :: E) := by
  refine g.lift fun fd p hp => ?_
  by_cases hne : fd = fd0
  · subst hne; rw [h0] at hp; cases hp
  · rw [hj fd hne] at hp
    refine ⟨hp, rfl, rfl, fun s hs => ⟨s, by rw [hk fd hne, hs], rfl, fun e => ⟨by rw [← hi _ fd hne]; exact e, fun i _ e => e⟩,
      fun e => ⟨by rw [← ho fd hne]; exact e, fun i _ e => e⟩⟩⟩

/-- A call that registers a connection for `fd0`. -/
theorem Good.join {h : Trace} {K K' : NetSys} {E : NetHist} (g : Good h K E) {x : NetOp × NetObs} {fd0 : Nat}
    {l r : Endpoint} {z : Option Nat} {j : Nat} {s0 : Sock} (h0 : joinedAs (x :: E) fd0 = some (l, r, z))
    (hs0 : K'.get fd0 = some s0) (hp0 : s0.pos = 0) (ho0 : s0.out = [])
    (hk : ∀ fd, fd ≠ fd0 → K'.get fd = K.get fd)
    (hj : ∀ fd, fd ≠ fd0 → joinedAs (x :: E) fd = joinedAs E fd)
    (hi : ∀ b fd, fd ≠ fd0 → plainIn b (x :: E) fd = plainIn b E fd)
    (ho : ∀ fd, fd ≠ fd0 → plainOut (x :: E) fd = plainOut E fd) :
    Good ((.openFile fd0 (connName l r) z, .index (some j)) :: h) K' (x :: E) := by
  have hlast : ∀ fd : Nat, lastOpen ((.openFile fd0 (connName l r) z, .index (some j)) :: h) fd =
      if fd0 = fd then some (connName l r, z, true) else lastOpen h fd := by
    intro fd
    simp only [lastOpen, Int.natCast_inj]
  have hown : ∀ fd : Nat, owner ((.openFile fd0 (connName l r) z, .index (some j)) :: h) fd =
      if fd0 = fd then some (registered h).length else owner h fd := by
    intro fd
    rw [owner_cons_open]
    simp only [Int.natCast_inj]
  have hfresh := positions_fresh (i := (registered h).length) h (Nat.le_refl _)
  refine ⟨fun fd l' r' z' hp => ?_, fun fd p hp => ?_, fun fd p s i hp hs hpl hoi => ?_, fun fd p s i hp hs hpl hoi => ?_⟩
  · rw [hlast]
    by_cases hne : fd0 = fd
    · subst hne
      rw [h0] at hp; cases hp
      rw [if_pos rfl]
    · rw [if_neg hne]
      rw [hj fd (fun e => hne e.symm)] at hp
      exact g.last fd l' r' z' hp
  · by_cases hne : fd0 = fd
    · subst hne; exact ⟨s0, hs0⟩
    · rw [hj fd (fun e => hne e.symm)] at hp
      rw [hk fd (fun e => hne e.symm)]
      exact g.sock fd p hp
  · rw [hown] at hoi
    show readPos h i = _
    by_cases hne : fd0 = fd
    · subst hne
      rw [if_pos rfl] at hoi; cases hoi
      rw [hs0] at hs; cases hs
      rw [hfresh.1, hp0]
    · rw [if_neg hne] at hoi
      rw [hj fd (fun e => hne e.symm)] at hp
      rw [hk fd (fun e => hne e.symm)] at hs
      rw [hi _ fd (fun e => hne e.symm)] at hpl
      exact g.rd fd p s i hp hs hpl hoi
  · rw [hown] at hoi
    show writePos h i = _
    by_cases hne : fd0 = fd
    · subst hne
      rw [if_pos rfl] at hoi; cases hoi
      rw [hs0] at hs; cases hs
      rw [hfresh.2, ho0]; rfl
    · rw [if_neg hne] at hoi
      rw [hj fd (fun e => hne e.symm)] at hp
      rw [hk fd (fun e => hne e.symm)] at hs
      rw [ho fd (fun e => hne e.symm)] at hpl
      exact g.wr fd p s i hp hs hpl hoi

/-- Length of what is taken, placed and reported, without flags. -/
theorem result_plain {s : Sock} {n avail : Nat} (h : (s.stream || decide (avail ≤ n)) = true) :
    NetSys.gone s n avail = NetSys.result s n false avail := by
  unfold NetSys.gone NetSys.result
  cases hs : s.stream with
  | true => simp
  | false =>
    rw [hs] at h
    simp only [Bool.false_or, decide_eq_true_eq] at h
    simp only [Bool.false_eq_true, if_false, Bool.and_false]
    rw [List.length_take]
    have : (NetSys.unit s avail).length ≤ avail := by unfold NetSys.unit; rw [List.length_take]; omega
    omega

/-- The calls made by recv. -/
theorem step_recv {K K' : NetSys} {T T' : Tracker} {fd buf n avail : Nat} {peek trunc : Bool} {o : NetObs}
    (hf : Fits K T (.recv fd buf n peek trunc avail))
    (he : step K T (.recv fd buf n peek trunc avail) = .ok (K', T', o)) :
    (o.ret ≤ 0 ∧ T' = T) ∨ (0 < o.ret ∧ T.Allowed (.read fd (some buf) none o.ret.toNat) ∧
      ∃ r, T.exec (.read fd (some buf) none o.ret.toNat) = .ok (T', r)) := by
  have hk := step_kernel he
  simp only [Fits, hk] at hf
  simp only [step, hk, Res.bind_eq_ok, Res.pure_eq] at he
  obtain ⟨⟨T1, p⟩, h1, h2⟩ := he
  cases h2
  rcases Files.wrap_read h1 with ⟨h3, rfl⟩ | ⟨h3, r, h4⟩
  · exact Or.inl ⟨h3, rfl⟩
  · exact Or.inr ⟨h3, fun i hi => hf i hi, r, h4⟩

/-- The calls made by send. -/
theorem step_send {K K' : NetSys} {T T' : Tracker} {fd buf k : Nat} {bytes : List Nat} {o : NetObs}
    (hf : Fits K T (.send fd buf bytes k)) (he : step K T (.send fd buf bytes k) = .ok (K', T', o)) :
    (o.ret ≤ 0 ∧ T' = T) ∨ (0 < o.ret ∧ T.Allowed (.write fd none buf o.ret.toNat) ∧
      ∃ r, T.exec (.write fd none buf o.ret.toNat) = .ok (T', r)) := by
  have hk := step_kernel he
  simp only [Fits, hk] at hf
  simp only [step, hk, Res.bind_eq_ok, Res.pure_eq] at he
  obtain ⟨⟨T1, p⟩, h1, h2⟩ := he
  cases h2
  rcases Files.wrap_write h1 with ⟨h3, rfl⟩ | ⟨h3, r, h4⟩
  · exact Or.inl ⟨h3, rfl⟩
  · refine Or.inr ⟨h3, fun i hi => ?_, r, h4⟩
    have := hf i hi
    simp only [Option.getD_none]
    omega

/-- Every call of the program keeps the histories in step. -/
theorem Good.step {c : Config} {base : Nat} (hc : c.Ok base) {h : Trace} {K K' : NetSys} {T T' : Tracker} {E : NetHist}
    (hr : Reach c base h T) (g : Good h K E) {op : NetOp} {o : NetObs} (hf : Fits K T op)
    (he : step K T op = .ok (K', T', o)) : ∃ h', Reach c base h' T' ∧ Good h' K' ((op, o) :: E) := by
  have hk := step_kernel he
  have hK := congrArg Prod.fst hk
  have ho := congrArg Prod.snd hk
  have hput : ∀ {fd0 : Nat} {s0 : Sock} (fd : Nat), fd ≠ fd0 → (K.put fd0 s0).get fd = K.get fd := by
    intro fd0 s0 fd hne
    rw [get_put, if_neg (fun e => hne e.symm)]
  have hputs : ∀ {fd0 : Nat} {s0 : Sock}, (K.put fd0 s0).get fd0 = some s0 := by
    intro fd0 s0; rw [get_put, if_pos rfl]
  cases op with
  | accept fd0 addr s z =>
    simp only [NetSys.step] at hK ho
    simp only [Net.step, hk] at he
    rw [if_pos (by rw [← ho]; simp)] at he
    simp only [Res.bind_eq_ok] at he
    obtain ⟨T1, he, hx⟩ := he
    cases hx
    have hne : ∀ fd, fd ≠ fd0 → ¬ fd0 = fd := fun fd e e' => e e'.symm
    rcases register_spec hc hr hf he with ⟨⟨f, hs⟩, rfl⟩ | ⟨l, r, b, j, hs, h1, h2⟩
    · refine ⟨h, hr, g.drop (fd0 := fd0) (by simp only [joinedAs, if_true, hs]) ?_ ?_ ?_ ?_⟩
      · subst hK; exact hput
      · intro fd e; simp only [joinedAs, if_neg (hne fd e)]
      · intro b fd e; simp only [plainIn, if_neg (hne fd e)]
      · intro fd e; simp only [plainOut, if_neg (hne fd e)]
    · refine ⟨_, hr.snoc h1 h2, g.join (fd0 := fd0) (s0 := { s with pos := 0, out := [] })
        (by simp only [joinedAs, if_true, hs]) ?_ rfl rfl ?_ ?_ ?_ ?_⟩
      · subst hK; exact hputs
      · subst hK; exact hput
      · intro fd e; simp only [joinedAs, if_neg (hne fd e)]
      · intro b fd e; simp only [plainIn, if_neg (hne fd e)]
      · intro fd e; simp only [plainOut, if_neg (hne fd e)]
  | connect fd0 s now z =>
    simp only [NetSys.step] at hK ho
    simp only [Net.step, hk] at he
    have hne : ∀ fd, fd ≠ fd0 → ¬ fd0 = fd := fun fd e e' => e e'.symm
    have hdrop : (∀ l r b, s.ends = .inet l r b → now = false) → Good h K' ((NetOp.connect fd0 s now z, o) :: E) := by
      intro hn
      refine g.drop (fd0 := fd0) ?_ ?_ ?_ ?_ ?_
      · simp only [joinedAs, if_true]
        cases hs : s.ends with
        | other f => rfl
        | inet l r b => rw [hn l r b hs]
      · subst hK; exact hput
      · intro fd e; simp only [joinedAs, if_neg (hne fd e)]
      · intro b fd e; simp only [plainIn, if_neg (hne fd e)]
      · intro fd e; simp only [plainOut, if_neg (hne fd e)]
    cases now with
    | false =>
      rw [if_neg (by rw [← ho]; simp)] at he
      simp only [Res.bind_ok] at he
      cases he
      exact ⟨h, hr, hdrop fun _ _ _ _ => rfl⟩
    | true =>
      rw [if_pos (by rw [← ho]; simp)] at he
      simp only [Res.bind_eq_ok] at he
      obtain ⟨T1, he, hx⟩ := he
      cases hx
      rcases register_spec hc hr hf he with ⟨⟨f, hs⟩, rfl⟩ | ⟨l, r, b, j, hs, h1, h2⟩
      · exact ⟨h, hr, hdrop fun l r b e => by rw [hs] at e; cases e⟩
      · refine ⟨_, hr.snoc h1 h2, g.join (fd0 := fd0) (s0 := { s with pos := 0, out := [] })
          (by simp only [joinedAs, if_true, hs]) ?_ rfl rfl ?_ ?_ ?_ ?_⟩
        · subst hK; exact hputs
        · subst hK; exact hput
        · intro fd e; simp only [joinedAs, if_neg (hne fd e)]
        · intro b fd e; simp only [plainIn, if_neg (hne fd e)]
        · intro fd e; simp only [plainOut, if_neg (hne fd e)]
  | recv fd0 buf n peek trunc avail =>
    -- the socket afterwards
    have hget : ∀ fd s, K.get fd = some s → ∃ s', K'.get fd = some s' ∧ s'.stream = s.stream ∧ s'.out = s.out ∧
        (fd0 = fd → o.ret = NetSys.result s n trunc avail ∧ s'.pos = if peek then s.pos else s.pos + NetSys.gone s n avail) ∧
        (fd0 ≠ fd → s'.pos = s.pos) := by
      intro fd s hs
      simp only [NetSys.step] at hK ho
      cases h0 : K.get fd0 with
      | none =>
        rw [h0] at hK
        simp only at hK
        subst hK
        refine ⟨s, hs, rfl, rfl, fun e => ?_, fun _ => rfl⟩
        subst e; rw [h0] at hs; cases hs
      | some s0 =>
        rw [h0] at hK ho
        simp only at hK ho
        subst hK
        by_cases hne : fd0 = fd
        · subst hne
          rw [h0] at hs; cases hs
          exact ⟨_, hputs, rfl, rfl, fun _ => ⟨by rw [← ho], rfl⟩, fun e => absurd rfl e⟩
        · exact ⟨s, by rw [hput fd (fun e => hne e.symm), hs], rfl, rfl, fun e => absurd e hne, fun _ => rfl⟩
    rcases step_recv hf he with ⟨k1, rfl⟩ | ⟨k1, k2, r, k3⟩
    · refine ⟨h, hr, g.lift fun fd p hp => ⟨hp, rfl, rfl, fun s hs => ?_⟩⟩
      obtain ⟨s', h1, h2, h3, h4, h5⟩ := hget fd s hs
      refine ⟨s', h1, h2, fun hpl => ?_, fun hpl => ⟨hpl, fun i _ e => by rw [e, h3]⟩⟩
      simp only [plainIn, Bool.and_eq_true] at hpl
      refine ⟨hpl.2, fun i _ e => ?_⟩
      by_cases hne : fd0 = fd
      · obtain ⟨h6, h7⟩ := h4 hne
        rw [if_pos hne] at hpl
        simp only [Bool.and_eq_true, Bool.not_eq_true'] at hpl
        obtain ⟨⟨⟨q1, q2⟩, q3⟩, -⟩ := hpl
        subst q1 q2
        rw [h7, e]
        simp only [Bool.false_eq_true, if_false]
        rw [result_plain q3]
        omega
      · rw [e, h5 hne]
    · refine ⟨_, hr.snoc k2 k3, g.lift fun fd p hp => ⟨hp, rfl, owner_cons_other (Files.nat_ne_neg fd) (by simp), fun s hs => ?_⟩⟩
      obtain ⟨s', h1, h2, h3, h4, h5⟩ := hget fd s hs
      refine ⟨s', h1, h2, fun hpl => ?_, fun hpl => ⟨hpl, fun i _ e => by rw [h3, ← e]; rfl⟩⟩
      simp only [plainIn, Bool.and_eq_true] at hpl
      refine ⟨hpl.2, fun i hi e => ?_⟩
      show readPos h i + (if owner h fd0 = some i then o.ret.toNat else 0) = _
      by_cases hne : fd0 = fd
      · obtain ⟨h6, h7⟩ := h4 hne
        rw [if_pos hne] at hpl
        simp only [Bool.and_eq_true, Bool.not_eq_true'] at hpl
        obtain ⟨⟨⟨q1, q2⟩, q3⟩, -⟩ := hpl
        subst q1 q2
        rw [h7, e, if_pos (by rw [hne]; exact hi)]
        simp only [Bool.false_eq_true, if_false]
        rw [result_plain q3]
        omega
      · rw [if_neg (fun k => hne (by have := owner_inj k hi; omega)), e, h5 hne]; rfl
  | recvmsg fd0 n avail =>
    simp only [Net.step, hk] at he
    cases he
    simp only [NetSys.step] at hK
    refine ⟨h, hr, g.lift fun fd p hp => ⟨hp, rfl, rfl, fun s hs => ?_⟩⟩
    cases h0 : K.get fd0 with
    | none =>
      rw [h0] at hK
      simp only at hK
      subst hK
      refine ⟨s, hs, rfl, fun hpl => ?_, fun hpl => ⟨hpl, fun i _ e => e⟩⟩
      simp only [plainIn, Bool.and_eq_true] at hpl
      exact ⟨hpl.2, fun i _ e => e⟩
    | some s0 =>
      rw [h0] at hK
      simp only at hK
      subst hK
      by_cases hne : fd0 = fd
      · subst hne
        rw [h0] at hs; cases hs
        refine ⟨_, hputs, rfl, fun hpl => ?_, fun hpl => ⟨hpl, fun i _ e => e⟩⟩
        simp only [plainIn, Bool.and_eq_true, ne_eq, not_true_eq_false, decide_false, Bool.false_eq_true, false_and] at hpl
      · refine ⟨s, by rw [hput fd (fun e => hne e.symm), hs], rfl, fun hpl => ?_, fun hpl => ⟨hpl, fun i _ e => e⟩⟩
        simp only [plainIn, Bool.and_eq_true] at hpl
        exact ⟨hpl.2, fun i _ e => e⟩
  | send fd0 buf bytes k =>
    have hget : ∀ fd s, K.get fd = some s → ∃ s', K'.get fd = some s' ∧ s'.stream = s.stream ∧ s'.pos = s.pos ∧
        (fd0 = fd → o.ret = (bytes.take k).length ∧ s'.out = s.out ++ bytes.take k) ∧ (fd0 ≠ fd → s'.out = s.out) := by
      intro fd s hs
      simp only [NetSys.step] at hK ho
      cases h0 : K.get fd0 with
      | none =>
        rw [h0] at hK
        simp only at hK
        subst hK
        refine ⟨s, hs, rfl, rfl, fun e => ?_, fun _ => rfl⟩
        subst e; rw [h0] at hs; cases hs
      | some s0 =>
        rw [h0] at hK ho
        simp only at hK ho
        subst hK
        by_cases hne : fd0 = fd
        · subst hne
          rw [h0] at hs; cases hs
          exact ⟨_, hputs, rfl, rfl, fun _ => ⟨by rw [← ho], rfl⟩, fun e => absurd rfl e⟩
        · exact ⟨s, by rw [hput fd (fun e => hne e.symm), hs], rfl, rfl, fun e => absurd e hne, fun _ => rfl⟩
    rcases step_send hf he with ⟨k1, rfl⟩ | ⟨k1, k2, r, k3⟩
    · refine ⟨h, hr, g.lift fun fd p hp => ⟨hp, rfl, rfl, fun s hs => ?_⟩⟩
      obtain ⟨s', h1, h2, h3, h4, h5⟩ := hget fd s hs
      refine ⟨s', h1, h2, fun hpl => ⟨hpl, fun i _ e => by rw [e, h3]⟩, fun hpl => ⟨hpl, fun i _ e => ?_⟩⟩
      by_cases hne : fd0 = fd
      · obtain ⟨h6, h7⟩ := h4 hne
        rw [h7, e, List.length_append]
        omega
      · rw [e, h5 hne]
    · refine ⟨_, hr.snoc k2 k3, g.lift fun fd p hp => ⟨hp, rfl, owner_cons_other (Files.nat_ne_neg fd) (by simp), fun s hs => ?_⟩⟩
      obtain ⟨s', h1, h2, h3, h4, h5⟩ := hget fd s hs
      refine ⟨s', h1, h2, fun hpl => ⟨hpl, fun i _ e => by rw [h3, ← e]; rfl⟩, fun hpl => ⟨hpl, fun i hi e => ?_⟩⟩
      show writePos h i + (if owner h fd0 = some i then o.ret.toNat else 0) = _
      by_cases hne : fd0 = fd
      · obtain ⟨h6, h7⟩ := h4 hne
        rw [h7, e, if_pos (by rw [hne]; exact hi), List.length_append]
        omega
      · rw [if_neg (fun k => hne (by have := owner_inj k hi; omega)), e, h5 hne]; rfl
  | sendto fd0 bytes k =>
    simp only [Net.step, hk] at he
    cases he
    simp only [NetSys.step] at hK
    refine ⟨h, hr, g.lift fun fd p hp => ⟨hp, rfl, rfl, fun s hs => ?_⟩⟩
    cases h0 : K.get fd0 with
    | none =>
      rw [h0] at hK
      simp only at hK
      subst hK
      refine ⟨s, hs, rfl, fun hpl => ⟨hpl, fun i _ e => e⟩, fun hpl => ?_⟩
      simp only [plainOut, Bool.and_eq_true] at hpl
      exact ⟨hpl.2, fun i _ e => e⟩
    | some s0 =>
      rw [h0] at hK
      simp only at hK
      subst hK
      by_cases hne : fd0 = fd
      · subst hne
        rw [h0] at hs; cases hs
        refine ⟨_, hputs, rfl, fun hpl => ⟨hpl, fun i _ e => e⟩, fun hpl => ?_⟩
        simp only [plainOut, Bool.and_eq_true, ne_eq, not_true_eq_false, decide_false, Bool.false_eq_true, false_and] at hpl
      · refine ⟨s, by rw [hput fd (fun e => hne e.symm), hs], rfl, fun hpl => ⟨hpl, fun i _ e => e⟩, fun hpl => ?_⟩
        simp only [plainOut, Bool.and_eq_true] at hpl
        exact ⟨hpl.2, fun i _ e => e⟩
  | close fd0 =>
    have hT : T' = T := by
      simp only [Net.step, closeFile] at he
      split at he <;> cases he <;> rfl
    subst hT
    have hne : ∀ fd, fd ≠ fd0 → ¬ fd0 = fd := fun fd e e' => e e'.symm
    refine ⟨h, hr, g.drop (fd0 := fd0) (by simp only [joinedAs, if_true]) ?_ ?_ ?_ ?_⟩
    · intro fd e
      simp only [NetSys.step] at hK
      cases h0 : K.get fd0 with
      | none => rw [h0] at hK; simp only at hK; rw [← hK]
      | some s0 => rw [h0] at hK; simp only at hK; rw [← hK, get_del_ne (hne fd e)]
    · intro fd e; simp only [joinedAs, if_neg (hne fd e)]
    · intro b fd e; rfl
    · intro fd e; rfl

theorem Exec.good {c : Config} {base : Nat} (hc : c.Ok base) {h₀ : Trace} {K₀ K : NetSys} {T₀ T : Tracker} {E : NetHist}
    (hr : Reach c base h₀ T₀) (he : Exec K₀ T₀ E K T) : ∃ h, Reach c base h T ∧ Good h K E := by
  induction he with
  | nil => exact ⟨h₀, hr, Good.nil _ _⟩
  | net _ hf hs ih =>
    obtain ⟨h, h1, h2⟩ := ih
    exact h2.step hc h1 hf hs
  | call _ ha hal hx ih =>
    obtain ⟨h, h1, h2⟩ := ih
    exact ⟨_, h1.snoc hal hx, h2.call ha⟩

/-- The program gets the results it would get without PolyTracker. -/
theorem Exec.same {K₀ K : NetSys} {T₀ T : Tracker} {E : NetHist} (he : Exec K₀ T₀ E K T) :
    K₀.run (E.reverse.map Prod.fst) = (K, E.reverse.map Prod.snd) := by
  have happ : ∀ (ops : List NetOp) (op : NetOp) (K : NetSys), K.run (ops ++ [op]) =
      (((K.run ops).1.step op).1, (K.run ops).2 ++ [((K.run ops).1.step op).2]) := by
    intro ops op
    induction ops with
    | nil => intro K; rfl
    | cons x ops ih =>
      intro K
      simp only [List.cons_append, NetSys.run, ih, Prod.map, id]
  induction he with
  | nil => rfl
  | net _ hf hs ih =>
    rw [List.reverse_cons, List.map_append, List.map_append, List.map_cons, List.map_nil, happ, ih]
    simp only [step_kernel hs]
    rfl
  | call _ _ _ _ ih => exact ih

end Net
end Verif
