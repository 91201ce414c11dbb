import Verif.PyPlugin
/-
C94: registration of commands (/repo/polytracker/plugins.py): names are unique, a class statement either registers the command
or changes nothing, and the exit status is that of the command.
-/
namespace Verif.C94
open PyPlugin

theorem initSubclass_plugins {st st' : State} {d : Decl} (h : initSubclass st d = some st') :
    st'.plugins = st.plugins ∧ st'.commands = st.commands ∧ st'.classes = st.classes := by
  unfold initSubclass at h
  split at h
  · cases h; exact ⟨rfl, rfl, rfl⟩
  · split at h
    · cases h
    · split at h
      · cases h
      · split at h
        · cases h
        · split at h <;> cases h <;> exact ⟨rfl, rfl, rfl⟩

theorem pluginNameOf_congr {st st' : State} {d : Decl} (h : st'.classes = st.classes) : pluginNameOf st' d = pluginNameOf st d := by
  unfold pluginNameOf; rw [h]

/-- What a class statement does to PLUGINS. -/
theorem define_plugins (st : State) (d : Decl) : (define st d).2.plugins = st.plugins ∨
    ∃ n, pluginNameOf st d = some n ∧ n ∉ st.plugins.map (·.1) ∧ (define st d).2.plugins = st.plugins ++ [(n, d.id)] := by
  unfold define
  cases h1 : initSubclass st d with
  | none => exact .inl rfl
  | some st1 =>
    obtain ⟨e1, e2, e3⟩ := initSubclass_plugins h1
    simp only
    cases h2 : pluginNameOf st1 d with
    | none => exact .inl e1
    | some n =>
      simp only
      rw [pluginNameOf_congr e3] at h2
      by_cases h3 : n ∈ st1.plugins.map (·.1)
      · rw [if_pos h3]; exact .inl e1
      · rw [if_neg h3]
        refine .inr ⟨n, h2, by rwa [e1] at h3, ?_⟩
        by_cases h4 : d.kind = .command
        · rw [if_pos h4]
          split <;> simp [e1]
        · rw [if_neg h4]; simp [e1]

theorem define_nodup {st : State} (h : (st.plugins.map (·.1)).Nodup) (d : Decl) : ((define st d).2.plugins.map (·.1)).Nodup := by
  rcases define_plugins st d with e | ⟨n, -, hn, e⟩
  · rw [e]; exact h
  · rw [e, List.map_append, List.map_singleton]
    refine List.nodup_append.2 ⟨h, by simp, ?_⟩
    intro a ha b hb
    rw [List.mem_singleton.1 hb]
    rintro rfl
    exact hn ha

/-- Whatever is defined, with exceptions or not: no two plugins have one name, and a plugin keeps its name. -/
theorem C94_unique (ds es : List Decl) :
    ((defineAll State.empty ds).plugins.map (·.1)).Nodup ∧
      (defineAll State.empty ds).plugins <+: (defineAll State.empty (ds ++ es)).plugins := by
  have nd : ∀ (ds : List Decl) (st : State), (st.plugins.map (·.1)).Nodup → ((defineAll st ds).plugins.map (·.1)).Nodup := by
    intro ds
    induction ds with
    | nil => intro st h; exact h
    | cons d ds ih => intro st h; exact ih _ (define_nodup h d)
  have app : ∀ (ds es : List Decl) (st : State), defineAll st (ds ++ es) = defineAll (defineAll st ds) es := by
    intro ds
    induction ds with
    | nil => intro es st; rfl
    | cons d ds ih => intro es st; exact ih es _
  have pre : ∀ (ds : List Decl) (st : State), st.plugins <+: (defineAll st ds).plugins := by
    intro ds
    induction ds with
    | nil => intro st; exact List.prefix_rfl
    | cons d ds ih =>
      intro st
      refine List.IsPrefix.trans ?_ (ih _)
      rcases define_plugins st d with e | ⟨n, -, -, e⟩
      · rw [e]; exact List.prefix_rfl
      · rw [e]; exact List.prefix_append _ _
  exact ⟨nd ds _ (by simp [State.empty]), by rw [app]; exact pre es _⟩

/-- A command whose definition goes through can be run by its name, and is listed. -/
theorem C94_command (st : State) (d : Decl) (hk : d.kind = .command) (h : (define st d).1 = true) :
    d.help = true ∧ ∃ n, d.name = some n ∧ (define st d).2.commands n = some d.id ∧
      (∀ m, m ≠ n → (define st d).2.commands m = st.commands m) ∧ ∃ q, (q, d.id) ∈ (define st d).2.plugins := by
  have h1 : initSubclass st d = some st := by unfold initSubclass; rw [hk]
  unfold define at h ⊢
  simp only [h1] at h ⊢
  cases h2 : pluginNameOf st d with
  | none => rw [h2] at h; cases h
  | some q =>
    simp only [h2] at h ⊢
    by_cases h3 : q ∈ st.plugins.map (·.1)
    · rw [if_pos h3] at h; cases h
    · rw [if_neg h3] at h ⊢
      rw [if_pos hk] at h ⊢
      cases hh : d.help with
      | false => rw [hh] at h; simp at h
      | true =>
        cases hn : d.name with
        | none => rw [hn, hh] at h; simp at h
        | some n => exact ⟨rfl, n, rfl, by simp, fun m hm => by simp [hm], q, by simp⟩

/-- Whatever is defined is registered, under its own name or that of its parent and its own. -/
theorem C94_registered (st : State) (d : Decl) (h : (define st d).1 = true) :
    ∃ n, pluginNameOf st d = some n ∧ n ∉ st.plugins.map (·.1) ∧ (define st d).2.plugins = st.plugins ++ [(n, d.id)] ∧
      (d.pluginName = some n ∨ d.pluginName = none ∧ d.kind = .command ∧ d.name = some n ∨
        ∃ p c q m, d.pluginName = none ∧ d.parent = some p ∧ st.classes p = some c ∧ (c.pluginName = some q ∨ c.pluginName = none ∧ c.name = some q) ∧
          d.name = some m ∧ n = q ++ ['_'] ++ m) := by
  rcases define_plugins st d with e | ⟨n, hn, hf, e⟩
  · exfalso
    unfold define at h e
    cases h1 : initSubclass st d with
    | none => rw [h1] at h; cases h
    | some st1 =>
      obtain ⟨e1, -, -⟩ := initSubclass_plugins h1
      simp only [h1] at h e
      cases h2 : pluginNameOf st1 d with
      | none => rw [h2] at h; cases h
      | some q =>
        simp only [h2] at h e
        split at h
        · cases h
        · rename_i h3
          rw [if_neg h3] at e
          split at h
          · rename_i h4
            rw [if_pos h4] at e
            split at h
            · rename_i h5 h6
              simp [h5, h6, e1] at e
            · cases h
          · rename_i h4
            rw [if_neg h4] at e
            simp [e1] at e
  · refine ⟨n, hn, hf, e, ?_⟩
    unfold pluginNameOf at hn
    split at hn
    · rename_i h1; exact .inl (by rw [h1, hn])
    · rename_i h1 h2; exact .inr (.inl ⟨h1, h2, hn⟩)
    · rename_i h1 h2
      split at hn
      · rename_i p m h3 h4
        split at hn
        · cases hn
        · rename_i c h5
          split at hn
          · rename_i q h6
            exact .inr (.inr ⟨p, c, q, m, h1, h3, h5, .inl h6, h4, by rw [Option.some.injEq] at hn; simp [← hn]⟩)
          · rename_i q h6 h7
            exact .inr (.inr ⟨p, c, q, m, h1, h3, h5, .inr ⟨h6, h7⟩, h4, by rw [Option.some.injEq] at hn; simp [← hn]⟩)
          · cases hn
      · cases hn

/-- A subcommand or extension is accepted only with a command or subcommand that is there; otherwise nothing is changed. -/
theorem C94_parent (st : State) (d : Decl) (hk : d.kind ≠ .command) :
    (∃ p c, d.parent = some p ∧ st.classes p = some c ∧ c.kind ≠ .extension) ∨ define st d = (false, st) := by
  have key : initSubclass st d = none ∨ ∃ p c, d.parent = some p ∧ st.classes p = some c ∧ c.kind ≠ .extension := by
    unfold initSubclass
    split
    · rename_i h; exact absurd h hk
    · split
      · exact .inl rfl
      · rename_i p hp
        split
        · exact .inl rfl
        · rename_i c hc
          by_cases hx : c.kind = .extension
          · rw [if_pos hx]; exact .inl rfl
          · exact .inr ⟨p, c, hp, hc, hx⟩
  rcases key with h | h
  · exact .inr (by simp only [define, h])
  · exact .inl h

/-- A command that is refused because its name is taken changes nothing. -/
theorem C94_refused_partial (st : State) (d : Decl) (hk : d.kind = .command) (n : Str) (hn : pluginNameOf st d = some n)
    (ht : n ∈ st.plugins.map (·.1)) : define st d = (false, st) := by
  have h1 : initSubclass st d = some st := by unfold initSubclass; rw [hk]
  unfold define
  simp only [h1, hn, if_pos ht]

/-- A command that is refused for want of a help text takes the name: a complete one is refused afterwards. -/
theorem C94_help_refuted : ∃ d e : Decl, (define State.empty e).1 = true ∧ (define State.empty d).1 = false ∧
    (define (define State.empty d).2 e).1 = false :=
  ⟨⟨0, .command, some ['a'], none, false, none, none⟩, ⟨1, .command, some ['a'], none, true, none, none⟩, by decide, by decide,
    by decide⟩

/-- The command `a`. -/
def cmdA : Decl := ⟨0, .command, some ['a'], none, true, none, none⟩

/-- An extension that is refused because its name is taken has been given to the command and will run. -/
theorem C94_extension_refuted : ∃ (st : State) (d : Decl), (define st d).1 = false ∧
    ∃ c, (define st d).2.classes 0 = some c ∧ d.id ∈ seen (define st d).2.exts c.mro ∧ d.id ∉ seen st.exts c.mro :=
  ⟨defineAll State.empty [cmdA, ⟨1, .extension, some ['x'], none, false, some 0, none⟩],
    ⟨2, .extension, some ['x'], none, false, some 0, none⟩, by decide, ⟨.command, some ['a'], none, [0]⟩, rfl, by decide, by decide⟩

/-- A command with a name of its own as plugin replaces another command. -/
theorem C94_override_refuted : ∃ (st : State) (d : Decl) (n : Str) (c : Nat), st.commands n = some c ∧ (define st d).1 = true ∧
    (define st d).2.commands n = some d.id ∧ c ≠ d.id :=
  ⟨(define State.empty cmdA).2, ⟨1, .command, some ['a'], some ['b'], true, none, none⟩, ['a'], 0, by decide, by decide, by decide,
    by decide⟩

/-- Subcommands and extensions of commands get different names if the commands have no underscore in theirs. -/
theorem C94_names_partial (st : State) (d e : Decl) (p q : Nat) (c c' : Cls) (m n k l : Str) (hd : d.kind ≠ .command)
    (he : e.kind ≠ .command) (hd' : d.pluginName = none) (he' : e.pluginName = none) (hp : d.parent = some p)
    (hq : e.parent = some q) (hc : st.classes p = some c) (hc' : st.classes q = some c') (hcp : c.pluginName = none)
    (hcq : c'.pluginName = none) (hcn : c.name = some m) (hcn' : c'.name = some n) (hm : '_' ∉ m) (hn : '_' ∉ n)
    (hk : d.name = some k) (hl : e.name = some l) (h : pluginNameOf st d = pluginNameOf st e) : m = n ∧ k = l := by
  have e1 : pluginNameOf st d = some (m ++ '_' :: k) := by
    cases hkd : d.kind <;> simp_all [pluginNameOf]
  have e2 : pluginNameOf st e = some (n ++ '_' :: l) := by
    cases hke : e.kind <;> simp_all [pluginNameOf]
  rw [e1, e2, Option.some.injEq] at h
  clear e1 e2 hcn hcn'
  induction m generalizing n with
  | nil =>
    cases n with
    | nil => simpa using h
    | cons x n => simp at h; simp [← h.1] at hn
  | cons x m ih =>
    cases n with
    | nil => simp at h; simp [h.1] at hm
    | cons y n =>
      simp only [List.cons_append, List.cons.injEq] at h
      simp only [List.mem_cons, not_or] at hm hn
      obtain ⟨h1, h2⟩ := ih n hm.2 hn.2 h.2
      exact ⟨by rw [h.1, h1], h2⟩

/-- `a l x` and `b l x` cannot both be there: the second is refused, since a subcommand of a subcommand is named after the
last two words only. -/
theorem C94_names_refuted :
    let ds : List Decl := [cmdA, ⟨1, .command, some ['b'], none, true, none, none⟩,
      ⟨2, .subcommand, some ['l'], none, true, some 0, none⟩, ⟨3, .subcommand, some ['l'], none, true, some 1, none⟩,
      ⟨4, .subcommand, some ['x'], none, true, some 2, none⟩]
    let d : Decl := ⟨5, .subcommand, some ['x'], none, true, some 3, none⟩
    (∀ k, k < 5 → ((defineAll State.empty ds).plugins.map (·.2)).contains k) ∧ (define (defineAll State.empty ds) d).1 = false := by
  decide

theorem attach_seen (lists : Nat → Option (List Nat)) (p id : Nat) (mro : List Nat) (hp : p ∉ mro) :
    seen (attach lists [p] p id) [p] = seen lists [p] ++ [id] ∧ seen (attach lists [p] p id) mro = seen lists mro := by
  have ho : ∀ ms : List Nat, p ∉ ms → seen (attach lists [p] p id) ms = seen lists ms ∧
      owner (attach lists [p] p id) ms = owner lists ms := by
    have hown : (owner lists [p]).getD p = p := by
      cases hl : lists p <;> simp [owner, hl]
    have hne : ∀ c, c ≠ p → attach lists [p] p id c = lists c := by
      intro c hc; simp only [attach, hown, if_neg hc]
    intro ms hms
    have h1 : owner (attach lists [p] p id) ms = owner lists ms := by
      clear hp
      induction ms with
      | nil => rfl
      | cons c ms ih =>
        simp only [List.mem_cons, not_or] at hms
        have := ih hms.2
        simp only [owner, List.find?_cons, hne c (Ne.symm hms.1)] at this ⊢
        rw [this]
    refine ⟨?_, h1⟩
    unfold seen
    rw [h1]
    cases hf : owner lists ms with
    | none => rfl
    | some o =>
      have : o ∈ ms := List.mem_of_find?_eq_some hf
      simp only
      rw [hne o (fun h => hms (h ▸ this))]
  refine ⟨?_, (ho mro hp).1⟩
  cases hl : lists p <;> simp [seen, attach, owner, hl]

theorem define_lists {st st1 : State} {d : Decl} (h : initSubclass st d = some st1) :
    (define st d).2.exts = st1.exts ∧ (define st d).2.subs = st1.subs := by
  unfold define
  simp only [h]
  cases pluginNameOf st1 d with
  | none => exact ⟨rfl, rfl⟩
  | some n =>
    simp only
    split
    · exact ⟨rfl, rfl⟩
    · split
      · split <;> exact ⟨rfl, rfl⟩
      · exact ⟨rfl, rfl⟩

/-- An extension of a command that is not derived from another one is run by this command, after those it has, and by no other. -/
theorem C94_extension_partial (st : State) (d : Decl) (p : Nat) (c : Cls) (hk : d.kind = .extension) (hp : d.parent = some p)
    (hc : st.classes p = some c) (hm : c.mro = [p]) (h : (define st d).1 = true) :
    seen (define st d).2.exts c.mro = seen st.exts c.mro ++ [d.id] ∧
      (∀ mro, p ∉ mro → seen (define st d).2.exts mro = seen st.exts mro) ∧ (define st d).2.subs = st.subs := by
  by_cases hx : c.kind = .extension
  · have h1 : initSubclass st d = none := by simp [initSubclass, hk, hp, hc, hx]
    simp [define, h1] at h
  · have h1 : initSubclass st d = some { st with exts := attach st.exts c.mro p d.id } := by
      simp [initSubclass, hk, hp, hc, hx]
    rw [(define_lists h1).1, (define_lists h1).2, hm]
    exact ⟨(attach_seen st.exts p d.id [] (by simp)).1, fun mro hq => (attach_seen st.exts p d.id mro hq).2, rfl⟩

/-- The same for subcommands. -/
theorem C94_subcommand_partial (st : State) (d : Decl) (p : Nat) (c : Cls) (hk : d.kind = .subcommand) (hp : d.parent = some p)
    (hc : st.classes p = some c) (hm : c.mro = [p]) (h : (define st d).1 = true) :
    seen (define st d).2.subs c.mro = seen st.subs c.mro ++ [d.id] ∧
      (∀ mro, p ∉ mro → seen (define st d).2.subs mro = seen st.subs mro) ∧ (define st d).2.exts = st.exts := by
  by_cases hx : c.kind = .extension
  · have h1 : initSubclass st d = none := by simp [initSubclass, hk, hp, hc, hx]
    simp [define, h1] at h
  · have h1 : initSubclass st d = some { st with subs := attach st.subs c.mro p d.id } := by
      simp [initSubclass, hk, hp, hc, hx]
    rw [(define_lists h1).1, (define_lists h1).2, hm]
    exact ⟨(attach_seen st.subs p d.id [] (by simp)).1, fun mro hq => (attach_seen st.subs p d.id mro hq).2, rfl⟩

/-- An extension of a command that is derived from one with extensions is given to that one too. -/
theorem C94_shared_refuted : ∃ (st : State) (d : Decl), (define st d).1 = true ∧ d.parent = some 1 ∧
    ∃ c, (define st d).2.classes 0 = some c ∧ d.id ∈ seen (define st d).2.exts c.mro ∧ d.id ∉ seen st.exts c.mro :=
  ⟨defineAll State.empty [cmdA, ⟨2, .extension, some ['x'], none, false, some 0, none⟩, ⟨1, .command, some ['b'], none, true, none, some 0⟩],
    ⟨3, .extension, some ['y'], none, false, some 1, none⟩, by decide, rfl, ⟨.command, some ['a'], none, [0]⟩, rfl, by decide, by decide⟩

/-- The exit status is what the command returns if it has no extensions; it is success just for nothing, zero, or an object that
counts as true. -/
theorem C94_status_partial (st : State) (c : Cls) (r : Ret) (h : seen st.exts c.mro = []) :
    (∀ n, r = .int n → status (runRet st c r) = n) ∧
      (status (runRet st c r) = 0 ↔ r = .none ∨ r = .int 0 ∨ r = .obj true) := by
  refine ⟨fun n hn => by simp [runRet, h, hn, status], ?_⟩
  cases r with
  | none => simp [runRet, h, status]
  | int n => simp [runRet, h, status]
  | obj b => cases b <;> simp [runRet, h, status]

/-- With extensions a failure becomes a success. -/
theorem C94_status_refuted (st : State) (c : Cls) (r : Ret) (h : seen st.exts c.mro ≠ []) : status (runRet st c r) = 0 := by
  cases hs : seen st.exts c.mro with
  | nil => exact absurd hs h
  | cons x l => simp [runRet, hs, status]

/-- A command with a subcommand and an extension. -/
example : (defineAll State.empty [cmdA, ⟨1, .subcommand, some ['s'], none, true, some 0, none⟩,
    ⟨2, .extension, some ['e'], none, false, some 0, none⟩]).plugins = [(['a'], 0), (['a', '_', 's'], 1), (['a', '_', 'e'], 2)] := by
  decide

/-- It has both, and the hypotheses of the theorems on extensions are met. -/
example : let st := (define State.empty cmdA).2
    let d : Decl := ⟨2, .extension, some ['e'], none, false, some 0, none⟩
    (define st d).1 = true ∧ st.classes 0 = some ⟨.command, some ['a'], none, [0]⟩ ∧ seen (define st d).2.exts [0] = [2] ∧
      seen (define st d).2.exts [7] = [] := ⟨by decide, rfl, by decide, by decide⟩

end Verif.C94
