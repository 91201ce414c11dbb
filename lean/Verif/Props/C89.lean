import Verif.PyTraceGramOk
import Verif.Props.C84
/-
C89: what `trace_to_grammar` extracts. The bytes that a trace consumes, in order, should be in the language of the
grammar.
-/
namespace Verif
open Verif.Spec Verif.PyGrammar PyTraceGram PyVerify

/-- The bytes consumed by a run, in order. -/
def PyTraceGram.Run.bytes : Run → List Nat
  | .done => []
  | .block _ ts r => ts.flatten ++ r.bytes
  | .call _ c r => c.bytes ++ r.bytes

/-- What the grammar says instead: the rest after a call comes twice if it starts with a block, and of the calls between
two blocks only the first is there. The flag says that the last event was a block. -/
def PyTraceGram.Run.said : Bool → Run → List Nat
  | _, .done => []
  | _, .block _ ts r => ts.flatten ++ r.said true
  | true, .call _ c r => c.said false ++ ((if r.head.isSome then r.said false else []) ++ r.said false)
  | false, .call _ _ r => r.said false

/-- A token is consumed: in a block, or in a function that is called right after a block and starts with a block. -/
def PyTraceGram.Run.Touches : Bool → Run → Prop
  | _, .done => False
  | _, .block _ ts r => ts ≠ [] ∨ r.Touches true
  | first, .call _ c r => (first = true ∧ c.head.isSome ∧ c.Touches false) ∨ r.Touches false

/-- Every function that is called right after a block starts with a block and touches taint. -/
def PyTraceGram.Run.Tainted : Bool → Run → Prop
  | _, .done => True
  | _, .block _ _ r => r.Tainted true
  | first, .call _ c r => (first = true → c.head.isSome ∧ c.Touches false ∧ c.Tainted false) ∧ r.Tainted false

/-- A function calls right after a block, and consumes nothing after a call. -/
def PyTraceGram.Run.Last : Bool → Run → Prop
  | _, .done => True
  | _, .block _ _ r => r.Last true
  | first, .call _ c r => first = true ∧ c.Last false ∧ r.bytes = []

namespace PyTraceGram

/-- The rules of the blocks are there. -/
def HasBlocks (G : Cfg) : Run → Prop
  | .done => True
  | .block n ts r => combine (blockSyms ts r) ∈ G n ∧ HasBlocks G r
  | .call _ _ r => HasBlocks G r

/-- The rules of the called functions are there. -/
def HasCalls (G : Cfg) : Bool → Run → Prop
  | _, .done => True
  | _, .block _ _ r => HasCalls G true r
  | first, .call f c r =>
    (first = true → (∃ e, c.head = some e ∧ combine [.nt e] ∈ G f) ∧ HasBlocks G c ∧ HasCalls G false c) ∧ HasCalls G false r

theorem HasBlocks.mono {G G' : Cfg} (hle : Le G G') : ∀ {r : Run}, HasBlocks G r → HasBlocks G' r
  | .done, _ => trivial
  | .block _ _ _, h => ⟨hle _ _ h.1, h.2.mono hle⟩
  | .call _ _ r, h => HasBlocks.mono (r := r) hle h

theorem HasCalls.mono {G G' : Cfg} (hle : Le G G') : ∀ {b : Bool} {r : Run}, HasCalls G b r → HasCalls G' b r
  | _, .done, _ => trivial
  | _, .block _ _ r, h => HasCalls.mono (r := r) hle h
  | _, .call _ _ _, h => ⟨fun hb => by
      obtain ⟨⟨e, h1, h2⟩, h3, h4⟩ := h.1 hb
      exact ⟨⟨e, h1, hle _ _ h2⟩, h3.mono hle, HasCalls.mono hle h4⟩, HasCalls.mono hle h.2⟩

theorem putBlocks_spec : ∀ (r : Run) (g : Gram), Le g.cfg (putBlocks r g).cfg ∧ HasBlocks (putBlocks r g).cfg r
  | .done, _ => ⟨fun _ _ h => h, trivial⟩
  | .block n ts r, g => by
    obtain ⟨h1, h2⟩ := putBlocks_spec r (put g n (blockSyms ts r))
    obtain ⟨h3, h4⟩ := put_le g n (blockSyms ts r)
    exact ⟨fun a q h => h1 _ _ (h3 _ _ h), h1 _ _ h4, h2⟩
  | .call _ _ r, g => putBlocks_spec r g

theorem Touches.touched : ∀ {b : Bool} {r : Run}, r.Touches b → r.touched b = true
  | _, .done, h => h.elim
  | _, .block _ ts r, h => by
    rcases h with h | h
    · cases ts with
      | nil => exact absurd rfl h
      | cons t ts => simp [Run.touched]
    · simp [Run.touched, Touches.touched h]
  | b, .call _ c r, h => by
    rcases h with ⟨rfl, h1, h2⟩ | h
    · simp [Run.touched, h1, Touches.touched h2]
    · simp [Run.touched, Touches.touched h]

theorem calls_spec : ∀ (first : Bool) (r : Run) (g : Gram), r.Tainted first →
    ∃ g', calls first r g = some g' ∧ Le g.cfg g'.cfg ∧ HasCalls g'.cfg first r
  | _, .done, g, _ => ⟨g, rfl, fun _ _ h => h, trivial⟩
  | _, .block _ _ r, g, ht => calls_spec true r g ht
  | first, .call f c r, g, ht => by
    obtain ⟨g1, e1, l1, c1⟩ := calls_spec false r g ht.2
    cases first with
    | false => exact ⟨g1, by simp [calls, e1], l1, fun h => (Bool.false_ne_true h).elim, c1⟩
    | true =>
      obtain ⟨h1, h2, h3⟩ := ht.1 rfl
      obtain ⟨e, he⟩ := Option.isSome_iff_exists.1 h1
      obtain ⟨l2, m2⟩ := put_le g1 f [.nt e]
      obtain ⟨l3, b3⟩ := putBlocks_spec c (put g1 f [.nt e])
      obtain ⟨g4, e4, l4, c4⟩ := calls_spec false c (putBlocks c (put g1 f [.nt e])) h3
      refine ⟨g4, by simp [calls, e1, he, Touches.touched h2, e4], fun a q h => l4 _ _ (l3 _ _ (l2 _ _ (l1 _ _ h))), fun _ => ⟨⟨e, he, l4 _ _ (l3 _ _ m2)⟩,
        b3.mono l4, c4⟩, c1.mono (fun a q h => l4 _ _ (l3 _ _ (l2 _ _ h)))⟩

theorem derives_terms {G : Cfg} (ts : List (List Nat)) : Derives G (ts.map .term) ts.flatten := by
  induction ts with
  | nil => exact .nil
  | cons t ts ih => exact .term ih

theorem derives_rule {G : Cfg} {a : Nat} {s : List Sym} {w : List Nat} (h : combine s ∈ G a) (hd : Derives G s w) :
    Derives G [.nt a] w := Derives.single_iff.2 ⟨_, h, combine_derives.2 hd⟩

theorem derives_said {G : Cfg} : ∀ (first : Bool) (r : Run), HasBlocks G r → HasCalls G first r →
    Derives G ((if first then callSyms r else []) ++ opt r.next) (r.said first)
  | first, .done, _, _ => by cases first <;> exact .nil
  | first, .block n ts r, hb, hc => by
    have h := derives_said true r hb.2 hc
    have : Derives G [.nt n] (ts.flatten ++ r.said true) :=
      derives_rule hb.1 ((derives_terms ts).append (by simpa using h))
    cases first <;> exact this
  | false, .call _ _ r, hb, hc => by
    have h := derives_said false r hb hc.2
    exact h
  | true, .call f c r, hb, hc => by
    have h := derives_said false r hb hc.2
    obtain ⟨⟨e, he, hf⟩, hcb, hcc⟩ := hc.1 rfl
    have h' := derives_said false c hcb hcc
    simp only [Bool.false_eq_true, if_false, List.nil_append] at h h'
    rw [next_of_head he] at h'
    have h1 : Derives G [.nt f] (c.said false) := derives_rule hf h'
    have h2 : Derives G (opt r.head) (if r.head.isSome then r.said false else []) := by
      cases hr : r.head with
      | none => exact .nil
      | some n => rw [next_of_head hr] at h; exact h
    exact h1.append (h2.append h)

theorem said_nil : ∀ (first : Bool) (r : Run), r.bytes = [] → r.said first = []
  | _, .done, _ => by simp [Run.said]
  | _, .block _ ts r, h => by
    obtain ⟨h1, h2⟩ := List.append_eq_nil_iff.1 h
    rw [Run.said, h1, said_nil true r h2]; rfl
  | false, .call _ _ r, h => by
    rw [Run.said]
    exact said_nil false r (List.append_eq_nil_iff.1 h).2
  | true, .call _ c r, h => by
    obtain ⟨h1, h2⟩ := List.append_eq_nil_iff.1 h
    rw [Run.said, said_nil false c h1, said_nil false r h2]
    split <;> rfl

theorem said_last : ∀ (first : Bool) (r : Run), r.Last first → r.said first = r.bytes
  | _, .done, _ => by simp [Run.said, Run.bytes]
  | _, .block _ ts r, h => by
    have := said_last true r h
    simp [Run.said, Run.bytes, this]
  | false, .call _ _ _, h => (Bool.false_ne_true h.1).elim
  | true, .call _ c r, h => by
    obtain ⟨-, h1, h2⟩ := h
    rw [Run.said, Run.bytes, said_last false c h1, said_nil false r h2, h2]
    split <;> rfl

/-- A grammar with at most one rule for each name derives one string. -/
theorem derives_unique {G : Cfg} (h : ∀ a r r', r ∈ G a → r' ∈ G a → r = r') {s : List Sym} {w w' : List Nat}
    (hd : Derives G s w) (hd' : Derives G s w') : w = w' := by
  induction hd generalizing w' with
  | nil => cases hd'; rfl
  | term _ ih => cases hd' with | term h' => rw [ih h']
  | nt hr _ _ ih1 ih2 =>
    cases hd' with
    | nt hr' h1 h2 =>
      cases h _ _ _ hr hr'
      rw [ih1 h1, ih2 h2]

end PyTraceGram

/-- The blocks of an invocation. -/
def PyTraceGram.Run.blk : Run → List Nat
  | .done => []
  | .block n _ r => n :: r.blk
  | .call _ _ r => r.blk

/-- The functions below an invocation, with their blocks. -/
def PyTraceGram.Run.under : Run → List Nat
  | .done => []
  | .block _ _ r => r.under
  | .call f c r => f :: ((c.blk ++ c.under) ++ r.under)

/-- At most one rule for each name. -/
def PyTraceGram.One (G : Cfg) : Prop := ∀ a r r', r ∈ G a → r' ∈ G a → r = r'

namespace PyTraceGram

theorem One.put {g : Gram} {a : Nat} {s : List Sym} (h : One g.cfg) (ha : ¬ (g.prod a).isSome) : One (put g a s).cfg := by
  intro b r r' h1 h2
  have e1 := (put_cfg g a s b r).1 h1
  have e2 := (put_cfg g a s b r').1 h2
  rcases e1 with e1 | ⟨e1, f1⟩
  · rcases e2 with e2 | ⟨e2, -⟩
    · exact h b r r' e1 e2
    · subst e2; exact absurd (cfg_known e1) ha
  · rcases e2 with e2 | ⟨-, f2⟩
    · subst e1; exact absurd (cfg_known e2) ha
    · rw [f1, f2]

theorem One.putBlocks : ∀ (r : Run) {g : Gram}, One g.cfg → r.blk.Nodup → (∀ n ∈ r.blk, ¬ (g.prod n).isSome) →
    One (putBlocks r g).cfg ∧ ∀ n, ((PyTraceGram.putBlocks r g).prod n).isSome ↔ (g.prod n).isSome ∨ n ∈ r.blk
  | .done, g, h, _, _ => ⟨h, fun n => by simp [Run.blk, PyTraceGram.putBlocks]⟩
  | .block n ts r, g, h, hn, hu => by
    obtain ⟨n1, n2⟩ := List.nodup_cons.1 hn
    have hp := h.put (s := blockSyms ts r) (hu n (by simp [Run.blk]))
    obtain ⟨h1, h2⟩ := One.putBlocks r hp n2 (fun m hm h' => by
      rcases (put_some _ _ _ _).1 h' with h' | rfl
      · exact hu m (List.mem_cons_of_mem _ hm) h'
      · exact n1 hm)
    refine ⟨h1, fun m => (h2 m).trans ?_⟩
    rw [put_some, Run.blk, List.mem_cons, or_assoc]
  | .call _ _ r, g, h, hn, hu => One.putBlocks r h hn hu

theorem One.calls : ∀ (first : Bool) (r : Run) {g g' : Gram}, One g.cfg → r.under.Nodup →
    (∀ n ∈ r.under, ¬ (g.prod n).isSome) → calls first r g = some g' →
    One g'.cfg ∧ ∀ n, (g'.prod n).isSome → (g.prod n).isSome ∨ n ∈ r.under
  | _, .done, g, g', h, _, _, hg => by cases hg; exact ⟨h, fun n h => .inl h⟩
  | _, .block _ _ r, g, g', h, hn, hu, hg => One.calls true r h hn hu hg
  | first, .call f c r, g, g', h, hn, hu, hg => by
    obtain ⟨n1, n2⟩ := List.nodup_cons.1 hn
    obtain ⟨n3, n4, n5⟩ := List.nodup_append.1 n2
    obtain ⟨n6, n7, n8⟩ := List.nodup_append.1 n3
    have inr : ∀ {n}, n ∈ r.under → n ∈ (Run.call f c r).under := fun h =>
      List.mem_cons_of_mem _ (List.mem_append_right _ h)
    have inc : ∀ {n}, n ∈ c.blk ++ c.under → n ∈ (Run.call f c r).under := fun h =>
      List.mem_cons_of_mem _ (List.mem_append_left _ h)
    have inf : f ∈ (Run.call f c r).under := List.mem_cons_self
    simp only [PyTraceGram.calls] at hg
    cases h1 : PyTraceGram.calls false r g with
    | none => rw [h1] at hg; cases hg
    | some g1 =>
      rw [h1] at hg
      obtain ⟨o1, s1⟩ := One.calls false r h n4 (fun n hn' => hu n (inr hn')) h1
      cases first with
      | false =>
        simp only [Bool.false_eq_true, if_false, Option.some.injEq] at hg
        subst hg
        exact ⟨o1, fun n h => (s1 n h).imp id inr⟩
      | true =>
        simp only [if_true] at hg
        have uf : ¬ (g1.prod f).isSome := fun h' => by
          rcases s1 f h' with h' | h'
          · exact hu f inf h'
          · exact n1 (List.mem_append_right _ h')
        cases hc : c.head with
        | none => rw [hc] at hg; cases hg
        | some e =>
          rw [hc] at hg
          simp only at hg
          split at hg
          · have o2 := o1.put (s := [.nt e]) uf
            have u2 : ∀ n, n ∈ c.blk ++ c.under → ¬ ((PyTraceGram.put g1 f [.nt e]).prod n).isSome := by
              intro n hn' h'
              rcases (put_some _ _ _ _).1 h' with h' | rfl
              · rcases s1 n h' with h' | h'
                · exact hu n (inc hn') h'
                · exact n5 n hn' n h' rfl
              · exact n1 (List.mem_append_left _ hn')
            obtain ⟨o3, s3⟩ := One.putBlocks c o2 n6 (fun n h => u2 n (List.mem_append_left _ h))
            obtain ⟨o4, s4⟩ := One.calls false c o3 n7 (fun n h h' => by
              rcases (s3 n).1 h' with h' | h'
              · exact u2 n (List.mem_append_right _ h) h'
              · exact n8 n h' n h rfl) hg
            refine ⟨o4, fun n h' => ?_⟩
            rcases s4 n h' with h' | h'
            · rcases (s3 n).1 h' with h' | h'
              · rcases (put_some _ _ _ _).1 h' with h' | rfl
                · exact (s1 n h').imp id inr
                · exact .inr inf
              · exact .inr (inc (List.mem_append_left _ h'))
            · exact .inr (inc (List.mem_append_right _ h'))
          · unfold PyTraceGram.putEmpty at hg
            cases hp : g1.prod f with
            | some p => rw [hp] at hg; cases hg
            | none =>
              rw [hp] at hg
              cases hg
              refine ⟨fun b q q' a1 a2 => ?_, fun n h' => ?_⟩
              · by_cases hb : b = f
                · subst hb; simp [Gram.cfg, Gram.setProd] at a1
                · exact o1 b q q' (by simpa [Gram.cfg, Gram.setProd, hb] using a1)
                    (by simpa [Gram.cfg, Gram.setProd, hb] using a2)
              · by_cases hb : n = f
                · subst hb; exact .inr inf
                · exact (s1 n (by simpa [Gram.setProd, hb] using h')).imp id inr

end PyTraceGram

/-- If all functions touch taint, a grammar comes out, and the string `said` is in its language. -/
theorem C89_computed (f : Nat) (c : Run) (hh : c.head.isSome) (ht : c.Touches false) (hc : c.Tainted false) :
    ∃ g, traceToGrammar (some (f, c)) = some g ∧ g.cfg.Lang 0 (c.said false) := by
  obtain ⟨e, he⟩ := Option.isSome_iff_exists.1 hh
  generalize hg0 : ({ Gram.empty.newProd 0 (Rule.new [.nt f]) with start := some 0 } : Gram) = g0
  obtain ⟨l2, m2⟩ := put_le g0 f [.nt e]
  obtain ⟨l3, b3⟩ := putBlocks_spec c (put g0 f [.nt e])
  obtain ⟨g, e4, l4, c4⟩ := calls_spec false c (putBlocks c (put g0 f [.nt e])) hc
  refine ⟨g, by simp only [traceToGrammar, he, Touches.touched ht, if_true, hg0, e4], ?_⟩
  have h := derives_said false c (b3.mono l4) c4
  simp only [Bool.false_eq_true, if_false, List.nil_append] at h
  rw [next_of_head he] at h
  have h1 : Derives g.cfg [.nt f] (c.said false) := derives_rule (l4 _ _ (l3 _ _ m2)) h
  refine derives_rule (l4 _ _ (l3 _ _ (l2 _ _ ?_))) h1
  rw [← hg0]
  simp [Gram.cfg, Gram.newProd, Gram.setProd, Rule.new]

/-- If moreover every function is called once and every block is entered once, the language has nothing else: it does not
have the bytes consumed, unless these are `said`. -/
theorem C89_exact (f : Nat) (c : Run) (hh : c.head.isSome) (ht : c.Touches false) (hc : c.Tainted false)
    (hn : (0 :: f :: (c.blk ++ c.under)).Nodup) :
    ∃ g, traceToGrammar (some (f, c)) = some g ∧ ∀ w, g.cfg.Lang 0 w ↔ w = c.said false := by
  obtain ⟨g, hg, hl⟩ := C89_computed f c hh ht hc
  refine ⟨g, hg, fun w => ⟨fun h => derives_unique ?_ h hl, fun h => h ▸ hl⟩⟩
  obtain ⟨e, he⟩ := Option.isSome_iff_exists.1 hh
  simp only [traceToGrammar, he, Touches.touched ht, if_true] at hg
  generalize hg0 : ({ Gram.empty.newProd 0 (Rule.new [.nt f]) with start := some 0 } : Gram) = g0 at hg
  have hsome : ∀ a, (g0.prod a).isSome ↔ a = 0 := by
    intro a
    rw [← hg0]
    by_cases ha : a = 0
    · simp [Gram.newProd, Gram.setProd, ha]
    · simp [Gram.newProd, Gram.setProd, Gram.empty, ha]
  have hone : One g0.cfg := by
    intro a q q' h1 h2
    have := (hsome a).1 (cfg_known h1)
    subst this
    rw [← hg0] at h1 h2
    simp only [Gram.cfg, Gram.newProd, Gram.setProd, if_true, List.map_cons, List.map_nil, List.mem_singleton] at h1 h2
    rw [h1, h2]
  obtain ⟨n0, n1⟩ := List.nodup_cons.1 hn
  obtain ⟨n2, n3⟩ := List.nodup_cons.1 n1
  obtain ⟨n4, n5, n6⟩ := List.nodup_append.1 n3
  have u0 : ¬ (g0.prod f).isSome := fun h => n0 (by rw [(hsome f).1 h]; simp)
  have o1 := hone.put (s := [.nt e]) u0
  have u1 : ∀ n, n ∈ c.blk ++ c.under → ¬ ((put g0 f [.nt e]).prod n).isSome := by
    intro n hn' h
    rcases (put_some _ _ _ _).1 h with h | rfl
    · exact n0 (by rw [← (hsome n).1 h]; exact List.mem_cons_of_mem _ hn')
    · exact n2 hn'
  obtain ⟨o2, s2⟩ := One.putBlocks c o1 n4 (fun n h => u1 n (List.mem_append_left _ h))
  refine (One.calls false c o2 n5 (fun n h h' => ?_) hg).1
  rcases (s2 n).1 h' with h' | h'
  · exact u1 n (List.mem_append_right _ h) h'
  · exact n6 n h' n h rfl

/-- The bytes consumed by a trace are in the language, if functions consume nothing after a call and all functions touch
taint. Missing: other calls. -/
theorem C89_consumed_partial (f : Nat) (c : Run) (hh : c.head.isSome) (ht : c.Touches false) (hc : c.Tainted false)
    (hl : c.Last false) : ∃ g, traceToGrammar (some (f, c)) = some g ∧ g.cfg.Lang 0 c.bytes := by
  rw [← said_last false c hl]
  exact C89_computed f c hh ht hc

/-- Whatever grammar comes out: the table `used_by` is exact, every name in a rule has a production, every production is
reached from the start, and `verify` at the end raises nothing and changes nothing but remembered answers. -/
theorem C89_verified (σ : Iter) (hσ : σ.Ok) (f : Nat) (c : Run) (g : Gram) (h : traceToGrammar (some (f, c)) = some g)
    (keys vs : List Nat) (hk : ∀ v, v ∈ keys ↔ g.usedBy v ≠ []) (hd : Dfs g keys 0 vs) :
    g.start = some 0 ∧ (∀ a v, a ∈ g.usedBy v ↔ ∃ q ∈ g.cfg a, .nt v ∈ q) ∧
    (∀ a q v, q ∈ g.cfg a → .nt v ∈ q → v ∈ g.order) ∧ (∀ a ∈ g.order, g.cfg.Reaches 0 a) ∧
    ∃ g', verify σ g keys vs true = .ok g' ∧ g'.cfg = g.cfg ∧ g'.usedBy = g.usedBy ∧ g'.order = g.order ∧ g'.start = g.start := by
  have j := J.main h
  have hcl : ∀ a q v, q ∈ g.cfg a → .nt v ∈ q → (g.prod v).isSome := fun a q v hq hv => (j.closed a q v hq hv).elim id False.elim
  have hf : Fresh g keys := by
    refine ⟨j.order, j.nodup, j.unodup, j.flags, ⟨?_, ?_, ?_⟩, fun v hv => (hk v).2 hv, fun a v ha => .inr ((j.used a v).1 ha)⟩
    · intro a p hp hc
      rw [j.cpt a p hp] at hc; cases hc
    · intro a p hp hc
      rw [j.cpt a p hp] at hc; cases hc
    · exact .inl j.cpt
  have hT : Table g keys := by
    refine ⟨hcl, fun a r v hr hv => (j.used a v).2 ⟨r, hr, hv⟩, fun v u _ hu => ?_, fun v hv => ?_⟩
    · obtain ⟨q, hq, -⟩ := (j.used u v).1 hu
      exact cfg_known hq
    · obtain ⟨u, hu⟩ := List.exists_mem_of_ne_nil _ ((hk v).1 hv)
      obtain ⟨q, hq, hvq⟩ := (j.used u v).1 hu
      exact hcl u q v hq hvq
  refine ⟨j.start, j.used, fun a q v hq hv => (j.order v).2 (hcl a q v hq hv), fun a ha => j.reach a ((j.order a).1 ha), ?_⟩
  rcases verify_conn hσ hf hT j.start j.root hd with ⟨h1, -⟩ | ⟨-, ⟨a, ha, -, hno⟩, -⟩ | ⟨-, -, h3⟩
  · refine absurd ?_ h1
    obtain ⟨q, hq, v, hv⟩ := j.first
    exact ⟨0, v, (j.used 0 v).2 ⟨q, hq, hv⟩, .inl fun _ => Iff.rfl⟩
  · exact absurd (fun _ => Iff.rfl) (hno a (j.reach a ((j.order a).1 ha)))
  · exact h3

/-- main reads "a", calls a function that reads "b", and reads "c": the language is {"abcc"}. -/
theorem C89_twice_refuted : ∃ (c : Run) (g : Gram), traceToGrammar (some (1, c)) = some g ∧ c.bytes = [97, 98, 99] ∧
    ∀ w, g.cfg.Lang 0 w ↔ w = [97, 98, 99, 99] := by
  obtain ⟨g, hg, hd⟩ := C89_exact 1 (.block 2 [[97]] (.call 3 (.block 4 [[98]] .done) (.block 5 [[99]] .done)))
    rfl (by simp [Run.Touches]) (by simp [Run.Tainted, Run.head, Run.Touches]) (by decide)
  exact ⟨_, g, hg, rfl, hd⟩

/-- A block calls two functions: what the second one reads is not in the language. -/
theorem C89_second_refuted : ∃ (c : Run) (g : Gram), traceToGrammar (some (1, c)) = some g ∧ c.bytes = [97, 98, 99] ∧
    ∀ w, g.cfg.Lang 0 w ↔ w = [97, 98] := by
  obtain ⟨g, hg, hd⟩ := C89_exact 1 (.block 2 [[97]] (.call 3 (.block 4 [[98]] .done) (.call 5 (.block 6 [[99]] .done) .done)))
    rfl (by simp [Run.Touches]) (by simp [Run.Tainted, Run.head, Run.Touches]) (by decide)
  exact ⟨_, g, hg, rfl, hd⟩

/-- A function that touches no taint is called: nothing is in the language. -/
theorem C89_untouched_refuted : ∃ (c : Run) (g : Gram), traceToGrammar (some (1, c)) = some g ∧ c.bytes = [97] ∧
    ∀ w, ¬ g.cfg.Lang 0 w := by
  refine ⟨.block 2 [[97]] (.call 3 (.block 4 [] .done) .done), _, rfl, rfl, fun w h => ?_⟩
  obtain ⟨r, hr, h⟩ := Derives.single_iff.1 h
  cases List.mem_singleton.1 hr
  obtain ⟨r, hr, h⟩ := Derives.single_iff.1 h
  cases List.mem_singleton.1 hr
  obtain ⟨r, hr, h⟩ := Derives.single_iff.1 h
  cases List.mem_singleton.1 hr
  obtain ⟨v, -, h⟩ := Derives.term_iff.1 h
  obtain ⟨r, hr, h⟩ := Derives.single_iff.1 h
  cases hr

/-- It is called twice, or once with and then once without taint: an exception. -/
theorem C89_raises_refuted :
    (∃ c : Run, c.bytes = [97] ∧ (traceToGrammar (some (1, c))).isNone) ∧
    ∃ c : Run, c.bytes = [97, 98] ∧ (traceToGrammar (some (1, c))).isNone :=
  ⟨⟨.block 2 [[97]] (.call 3 (.block 4 [] .done) (.block 5 [] (.call 3 (.block 4 [] .done) .done))), rfl, rfl⟩,
    .block 2 [[97]] (.call 3 (.block 4 [] .done) (.block 5 [] (.call 3 (.block 4 [[98]] .done) .done))), rfl, rfl⟩

/-- What C89_consumed_partial asks for: main reads "ab" and "c" in two blocks and calls a function that calls another. -/
example : ∃ c : Run, c.head.isSome ∧ c.Touches false ∧ c.Tainted false ∧ c.Last false ∧ c.bytes = [97, 98, 99, 100, 101] :=
  ⟨.block 2 [[97, 98]] (.block 3 [[99]] (.call 4 (.block 5 [] (.block 6 [] (.call 7 (.block 8 [[100], [101]] .done) .done))) (.block 9 [] .done))),
    by simp [Run.head, Run.Touches, Run.Tainted, Run.Last, Run.bytes]⟩

end Verif
