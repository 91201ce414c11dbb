import Verif.File
import Verif.PyFile
import Verif.Props.C16
/- Positions in the trace file, and what the reader finds there. -/
namespace Verif
open Py File

/-! ### Fields and chunks -/

theorem fld_at {n v off : Nat} (A B : List Nat) (ho : off = A.length) (hv : v < 256 ^ n) :
    fld n off (A ++ (le n v ++ B)) = v := by
  subst ho
  rw [fld, List.drop_left, List.take_left' (le_length n v), unle_le_of_lt hv]

theorem slice_mid (A B C : List Nat) {off n : Nat} (ho : off = A.length) (hn : n ≤ B.length) :
    slice (A ++ (B ++ C)) off (off + n) = B.take n := by
  subst ho
  rw [slice, List.take_append, List.take_of_length_le (Nat.le_add_right _ _), Nat.add_sub_cancel_left,
    List.drop_left, List.take_append_of_le_length hn]

theorem slice_empty (m : List Nat) (off : Nat) : slice m off (off + 0) = [] := by
  rw [slice, Nat.add_zero, List.drop_eq_nil_iff]
  exact List.length_take_le _ _

theorem flatMap_length {α : Type} {f : α → List Nat} {sz : Nat} (l : List α)
    (hf : ∀ a ∈ l, (f a).length = sz) : (l.flatMap f).length = sz * l.length := by
  induction l with
  | nil => simp
  | cons a l ih =>
    rw [List.flatMap_cons, List.length_append, hf a (by simp), ih (fun b hb => hf b (by simp [hb])),
      List.length_cons, Nat.mul_succ, Nat.add_comm]

theorem flatMap_split {α : Type} {f : α → List Nat} {sz : Nat} {l : List α}
    (hf : ∀ a ∈ l, (f a).length = sz) {i : Nat} {a : α} (hi : l[i]? = some a) :
    ∃ pre post, l.flatMap f = pre ++ (f a ++ post) ∧ pre.length = sz * i := by
  obtain ⟨hlt, rfl⟩ := List.getElem?_eq_some_iff.1 hi
  refine ⟨(l.take i).flatMap f, (l.drop (i + 1)).flatMap f, ?_, ?_⟩
  · conv => lhs; rw [← List.take_append_drop i l]
    rw [List.flatMap_append, List.drop_eq_getElem_cons hlt, List.flatMap_cons]
  · rw [flatMap_length _ (fun b hb => hf b (List.mem_of_mem_take hb)), List.length_take,
      Nat.min_eq_left (by omega)]

theorem chunk {α : Type} {f : α → List Nat} {sz : Nat} {l : List α}
    (hf : ∀ a ∈ l, (f a).length = sz) {i : Nat} {a : α} (hi : l[i]? = some a) :
    ((l.flatMap f).drop (i * sz)).take sz = f a := by
  obtain ⟨pre, post, h1, h2⟩ := flatMap_split hf hi
  have ha : (f a).length = sz := hf a (List.mem_of_getElem? hi)
  rw [h1, Nat.mul_comm, ← h2, List.drop_left, List.take_left' ha]

theorem mapM_some {α β : Type} {f : α → Option β} {g : α → β} {l : List α}
    (h : ∀ a ∈ l, f a = some (g a)) : l.mapM f = some (l.map g) := by
  induction l with
  | nil => rfl
  | cons a l ih =>
    rw [List.mapM_cons, h a (by simp), ih (fun b hb => h b (by simp [hb]))]
    rfl

/-- Reading back a section of fixed-size entries. -/
theorem enumStructs_eq {α β : Type} {f : α → List Nat} {sz : Nat} (hsz : 0 < sz) {l : List α}
    (hf : ∀ a ∈ l, (f a).length = sz) (dec : List Nat → β) :
    enumStructs sz dec (l.flatMap f) = some (l.map fun a => dec (f a)) := by
  have hlen := flatMap_length l hf
  have hn : ((l.flatMap f).length + sz - 1) / sz = l.length := by
    rw [hlen]
    rw [show sz * l.length + sz - 1 = (sz - 1) + sz * l.length by omega,
      Nat.add_mul_div_left _ _ hsz, Nat.div_eq_of_lt (by omega), Nat.zero_add]
  rw [enumStructs, hn]
  have h1 : ∀ i ∈ List.range l.length,
      (if i * sz + sz ≤ (l.flatMap f).length then
        some (dec (((l.flatMap f).drop (i * sz)).take sz)) else none) =
      some (((l[i]?).map fun a => dec (f a)).getD (dec [])) := by
    intro i hi
    have hi : i < l.length := by simpa using hi
    have h2 : i * sz + sz ≤ (l.flatMap f).length := by
      rw [hlen]
      have := Nat.mul_le_mul_left sz (show i + 1 ≤ l.length by omega)
      rw [Nat.mul_succ, Nat.mul_comm sz i] at this
      exact this
    rw [if_pos h2, chunk hf (List.getElem?_eq_getElem hi), List.getElem?_eq_getElem hi]
    rfl
  rw [mapM_some h1]
  congr 1
  apply List.ext_getElem?
  intro i
  by_cases hi : i < l.length
  · simp [hi]
  · rw [List.getElem?_eq_none (by simp; omega), List.getElem?_eq_none (by simp; omega)]

/-! ### Header -/

theorem encMeta_length (s : SecSpec) (o z : Nat) : (encMeta s o z).length = 24 := by simp [encMeta]

theorem header_length (specs : List SecSpec) (os : List (Nat × Nat)) (h : os.length = specs.length) :
    (header specs os).length = Layout.headerSize specs := by
  simp only [header, List.length_append, le_length, List.length_cons, List.length_nil]
  rw [flatMap_length (sz := 24) _ (fun a _ => encMeta_length _ _ _), List.length_zip, h, Nat.min_self]
  rfl

theorem readSecMeta_header (specs : List SecSpec) (os : List (Nat × Nat)) (rest : List Nat) {i : Nat}
    {s : SecSpec} {o z : Nat} (hi : (specs.zip os)[i]? = some (s, o, z)) (ht : s.tag < 2 ^ 32)
    (ha : s.align < 2 ^ 32) (ho : o < 2 ^ 64) (hz : z < 2 ^ 64) :
    readSecMeta (header specs os ++ rest) (8 + 24 * i) = some ⟨s.tag, s.align, o, z⟩ := by
  obtain ⟨pre, post, h1, h2⟩ := flatMap_split (f := fun p : SecSpec × Nat × Nat => encMeta p.1 p.2.1 p.2.2)
    (sz := 24) (fun a _ => encMeta_length _ _ _) hi
  have hm : header specs os ++ rest = ([84, 68, 65, 71] ++ le 2 (magic specs) ++ le 2 specs.length ++ pre) ++
      (encMeta s o z ++ (post ++ rest)) := by
    simp only [header, h1, List.append_assoc]
  have hl : ([84, 68, 65, 71] ++ le 2 (magic specs) ++ le 2 specs.length ++ pre).length = 8 + 24 * i := by
    simp [h2]; omega
  rw [hm, readSecMeta, if_pos (by rw [List.length_append, hl, List.length_append, encMeta_length]; omega),
    ← hl, List.drop_left]
  simp only [encMeta]
  have e1 := fld_at (n := 4) (v := s.tag) (off := 0) [] (le 4 s.align ++ (le 8 o ++ (le 8 z ++ (post ++ rest)))) rfl ht
  have e2 := fld_at (n := 4) (v := s.align) (off := 4) (le 4 s.tag) (le 8 o ++ (le 8 z ++ (post ++ rest))) (by simp) ha
  have e3 := fld_at (n := 8) (v := o) (off := 8) (le 4 s.tag ++ le 4 s.align) (le 8 z ++ (post ++ rest)) (by simp) ho
  have e4 := fld_at (n := 8) (v := z) (off := 16) (le 4 s.tag ++ (le 4 s.align ++ le 8 o)) (post ++ rest) (by simp) hz
  simp only [List.append_assoc, List.nil_append] at e1 e2 e3 e4 ⊢
  rw [e1, e2, e3, e4]

theorem parse_meta (specs : List SecSpec) (os : List (Nat × Nat)) (rest : List Nat)
    (hm : magic specs < 2 ^ 16) (hn : specs.length < 2 ^ 16) :
    (header specs os ++ rest).take 4 = [84, 68, 65, 71] ∧
    fld 2 4 (header specs os ++ rest) = magic specs ∧ fld 2 6 (header specs os ++ rest) = specs.length ∧
    8 ≤ (header specs os ++ rest).length := by
  simp only [header, List.append_assoc]
  refine ⟨by simp, ?_, ?_, by simp; omega⟩
  · exact fld_at [84, 68, 65, 71] _ rfl hm
  · have := fld_at (n := 2) (v := specs.length) (off := 6) ([84, 68, 65, 71] ++ le 2 (magic specs))
      ((specs.zip os).flatMap (fun p => encMeta p.1 p.2.1 p.2.2) ++ rest) (by simp) hn
    simpa only [List.append_assoc] using this

/-! ### Sections -/

theorem body_split (l : List (SecSpec × List Nat)) (hl : ∀ x ∈ l, x.2.length ≤ x.1.alloc) :
    ∀ {p i : Nat} {s : SecSpec} {bs : List Nat} {b : Nat}, l[i]? = some (s, bs) →
      (Layout.starts p (l.map (·.1)))[i]? = some b →
      ∃ pre post, body p l = pre ++ (padTo s.alloc bs ++ post) ∧ p + pre.length = b := by
  induction l with
  | nil => intro p i s bs b h; simp at h
  | cons x l ih =>
    intro p i s bs b h hb
    obtain ⟨t, cs⟩ := x
    have hcs : (padTo t.alloc cs).length = t.alloc := by
      have := hl (t, cs) (by simp)
      simp only [padTo, List.length_append, List.length_replicate]
      simp only at this; omega
    cases i with
    | zero =>
      simp only [List.getElem?_cons_zero, Option.some.injEq, Prod.mk.injEq] at h
      obtain ⟨rfl, rfl⟩ := h
      simp only [List.map_cons, Layout.starts, List.getElem?_cons_zero, Option.some.injEq] at hb
      exact ⟨List.replicate (p % t.align) 0, _, rfl, by simpa using hb⟩
    | succ i =>
      simp only [List.getElem?_cons_succ] at h
      simp only [List.map_cons, Layout.starts, List.getElem?_cons_succ] at hb
      obtain ⟨pre, post, h1, h2⟩ := ih (fun y hy => hl y (by simp [hy])) h hb
      refine ⟨List.replicate (p % t.align) 0 ++ (padTo t.alloc cs ++ pre), post, ?_, ?_⟩
      · rw [body, h1]; simp only [List.append_assoc]
      · simp only [List.length_append, List.length_replicate, hcs]; omega

/-- The used part of a section, as found through its header entry. -/
theorem image_section {pads : Pads} {c : Config} {base : Nat} {T : Tracker} {sizes : List Nat}
    (hsz : sizes.length = 8)
    (hfit : ∀ x ∈ c.specs.zip ((contents pads T).map (·.1)), x.2.length ≤ x.1.alloc) {i : Nat}
    {s : SecSpec} {bs : List Nat} {o n : Nat} (hs : c.specs[i]? = some s)
    (hb : ((contents pads T).map (·.1))[i]? = some bs) (ho : (offsets c base)[i]? = some o)
    (hn : n ≤ s.alloc) :
    slice (image pads c base T sizes) o (o + n) = (padTo s.alloc bs).take n := by
  have hmap : (c.specs.zip ((contents pads T).map (·.1))).map (·.1) = c.specs := by
    rw [List.map_fst_zip]; simp [contents, Config.specs]
  obtain ⟨b, hb2, rfl⟩ : ∃ b, (Layout.begins base c.specs)[i]? = some b ∧ b - base = o := by
    simpa [offsets] using ho
  have hz : (c.specs.zip ((contents pads T).map (·.1)))[i]? = some (s, bs) := by
    rw [List.getElem?_zip_eq_some]; exact ⟨hs, hb⟩
  obtain ⟨pre, post, h1, h2⟩ := body_split _ hfit hz (by rw [hmap]; exact hb2)
  have hbl : bs.length ≤ s.alloc := hfit (s, bs) (List.mem_of_getElem? hz)
  have hlen : (padTo s.alloc bs).length = s.alloc := by
    simp only [padTo, List.length_append, List.length_replicate]; omega
  have hhl : (header c.specs ((offsets c base).zip sizes)).length = Layout.headerSize c.specs := by
    apply header_length
    have : (offsets c base).length = 8 := by
      rw [offsets, List.length_map, C16_all]; rfl
    rw [List.length_zip, this, hsz]; rfl
  simp only [image, h1]
  have hassoc : ∀ (H P Q R Z : List Nat), H ++ (P ++ (Q ++ R)) ++ Z = (H ++ P) ++ (Q ++ (R ++ Z)) := by
    intros; simp [List.append_assoc]
  rw [hassoc]
  apply slice_mid
  · rw [List.length_append, hhl]; omega
  · omega

end Verif
