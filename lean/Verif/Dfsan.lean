import Verif.Labels
/-
Model of the label-combining interface of the DataFlowSanitizer runtime,
/repo/polytracker/src/compiler-rt/lib/dfsan/dfsan.cpp, and of the union entry point in
/repo/polytracker/src/polytracker/polytracker.cpp. Origin tracking is off (its default) and not
modelled; __dfsan_union_load_fast16labels and __dfsan_load_label_and_origin, which are used only
with the fast16labels/origin options of the pass, are not modelled.
-/
namespace Verif

/-- Labels of application bytes, indexed by application address. That distinct addresses have
distinct shadow cells is C36. -/
abbrev Shadow := Nat → Nat

namespace Dfsan

/-- `__polytracker_union_table`, polytracker.cpp 40-46. `started` is polytracker_init_flag. -/
def unionTable (started : Bool) (L : Labels) (l1 l2 : Nat) : Res (Labels × Nat) :=
  if started then L.unionTaint l1 l2 else .ok (L, 0)

/-- `__dfsan_union`, dfsan.cpp 218-231. (DCHECK_NE is compiled out in release builds.) -/
def union' (started : Bool) (L : Labels) (l1 l2 : Nat) : Res (Labels × Nat) :=
  if l1 = 0 then .ok (L, l2)
  else if l2 = 0 then .ok (L, l1)
  else unionTable started L l1 l2

/-- `dfsan_union`, dfsan.cpp 295-300. -/
def union (started : Bool) (L : Labels) (l1 l2 : Nat) : Res (Labels × Nat) :=
  if l1 = l2 then .ok (L, l1) else union' started L l1 l2

/-- Loop of `__dfsan_union_load`, dfsan.cpp 236-240, over the labels `ls[1..n-1]`. -/
def loadLoop (started : Bool) (L : Labels) (label : Nat) : List Nat → Res (Labels × Nat)
  | [] => .ok (L, label)
  | next :: rest =>
    if label ≠ next then do
      let (L, label) ← union' started L label next
      loadLoop started L label rest
    else loadLoop started L label rest

/-- `__dfsan_union_load`, dfsan.cpp 233-242, on the `n` labels stored at `ls`. With `n = 0` the code
reads `ls[0]` and then loops until the counter wraps around: undefined. -/
def unionLoad (started : Bool) (L : Labels) : List Nat → Res (Labels × Nat)
  | [] => .ub
  | l :: ls => loadLoop started L l ls

/-- `dfsan_read_label`, dfsan.cpp 728-733. -/
def readLabel (started : Bool) (L : Labels) (sh : Shadow) (addr size : Nat) : Res (Labels × Nat) :=
  if size = 0 then .ok (L, 0)
  else unionLoad started L ((List.range size).map (fun i => sh (addr + i)))

/-- Writing one shadow cell. -/
def upd (sh : Shadow) (a l : Nat) : Shadow := fun x => if x = a then l else sh x

/-- Loop of `dfsan_add_label`, dfsan.cpp 689-691. -/
def addLoop (started : Bool) (label : Nat) : Nat → Nat → Labels → Shadow → Res (Labels × Shadow)
  | _, 0, L, sh => .ok (L, sh)
  | addr, size + 1, L, sh =>
    if sh addr ≠ label then do
      let (L, u) ← union' started L (sh addr) label
      addLoop started label (addr + 1) size L (upd sh addr u)
    else addLoop started label (addr + 1) size L sh

/-- `dfsan_add_label`, dfsan.cpp 677-692. -/
def addLabel (started : Bool) (L : Labels) (sh : Shadow) (label addr size : Nat) :
    Res (Labels × Shadow) :=
  if label = 0 then .ok (L, sh) else addLoop started label addr size L sh

end Dfsan
end Verif
