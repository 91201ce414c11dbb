/-
Model of the pass that removes attributes from the wrappers of DFSan, /repo/polytracker/src/passes/remove_fn_attr.cpp. Of
LLVM functions and instructions only names, callees and function attributes are there.
-/
namespace Verif.PassAttr

/-- Function attributes (llvm::Attribute); `other` is any attribute that is not about memory. -/
inductive Attr where
  | inaccessibleMemOnly
  | inaccessibleMemOrArgMemOnly
  | readOnly
  | readNone
  | writeOnly
  | argMemOnly
  | other (n : Nat)
  deriving DecidableEq, Repr

/-- Instructions: CallInst and InvokeInst, with the called function if there is one (`getCalledFunction`), and the others. -/
inductive Instr where
  | call (callee : Option (List Char)) (attrs : List Attr)
  | invoke (callee : Option (List Char)) (attrs : List Attr)
  | other (n : Nat)
  deriving DecidableEq, Repr

/-- llvm::Function; the instructions of all blocks in order. -/
structure Fn where
  name : List Char
  attrs : List Attr
  body : List Instr
  deriving DecidableEq, Repr

/-- `fname.startswith("__dfsw") || fname.startswith("dfs$")`, remove_fn_attr.cpp 19, 33. -/
def isWrapper (n : List Char) : Bool := "__dfsw".toList.isPrefixOf n || "dfs$".toList.isPrefixOf n

/-- `removeAttribute` and `removeFnAttr`. -/
def remove (a : Attr) (l : List Attr) : List Attr := l.filter (fun x => decide (x ≠ a))

/-- The three attributes, remove_fn_attr.cpp 20-25 and 34-36. -/
def strip (l : List Attr) : List Attr := remove .readOnly (remove .inaccessibleMemOrArgMemOnly (remove .inaccessibleMemOnly l))

/-- `visit` with `visitCallInst`, remove_fn_attr.cpp 13-27; the visitor has no function for invokes. -/
def visit : Instr → Instr
  | .call none as => .call none as
  | .call (some f) as => if isWrapper f then .call (some f) (strip as) else .call (some f) as
  | i => i

/-- The body of the loop of `run`, remove_fn_attr.cpp 31-39. -/
def visitFn (f : Fn) : Fn := ⟨f.name, if isWrapper f.name then strip f.attrs else f.attrs, f.body.map visit⟩

/-- `RemoveFnAttrsPass::run`, remove_fn_attr.cpp 29-41. -/
def run (m : List Fn) : List Fn := m.map visitFn

end Verif.PassAttr
