import Verif.Base
/-
Model of the memory layout computed by OutputFile, /repo/polytracker/include/taintdag/outputfile.h.
-/
namespace Verif

/-- Compile-time properties of a section type (concept Section, outputfile.h 20-34). -/
structure SecSpec where
  tag : Nat
  align : Nat
  alloc : Nat
  deriving DecidableEq, Repr

namespace Layout

/-- sizeof(FileMeta), outputfile.h 73-86: 4 + 2 + 2. -/
def fileMetaSize : Nat := 8

/-- sizeof(SectionMeta), outputfile.h 58-70: 4 + 4 + 8 + 8. -/
def sectionMetaSize : Nat := 24

/-- sizeof(FileHeader), outputfile.h 93-100. -/
def headerSize (specs : List SecSpec) : Nat := fileMetaSize + sectionMetaSize * specs.length

/-- `do_allocation` for each section in turn, outputfile.h 142-149, starting with the allocation
pointer at address `p`. Returns the start addresses. -/
def starts (p : Nat) : List SecSpec → List Nat
  | [] => []
  | s :: rest =>
    let begin_ := p + p % s.align
    begin_ :: starts (begin_ + s.alloc) rest

/-- Start addresses in a file mapped at `base`, outputfile.h 103-107. -/
def begins (base : Nat) (specs : List SecSpec) : List Nat :=
  starts (base + headerSize specs) specs

/-- `required_allocation_size`, outputfile.h 154-165: size of the file. -/
def required (specs : List SecSpec) : Nat :=
  headerSize specs + (specs.map (·.alloc)).sum + ((specs.map (·.align)).sum - specs.length)

/-- ConcreteOutputFile, /repo/polytracker/include/taintdag/polytracker.h 91-98: Sources
(taint_source.h 61-63, 255 entries of 16 bytes), Labels (labels.h, 2^31 words), StringTable
(string_table.h 21-42), TaintSink (sink.h 28-35), SourceLabelIndex (polytracker.h 91,
bitmap_section.h 48-54), Functions (fnmapping.h 34-36), Events (fntrace.h 26-28),
ControlFlowLog (control_flow_log.h 40-42). -/
def shipped : List SecSpec :=
  [{ tag := 1, align := 8, alloc := 255 * 16 },
   { tag := 2, align := 8, alloc := 2 ^ 31 * 8 },
   { tag := 3, align := 2, alloc := 0x100000 },
   { tag := 4, align := 8, alloc := 0x100000 * 16 },
   { tag := 5, align := 8, alloc := 2 ^ 31 / 8 },
   { tag := 6, align := 4, alloc := 65535 * 4 },
   { tag := 7, align := 2, alloc := 0xffffffff * 4 },
   { tag := 8, align := 1, alloc := 1024 * 1024 * 1024 }]

end Layout
end Verif
