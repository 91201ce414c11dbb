{"id": "C01", "title": "Stored taint words round-trip", "statement": "Writing any legal taint value (a source byte with index < 256 and offset < 2^54, a label range first<last, or a union of two non-adjacent labels, all labels < 2^31, with or without the control-flow flag) as a 64-bit word and reading the word back yields the same value; two different legal values never share a word; reading terminates the program for exactly those words that denote no taint (both 31-bit fields equal and the source bit clear).", "quantifier": "every legal taint value; every 64-bit word", "why_tests_cant": "There are about 2^64 words and as many legal values; tests sample a handful of each kind.", "anchors": ["polytracker/include/taintdag/taint.h: SourceTaint, RangeTaint, UnionTaint", "polytracker/src/taintdag/encoding.cpp: encode, decode"]}
{"id": "C02", "title": "The control-flow flag is independent of the taint value", "statement": "Setting the control-flow flag on a stored word is visible to the flag check and changes nothing else about the decoded taint; it is idempotent; and comparing two words 'ignoring control flow' answers yes exactly when they denote the same taint up to the flag.", "quantifier": "every 64-bit word and pair of words", "why_tests_cant": "The claim ranges over all pairs of 64-bit words.", "anchors": ["polytracker/src/taintdag/encoding.cpp: add_affects_control_flow, check_affects_control_flow, is_source_taint", "polytracker/include/taintdag/encoding.h: equal_ignore_cf"]}
{"id": "C03", "title": "A union label means exactly the union of the inputs", "statement": "After any sequence of source-label creations, unions and control-flow markings, the label returned for a union of two labels denotes (through the stored label graph) exactly the set of source bytes denoted by the first label together with those denoted by the second: no byte is lost and no extra byte appears.", "quantifier": "every history of tracker operations and every pair of existing labels", "why_tests_cant": "The union code compresses into ranges, absorbs sub-taints and reuses recent labels; the interactions depend on the whole history (unit tests carry a TODO saying extra labels are not checked).", "anchors": ["polytracker/include/taintdag/union.h: Visitor, compute", "polytracker/include/taintdag/labels.h: union_taint, duplicate_check, create_source_labels"]}
{"id": "C04", "title": "A label never changes its meaning", "statement": "Once handed out, a label denotes the same set of source bytes for the rest of the run, whatever operations follow, and a label handed out by a union or read is either fresh or already denoted the requested set.", "quantifier": "every history and every later operation", "why_tests_cant": "It is a statement about all future continuations of all histories.", "anchors": ["polytracker/include/taintdag/labels.h: Labels", "polytracker/include/taintdag/section.h: FixedSizeAlloc"]}
{"id": "C05", "title": "The label graph is always well-formed and acyclic", "statement": "In every state the tracker can reach, every label other than the reserved label 0 is a source byte, a range of at least two labels, or a union of two non-adjacent labels, and only refers to labels that are non-zero and strictly smaller than itself; so no assertion on taint values can fire and decoding a handed-out label never aborts the program.", "quantifier": "every history of tracker operations", "why_tests_cant": "An invariant over unbounded histories.", "anchors": ["polytracker/include/taintdag/taint.h: RangeTaint, UnionTaint asserts", "polytracker/include/taintdag/labels.h: Labels", "polytracker/src/taintdag/encoding.cpp: decode"]}
{"id": "C06", "title": "Label reuse is sound, and effective inside its window", "statement": "When a union returns an existing label instead of a new one, that label already denoted the requested set; and requesting the same union of the same two labels again, while fewer than 100 labels have been added since, returns the same label as the first time and adds no label.", "quantifier": "every history, every pair of labels, every continuation adding fewer than 100 labels", "why_tests_cant": "Quantifies over histories and over the contents of the scanned window.", "anchors": ["polytracker/include/taintdag/labels.h: union_taint, duplicate_check, redundant_label_range"]}
{"id": "C07", "title": "Combining shadow labels respects untainted and equal values", "statement": "Combining labels at the instrumentation interface treats label 0 as 'no taint': combining with 0 returns the other label, combining equal labels returns that label, and reading the label of an n-byte memory range denotes exactly the union of the source bytes of the n individual bytes; label 0 never reaches the label store as an operand.", "quantifier": "every history, every pair of labels, every memory range length", "why_tests_cant": "Depends on unbounded loads and arbitrary label histories.", "anchors": ["polytracker/src/compiler-rt/lib/dfsan/dfsan.cpp: __dfsan_union, dfsan_union, __dfsan_union_load, dfsan_read_label, dfsan_add_label", "polytracker/src/polytracker/polytracker.cpp: __polytracker_union_table"]}
{"id": "C08", "title": "Marking control flow reaches exactly the contributing labels", "statement": "Marking a label as affecting control flow terminates for every label graph; afterwards the flagged labels are exactly those flagged before plus the label itself and every label it is transitively built from, and nothing else in the store changed.", "quantifier": "every reachable label graph and every label", "why_tests_cant": "Graphs are unbounded; the traversal stops early at flagged labels, so exactness relies on a global invariant.", "anchors": ["polytracker/include/taintdag/labels.h: affects_control_flow, set_affects_control_flow", "polytracker/include/taintdag/labeldeq.h"]}
{"id": "C09", "title": "Control-flow flags are downward closed", "statement": "After every tracker operation, if a label carries the control-flow flag then so does every label it refers to, hence every source byte it denotes.", "quantifier": "every history of tracker operations", "why_tests_cant": "Invariant over unbounded histories; the readers' pruning relies on it.", "anchors": ["polytracker/include/taintdag/labels.h: affects_control_flow, union_taint, duplicate_check", "polytracker/mapping.py: file_cavities"]}
{"id": "C10", "title": "The work of marking control flow is bounded by the size of the label graph", "statement": "Marking one label as affecting control flow processes each contributing label a bounded number of times, so its cost is at most proportional to the number of references in the label graph.", "quantifier": "every reachable label graph", "why_tests_cant": "Worst-case cost over all graphs; tests only time small graphs.", "anchors": ["polytracker/include/taintdag/labels.h: affects_control_flow"]}
{"id": "C11", "title": "The work queue is a FIFO queue at every size", "statement": "The label queue behaves as an unbounded first-in first-out queue for every sequence of pushes and pops, in particular across the switch from its fixed ring buffer to the heap-allocated queue, and for every ring size.", "quantifier": "every operation sequence, every ring size", "why_tests_cant": "The ring wrap position, fill level and switch point combine in unboundedly many ways.", "anchors": ["polytracker/include/taintdag/labeldeq.h: LabelDeq, ArrayImpl, migrate"]}
{"id": "C12", "title": "The bitmap section is a faithful set of indices", "statement": "After any sequence of single-bit and range insertions, an index tests as set exactly when it was covered by some insertion; an insertion reports whether the bit was already set; insertions beyond capacity terminate the program; and the reported size covers every set bit and never shrinks.", "quantifier": "every sequence of insertions, every index, every bucket width", "why_tests_cant": "Range insertion splits into partial first bucket, full buckets and partial last bucket; alignments and lengths are unbounded.", "anchors": ["polytracker/include/taintdag/bitmap_section.h: set, set_range, is_set, size, update_buckets_used"]}
{"id": "C13", "title": "Concurrent bitmap insertions lose nothing", "statement": "Under every interleaving of threads inserting bits and ranges, once all have finished every inserted bit is set and no other bit is, and of several threads inserting the same bit exactly one is told it was new.", "quantifier": "every number of threads, every program, every schedule of atomic steps", "why_tests_cant": "Schedules are unbounded; a stress test can miss the losing interleaving.", "anchors": ["polytracker/include/taintdag/bitmap_section.h: set_bits, set_range, update_buckets_used"]}
{"id": "C14", "title": "The source-label index lists exactly the source labels", "statement": "At every point between tracker operations, the source-label index contains a label exactly when that label denotes a single input byte read from a source.", "quantifier": "every history of tracker operations", "why_tests_cant": "Invariant over unbounded histories linking two sections.", "anchors": ["polytracker/src/taintdag/polytracker.cpp: create_source_taint", "polytracker/include/taintdag/polytracker.h: SourceLabelIndexSection", "polytracker/taint_dag.py: input_labels"]}
{"id": "C15", "title": "Entries in a section never overlap or escape it", "statement": "Allocations in a section are handed out in order, back to back, mutually disjoint and inside the section; a request that does not fit fails and changes nothing; and the index reported for an entry is its position, so that position and index determine each other.", "quantifier": "every sequence of requests, every section size and entry size", "why_tests_cant": "Boundary behaviour for all sizes and sequences.", "anchors": ["polytracker/include/taintdag/section.h: SectionBase::write, SectionBase::offset, FixedSizeAlloc::construct, construct_range, index, count"]}
{"id": "C16", "title": "Sections of the trace file do not overlap", "statement": "For any list of sections, every section starts at an address aligned as it requires, the sections and the file header are pairwise disjoint and the last one ends within the file's computed size; in particular this holds for the shipped configuration.", "quantifier": "every list of sections with power-of-two alignments", "why_tests_cant": "Layout arithmetic for all configurations; the shipped one is a single instance.", "anchors": ["polytracker/include/taintdag/outputfile.h: do_allocation, required_allocation_size", "polytracker/include/taintdag/polytracker.h: ConcreteOutputFile"]}
{"id": "C17", "title": "A finished trace file describes itself exactly; an unfinished one is recognisable", "statement": "When the run ends in an orderly way the header lists every section with its exact offset and used size and the magic value checks; if the run is cut short at any earlier point, the header on disk lists every section with size zero, so a reader sees an empty trace rather than a wrong one.", "quantifier": "every history and every crash point", "why_tests_cant": "Crash points are unbounded.", "anchors": ["polytracker/include/taintdag/outputfile.h: OutputFile, FileMeta, SectionMeta", "polytracker/include/taintdag/storage.h: MMapFile", "polytracker/taint_dag.py: TDFile"]}
{"id": "C18", "title": "Stored names come back unchanged", "statement": "A name added to the string table is returned byte for byte when looked up by its reported offset, no matter how many names are added later; iterating the table yields all names in insertion order; a name that does not fit is refused and changes nothing.", "quantifier": "every sequence of names (of any bytes, up to 65535 long)", "why_tests_cant": "Names and sequences are unbounded; odd lengths interact with alignment padding.", "anchors": ["polytracker/include/taintdag/string_table.h: StringTable::add_string, from_offset, const_iterator", "polytracker/taint_dag.py: TDStringSection.read_string"]}
{"id": "C19", "title": "Bytes are attributed to the file that is open on the descriptor", "statement": "Data read from a descriptor is attributed to the name and size given when that descriptor was most recently opened; descriptors that no tracked open returned are not attributed to any file.", "quantifier": "every history of opens, closes and reads, any reuse of descriptor numbers", "why_tests_cant": "Attribution depends on the whole open/close history including capacity exhaustion.", "anchors": ["polytracker/include/taintdag/taint_source.h: Sources::add_source, mapping_idx", "polytracker/src/taintdag/polytracker.cpp: open_file, close_file, source_taint", "polytracker/src/taint_sources/taint_sources.cpp"]}
{"id": "C20", "title": "A read of n bytes yields n fresh consecutive labels with the right offsets", "statement": "A tracked read of n bytes at offset o from source i gives n labels that did not exist before, consecutive, where the k-th denotes exactly byte o+k of source i, and sets the shadow of buffer byte k to the k-th label and of no other byte.", "quantifier": "every history, every n and o", "why_tests_cant": "All lengths, offsets and prior histories, including zero length, label exhaustion and offsets near 2^54.", "anchors": ["polytracker/include/taintdag/labels.h: create_source_labels", "polytracker/src/taintdag/polytracker.cpp: create_source_taint, source_taint"]}
{"id": "C21", "title": "Sequential reads and writes are numbered without gaps or overlaps", "statement": "For a source whose offsets are not known (a stream), successive reads cover consecutive disjoint offset ranges starting at 0 in the order performed, independently for every source and independently of writes; under concurrent readers the ranges are still disjoint and gap-free.", "quantifier": "every history and interleaving, every number of sources", "why_tests_cant": "Unbounded histories and interleavings.", "anchors": ["polytracker/include/taintdag/stream_offset.h: StreamOffset", "polytracker/src/taintdag/polytracker.cpp: source_taint, taint_sink"]}
{"id": "C22", "title": "The sink log records exactly the tainted bytes written", "statement": "For every write to a tracked output, the log gains one record per tainted byte and none for untainted bytes, in increasing byte order, each with the output, the byte's offset in that output and the byte's label; records are never altered or removed.", "quantifier": "every history of writes, any lengths and shadow contents", "why_tests_cant": "Unbounded histories; includes the log-full boundary.", "anchors": ["polytracker/include/taintdag/sink.h: TaintSink::log_single", "polytracker/src/taintdag/polytracker.cpp: taint_sink", "polytracker/src/taint_sources/write_taints.cpp"]}
{"id": "C23", "title": "The control-flow log decodes to exactly the events logged", "statement": "Any sequence of function-enter, function-leave and tainted-branch events written to the control-flow log is recovered exactly, in order and with the same function ids and labels, by the reader; numbers take at most five bytes.", "quantifier": "every event sequence, every 32-bit id and label", "why_tests_cant": "Unbounded sequences of variable-length records; a single wrong byte derails the rest.", "anchors": ["polytracker/include/taintdag/control_flow_log.h: varint_encode, ControlFlowLog", "polytracker/taint_dag.py: TDControlFlowLogSection"]}
{"id": "C24", "title": "Call stacks reported for control-flow events are right", "statement": "For every log produced by properly nested calls, the call stack reported with each event is the stack of functions entered and not yet left at that point, also when leave events are missing because of non-local exits.", "quantifier": "every call tree, every set of skipped leave events", "why_tests_cant": "Unbounded call trees and skip patterns.", "anchors": ["polytracker/taint_dag.py: TDControlFlowLogSection.__iter__, _align_callstack"]}
{"id": "C25", "title": "Function names and trace events are recovered exactly", "statement": "Each distinct function name gets one stable index, equal names get equal indices, indices are consecutive from 0, and a reader recovers from the file the name of every index and the sequence of enter/leave events exactly as logged.", "quantifier": "every sequence of function entries/exits", "why_tests_cant": "Unbounded histories, including table-full conditions.", "anchors": ["polytracker/include/taintdag/fnmapping.h", "polytracker/src/taintdag/fnmapping.cpp: FnMapping::add_mapping", "polytracker/include/taintdag/fntrace.h: Events::log_fn_event", "polytracker/src/taintdag/polytracker.cpp: function_entry, function_exit", "polytracker/taint_dag.py: TDFile functions/events"]}
{"id": "C26", "title": "The reader's decoding agrees with the writer's", "statement": "For every word the tracker can store, the Python reader decodes the same kind of taint with the same fields and the same flag as the runtime's own decoder.", "quantifier": "every 64-bit word that denotes a taint", "why_tests_cant": "Two independent implementations over a 2^64 domain.", "anchors": ["polytracker/taint_dag.py: decode_node", "polytracker/src/taintdag/encoding.cpp: decode"]}
{"id": "C27", "title": "The taint forest denotes the same sets as the label graph", "statement": "Reading a trace as a binary taint forest (ranges unfolded into synthetic nodes) preserves, for every label, the set of source bytes reachable from it and the control-flow flag; the forest has no cycles; asking twice for a node gives the same node.", "quantifier": "every trace file, every label, every query order", "why_tests_cant": "Unfolding allocates synthetic labels on demand, so results depend on query history.", "anchors": ["polytracker/taint_dag.py: TDTaintForest, TDTaintForestNode", "polytracker/taint_forest.py"]}
{"id": "C28", "title": "The input/output mapping is exact", "statement": "The reported input-to-output mapping relates input byte (file, offset) to output byte (file, offset) exactly when some logged write of that output byte carried a label denoting that input byte.", "quantifier": "every trace file", "why_tests_cant": "Graph reachability over unbounded graphs with a visited set.", "anchors": ["polytracker/mapping.py: InputOutputMapping.dfs_walk, mapping"]}
{"id": "C29", "title": "File cavities are exactly the bytes that influence nothing", "statement": "For every input, a byte is reported inside a cavity exactly when it neither affected control flow nor contributed to any logged output byte; cavities are maximal, non-empty, disjoint and sorted.", "quantifier": "every trace file, every number of opens of the same file", "why_tests_cant": "The implementation prunes with flags and a visited set shared between outputs and merges multiple opens.", "anchors": ["polytracker/mapping.py: file_cavities, marker_to_ranges"]}
{"id": "C30", "title": "What was written is what is read: whole-file round trip", "statement": "For every run that ends in an orderly way, parsing the bytes of the trace file gives back precisely the sections in memory at the end: every label word, every source (name, descriptor, size), every sink record, every function, every event, every control-flow record and the source-label index.", "quantifier": "every history of tracker operations", "why_tests_cant": "Composition of layout, allocation, little-endian encoding and parsing over all histories.", "anchors": ["polytracker/include/taintdag/outputfile.h", "polytracker/include/taintdag/polytracker.h", "polytracker/taint_dag.py: TDFile"]}
{"id": "C31", "title": "Recording a branch condition does not change the program", "statement": "The instrumentation call wrapped around a branch condition or switch value returns that same value, for every value and width, in every tracker state.", "quantifier": "every condition value, bit width and tracker state", "why_tests_cant": "All values and widths, including states before initialisation.", "anchors": ["polytracker/src/polytracker/polytracker.cpp: __dfsw___polytracker_log_tainted_control_flow", "polytracker/src/passes/tainted_control_flow.cpp: visitSwitchInst, visitBranchInst, visitSelectInst, visitGetElementPtrInst"]}
{"id": "C32", "title": "Function ids written by the compiler pass resolve to the right names", "statement": "Every instrumented function name gets one id, equal names share it, ids count from 0, and position i of the emitted JSON array is the name with id i; the emitted file is well-formed JSON for every set of functions.", "quantifier": "every sequence of function names", "why_tests_cant": "Unbounded; includes the empty module and names with special characters.", "anchors": ["polytracker/src/passes/tainted_control_flow.cpp: get_or_add_mapping, FunctionMappingJSONWriter"]}
{"id": "C33", "title": "Ignore lists exclude exactly the listed functions", "statement": "A function is excluded from instrumentation exactly when an uncommented line of an ignore list names it.", "quantifier": "every ignore-list file content and function name", "why_tests_cant": "Arbitrary text files.", "anchors": ["polytracker/src/passes/utils.cpp: readIgnoreLists"]}
{"id": "C34", "title": "Concurrent unions and reads stay exact", "statement": "Under every interleaving of threads performing unions and source reads, each returned label denotes exactly the requested set, the label graph stays well-formed, and no entry is overwritten.", "quantifier": "every number of threads, every program, every schedule", "why_tests_cant": "Schedules are unbounded and the duplicate check races with allocation.", "anchors": ["polytracker/include/taintdag/labels.h: union_taint, create_source_labels", "polytracker/include/taintdag/section.h: SectionBase::write"]}
{"id": "C35", "title": "Concurrent control-flow marking misses nothing", "statement": "Under every interleaving of threads marking labels (the flag update is an unsynchronised read-modify-write), once all have finished every requested label and everything it is built from is flagged, flags only ever get added, and taint values are unchanged.", "quantifier": "every number of threads, every schedule of individual loads and stores", "why_tests_cant": "The early-out on already flagged labels races with the other thread's unfinished traversal.", "anchors": ["polytracker/include/taintdag/labels.h: affects_control_flow, set_affects_control_flow"]}
{"id": "C36", "title": "Shadow memory updates touch exactly the addressed bytes", "statement": "Every application byte has its own shadow cell, shadow cells lie outside application memory, and setting the label of an n-byte range makes every byte in the range carry that label and leaves all other bytes unchanged, also when whole shadow pages are released.", "quantifier": "every address, every length, every label, every prior shadow content", "why_tests_cant": "47-bit addresses and arbitrary lengths with page-boundary special cases.", "anchors": ["polytracker/src/compiler-rt/lib/dfsan/dfsan.cpp: SetShadow, WriteShadowIfDifferent, ClearShadowIfNonZero", "polytracker/src/compiler-rt/lib/dfsan/dfsan.h: shadow_for", "polytracker/src/compiler-rt/lib/dfsan/dfsan_platform.h"]}
{"id": "C37", "title": "Copied data keeps its labels", "statement": "When data is copied or moved by the C library functions the tracker wraps (memcpy, memmove, strcpy, strncpy, strcat, strdup, realloc), each destination byte carries the label its source byte had before the call, and bytes outside the destination keep their label.", "quantifier": "every memory content, shadow content, length and (for memmove) overlap", "why_tests_cant": "All sizes, overlaps and shadow contents.", "anchors": ["polytracker/src/compiler-rt/lib/dfsan/dfsan_custom.cpp: dfsan_memcpy, dfsan_memmove, __dfsw_strcat, __dfsw_strdup, __dfsw_strncpy, __dfsw_strcpy", "polytracker/src/taint_sources/string_taints.cpp", "polytracker/src/taint_sources/memory_taints.cpp"]}
{"id": "C38", "title": "The label cache is bounded and evicts the least recently used entry", "statement": "The reader's cache never holds more entries than its limit, always returns the value last stored for a key it still holds, and evicts the entry that was least recently used.", "quantifier": "every operation sequence, every limit", "why_tests_cant": "Unbounded operation sequences.", "anchors": ["polytracker/cache.py: LRUCache"]}
{"id": "C39", "title": "Tainted byte offsets are grouped into exact maximal regions", "statement": "Grouping a collection of tainted byte offsets into regions covers exactly those offsets, each once, and the regions are maximal runs of consecutive offsets of one input.", "quantifier": "every finite collection of (input, offset) pairs", "why_tests_cant": "Arbitrary collections over several inputs.", "anchors": ["polytracker/tracing.py: Taints.to_regions, Taints.__init__"]}
{"id": "C40", "title": "Library-call results determine exactly how many bytes get tainted", "statement": "For each wrapped input call, the bytes given labels are exactly the bytes the call reported as stored in the buffer; calls that report failure or zero bytes taint nothing and leave the tracker state unchanged; the wrapped call's own result is returned unchanged.", "quantifier": "every result value of the underlying call, every size and count", "why_tests_cant": "Return values include error codes, short reads, products that overflow and strings with embedded zero bytes.", "anchors": ["polytracker/include/taintdag/util.h: Length, Offset", "polytracker/src/taintdag/util.cpp", "polytracker/src/taint_sources/taint_sources.cpp"]}
{"id": "C41", "title": "Tainted calls are split into contiguous input chunks", "statement": "For a function's tainted inputs, the reported chunks cover exactly the given byte offsets, each once, as maximal runs in increasing order.", "quantifier": "every finite set of offsets", "why_tests_cant": "Arbitrary offset sets.", "anchors": ["polytracker/cfg.py: CFG tainted_chunks"]}
{"id": "C42", "title": "Output wrappers log exactly the tainted bytes reported as written", "statement": "For each wrapped output call (write, send, fwrite, putc, fputc), the sink log gains exactly one record for every byte that the call reported as written and that carries a label, with that label and the byte's offset in the output, in increasing order; calls that report failure or zero bytes, and calls on untracked descriptors, leave the tracker unchanged; the call's own result is returned unchanged.", "quantifier": "every result value, buffer label content, position, size and count, in every reachable tracker state", "why_tests_cant": "Short writes, error results, products that overflow and characters outside 0..255, combined with every shadow content.", "anchors": ["polytracker/src/taint_sources/write_taints.cpp: impl_taint_sink, impl_write_send, __dfsw_fwrite, __dfsw_putc, __dfsw_fputc", "polytracker/src/taint_sources/taint_sources.cpp: __dfsw__putc", "polytracker/src/taintdag/polytracker.cpp: taint_sink"]}
{"id": "C43", "title": "Filling memory sets every byte and its label", "statement": "After a wrapped memset, or an instrumented memset instruction, every byte of the range holds the fill value modulo 256 and carries the label of the fill value, and every other byte and label is as before.", "quantifier": "every memory and shadow content, address, length, fill value and label", "why_tests_cant": "The runtime takes a different path for aligned ranges, and large label ranges are cleared by releasing pages; all sizes, alignments and values cannot be enumerated.", "anchors": ["polytracker/src/compiler-rt/lib/dfsan/dfsan_custom.cpp: dfsan_memset, __dfsw_memset", "polytracker/src/compiler-rt/lib/sanitizer_common/sanitizer_libc.cpp: internal_memset", "polytracker/src/passes/DataFlowSanitizer.cpp: visitMemSetInst"]}
{"id": "C44", "title": "Searching tainted bytes finds exactly the tainted occurrences", "statement": "Searching a collection of tainted bytes for a byte sequence yields exactly the occurrences of the sequence in an input all of whose bytes are in the collection, each once, and then ends; a membership test is true exactly if there is one; slicing a region selects the bytes that slicing the list of its bytes would.", "quantifier": "every collection of (input, offset) pairs, every content of the inputs, every sequence, every pair of slice bounds", "why_tests_cant": "Arbitrary collections over several inputs with arbitrary contents.", "anchors": ["polytracker/tracing.py: Taints.find, Taints.__contains__, TaintedRegion.__getitem__, TaintedRegion.value"]}
{"id": "C45", "title": "Inserted load and store code moves labels exactly", "statement": "The code the compiler pass inserts for a load gives the loaded value a label that denotes exactly the union of the labels of the loaded bytes and of the address, by whichever path (single label, pair, wide comparison, union call) it goes; if all loaded bytes carry one label that label is returned and no label is created. The code inserted for a store gives every stored byte the label of the value, changes no other label and no other application byte, and a load of the same range returns the stored label.", "quantifier": "every size, every application address, every memory, every reachable label store, both block-avoiding modes, before and after start-up", "why_tests_cant": "All access sizes with all combinations of labels, including the rotation test on arbitrary 64-bit words.", "anchors": ["polytracker/src/passes/DataFlowSanitizer.cpp: loadLegacyShadowFast, loadShadowOrigin, visitLoadInst, storePrimitiveShadowOrigin, visitStoreInst, combineShadows", "polytracker/src/compiler-rt/lib/dfsan/dfsan.cpp: __dfsan_union_load"]}
{"id": "C46", "title": "Argument labels arrive in the callee up to the 200th argument", "statement": "For a call with any number of arguments, the code that the pass inserts before the call and at the entry of the called function gives parameter i of the callee exactly the label that argument i has in the caller, whatever earlier calls left in the TLS area, for every i < 200. From the 201st argument on the callee sees label 0.", "quantifier": "all callers, callees, arities, argument labels and TLS contents", "why_tests_cant": "Offsets are computed independently by caller and callee; only a proof covers every arity, and no test passes more than 200 arguments.", "anchors": ["polytracker/src/passes/DataFlowSanitizer.cpp: getShadowForTLSArgument, getArgTLS, visitCallBase"]}
{"id": "C47", "title": "Instrumented programs compute the same values, with exact labels", "statement": "For every program that passes the LLVM verifier, every input (a finite file or an endless stream, read byte by byte or in blocks, with short reads and end of file) every taint of the memory it starts with and every number of steps: unless the program has undefined behaviour, its instrumented version gets as far with the same memory, outputs and result, and the labels of memory bytes, outputs and result denote exactly the set of input and initial bytes given by the reference taint semantics (in which atomic read-modify-write instructions and what the pass calls untracked lose the taint). It can be stopped only if the label store has no room for one label per taint combination executed.", "quantifier": "all programs (control flow graphs with phis, loops, calls, recursion, memory), inputs, initial taint of memory, dominator trees that claim nothing wrong, reachable label stores, run lengths", "why_tests_cant": "The pass caches unions by dominance and elides unions by known elements; a mistake shows only for particular graph shapes. A simulation proof covers all programs.", "anchors": ["polytracker/src/passes/DataFlowSanitizer.cpp: runImpl, getShadow, combineShadows, combineOperandShadows, loadShadow, storeShadow, visitSelectInst, visitPHINode, visitCallBase, visitReturnInst, visitCASOrRMW"]}
{"id": "C48", "title": "A value whose label lacks an input byte does not depend on that byte (explicit flows)", "statement": "Run an instrumented program on two inputs, or with two memories, that differ only in one input byte (for instance a byte of the command line). If in the first run this byte taints no branch condition, no called function, no address stored to, no range of a block fill or copy and neither an operand of untracked code nor an operand or the memory of an atomic read-modify-write instruction, and both runs end without undefined behaviour, then they output equally many values and every output whose label does not denote the byte is equal in both. The same holds for inputs that differ in any set of bytes, if no byte of the set is used in these ways. Each of the conditions is needed: with a branch, a store through a tainted address, a copy from a tainted address, an atomic exchange or freeze the output can depend on a byte its label does not contain; and the number of input bytes, which read returns, has no label at all.", "quantifier": "all programs, pairs of inputs and initial memories differing in one tainted byte, pairs of inputs differing in any set of bytes, run lengths", "why_tests_cant": "It is a statement about pairs of runs of every program.", "anchors": ["polytracker/src/passes/DataFlowSanitizer.cpp: ClCombinePointerLabelsOnStore, visitStoreInst, DFSanVisitor, visitCASOrRMW"]}
{"id": "C49", "title": "Inserting reports of decisions does not change the program, and the reports are exact", "statement": "For every program, every taint semantics and every choice of reported decisions: the program with inserted calls to the report functions (control flow pass, taint tracking pass) has the same memory, taint, output, result and stack of calls as the original, ends or gets stuck exactly when the original does, and the sequence of reports is exactly: each function when it is entered, each marked operand (index, select condition, branch condition, switch value) with its value and taint just before it is used, each function when it returns. Following these reports with a stack gives the true stack of calls at every moment.", "quantifier": "all programs of the SSA language, inputs, initial taint of memory, run lengths, taint algebras, choices of marked operands", "why_tests_cant": "The pass shifts the position of every instruction and renames registers; that all later uses still refer to the same values is a statement about every program and every run.", "anchors": ["polytracker/src/passes/tainted_control_flow.cpp: insertCondBrLogCall, visitGetElementPtrInst, visitBranchInst, visitSwitchInst, visitSelectInst, instrumentFunctionEnter, visitReturnInst", "polytracker/src/passes/taint_tracking.cpp: insertCondBrLogCall, visitGetElementPtrInst, visitBranchInst, visitSwitchInst"]}
{"id": "C50", "title": "The control-flow log tells exactly what the original program did", "statement": "Insert the reports of the control-flow pass into any valid program, instrument it and run it on any input in a tracker with any history. Unless the label space or the log is full, the program behaves as the original and the entries that Python reads from the control-flow log are, in order: the entry of each function, each reported decision whose value depended on input with a label that denotes exactly the bytes the value depended on, the return from each function, and the call stack of every entry is the true call stack of the original program.", "quantifier": "all programs of the SSA language, choices of reported decisions, inputs, initial taint of memory, run lengths, label histories, section sizes", "why_tests_cant": "It connects two compiler passes, the runtime, the file encoding and the Python reader for every program; a test sees one program and one run.", "anchors": ["polytracker/src/passes/tainted_control_flow.cpp: insertCondBrLogCall, instrumentFunctionEnter, visitReturnInst", "polytracker/src/passes/DataFlowSanitizer.cpp: DFSanVisitor", "polytracker/src/polytracker/polytracker.cpp: __dfsw___polytracker_log_tainted_control_flow, __polytracker_enter_function, __polytracker_leave_function", "polytracker/src/taintdag/polytracker.cpp: log_tainted_control_flow, enter_function, leave_function", "polytracker/taint_dag.py: TDControlFlowLogSection"]}
{"id": "C51", "title": "The bytes flagged as affecting control flow are exactly those some decision depended on", "statement": "Insert the branch reports of the taint tracking pass into any valid program, instrument it and run it on any input in a tracker with any history. Unless the label space is full, the program behaves as the original, and at every moment and at the end the source label of an input byte carries the control-flow flag exactly if it was flagged before or a reported decision of the original program was taken on a value that depended on that byte.", "quantifier": "all programs of the SSA language, choices of reported decisions, inputs, initial taint of memory, run lengths, label histories", "why_tests_cant": "Both directions are needed for every program and every byte: no decision missed, no byte flagged without a decision.", "anchors": ["polytracker/src/passes/taint_tracking.cpp: insertCondBrLogCall, visitBranchInst, visitSwitchInst, visitGetElementPtrInst", "polytracker/src/passes/DataFlowSanitizer.cpp: DFSanVisitor", "polytracker/src/polytracker/polytracker.cpp: __polytracker_log_conditional_branch, __dfsw___polytracker_log_conditional_branch", "polytracker/include/taintdag/labels.h: affects_control_flow"]}
{"id": "C52", "title": "Whole pipeline: the mapping and the cavities Python reports are exactly the program's dependences", "statement": "Insert the branch reports of the taint tracking pass into any valid program, instrument it with the DFSan pass, link it with the runtime in any reachable state, with one registered input stream and one registered output stream (seekable or not), and run it on any input to any moment. Unless the label space is full, it behaves as the original. If the trace is closed there and opened by Python, the mapping relates input byte (p,o) to output byte (q,r) exactly if it did before the run or byte r of the original program's output depends on byte o; and file_cavities lists exactly the files of which a byte was read, before or by the program, and for each of them the maximal runs of bytes below its extent (the recorded size, or the end of what was read if that is unknown or smaller) on which neither a decision nor an output byte depends, be it from before or of the original program; when nothing was read before, that is the input file alone.", "quantifier": "all programs of the SSA language, choices of reported decisions, inputs, initial taint of memory, run lengths, tracker histories, streams with and without known position, padding bytes of the file", "why_tests_cant": "The claim joins the passes, label store, source and sink sections, file layout and Python reader; every program and every byte must agree in both directions.", "anchors": ["polytracker/build.py: _instrument_bitcode", "polytracker/src/passes/taint_tracking.cpp: TaintTrackingPass", "polytracker/src/passes/DataFlowSanitizer.cpp: DFSanVisitor", "polytracker/src/taint_sources/taint_sources.cpp: impl_getc_style_functions", "polytracker/src/taint_sources/write_taints.cpp: __dfsw_putc", "polytracker/src/polytracker/polytracker.cpp: __polytracker_union_table, __dfsw___polytracker_log_conditional_branch", "polytracker/src/taintdag/polytracker.cpp: source_taint, taint_sink, affects_control_flow", "polytracker/mapping.py: InputOutputMapping, file_cavities", "polytracker/taint_dag.py: TDFile"]}
{"id": "C53", "title": "Whole pipeline with both passes: one trace gives the exact mapping, the exact control-flow log and the exact cavities", "statement": "Run the control-flow pass, then the taint tracking pass, then the DFSan pass on any valid program, link it with the runtime in any reachable state in which nothing was logged yet (one registered input and one registered output stream), and run it on any input to any moment. Unless the label space or the log is full, it behaves as the original. If the trace is closed there and opened by Python, then the mapping relates input byte o to output byte r exactly if it did before or byte r of the original output depends on byte o; the control-flow log lists exactly the calls, returns and tainted decisions of the original program, in order, with the true call stacks and labels standing for exactly the bytes decided on; and file_cavities lists for every file of which something was read the maximal runs of bytes on which no decision reported by the taint tracking pass and no output byte, of the run or from before, depends. The inserted reports of the first pass do not disturb the second.", "quantifier": "all programs of the SSA language, independent choices of reported decisions for both passes, inputs, run lengths, tracker histories without log entries, initial taint of memory, streams with and without known position, padding bytes of the file", "why_tests_cant": "The second pass sees the calls and renamed operands the first one inserted; that this changes neither dependence nor decisions has to hold for every program and every pair of choices.", "anchors": ["polytracker/build.py: _preopt_instrument_bitcode, _instrument_bitcode", "polytracker/src/passes/tainted_control_flow.cpp: TaintedControlFlowPass", "polytracker/src/passes/taint_tracking.cpp: TaintTrackingPass", "polytracker/src/passes/DataFlowSanitizer.cpp: DFSanVisitor", "polytracker/src/polytracker/polytracker.cpp: __dfsw___polytracker_log_tainted_control_flow, __dfsw___polytracker_log_conditional_branch", "polytracker/mapping.py: InputOutputMapping, file_cavities", "polytracker/taint_dag.py: TDControlFlowLogSection"]}
{"id": "C54", "title": "The queries of a loaded trace are exact", "statement": "For a trace of any run that ended in an orderly way, loaded with TDProgramTrace: `inputs` lists every opening from which at least one byte was read, once, in the order of the first reads, with the recorded descriptor, path and size; `output_taints` lists the recorded tainted output bytes in the order they were written, with the right output, offset and label; `inputs_affecting_control_flow` gives exactly the input bytes that influenced control flow, each once, named by descriptor and path, whatever nodes of the forest were asked for before. For the trace of an instrumented program these are exactly the bytes that influenced control flow before the run and those on which a decision of the original program depended.", "quantifier": "all histories of calls to the tracker, all earlier queries of the forest, all iteration orders of Python sets, padding bytes of the file; for the pipeline all programs of the SSA language, inputs and run lengths", "why_tests_cant": "The order and uniqueness of inputs depends on the label numbering of every possible interleaving of reads, and the answer must not depend on the queries made before.", "anchors": ["polytracker/taint_dag.py: TDProgramTrace, inputs, output_taints, inputs_affecting_control_flow, file_offset, TDTaintOutput", "polytracker/inputs.py: Input, __eq__", "polytracker/tracing.py: Taints, TaintOutput, ByteOffset, ProgramTrace, taints"]}
{"id": "C55", "title": "Start-up follows the environment and taints exactly the command line", "statement": "`__taint_start` reads the settings from the environment (default file name if POLYDB is unset or empty) and registers exactly the standard streams whose variable is \"1\" and that have a descriptor, as /dev/stdout, /dev/stderr, /dev/stdin in this order; nothing is tainted then. With POLYTRACKER_TAINT_ARGV on, `taint_argv` makes each argument an input named argv[i] and gives byte k of it a fresh label for exactly offset k of that input; all other bytes, terminators included, keep their labels and existing labels keep their meaning, and nothing is read, written or logged; off, or without arguments, nothing happens. Before start-up no entry point called by instrumented code has an effect; afterwards each makes exactly its call to the tracker.", "quantifier": "all environments, descriptors and file sizes; all histories before; all argument vectors and memory contents; all sequences of entry-point calls", "why_tests_cant": "Tests run one or two argument vectors; empty arguments, hundreds of arguments and code running before the constructor are not tried, and untouched memory cannot be enumerated.", "anchors": ["polytracker/src/polytracker/main.cpp: polytracker_parse_env, set_defaults, polytracker_get_settings, sink_streams, stdin_source, taint_start", "polytracker/src/taint_sources/argv.cpp: taint_argv, create_taint_source", "polytracker/src/polytracker/polytracker.cpp: polytracker_is_initialized, __polytracker_taint_argv, __taint_start, __polytracker_union_table", "polytracker/src/taintdag/polytracker.cpp: create_taint_source, open_file"]}
{"id": "C56", "title": "Library comparisons, searches and conversions: label and value of the result", "statement": "In the instrumented program memcmp, bcmp, strcmp, strncmp, strcasecmp, strncasecmp, strlen, strchr, strrchr, memchr, strstr, strpbrk, strtol, strtoll, strtoul, strtoull and strtod go to wrappers. Each returns the value the C library function returns. The label of the value denotes exactly: with strict_data_dependencies on (the default) nothing for comparisons and strlen, and the label of the searched pointer for a successful search; with it off the labels of the bytes the function has to look at (comparisons: positions up to the first difference, terminator or limit), for searches also the labels of the pointer and character arguments; for conversions, in both modes, the labels of the converted prefix, of the terminator if the conversion stopped there, and of the base. No other label is made, and a call fails only if the labels do not fit.", "quantifier": "all memory contents, labels, strings, limits and character arguments; all reachable label stores; both settings of the flag", "why_tests_cant": "Tests compare ASCII strings; the sign of a comparison with bytes above 0x7f, character arguments outside char, and the exact extent of the label set for every pair of strings cannot be enumerated.", "anchors": ["polytracker/src/compiler-rt/lib/dfsan/dfsan_custom.cpp: dfsan_strchr_with_label, __dfsw_strpbrk, dfsan_memcmp_bcmp, dfsan_get_memcmp_label, __dfsw_memcmp, __dfsw_bcmp, dfsan_strncmp, __dfsw_strcmp, __dfsw_strncmp, dfsan_strncasecmp, __dfsw_strcasecmp, __dfsw_strncasecmp, __dfsw_strlen, __dfsw_memchr, __dfsw_strrchr, __dfsw_strstr, dfsan_strtolong_label, dfsan_strtod_label, __dfsw_strtol, __dfsw_strtod", "polytracker/src/compiler-rt/lib/dfsan/dfsan_flags.inc: strict_data_dependencies", "polytracker/custom_abi/dfsan_abilist.txt: strcmp, memchr, strtol"]}
{"id": "C57", "title": "sprintf and snprintf: text and labels of formatted output", "statement": "In the instrumented program sprintf and snprintf go to wrappers that cut the format into items and format each alone. For every format made of literal text, %% and conversions of values and strings, and every size of the buffer: the result is the length of the whole text, the buffer holds the beginning of the concatenation of the converted items as far as it fits, followed by a terminator, and no other application byte changes. Every stored byte has the label of the argument it was converted from, for %s the label of the very character of the string, for literal text 0; no other label changes; %n stores the number of characters so far, with label 0; the label of the result is 0.", "quantifier": "all formats of the item grammar (any flags, widths, precisions, length modifiers), all arguments and labels, all memory contents, all buffer sizes, every behaviour of the C library on single items", "why_tests_cant": "The label arithmetic depends on the lengths of all converted items and on the remaining room; the truncation branch is only right or wrong for particular combinations of lengths, and neighbouring objects must be inspected to see an overrun of labels.", "anchors": ["polytracker/src/compiler-rt/lib/dfsan/dfsan_custom.cpp: Formatter, num_written_bytes, build_format_string, format_buffer, __dfsw_sprintf, __dfsw_snprintf", "polytracker/custom_abi/dfsan_abilist.txt: sprintf, snprintf"]}
{"id": "C58", "title": "Memory filled in by library and system calls", "statement": "In the instrumented program stat, fstat, clock_gettime, getrlimit, getrusage, sched_getaffinity, socketpair, time, gettimeofday, sigemptyset, getcwd, get_current_dir_name, gethostname, getpwuid_r, poll, select, nanosleep, calloc and the callback of dl_iterate_phdr go to wrappers. Exactly the bytes that such a call has written lose their labels, no other label and no data of the program changes, and the wrapper never crashes where the call does not. ctime_r, localtime_r and inet_pton give every byte they write a label denoting the taint of the bytes they were computed from; a failed call changes no label. The result of getcwd, ctime_r and localtime_r has the label of the buffer pointer, or 0 if it is null.", "quantifier": "all calls with all results, pointers (also null) and lengths, all memory contents and labels, all reachable label stores", "why_tests_cant": "A label left behind or removed next to the written bytes is visible only to a program that had tainted exactly these bytes before; failing and interrupted calls and null pointers are hard to provoke.", "anchors": ["polytracker/src/compiler-rt/lib/dfsan/dfsan_custom.cpp: __dfsw_stat, __dfsw_fstat, __dfsw_clock_gettime, __dfsw_getrlimit, __dfsw_getrusage, __dfsw_sched_getaffinity, __dfsw_socketpair, __dfsw_time, __dfsw_gettimeofday, __dfsw_sigemptyset, __dfsw_getcwd, __dfsw_get_current_dir_name, __dfsw_gethostname, __dfsw_getpwuid_r, __dfsw_poll, __dfsw_select, __dfsw_nanosleep, __dfsw_calloc, dl_iterate_phdr_cb, __dfsw_ctime_r, __dfsw_localtime_r, __dfsw_inet_pton", "polytracker/src/compiler-rt/lib/dfsan/dfsan.cpp: dfsan_set_label, dfsan_read_label, dfsan_flush"]}
{"id": "C59", "title": "Signal actions of the instrumented program", "statement": "sigaction of the instrumented program goes to a wrapper that keeps the program's handlers in a table and installs its own. The program cannot tell: over every sequence of sigaction calls and delivered signals it gets the same results and old actions as without instrumentation, and the same handlers are called in the same way. The arguments of a handler, the siginfo and context it is given and the old action are untainted, and a handler leaves no labels in the label state of the interrupted code.", "quantifier": "all sequences of sigaction calls (any action, flags, SA_RESETHAND, null action) and deliveries, all label states of the interrupted code, any set of signals the kernel accepts, all addresses of the runtime's functions", "why_tests_cant": "Table and kernel state drift apart only after particular sequences, such as ignored, reset and rejected actions in between; wrong numbers, mixing with signal, and signals that arrive during a call are rare or timing dependent.", "anchors": ["polytracker/src/compiler-rt/lib/dfsan/dfsan_custom.cpp: SignalHandler, SignalAction, __dfsw_sigaction, ScopedClearThreadLocalState, SignalSpinLocker, kMaxSignals", "polytracker/src/compiler-rt/lib/dfsan/dfsan.cpp: dfsan_clear_arg_tls, dfsan_clear_thread_local_state", "polytracker/custom_abi/dfsan_abilist.txt: sigaction, signal"]}
{"id": "C60", "title": "Files: what is read, written and opened", "statement": "A program works with files through open, openat, close, dup, lseek, read, pread and write. Instrumented, it gets the same results and bytes as without instrumentation and leaves the same files behind. Every byte it reads has a label standing for exactly one input byte, namely the position the byte has in the file and the path with which the file was opened; every tainted byte it writes is recorded with the position at which it is in the file afterwards.", "quantifier": "all sequences of these calls with any arguments, interleaved with any other activity of the tracker, all contents of files and streams, shared and duplicated descriptions, reused descriptor numbers", "why_tests_cant": "Descriptor numbers are reused and positions are shared between duplicates; whether the path and position in a label are right depends on the whole history of opens, closes, seeks and reads.", "anchors": ["polytracker/src/taint_sources/taint_sources.cpp: impl_open, __dfsw_open, __dfsw_open64, __dfsw_openat, __dfsw_close, __dfsw_read, __dfsw_pread", "polytracker/src/taint_sources/write_taints.cpp: __dfsw_write", "polytracker/src/taintdag/polytracker.cpp: open_file, close_file, create_source_taint", "polytracker/custom_abi/dfsan_abilist.txt: openat, open, lseek"]}
{"id": "C61", "title": "Parse trees: traversal, clone, simplification", "statement": "preorder_traversal and postorder_traversal of a parse tree yield every node once, in the order they are named after; leaves are the nodes without children from left to right; clone gives an equal tree; matches is the concatenation of the terminals at the leaves and fails exactly if a leaf is no terminal. simplify works in place: the tree keeps its root, its leaves and all nodes other than basic blocks in their order, and so matches the same bytes; afterwards no node has as its only child a basic block with an only child; no other object changes. verify(string) returns only for a tree that matches the string.", "quantifier": "all ordered trees of any depth and width with any values, all strings, all placements of the tree in memory", "why_tests_cant": "The loops keep explicit stacks and change the tree while a generator walks over it; a wrong order or a node seen twice shows only for particular shapes.", "anchors": ["polytracker/parsing.py: preorder_traversal, postorder_traversal, leaves, clone, terminals, matches, verify, simplify"]}
{"id": "C62", "title": "Grammar extraction: the grammar derives the input", "statement": "parse_tree_to_grammar succeeds on every parse tree of an input and gives a grammar with start <START> whose rules are exactly the sequences of children of the tree's nodes, neighbouring terminals joined, each rule once. If the tree matches a byte string, the grammar derives this string. Every name in a rule has a production, every production is reachable from the start and derives some string, and used_by says exactly which productions use a name. Joining neighbouring terminals changes no language.", "quantifier": "all parse trees with a start only at the root and terminals only at leaves, of any depth and width; all grammars and sequences for the joining of terminals", "why_tests_cant": "Names repeat in a tree, so the rules of one name come from many nodes; whether all of them fit together is a statement about trees of any shape.", "anchors": ["polytracker/grammars.py: parse_tree_to_grammar, production_name, Rule, combine_terminals, add, used_by, Grammar, Production"]}
{"id": "C63", "title": "Grammar simplification keeps the language", "statement": "Grammar.simplify on a grammar from parse_tree_to_grammar raises no exception, keeps <START>, invents no names and leaves no name in a rule without a production and no wrong entry in used_by. It changes no language: every production that is left derives the same strings as before, so the grammar still derives the input it was extracted from. It returns True if it changed the grammar.", "quantifier": "all parse trees of inputs, all orders in which Python may iterate sets", "why_tests_cant": "Which productions are replaced or removed depends on the whole grammar and on the order of iteration over sets; a language is an infinite object that a test can only sample.", "anchors": ["polytracker/grammars.py: simplify, remove_recursive_rules, replace_sub_production, remove_sub_production, can_produce_terminal, first_rule, has_terminals, remove"]}
{"id": "C64", "title": "Which productions can produce terminals", "statement": "can_produce_terminal of a production is True exactly if a terminal can occur in what the production is expanded to, whenever and however often it is asked, in a grammar from parse_tree_to_grammar and also after its rules were changed with replace_sub_production or add. A production that derives a string that is not empty can produce a terminal.", "quantifier": "all parse trees of inputs, all sequences of questions, all orders in which Python may iterate sets", "why_tests_cant": "The answer comes from a search through the whole grammar that compares productions by their rules and remembers earlier answers; errors show only for particular graphs and orders of questions.", "anchors": ["polytracker/grammars.py: can_produce_terminal, used_by, has_terminals, replace_sub_production, add"]}
{"id": "C65", "title": "Grammar.match recognises the language of the grammar", "statement": "bool(grammar.match(sentence)) ends, and is True exactly for the sentences that the grammar derives from its start; for a sentence that it does not derive the result is False or a ValueError. In particular a grammar from parse_tree_to_grammar matches the input it was extracted from.", "quantifier": "all grammars extracted from parse trees, all sentences, all orders in which Python may iterate sets", "why_tests_cant": "The parser is a fixed point computation over sets of states that change while they are iterated; which states are found depends on the grammar, the sentence and hash orders, and a language is infinite.", "anchors": ["polytracker/grammars.py: EarleyParser, EarleyQueue, EarleyState, Prediction, EmptyProduction, Completion, ScannedTerminal, Match, match, complete_state, add, end_states, parse, _predict, _scan, _complete, waiting_for, already_completed, last_k_with_match"]}
{"id": "C66", "title": "Whole process: mapping, control-flow log and cavities of the command line and the standard input are exact", "statement": "Start a process with standard input, standard output and the command line tracked, and room in the tables for the arguments. Start-up succeeds; the instrumented program then behaves as the original, unless the label space is full; and if it is ended at any moment, the mapping that Python reads from the trace relates byte o of p to byte r of q exactly if q is /dev/stdout and byte r of what the original program has written depends on byte o of its standard input (p is /dev/stdin) or on byte o of its argument i (p is argv[i]). With the control-flow pass as well (and its log not full), the log in the trace is exactly the calls, returns and tainted decisions of the original program, and file_cavities lists the standard input, if something was read, and every argument, each with the maximal runs of its bytes on which no reported decision and no output byte of the original program depends.", "quantifier": "all programs of the SSA language, choices of reported decisions, environments with these settings, descriptors, command lines of non-empty arguments, inputs, run lengths, contents of the rest of the shadow memory, padding bytes of the file", "why_tests_cant": "The claim joins start-up, the labelling of the arguments, the compiler pass, the runtime and the Python reader, over all programs, inputs and command lines.", "anchors": ["polytracker/src/polytracker/main.cpp: taint_start, sink_streams, stdin_source", "polytracker/src/taint_sources/argv.cpp: taint_argv", "polytracker/src/polytracker/polytracker.cpp: __polytracker_taint_argv, __taint_start", "polytracker/src/passes/DataFlowSanitizer.cpp: DFSanVisitor", "polytracker/src/taintdag/polytracker.cpp: create_taint_source, source_taint, taint_sink", "polytracker/mapping.py: InputOutputMapping, file_cavities", "polytracker/src/passes/tainted_control_flow.cpp: TaintedControlFlowPass"]}
{"id": "C67", "title": "The tracker is used only while it exists", "statement": "In an instrumented program the runtime touches the tracker only after it has been constructed at the start of the process and before it is destroyed at exit; it is constructed and destroyed once, its destruction (which makes the trace complete) is the last thing that happens to it, and a reported decision always comes back unchanged to the program.", "quantifier": "all programs given by what their constructors, main, atexit handlers and destructor functions do to the runtime, all settings, all run lengths", "why_tests_cant": "The order depends on priorities of constructors, on what handlers register while they run, and on where the program calls exit; use after destruction often goes unnoticed.", "anchors": ["polytracker/src/passes/taint_tracking.cpp: insertTaintStartupCall, emitTaintArgvCall", "polytracker/src/polytracker/main.cpp: taint_start, polytracker_end", "polytracker/src/polytracker/polytracker.cpp: polytracker_is_initialized, polytracker_initialize, __taint_start, __dfsw___polytracker_log_tainted_control_flow"]}
{"id": "C68", "title": "Calls of library functions pass exact labels to their wrappers and back", "statement": "A call of a custom function of the ABI list becomes a call of its wrapper that fits the wrapper's declared type (parameters with a trampoline before each function pointer, a label per parameter, the labels of the variable arguments, a place for the label of the result, the variable arguments), with every attribute on the argument it belongs to. The wrapper receives each argument with its own label, functions of the program that it calls back receive and return exact labels, and the result gets the label the wrapper stores; a call by address of a function without variable arguments does the same. A function listed as functional gives the union of the labels of its arguments, a discarded or unlisted one label 0; functional precedes discard precedes custom.", "quantifier": "all function types, arguments, labels, wrappers, functions of the program (at most 200 parameters where labels go through the TLS area), states of memory and of the TLS areas", "why_tests_cant": "Positions of labels depend on the type of the function (number of parameters, function pointers, variable arguments, result), and a wrong position is only noticed for certain types and labels.", "anchors": ["polytracker/src/passes/DataFlowSanitizer.cpp: getCustomFunctionType, transformFunctionAttributes, getWrapperKind, buildWrapperFunction, getOrBuildTrampolineFunction, addShadowArguments, visitWrappedCallBase, getTrampolineFunctionType, getShadowForTLSArgument, combineOperandShadows"]}
{"id": "C69", "title": "The parse tree of a trace reads the input", "statement": "trace_to_non_generalized_tree(trace), if it returns and Python runs with assertions, gives a tree whose root is the start and whose terminals, from left to right, are the whole input of the trace, so that the grammar extracted from it derives the input; every basic block in the tree was executed and stands over input bytes from one that it used to one that it used. If the program used its bytes in the order of the input, the tree is returned and its blocks are, in order, the executed blocks that used bytes, each over the bytes from its first to its last.", "quantifier": "all inputs, all traces (any nesting of function calls and blocks, any bytes used by any block, any uids), with and without assertions where said", "why_tests_cant": "The tree is made by resolving overlaps of byte intervals twice; whether terminals fit together depends on which bytes which blocks used in which order.", "anchors": ["polytracker/parsing.py: trace_to_tree, NonGeneralizedParseTree, verify_bounds, best_partition, best_subset, deconflict_sibling, deconflict_parent, bottom_up_pass, top_down_pass, trace_to_non_generalized_tree"]}
{"id": "C70", "title": "The exported taint forest is the taint graph", "statement": "TaintForest.to_graph returns, whatever nodes of the forest were asked for before, an acyclic graph that has every label as a node and a path from one label to another exactly if the second was built from the first. Its roots are label 0 and the labels of input bytes, so that the bytes a label denotes are exactly the roots with a path to it; it has one further node for each inner element of each range, no more. to_dot draws every node that passes the filter once, roots apart from the others and in order, and every edge between such nodes once. For every run that ends in an orderly way this holds of the labels of the run.", "quantifier": "all histories of calls to the tracker, all earlier queries of the forest, all node filters, padding bytes of the file", "why_tests_cant": "Ranges are unfolded into new nodes while the forest is being iterated, by the queries for parents; what is created when depends on the order of all earlier queries.", "anchors": ["polytracker/taint_forest.py: to_graph, ExportTaintForest", "polytracker/graphs.py: DiGraph, _find_roots, roots, to_dot, DAG", "polytracker/taint_dag.py: TDTaintForest, nodes, get_node, create_node, parent_one, parent_two"]}
{"id": "C71", "title": "The function trace is the calls and returns of the program", "statement": "A program instrumented with control-flow, taint and function tracing, linked with the runtime and run on any input does what the original program does, and the function trace that Python reads back from its TDAG file is exactly the calls and returns of the functions not on the ignore list, in order and by name; at most the entry of the function that is just being called is missing when the run is cut off there. Entries and exits are nested: undoing them from the start always gives the functions in execution, and nothing when the program has ended. Everything else that Python computes from the trace (labels, sources, sinks, cavities, mapping, control-flow log) is what it would be without function tracing.", "quantifier": "all programs of the language, inputs, moments of the run, names of less than 65536 bytes, ignore lists, earlier states of the tracker in which no function was entered; capacities that suffice for the names and events", "why_tests_cant": "A test fixes a program and its call tree; the claim is about every interleaving of calls, recursion, early returns and ignored functions with the label and log operations of the other passes.", "anchors": ["polytracker/src/passes/function_tracing.cpp: declareLoggingFunctions, visitReturnInst, run", "polytracker/src/polytracker/polytracker.cpp: __polytracker_log_func_entry, __polytracker_log_func_exit", "polytracker/src/taintdag/polytracker.cpp: function_entry, function_exit", "polytracker/taint_dag.py: TDEvent, events"]}
{"id": "C72", "title": "Threads: taint is tracked under every schedule", "statement": "A program with threads is instrumented and linked with the runtime. Whatever the schedule of its threads, it does what the original program does under the same schedule (leaving out the steps of inserted reports): threads end with the same values, and the mapping and the cavities that Python computes from the trace are the dependence of outputs on inputs and the bytes without influence of the original program under that schedule. Conversely every schedule of the original program is possible for the instrumented one, and the events of the control-flow log are then the calls, returns and tainted decisions of all threads in the order in which they happened.", "quantifier": "all programs of the language, inputs, numbers of threads, schedules (which thread makes the next step, when threads start and when their values are collected), earlier states of the tracker; threads started with untainted arguments, values collected into memory of the same taint; each instruction with the code inserted for it taken as one step", "why_tests_cant": "The number of schedules is exponential in the length of the run and a test sees one of them, chosen by the operating system.", "anchors": ["polytracker/src/compiler-rt/lib/dfsan/dfsan_thread.cpp: ThreadStart", "polytracker/src/compiler-rt/lib/dfsan/dfsan_custom.cpp: __dfsw_pthread_create, __dfsw_pthread_join", "polytracker/src/compiler-rt/lib/dfsan/dfsan.cpp: __dfsan_arg_tls, __dfsan_retval_tls", "polytracker/custom_abi/dfsan_abilist.txt: pthread_create, pthread_join", "polytracker/taint_dag.py: _align_callstack, TDLeaveFunctionEvent"]}
{"id": "C73", "title": "Changing cavities does not change the output, and the tools that check it", "statement": "A program is instrumented, run on a file, and its cavities are computed from the trace. The original program, run on any file of the same length that differs only within the cavities [b, e), writes the same output. The verification tools read the printed list of cavities, change exactly the ranges they read, and never report different outputs if the ranges contain only bytes of cavities; the mode for single bytes tries every byte of every range once and counts equal checksums. As shipped the tools do not meet this: the printed end of a range is exclusive and is read as inclusive, cavities of files in directories are not found, and rows of failed detections are taken for ranges.", "quantifier": "all programs whose branches are reported and that use bytes without influence for nothing the analysis does not see, all files, all contents of the cavities; all lists of cavities with plain paths, all length-preserving methods of change, all checksums", "why_tests_cant": "A verification run changes one file in one way; the claim is about all contents of all cavities. The tests of the tools cover only the four methods of change on sample data.", "anchors": ["build_in_docker/mutate_cavities.py: iter_cavities, iter_cavity_offsets, mutate_cavities, method_zero, method_reverse, method_flip, flip_restore, FileMutator, FileMutatorInfo", "build_in_docker/verify_cavities.py: verify_cavities, verify_in_container, do_mutation", "build_in_docker/file_cavity_detection.py: file_cavity_detection", "polytracker/mapping.py: FileCavities, print_cavity, file_cavities"]}
{"id": "C74", "title": "Fresh mappings carry no old labels, and mapped files are labelled as their bytes", "statement": "After any sequence of mappings, unmappings, label writes and flushes the label of a byte is the one given by the last of them about it: zero if its page was mapped or unmapped last. A successful mmap of a tracked file gives the bytes asked for new labels that denote exactly the bytes of the file from the given offset on, leaves the rest of the last page unlabelled and every other label alone; munmap clears whole pages; a failed mmap changes nothing. Labels made by dfsan_create_label are pairwise different. As shipped this fails for mmap64 (no labels), for the part of a mapping behind the end of the file (labelled), for a failing munmap (labels cleared), for mremap (labels left behind), and created labels are the same numbers as labels of input bytes.", "quantifier": "all sequences of events in application memory, all page sizes 2^k up to 2^40, all lengths below 2^63, all reachable trackers with room for the labels", "why_tests_cant": "Stale labels show only if memory is reused at the same address after particular earlier events; no test maps the same pages twice, and tests use one page size and small files.", "anchors": ["polytracker/src/compiler-rt/lib/dfsan/dfsan_interceptors.cpp: mmap, mmap64, munmap, dfsan_set_label, RoundUpTo", "polytracker/src/taint_sources/taint_sources.cpp: __dfsw_mmap, __dfsw_munmap", "polytracker/src/compiler-rt/lib/dfsan/dfsan.cpp: dfsan_flush, dfsan_create_label, dfsan_get_label_count, dfsan_check_label, SetShadow", "polytracker/custom_abi/dfsan_abilist.txt: mmap64, mremap"]}
{"id": "C75", "title": "After the data-flow pass and linking every use of a function leads to the function it stood for", "statement": "Take a program of several modules, run the data-flow pass on each and link the results in any way a linker may. Each function is there once, and each of its uses leads, through changed names, wrappers and aliases, to exactly the function it stood for in the original program: the local function of its module, the definition in another module, the function of a library, or the wrapper __dfsw_ for functions listed as custom. At every call on the way caller and callee agree whether labels are passed. Functions on the list that the program defines keep their names for code that is not instrumented. This needs a list that names the functions of libraries and no sources, aliases not listed together with their function, and one type for each name; otherwise symbols are missing, calls pass no labels to code that reads them, or the program stops.", "quantifier": "all programs of modules with functions and aliases, all ABI lists of functions, all linkers that respect local names", "why_tests_cant": "Tests link a few small programs whose symbols happen to be covered by the shipped list; duplicate local names, aliases of the other kind, and the choice among wrappers of the same name in several modules are not tried.", "anchors": ["polytracker/src/passes/DataFlowSanitizer.cpp: isInstrumented, getWrapperKind, buildWrapperFunction, addGlobalNamePrefix, runImpl, visitCallBase, visitWrappedCallBase"]}
{"id": "C76", "title": "Calls of functions with wrappers reach PolyTracker's wrapper, as the shipped list and the link order promise", "statement": "Instrument a program with the shipped ABI list and link it with the command of the build tool. Every function that the list names as custom is also listed as not instrumented and in no other category, so each call of it in the program refers to its wrapper __dfsw_. The linked program has PolyTracker's wrapper for it, from the source file that defines it, whenever PolyTracker has one, also for fgets, pread, read, strcat and write that the runtime defines as well; otherwise it has the runtime's. Only _IO_putc and two functions of PolyTracker have none: programs that call them cannot be linked. Parts of libraries that are only added in a later round of the link may get the runtime's wrapper although PolyTracker has one. 22 wrappers, among them those of gets, getdelim, fgetc_unlocked, recvmsg, openat and memmove, are never reached since the list does not name their functions as custom.", "quantifier": "all programs of modules, all contents of the archives with the wrappers of the sources, all lists that agree with the shipped one", "why_tests_cant": "Tests link a few programs and cannot show which of two wrappers of the same name a program gets for all combinations of archives; wrappers that no list entry reaches are never executed at all.", "anchors": ["polytracker/build.py: _lower_bitcode, _ensure_env_set", "polytracker/src/taint_sources/taint_sources.cpp: __dfsw_read, __dfsw_getdelim, __dfsw_gets", "polytracker/src/compiler-rt/lib/dfsan/dfsan_custom.cpp: __dfsw_read, __dfsw_memmove", "polytracker/custom_abi/dfsan_abilist.txt: _IO_putc, gets, memmove"]}
{"id": "C77", "title": "instrument-targets makes for every target the executable of its own artifact", "statement": "polytracker instrument-targets with any list of targets: after a successful run the file base.instrumented in the working directory is, for each target, exactly the result of all stages (extract bitcode, control-flow pass with --cflog, optimize, instrument, link) applied to the artifact of the first command in the journal with that output, with the libraries as they were before the run; with --cflog functionid.json is the table of the last target; no other file changes. The run succeeds exactly if every target has such a result; order of targets and repeated runs do not matter. The link command contains the options of the original command in order, without its inputs and output, and writes the new output. This needs targets whose names without suffix differ (and are not bitcode files), and commands whose output is given as a separate word that is not also the value of an option; otherwise executables replace each other, artifacts are overwritten, or the old output is written.", "quantifier": "all journals, files, tools as functions of file contents, lists of targets and command lines", "why_tests_cant": "Tests instrument one target with a plain name per directory; clashes of derived file names, repeated runs and unusual option syntax are not tried.", "anchors": ["polytracker/build.py: InstrumentTargets, run, _find_target, _lower_bitcode, _extract_bitcode, _optimize_bitcode, _preopt_instrument_bitcode, _instrument_bitcode", "polytracker/src/passes/tainted_control_flow.cpp: FunctionMappingJSONWriter"]}
{"id": "C78", "title": "A difference of two traces reports bytes of the first trace only, and marks and draws exactly those bytes", "statement": "TraceDiff and its output, for traces that list their functions and the bytes these touched. Every chunk in input_chunks_only_in_first consists of bytes touched in the first trace and not in the second, and chunks have no byte in common; a byte touched only in the first trace is reported if no byte that hangs together with it in the first was touched in the second (and if the interval library merges intervals that meet, only then). So when str says that both traces consumed the same byte regions, every byte touched by only one hangs together with a byte touched by both. For traces of one build functions_only_in_first, functions_in_both and bool are set operations on the functions. print_file_context writes consecutive bytes of the file, all characters printable and readable back to the bytes, and puts carets exactly below the characters of the given bytes. file_diff draws every byte as its own pixel in the colour of its case, and to_image does so for one input.", "quantifier": "all pairs of traces, inputs and offsets, files, offsets, lengths, context sizes and image sizes", "why_tests_cant": "No test of the repository calls these functions; partial overlaps, bytes at both ends of a file, escapes of several columns and image sizes from rounding are a combination no sample covers.", "anchors": ["polytracker/diffing.py: print_file_context, TraceDiff, _diff_bytes, _diff_functions, functions_in_both, input_chunks_only_in_first, has_input_chunks_only_in_first, to_image", "polytracker/visualizations.py: file_diff", "polytracker/tracing.py: Function"]}
{"id": "C79", "title": "Exceptions: leaving calls through landing blocks keeps taint exact", "statement": "In an instrumented program any library call may throw, at any moment; calls are left until one is an invoke, whose landing block is executed next. Whatever is thrown, wherever it is caught, at every moment the program does what the original program does with the same exceptions, labels stand for exactly the dependences (a landingpad value depends on nothing, an exception object in memory keeps its labels), and from the trace Python computes exactly the dependence of outputs on inputs, exactly the log of reports made, and the cavities, which are the bytes on which no reported decision and no output depends. An exception that is caught by nobody stops the instrumented program exactly when it stops the original one. The call stacks that Python gives with the log are the true ones if no exception leaves a function that has reported its entry.", "quantifier": "all programs accepted by the verifier, with any reports, all landing blocks, all sequences of steps and exceptions, all inputs, all states of the runtime", "why_tests_cant": "The tests have no program in which an exception passes an instrumented function; which labels are stale after unwinding depends on where in which function it is thrown and caught.", "anchors": ["polytracker/src/passes/DataFlowSanitizer.cpp: visitCallBase, visitWrappedCallBase, getShadow", "polytracker/src/compiler-rt/lib/dfsan/dfsan.cpp: __dfsan_retval_tls", "polytracker/taint_dag.py: TDControlFlowLogSection"]}
{"id": "C80", "title": "Memory written by code that is not instrumented: what labels mean then, variable arguments", "statement": "While an instrumented program runs, code that the pass does not see (library functions listed as discard or functional, the calling convention placing variable arguments, va_start) may write any bytes to memory at any moment. The program still does what the original does with the same writes and exceptions, and the mapping, log and cavities that Python computes are exactly those in which every such byte depends on what the byte it replaces depended on. They are the true ones if that is so for every write, for instance if untainted data is written over untainted data.", "quantifier": "all programs accepted by the verifier, all sequences of steps, exceptions and foreign writes, all addresses, bytes and origins, all inputs, all states of the runtime", "why_tests_cant": "Which labels are found in the place of a variable argument depends on what was on the stack before; no test calls an instrumented variadic function with tainted arguments.", "anchors": ["polytracker/src/passes/DataFlowSanitizer.cpp: visitCallBase, visitWrappedCallBase, visitInstOperands"]}
{"id": "C81", "title": "Connections: what is received, sent and accepted", "statement": "A program works with sockets through accept, accept4, connect, recv, recvfrom, recvmsg, send, sendto and close. Instrumented, it and its peers get the same results and bytes as without instrumentation. Every byte it receives has a label standing for exactly one input byte: the source is named after both endpoints of the connection, and no two connections with different endpoints have the same name; the position is that of the byte in what the other side sent. Every tainted byte it sends is recorded with its position in what the other side gets.", "quantifier": "all sequences of these calls with any arguments and any behaviour of the network, interleaved with any other activity of the tracker, all endpoints, contents, streams and messages, reused descriptor numbers", "why_tests_cant": "Positions are counted by the tracker, so one call that is not counted, or counted twice, makes all later positions of the connection wrong; descriptors are reused for connections that are not tracked. No test uses sockets with flags, messages or more than one connection.", "anchors": ["polytracker/src/taint_sources/taint_sources.cpp: connect_name, __dfsw_accept, __dfsw_accept4, __dfsw_connect, __dfsw_recv, __dfsw_recvfrom, impl_read_recv_functions, __dfsw_close", "polytracker/src/taint_sources/write_taints.cpp: __dfsw_send, impl_write_send", "polytracker/src/taintdag/polytracker.cpp: open_file, close_file", "polytracker/custom_abi/dfsan_abilist.txt: accept, connect, recv, recvmsg, send, sendto"]}
{"id": "C82", "title": "Streams: what is read and written through a FILE", "statement": "A program works with files, pipes and terminals through fopen, fread, getc and the like, fgets, ungetc, fseek, fwrite, putc, fputs and fclose. Instrumented, it gets the same results and bytes as without instrumentation, and files and pipes get the same bytes. Every byte read, in memory or as the result of getc, has a label standing for exactly one input byte: the source is the path the stream was opened with, the position is that of the byte in the file or pipe. Every tainted byte written is recorded with its position in the file or in what the pipe gets.", "quantifier": "all sequences of these calls with any arguments, contents, item sizes and amounts delivered by pipes, interleaved with any other activity of the tracker, reused descriptor numbers", "why_tests_cant": "Positions on pipes are counted by the tracker, so one call that is not counted, or counted wrongly, makes all later positions wrong; the number of bytes that a call took must be guessed from its result. Tests read small regular files with one kind of call each.", "anchors": ["polytracker/src/taint_sources/taint_sources.cpp: impl_fopen, impl_getc_style_functions, impl_fread, __dfsw_fopen, __dfsw_fclose, __dfsw_fread, __dfsw_fgets, __dfsw_getc", "polytracker/src/taint_sources/write_taints.cpp: __dfsw_fwrite, __dfsw_putc, __dfsw_fputc", "polytracker/src/taintdag/util.cpp: from_returned_size_count, from_returned_string, from_file", "polytracker/custom_abi/dfsan_abilist.txt: ungetc, getline, fscanf, fputs, fdopen, freopen, popen"]}
{"id": "C83", "title": "Partial parse trees: find_partial_trees and partial_match", "statement": "find_partial_trees(sentence) enumerates all partial parse trees that could result in the given beginning of a sentence, each once: a tree is either complete for a part at the beginning of the sentence, and partial_match reports the bytes behind it, or it is cut off where the sentence ends, and partial_match reports the symbols that are still to be matched. The enumeration ends. It raises nothing on a grammar from parse_tree_to_grammar.", "quantifier": "all grammars, productions and sentences, all orders in which Python may iterate sets, enumerations that have ended and beginnings of those that have not", "why_tests_cant": "The enumeration is a search with a stack of partly built trees that calls itself for every name; which trees are missing, doubled or have wrong rests depends on the shape of the grammar. There are no tests for it.", "anchors": ["polytracker/grammars.py: find_partial_trees, partial_match, PartialMatch, Production, Grammar, Rule"]}
{"id": "C84", "title": "Grammar.verify finds what is wrong with a grammar, and nothing else", "statement": "Grammar.verify raises MissingProductionError exactly for a name in a rule without production and CorruptedGrammarError exactly if used_by does not say which productions use a name; with test_disconnection it raises DisconnectedGrammarError exactly if a production from which a terminal can be reached is not reached from the start. It changes nothing, and it accepts every grammar from parse_tree_to_grammar, also after simplify. The nodes of dependency_graph are the productions.", "quantifier": "all grammars, tables and starts, all orders in which Python may iterate sets, every search that visits what can be reached, all input trees", "why_tests_cant": "Production objects are compared by their rules, the graph has the names as nodes besides the productions, and the answers about terminals are remembered; what is accepted depends on all of them. There are no tests of verify.", "anchors": ["polytracker/grammars.py: verify, dependency_graph, MissingProductionError, CorruptedGrammarError, DisconnectedGrammarError, Grammar, Production, used_by, can_produce_terminal"]}
{"id": "C85", "title": "Graphs: lengths, roots, ancestors, dominators, subgraphs and unions", "statement": "The graphs of polytracker.graphs answer for the graph as it is when they are asked: path_length the number of edges of a shortest path or infinity, roots the nodes without predecessors, depth the least path_length from a root, ancestors the nodes from which a node can be reached, nearest first, has_one_predecessor, descendants the nodes that can be reached, and dominator_forest a forest in which the ancestors of a node are the nodes that dominate it. contract merges nodes with exactly one predecessor into it, vertex_induced_subgraph has the given vertices and the edges between them, non_disjoint_union_all has all nodes and edges, and to_dot draws every node and edge that passes the filter once.", "quantifier": "all sequences of calls that build, change and ask a graph, all graphs, sets of vertices and orders of sets, every networkx that does what is documented", "why_tests_cant": "Three caches are never cleared, so that answers depend on the order of calls; the other functions go wrong depending on the shape of the graph. There are no tests of graphs.py.", "anchors": ["polytracker/graphs.py: DiGraph, DAG, path_length, roots, set_roots, depth, ancestors, has_one_predecessor, contract, descendants, dominator_forest, to_dot, vertex_induced_subgraph, non_disjoint_union_all"]}
{"id": "C86", "title": "Labels under weak memory", "statement": "On a machine with store buffers (x86-TSO), and on any machine where an unlocked load may give any value the word had since its label was handed out, threads that read sources, combine labels and mark labels still work: a label a thread can have denotes, as that thread reads the section at any moment, exactly the bytes of the completed calls; all threads see the same taint values; a thread only stops when the label store is full; nothing deadlocks. Once no marking is in progress and the stores have reached memory, the flagged labels are exactly the marked labels and what they are built from.", "quantifier": "every number of threads, every program, every schedule of single loads and stores, every order in which buffered stores reach memory", "why_tests_cant": "The words are read and flagged without locks or atomics; a test sees only the few reorderings its processor happens to make.", "anchors": ["polytracker/include/taintdag/labels.h: union_taint, create_source_labels, affects_control_flow, set_affects_control_flow, read_label", "polytracker/include/taintdag/section.h: SectionBase, write, size, WriteCtx"]}
{"id": "C87", "title": "Questions about control flow: loops, conditionals, connectedness, diverging functions", "statement": "is_loop_entry of a basic block says whether the block is the header of a loop in its function, that is, a block that dominates one of its own predecessors; is_conditional whether it has two successors in its function and is no loop entry; is_cfg_connected whether all blocks can be reached from one; first_function_with_different_control_flow of ControlFlowDiff gives the nearest function that dominates the given function in both traces and has different taints in them, or None if there is none, and gives the same answer however often it is asked.", "quantifier": "all graphs of basic blocks, all call graphs, all names and taints of functions, all functions asked for", "why_tests_cant": "Whether a block is a loop header depends on the whole graph; the answers go through dominator trees, positions in two lists, and operators of sets that a test on straight-line programs does not tell apart.", "anchors": ["polytracker/tracing.py: is_loop_entry, is_conditional, cfg, function_cfg, cfg_roots, is_cfg_connected", "polytracker/diffing.py: ControlFlowDiff, first_function_with_different_control_flow, _diff"]}
{"id": "C88", "title": "Ordered sets and memoized functions", "statement": "An OrderedSet behaves like a set whose iteration order is the order of first insertion: construction, add, discard, pop and the operators &, |, -, ^ and their assigning forms give the members that set theory says, without duplicates, and what stays keeps its place. A memoized function returns what the function returns for the given arguments and calls it once for the same arguments.", "quantifier": "all item types with equality, all contents, all operations, all functions, arguments and sequences of calls", "why_tests_cant": "The operators come from a base class of the standard library with a convention the constructor does not meet; a test of add and discard, or of functions without arguments, sees nothing.", "anchors": ["polytracker/cache.py: OrderedSet, Memoized, memoize, add, discard"]}
{"id": "C89", "title": "trace_to_grammar: the trace is in the language", "statement": "trace_to_grammar gives, for every trace, a grammar whose language has the sequence of bytes that the trace consumed, in order; the grammar passes verify: all names have productions, all productions are reached from <START>, and used_by says exactly who uses what.", "quantifier": "all traces of functions and basic blocks, with any nesting of calls, any names and any consumed tokens", "why_tests_cant": "The rules depend on how calls and blocks follow each other in the whole trace and on which functions were seen before; the shape of the grammar looks right even if its language does not have the input.", "anchors": ["polytracker/grammars.py: trace_to_grammar, production_name, Production, Rule", "polytracker/tracing.py: called_function, next_basic_block_in_function, returning_to, consumed_tokens, touched_taint, entrypoint, basic_blocks"]}
{"id": "C90", "title": "Questions between trace events stay in one invocation", "statement": "For an event of a function invocation, next_basic_block_in_function gives the next basic block entered in the same invocation or None if there is none, basic_blocks all of them in order, calls exactly the calls that the invocation itself makes in order, entry_count the number of earlier entries of the same block in the invocation, caller the block from which the function was called, and next_function_entry the function entered next. Calls nested in between change none of the answers.", "quantifier": "all traces with any nesting of calls, returned or not, and all positions in them", "why_tests_cant": "The loops jump over nested calls by their entry and return events; recursion, calls that have not returned and calls that are not instrumented change which event they land on.", "anchors": ["polytracker/tracing.py: next_basic_block_in_function, calls, entry_count, basic_blocks, caller, entrypoint, called_function, next_function_entry, returning_to, CallIndirect, CallUninst"]}
{"id": "C91", "title": "Grammar as Datalog: the program parses", "statement": "The Datalog program that DatalogGrammar makes from a grammar, together with a fact for every byte of the input and a true fact for every position, has the relation of a production between positions i and j exactly if the production derives the bytes from i to j. Different productions have different Datalog names, names and variables are valid identifiers, and every grammar can be translated.", "quantifier": "all grammars (recursive, ambiguous, with empty rules), all inputs, all pairs of positions, all names", "why_tests_cant": "The equivalence is between a least fixpoint and the language of a grammar; renaming of characters, more variables than letters and empty rules each go wrong only for particular grammars.", "anchors": ["polytracker/datalog.py: get_valid_datalog_name, datalog_repl_match, DatalogRuleList, DatalogClause, DatalogGrammar, extract_datalog_grammar, DatalogTrueFact, DatalogFact"]}
{"id": "C92", "title": "RemoveFnAttrsPass: nothing says that a wrapper leaves memory alone", "statement": "After RemoveFnAttrsPass no call or invoke of a function whose name begins with __dfsw or dfs$ has, at the instruction or at the function, an attribute that says that it only reads memory or only touches inaccessible memory (or its arguments). Everything else in the module is as before, and a second run changes nothing.", "quantifier": "all modules: any functions, names, attributes and instructions", "why_tests_cant": "A wrapper marked in this way loses labels only if a later optimisation uses the mark; the output of the pass looks the same.", "anchors": ["polytracker/src/passes/remove_fn_attr.cpp: RemoveFnAttrsPass, visitCallInst, run, InaccessibleMemOnly, InaccessibleMemOrArgMemOnly, ReadOnly", "polytracker/include/polytracker/passes/remove_fn_attr.h: RemoveFnAttrsPass, visitCallInst"]}
{"id": "C93", "title": "DockerContainer.run: right image, command, directories and variables", "statement": "DockerContainer.run calls docker only if the image exists (then or after it was built or pulled) and, if asked to check, no source file is newer than the image; otherwise it raises an error that names the newer files. Docker then runs exactly the given arguments in the container, whatever they look like, with the given directories mounted and the given variables having the given values.", "quantifier": "all images with any history, all source trees and times, all arguments, mounts and variables, any sequence of questions to one object", "why_tests_cant": "Needs Docker and particular times of files; values with quotation marks, directories with colons and repeated questions are not in the tests.", "anchors": ["polytracker/containerization.py: DockerContainer, out_of_date_sources, last_build_time, run, DockerOutOfDateError, exists, rebuild, pull"]}
{"id": "C94", "title": "Registration of commands, subcommands and extensions; exit status", "statement": "However commands, subcommands and extensions are defined, no two plugins share a name and a plugin keeps its name. A class statement either registers the class (a command under its name, a subcommand or extension with its parent and with no other command) or raises TypeError and changes nothing. The exit status is the one the command returns.", "quantifier": "all sequences of class statements with any names, parents and bases, failing ones included", "why_tests_cant": "Needs class statements that fail and are followed by others, or two families of commands with the same names; the tests only use the commands that exist.", "anchors": ["polytracker/plugins.py: PluginMeta, CommandExtensionMeta, CommandExtension, Subcommand, __init_subclass__, PLUGINS, COMMANDS, _run", "polytracker/__main__.py: main, retval"]}
{"id": "C95", "title": "track_list_diff: conflicts between ABI lists are found and resolved", "statement": "track_list_diff.py exits with 0 if and only if no function is put twice into a category other than uninstrumented in one of the lists and the two lists agree on every function; it then changes no file. With --choose-file the chosen list is unchanged, in the other one only lines about functions on which the lists disagree become comments, and afterwards the lists have no conflict.", "quantifier": "all pairs of files with any lines, all choices", "why_tests_cant": "No test in the repository runs the script, and single pairs of lists would not cover repeated entries, patterns, malformed lines and the choices.", "anchors": ["polytracker/scripts/track_list_diff.py: analyze_abi_file, list_diff, auto_resolve_conflicts, main, UNINST, diff_conflicts"]}
{"id": "C96", "title": "create_stublist lists exactly the functions a library defines", "statement": "create_stublist.py prints, for the symbol table that readelf shows of a library, a line `fun:NAME=uninstrumented` and a line `fun:NAME=discard` for each function (ordinary or indirect) that the library defines and others can call, under its name without the version, and prints nothing else.", "quantifier": "all symbol tables, of any length, with all names, sizes, types, bindings and sections", "why_tests_cant": "No test runs the script; it depends on columns of readelf's output, which move for large functions only.", "anchors": ["polytracker/scripts/create_stublist.py: defined_function_list, function_name, functions"]}
{"id": "C97", "title": "list_diff prints the new entries of an ABI list", "statement": "list_diff.py prints, in their order, the entries of the second ABI list for functions for which the first list has no entry, each followed by an empty line, and nothing else.", "quantifier": "all pairs of lists with any lines", "why_tests_cant": "No test runs the script; entries of other kinds, comments and lines without an equals sign take part in the comparison only for particular pairs of lists.", "anchors": ["polytracker/scripts/list_diff.py: main_items, new_items, filt_item"]}
