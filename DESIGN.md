# Design of the formal model of PolyTracker's taint runtime and readers

Source under study: `/repo` (trailofbits/polytracker, pinned). Model and proofs:
`/verif/lean` (Lean 4.33.0, Lake project `verif`).

## Method

* Model: small total computable functions over `Nat`, `List`, `BitVec`,
  structures and an explicit outcome type `Res` (`ok`, `fatal` = the code calls
  `error_exit`, `ub` = the C++ code would read or write outside an object or
  dereference an empty optional). Undefined behaviour is a separate outcome and is
  never silently totalised. One Lean definition per C++/Python function; each
  carries a comment citing file and lines, and saying what is simplified.
* Specification: separate `Spec` definitions (mathematical sets, lists of events,
  histories) which do not use the model's helpers.
* Property theorems live in `Verif/Props/*.lean`, apart from helper lemmas.
* Beside each property theorem an `example` shows that a non-trivial concrete case
  meets its hypotheses.
* Where the code violates the property, a theorem proves the violation with a
  concrete witness (`..._refuted`) and the largest true part is proved under a
  name with suffix `_partial`.

## Plan per property

| id | modelled | how |
|----|----------|-----|
| C01 | encode/decode on 64-bit words | bit-level extensionality; classification of all words |
| C02 | flag set/check, equality ignoring flag | bit-level extensionality |
| C03 | union visitor, duplicate scan, label store, all histories | ghost map label -> set of bytes, refinement by induction on histories |
| C04 | same | same induction: ghost map only extended |
| C05 | same | well-formedness invariant |
| C06 | duplicate scan | list lemmas on the scan window |
| C07 | dfsan_union, union_load, add_label | fold over the shadow range |
| C08 | control-flow marking with the real ring/deque queue | loop invariant + termination measure |
| C09 | same | invariant over histories |
| C10 | same | expected false: marking happens on pop, not on push; lower bound 2^n for a layered family |
| C11 | ring + migration | refinement to List |
| C12 | buckets, set, set_range, size | refinement to a set of Nat |
| C13 | atomic or / max steps, any schedule | invariant over an interleaving machine |
| C14 | create_source_taint + labels | invariant over histories |
| C15 | bump allocator | invariant |
| C16 | do_allocation arithmetic | expected false in general (alignment), true for shipped configuration |
| C17 | header writes at construction/destruction, crash points | state machine over disk image |
| C18 | string table bytes | refinement to List of names |
| C19 | sources table, mapping_idx, open/close | history semantics; expected partial (stale descriptors) |
| C20 | create_source_labels, shadow | exact post-state |
| C21 | stream offsets | invariant; interleavings of fetch_add |
| C22 | taint_sink, log_single | refinement to list of records |
| C23 | varints, log encoder and reader | round trip by induction |
| C24 | reader's stack alignment | simulation with the real call stack |
| C25 | function mapping, events | invariant + round trip |
| C26 | Python decode_node | bit-level comparison |
| C27 | TDTaintForest | invariant over query histories |
| C28 | dfs_walk, mapping | reachability = visited set |
| C29 | file_cavities | reachability with pruning; expected partial (merge truncation) |
| C30 | writer bytes and TDFile parser | composition |
| C31 | runtime wrapper + width conversion | bit-vector lemmas; expected partial |
| C32 | get_or_add_mapping, JSON writer | invariant; expected partial |
| C33 | readIgnoreLists | expected partial |
| C34 | interleaving machine for unions | invariant over schedules |
| C35 | interleaving machine for marking | invariant over schedules |
| C36 | SetShadow with page release, shadow_for | arithmetic |
| C37 | memcpy/memmove/str*/realloc wrappers | shadow equations; expected partial |
| C38 | LRUCache | refinement |
| C39 | Taints.to_regions | expected partial (last_input is never updated) |
| C40 | Length/Offset and input wrappers | case analysis |
| C41 | tainted_chunks | list induction |
| C42 | output wrappers, taint_sink | reachability simulation (C22), one-step effect |
| C43 | memset wrapper and instruction | bit-level characterisation of the fill pattern, C36 |
| C44 | Taints.find as a generator, region slices | generator state, C39 maximality |
| C45 | PassMem: inserted load/store code on byte memory | C07 union, C36 shadow layout; induction over wide words and store loops |
| C46 | PassIr: argOffset, argStores | induction over the argument list, offset agreement; concrete run with 201 arguments |
| C47 | PassIr: whole pass over a small SSA language (Spec/Ir.lean) | static invariant of the pass (IrGraph, PassIrStatic, PassIrVisit), one-step simulation (PassIrRun, PassIrSim, PassIrStep, PassIrCall), many steps (PassIrMain), erasure (IrMap) |
| C48 | Spec/Ir reference semantics + C47, NonInterf | lockstep relation between two runs, for one byte and (over a quotient of the taint algebra) for any set of bytes; concrete counterexamples for branches, stores, freeze, atomics |
| C49 | Spec/Decisions (what each step reports), CfPass (the two report passes as program transformation) | simulation up to renaming of positions; every step of the original is one or more steps of the result |
| C50 | CfRun (what the report functions write), Spec/Told (what a log tells), C47 + C49 + C23 | composition: pass, instrumentation, run, section bytes, Python reader (EndToEnd) |
| C51 | PassIr (`noted` hooks mark labels), C47 + C49 + C09 | label history of the run carries its mark events along the simulation |
| C52 | Linked (instrumented program calling the tracker through the wrappers), C28, C29, C42, C47, C49, C51 | step simulation carrying a tracker history (LinkedSim, LinkedStep, LinkedRun), then reading the closed file (LinkedMain) |
| C53 | TwoPass: `pass D' (pass C P)` linked; C52's reading lemmas, C49 with a second choice of decisions carried along (`Both`, CfPassSim), C50's `told` | the simulation of C49 tallies cost and the reports of interest of the second pass; then C52 applied to the program after the first pass |
| C54 | PyTrace: `inputs`, `output_taints`, `inputs_affecting_control_flow`; C27's forest invariant, C39's collections, C52's link | induction over the list of source labels with the set of sources seen; label order equals order of reads (`source_above`) |
| C55 | Startup: settings, standard streams, `taint_argv`, guarded entry points; C14's simulation | induction over the argument vector, each step a `.input` call of a reachable history; case analysis over entry points |
| C56 | CustomCmp: the wrappers as loops over memory bytes, labels by `Dfsan.readLabel`/`union`; Spec/Compare for the C library | induction over the loops, sequencing lemma for label combinations (`CombinesTo.bind`) on top of C07 |
| C57 | Format: format_buffer with its tokenizer, memory and shadow; the C library's snprintf of one item is a parameter. Spec/Format: items, arguments, output | induction over the items: one chunk on memory and shadow (C17 lemmas), tokenizer against the item grammar, composition of effects |
| C58 | OutParam: the wrappers on memory and shadow after the call, with an unmapped shadow below ShadowAddr(). Spec/OutParam: what each call writes, after its manual page | composition of label-clearing steps (C17 lemmas), induction over the polled descriptors; C07 for labels read |
| C59 | Signal: wrapper, table, installed handlers, label state. Spec/Signal: dispositions of the kernel | refinement: the instrumented program against the plain program on the same kernel, by a simulation relation and induction over the operations |
| C60 | Files: the wrappers of open, close, read, pread, write over a model of the kernel. Spec/Posix: files and descriptors | invariant relating descriptors, descriptions and the tracker's history, by induction over executions; comparison with the plain program by simulation |
| C61 | PyTree: parsing.py trees with explicit stacks, simplify on a heap of nodes. Spec/Grammar: trees and their orders | induction over the tree for every loop; the heap holds the tree bottom-up simplification gives |
| C62 | PyGrammar: Rule, Production, Grammar and parse_tree_to_grammar; names are numbers, sets are lists without duplicates. Spec/Grammar: derivations of context-free grammars | invariant of the loop over the nodes; induction over the tree for derivation, reachability and productivity |
| C63 | PyGrammar: replace, remove, can_produce_terminal and the loops of simplify, with arbitrary iteration orders | invariants of the grammar and its used_by table over replace and remove; derivations are transformed rule by rule |
| C64 | PyGrammar: can_produce_terminal with its queue, visited set and remembered answers | invariant of the search: visited is closed under used_by outside the queue and under equality of rules; a bound on the queue shows that it ends |
| C65 | PyEarley: states, queues, add with its recursion, predict, scan, complete and the loops, with arbitrary iteration orders and Python's check for sets that change while they are iterated; not the trees that _Node builds | invariant over the queues (every state stands for a derivation of a slice of the sentence), closure of the finished queues, counting of possible states for the end |
| C66 | Startup, Linked; the theorems of C47-C54 take any initial taint of memory | composition of C55 (labels of the arguments), C52 and C53 (cavities for any history of reads); a homomorphism that restricts taint sets shows that no other source can appear in the output |
| C67 | Lifetime | invariant: polytracker_end is the oldest registered handler as long as the tracker exists; induction over the code that runs and the handlers |
| C68 | WrapCall | reading back the built argument list by the declared type; induction over parameters for positions; induction over the wrapper's code for call-backs |
| C69 | PyIntervals | counting: disjoint, gapless children have as many bytes as their interval, and verify compares the text; for bytes in order both passes are shown to change nothing, by induction over the tree |
| C70 | PyForestGraph: `to_graph` with the queries for parents between the steps of the generator, `roots`, `to_dot` | loop invariant over C27's forest invariant, in two phases (labels, then synthetic nodes, where nothing changes any more); a count of the synthetic nodes per unfolded label |
| C71 | Ftrace: the two inserted calls on top of the linked program of C51-C53, with the value of the entry call kept per frame; Spec/Calls: calls and returns of a run of the original program | simulation of the pipeline by the original program with an invariant relating the function events of the history to the calls so far; a second simulation (`over`) that forgets strings, functions and events; nesting by induction over the run |
| C72 | Threads: threads with their own frames and TLS areas on top of the linked program of C52, sharing memory, labels and tracker; Spec/Threads: schedules of the original program; ThreadsHalf: the inserted code and the instruction as two steps | simulation per thread with the label store growing under the others; two simulations between the program with and without reports (any schedule of one is, up to steps of reports, a schedule of the other), with an invariant for the reports a thread is ahead of or has still to make |
| C73 | PyMutate: printing of cavities, csv reader, iter_cavities, slices with negative indices, mutate_cavities, verify_cavities, single-byte statistics | noninterference for sets of bytes (NonInterf, C48_bytes) composed with C52; csv state machine followed field by field; induction over ranges |
| C74 | Mapping: interceptors, their composition with the wrappers of C40, dfsan_flush, dfsan_create_label; byte level on top of ShadowMem, call level on top of Tracker | one event at a time from C36_set, then induction over the sequence; clearing a range is a history of stores of label 0, so the claims about histories apply to what follows |
| C75 | PassModule: loop of runImpl over functions and aliases, names and uses; Spec/Link: meaning of a name in a program, linkers, what a use leads to | definitions of the result are wrappers or come from one definition of the program; so a symbol resolves to the definition the name stood for, and the chain of wrappers and aliases has length at most three |
| C76 | Libs: archives, groups, first definition wins, command of _lower_bitcode, symbols of an instrumented module; AbiData: lines of the list and wrappers of the sources | a search of an archive ends with no member wanted (the number of members with a new definition decreases), so the first archive in the group that defines a symbol supplies it; tables checked by evaluation in the kernel |
| C77 | Build: names of pathlib, journal, link command, steps over files; Spec/Build: executable that a target stands for, conditions on names, how a compiler reads a command | each step writes one file whose name is the base and a suffix; under the conditions no step writes what another target reads, so the stages can be traced back to the files before the run; induction over targets, and over the words of the command |
| C78 | PyDiff: print_file_context, intervals of a trace, differences, file_diff, to_image; Spec/Diff: columns of a text, marks below it, reading escapes, bytes that hang together | closed form of the loop over the bytes; invariant of the merging loop (not empty, apart, same bytes); an interval is kept exactly if no byte of it is in the other trace; invariant of the drawing loop |
| C79 | Unwind: unwinding of instrumented frames, throwing, runs with exceptions of the linked program; Spec/Unwind: the same of the original program | the simulation relation is kept when frames are dropped (every caller is at a call), the landing value is given label 0, and control goes along the edge to the landing block; then the trace theorems of C52 |
| C80 | Foreign: writes that change no labels, runs with them; Spec/Foreign: the same of the original program, with what each byte depends on | the simulation relation of C79 with a further action; foreign writes keep labels, so taints must be kept; runs that agree are equal to runs taken blindly |
| C81 | Net: accept, accept4, connect, recv, recvfrom, send, close with connect_name; Spec/Net: connections, streams and messages, names of connections | invariant over all sequences of calls: the tracker's history names the connection last got by the descriptor, its counters are the positions in what the peers sent and got; names are split at their separators |
| C82 | Stdio: fopen, fclose, fread, getc and the like, fgets, fwrite, putc; calls without wrappers; Spec/Stdio: streams with pushed-back bytes, files, pipes | invariant over all sequences of calls: the tracker's history names the file last opened for the descriptor; on pipes its counters are the positions |
| C83 | PyPartial: partial_match with its stack and its calls of itself, as a list of matches and how it ends; find_partial_trees. Spec/Partial: complete and cut-off parse trees, expansion from the left | characterisation of what comes of an element of the stack, proved by induction over steps for soundness and completeness together; trees on the stack are pairwise incompatible, so nothing is found twice; induction over the rest of the sentence and calls at the left for the end |
| C84 | PyVerify: verify with its three tests, the nodes and edges of dependency_graph; nx.dfs_preorder_nodes by its contract | the tests as searches for a first counterexample; paths in the graph of Productions up to equal rules are compared with derivations of the grammar; counting visited productions; C62 and C64 for extracted grammars and can_produce_terminal |
| C85 | PyDigraph: DiGraph with its caches as a machine of calls, contract, vertex_induced_subgraph, non_disjoint_union_all, to_dot; functions of networkx by contract (nx_exists: there are such). Spec/Digraph: walks, distances, dominators | invariant: every cache says what the graph says, kept by questions; theory of dominators (chains, existence and uniqueness of immediate dominators) by shortest walks; loop invariants for vertex_induced_subgraph; a decreasing set for contract |
| C86 | LabelsWeak: two machines for the calls of LabelsConc: WSys (a load gives any value since publication), TSys (x86-TSO: store buffers, locked acquire, buffered release, labels handed on through the buffers) | invariant of C34/C35 with old values that differ only in flags; refinement TSys to WSys by a relation between buffers, write position and mutex; C34/C35 specs |
| C87 | PyCfg: cfg, function_cfg, is_loop_entry, is_conditional, cfg_roots, is_cfg_connected, ControlFlowDiff on top of PyDigraph and PyOset; BasicBlock and Function by number with children, predecessors, function, name and taints | C85 dominator trees: the only outside predecessor of a header is its immediate dominator; uniqueness of lists ordered by dominance; loop invariant for zip; induction on a rank for connectedness |
| C88 | PyOset: OrderedSet with the methods of collections.abc.MutableSet it inherits (from their source in the standard library), the generator as one more item; Memoized | folds over lists without duplicates, positions by idxOf; induction over the calls |
| C89 | PyTraceGram: trace_to_grammar with recursion in place of its stack, on nested sequences of control-flow events; verify from PyVerify | the rules that are put stay; induction over the trace for the derivation; invariant for table, names and reachability with the set of names still to be defined; one rule for each name gives one string |
| C90 | PyNav: the loops over the control-flow events of a thread; PyNavSpec: frames by a stack, contract of function_entry and function_return | a function once closed stays closed and the stack below an open function does not change, so a jump over a call stays in the frame; induction over the loops |
| C91 | PyDatalog: names, rule lists, clauses, extract_datalog_grammar; Spec/Datalog: least model | a body is a path through positions; induction over what follows from the program and over derivations; escapes of printable characters are a prefix code |
| C92 | PassAttr: run, visitCallInst over names, callees and attributes | membership after removal; functions and instructions one by one |
| C93 | PyDocker: last_build_time, out_of_date_sources with its memory, run up to the call of docker; Spec/Docker: how docker run reads its arguments | the argument list read from the back; cutting at the first separator; the memory as state |
| C94 | PyPlugin: the metaclasses, __init_subclass__, the two dictionaries, the lists and their lookup through base classes, _run, the exit status | case analysis of a class statement; induction over the sequence of statements; cutting names at the first underscore |
| C95 | PyAbiDiff: the whole script on lists of lines; Spec/AbiLines: what a line says | split and strip characterised; the loop as a fold over what the lines say; the dictionaries hold the first category |
| C96 | PyStub: the test on columns, names, replacement, the lines printed; Spec/Readelf: how a symbol is printed | columns by lengths of the parts before them; induction over lines and characters |
| C97 | PyListDiff: the whole script on lists of lines | position of the first equals sign; induction over the second list |

## Claims that are false of the code

Each line names the theorem with the concrete witness; the part that does hold is
proved under the names with suffix `_partial` (or the unsuffixed positive theorems)
of the same property.

| id | what goes wrong | theorem |
|----|-----------------|---------|
| C06 | a union asked for again gets a new label once more than the scan window lies between | C06_same_label_refuted, C06_window_refuted |
| C10 | marking flags a label when it is popped, not when it is pushed: exponentially many iterations on a layered graph | C10_refuted |
| C12 | `size()` can exceed the allocation by a bucket; the capacity check of `set_range` wraps | C12_size_refuted, C12_wrap_refuted |
| C15 | `construct_range` with a huge count wraps | C15_range_wrap_refuted |
| C16 | the alignment formula of `do_allocation` does not align in general (it does for the shipped sections) | C16_aligned_refuted |
| C17 | a crash inside the destructor leaves a file that the reader accepts with some sections empty | C17_closing_refuted |
| C19 | full source table, `close` does not remove the mapping, descriptor -1 | C19_full_refuted, C19_closed_refuted, C19_invalid_fd_refuted |
| C20 | zero length or exhausted label space is undefined behaviour; offsets from 2^54 end the program | C20_undefined_refuted, C20_offset_refuted |
| C22 | a full sink log silently drops records | C22_full_refuted |
| C24 | call after exit, recursion, several threads: the reader's call stacks are wrong | C24_call_after_exit_refuted, C24_recursion_refuted, C24_threads_refuted |
| C29 | arrays of a file opened twice are merged with `zip`, which truncates; unread files are not reported | C29_merge_refuted, C29_unread_refuted |
| C30 | names that are not UTF-8, path normalisation, name index out of range | C30_names_refuted, C30_path_refuted, C30_index_refuted |
| C31 | conditions wider than 64 bits are truncated; before start-up the inserted call returns 0 | C31_wide_refuted, C31_before_start_refuted, C31_true_branch_refuted |
| C32 | empty module, unescaped quotes, backslashes and control characters | C32_empty_refuted, C32_quote_refuted, C32_backslash_refuted, C32_control_refuted |
| C33 | `main`, wildcards, "discard" inside a name, `src:` entries, indented comments | C33_*_refuted |
| C37 | strcat takes labels from the wrong place, realloc leaves stale labels or dereferences null, strncpy scans unterminated memory, 32-bit memcpy lengths overflow | C37_*_refuted |
| C38 | overwriting a key does not refresh its position | C38_store_refuted |
| C39 | regions of inputs other than the first are split at every byte; inputs sharing a uid are mixed; repeats | C39_maximal_refuted, C39_shared_uid_refuted, C39_repeated_refuted |
| C40 | position from 2^54 on, recv with MSG_TRUNC, fgets of size 0/1 and of an empty line, gets reading 7 bytes, anonymous mmap labelled as a file | C40_*_refuted |
| C42 | putc of values outside a byte, failing putc is logged, `_putc` is never logged | C42_*_refuted |
| C43 | aligned `internal_memset` of negative values | C43_memset_refuted |
| C44 | `find` yields its first match for ever, slices past the end | C44_repeats_refuted, C44_slice_refuted, C44_contains_refuted |
| C46 | the 201st and later arguments lose their labels | C46_lost_refuted |
| C48 | dependence through branches, addresses of stores and block copies, `freeze`, atomic instructions (visitCASOrRMW stores the zero label and returns it) and the length of the input (result of read, EOF) has no label | C48_*_refuted |
| C54 | the uid of an input is the descriptor and is reused, its size is not the number of bytes read; openings of the same path on the same descriptor are mixed; outputs compare equal if their offsets agree; ProgramTrace.taints never reports a byte | C54_uid_refuted, C54_opening_refuted, C54_output_eq_refuted, C54_taints_refuted, C54_taints_node_refuted |
| C55 | an empty command-line argument is undefined behaviour when arguments are tainted; arguments beyond the source table stay untainted without a message; POLYTRACKER_TAINT_ARGV=10 counts as on while the stream switches need exactly 1; code that runs before start-up gets 0 for its branch conditions | C55_empty_refuted, C55_full_refuted, C55_flag_refuted, C55_early_branch_refuted |
| C56 | comparisons order bytes from 0x80 on before all others, so the instrumented program sorts and branches differently from the original; strchr with a character argument outside -128..127 finds nothing; its null result is labelled in strict mode; strto* leave a stale label on the stored end pointer | C56_order_refuted, C56_strcmp_refuted, C56_strchr_refuted, C56_endptr_refuted |
| C57 | snprintf that truncates labels (length - room) bytes instead of the stored ones, also bytes behind the buffer; empty format stores no terminator; padded %s shifts labels; `%*.*` loses the width, negative `*` is not passed; %n clears 8 labels; stale label on the terminator; label of an error result not stored | C57_truncated_refuted, C57_empty_refuted, C57_padded_refuted, C57_stars_refuted, C57_negative_refuted, C57_count_refuted, C57_terminator_refuted, C57_error_refuted |
| C58 | select with a null timeout, interrupted nanosleep with null rem and failed calloc access the shadow of address 0; getpwuid_r leaves stale labels on the second and later strings; failed select and nanosleep clear labels of unmodified memory | C58_select_refuted, C58_null_refuted, C58_getpwuid_refuted, C58_failed_refuted |
| C59 | negative signal number indexes the table out of bounds, numbers from 1024 on abort; signal (not wrapped) leaks the runtime's handler, which can be reinstalled and then recurses; a signal during the call in another thread mixes old convention and new handler; argument labels of interrupted code are erased | C59_number_refuted, C59_signal_refuted, C59_race_refuted, C59_interrupted_refuted |
| C60 | open passes the address of its argument list as mode, so new files get arbitrary permissions (never any for others) and may not be readable afterwards; files opened with openat and duplicated descriptors are not tracked, or attributed to the file opened before on that number; positions in duplicated streams; positions recorded for O_APPEND writes | C60_mode_refuted, C60_reopen_refuted, C60_openat_refuted, C60_dup_refuted, C60_stream_refuted, C60_append_refuted |
| C61 | verify(string) of a parse tree accepts a tree that stands for a proper beginning of the string | C61_verify_refuted |
| C63 | Grammar.simplify keeps the language (it can lose the input and derive other strings); it returns True if it changed something | C63_simplify_refuted, C63_modified_refuted |
| C64 | can_produce_terminal is right after rules were changed by replace_sub_production or add | C64_replace_refuted, C64_add_refuted |
| C65 | Grammar.match recognises the language of the grammar (equal rules, empty productions, recursive start, str sentences) | C65_own_refuted, C65_empty_refuted, C65_runtime_refuted, C65_suffix_refuted, C65_str_refuted |
| C67 | A constructor of the program with priority 0 runs before the tracker is constructed: a decision in it is replaced by 0, a read uses a null tracker, and a handler it registers runs after the destruction; functions in .fini_array run after the destruction with the flag still set | C67_value_refuted, C67_ctor_refuted, C67_fini_refuted |
| C68 | A wrapper that does not store the label of its result (log_tainted_control_flow before the start) gives the result of an earlier call; comparators called by qsort get the labels of the last instrumented call; bytes moved by a discarded function leave their labels behind; custom functions with variable arguments cannot be called by address | C68_stale_refuted, C68_callback_refuted, C68_moved_refuted, C68_vararg_refuted |
| C69 | A program that goes back in its input: trace_to_non_generalized_tree raises ValueError, or drops a block that alone used a byte; with python -O the tree does not read the input. deconflict_parent never takes a byte from a child | C69_order_refuted, C69_lost_refuted, C69_debug_refuted, C69_rob_refuted |
| C71 | the length of a function's name is passed in 16 bits: functions with names of 65536 bytes are all found under the empty name. Function tracing without taint tracking constructs no tracker and logs nothing | C71_long_refuted, C71_alone_refuted |
| C72 | the label of the argument of pthread_create is replaced by 0, and so is the label of a thread's value (pthread_join is not wrapped, and the trampoline discards the label); the control-flow log mixes threads, so that reading it can fail; the label of a byte and the byte are stored one after the other, and when two threads store to the same address in between, the byte in memory has the label of the other | C72_argument_refuted, C72_value_refuted, C72_log_refuted, C72_race_refuted |
| C73 | `polytracker cavities` prints half-open ranges and mutate_cavities reads them as closed, so the byte after each cavity is changed too; the list has paths as opened but is searched for the bare file name, so cavities of files in directories are never found; rows `name,-k,-k` of failed detections change the byte at distance k from the end; in single-byte mode a cavity at the end of the file or a missing output ends the verification with an exception; commas in paths are not quoted | C73_end_refuted, C73_directory_refuted, C73_failed_refuted, C73_eof_refuted, C73_no_output_refuted, C73_comma_refuted, C73_quote_refuted |
| C74 | mmap64 is only `uninstrumented` in the ABI lists: files mapped by programs with 64-bit file offsets are unlabelled; bytes mapped behind the end of the file are labelled as bytes the file does not have; a failing munmap clears labels of memory that stays mapped; mremap is not intercepted and leaves labels behind; dfsan_create_label counts from 1 on its own, so its labels are those of the first input bytes, and dfsan_get_label_count does not count labels of input | C74_mmap64_refuted, C74_tail_refuted, C74_failed_refuted, C74_mremap_refuted, C74_created_refuted |
| C75 | A source on the list: uses of its functions in other modules have the prefix, their definitions do not (and the other way round). A library function that is not listed is asked for under a name no library has. The address of a listed function with variable arguments stops the program when called. `int f();` in one module makes a wrapper that stops the program, and the linker may take it for all modules. An alias listed together with its function becomes an alias of the wrapper, so code that passes no labels runs code that reads them | C75_source_refuted, C75_unlisted_refuted, C75_vararg_refuted, C75_declared_refuted, C75_alias_refuted |
| C76 | _IO_putc, __polytracker_log_taint_cmp and __polytracker_log_taint_op are listed as custom without a wrapper; a member of libc++ added in the second round gets the runtime's __dfsw_write; the wrappers of 22 functions (input through gets, getdelim, fgetc_unlocked, _IO_getc, recvmsg; openat; memmove) are not reached | C76_missing_refuted, C76_late_refuted, C76_unused_refuted |
| C77 | Targets app.v1 and app.v2 both give app.instrumented (the second wins). A target x.bc is overwritten by its own bitcode and cannot be instrumented again. With --cflog and several targets only the table of the last is left. With -oapp the compiler still writes app. With -MT app the value is removed and -MT takes the next option | C77_versions_refuted, C77_bitcode_refuted, C77_ids_refuted, C77_joined_refuted, C77_value_refuted |
| C78 | TraceDiff removes whole intervals: if the first trace touches bytes 0 and 1 and the second byte 0, nothing is reported and both are said to have consumed the same bytes. bool looks at functions only, so traces with different bytes "do not differ". Functions are compared by index, names by name: for two builds a name that the second trace does not have counts as being in both. to_image shows one input. The number of additional bytes counts bytes that are shown | C78_missed_refuted, C78_bool_refuted, C78_index_refuted, C78_inputs_refuted, C78_additional_refuted |
| C79 | The function-tracing reports are made at returns only, so a function left by an exception stays on the call stack that Python reads: a function called afterwards is shown as called by the one that was left | C79_stacks_refuted |
| C80 | The taint of variable arguments of an instrumented variadic function is not passed: `va_arg` finds the labels that its place on the stack had before, so the output is attributed to the wrong byte or to none | C80_variadic_refuted, C80_lost_refuted |
| C81 | accepting a connection whose other side is gone stops the program; after MSG_PEEK, recvmsg, a cut message or sendto all positions are wrong; MSG_TRUNC labels memory that got no bytes; a connect in progress and IPv6 are not tracked, IPv6 bytes are attributed to an older connection of the same descriptor; the address that accept stores keeps the labels of what was there | C81_gone_refuted, C81_peek_refuted, C81_recvmsg_refuted, C81_message_refuted, C81_sendto_refuted, C81_trunc_refuted, C81_progress_refuted, C81_family_refuted, C81_address_refuted |
| C82 | an item that is not whole is placed without labels and, on pipes, not counted; a pushed-back byte gets the label of the file's byte, on pipes it is counted twice; getline, fscanf, fputs and printf are not counted; after fgets of a zero byte positions on pipes are wrong; appended bytes are recorded at the wrong position; putc of a negative char is not recorded; streams of fdopen, freopen, popen and tmpfile have no labels or those of an older file | C82_item_refuted, C82_item_pipe_refuted, C82_ungetc_refuted, C82_ungetc_pipe_refuted, C82_scan_refuted, C82_puts_refuted, C82_zero_refuted, C82_append_refuted, C82_putc_refuted, C82_adopt_refuted |
| C83 | a fragment that ends within a terminal has no tree; the symbols left by the match of a name are forgotten, so that a match with nothing left does not mean that the sentence is in the language; the empty sentence is matched by everything; a sentence of the language may be matched only with symbols left; a function that calls itself before it reads makes the enumeration endless on the very input of the grammar | C83_fragment_refuted, C83_rest_refuted, C83_empty_refuted, C83_whole_refuted, C83_ends_refuted, C83_norules_refuted |
| C84 | networkx raises an exception if <START> has only terminals, as it has for an input read by one block and after everything is inlined; an entry of used_by for a use that is not there is not noticed and makes productions count as reached; a production that cannot be reached is accepted if another has the same rules; the nodes of dependency_graph are names and productions with edges | C84_leaf_refuted, C84_stale_refuted, C84_twin_refuted, C84_graph_refuted |
| C85 | path_length, roots and dominator_forest keep the answers from before a change; an exception in dominator_forest is gone at the next call; descendants has the node itself and lacks ends; contract loses merged nodes and siblings and brings merged nodes back; vertex_induced_subgraph never has edges and drops vertices below others; non_disjoint_union_all drops nodes without edges; with two roots a node of the dominator forest has two parents | C85_cache_refuted, C85_again_refuted, C85_descendants_refuted, C85_contract_refuted, C85_induced_refuted, C85_union_refuted, C85_forest_refuted |
| C87 | is_loop_entry holds for the join after an if without else, fails for a loop header with two predecessors outside, and raises without an entry block; is_cfg_connected is false for a cycle and true for a block beside a cycle; ControlFlowDiff compares dominators by position (`&=` removes nothing), so it misses functions, and for the outermost function it raises once and says None from then on | C87_branch_refuted, C87_header_refuted, C87_rootless_refuted, C87_connected_refuted, C87_diff_refuted, C87_single_refuted |
| C88 | the operators and, or, minus, xor of two OrderedSets give a set whose only member is a generator, so `&=` removes nothing; a memoized function ignores its arguments after the first call and turns an exception into None at the second | C88_operators_refuted, C88_memo_refuted |
| C89 | the block after a call is in the rule twice (as the block returned to and as the next block), so its bytes are doubled; a second call in a block is left out; a function that touches no taint gets a production without rules, which makes the language empty, and an exception is raised if it had a production before | C89_twice_refuted, C89_second_refuted, C89_untouched_refuted, C89_raises_refuted |
| C90 | next_basic_block_in_function stops at an indirect or uninstrumented call; basic_blocks is empty if the first event is a call; iteration leaves out the second call of a block; caller can be a block of another function; next_function_entry never ends if a block follows the return, and never finds a function after a return | C90_next_refuted, C90_blocks_refuted, C90_iter_refuted, C90_caller_refuted, C90_next_function_refuted |
| C91 | a production without rules holds everywhere instead of nowhere; an empty terminal is an IndexError; the 27th variable of a rule is a brace; a tab before the digit 5 gets the same name as an underscore; with true facts only at bytes the empty string is missing at the end | C91_ruleless_refuted, C91_raises_refuted, C91_end_refuted, C91_vars_refuted, C91_names_refuted |
| C92 | an invoke of a wrapper keeps its attributes; ReadNone stays on wrappers | C92_invoke_refuted, C92_readnone_refuted |
| C93 | a quotation mark in a value gets a backslash which nobody removes; a colon in a directory takes it apart; changed Python files are not noticed; the answer is remembered, so that the object refuses after a rebuild and runs after a change | C93_env_refuted, C93_mounts_refuted, C93_python_refuted, C93_remembered_refuted |
| C94 | a refused extension stays with its command and runs; a command refused for want of a help text takes the name; subcommands of subcommands are named by the last two words only, so that two families collide; a command with a plugin_name replaces another of the same name; an extension of a derived command goes to the base command; with an extension the exit status of a failing command is 0 | C94_help_refuted, C94_extension_refuted, C94_names_refuted, C94_override_refuted, C94_shared_refuted, C94_status_refuted |
| C95 | a second category for a function in the list not chosen is not seen by the comparison and stays after the choice; lines with uninstrumented are removed together with the conflict; patterns are compared as names | C95_resolved_refuted, C95_uninstrumented_refuted, C95_pattern_refuted |
| C96 | a function of 100000 bytes or more is left out, since its size makes the column wider; a name with dfs$ in it is listed under another name | C96_size_refuted, C96_dollar_refuted |
| C97 | an entry for a source file in the first list hides the function of this name; comments and empty lines of the second list are printed as new | C97_source_refuted, C97_comment_refuted |

Seen while reading, outside the model: the pass has no
visitor for `freeze`, `va_arg` and `landingpad` (their results are untainted; in the
model all such instructions are `Instr.untracked`); labels of variadic arguments are
not passed; a build with assertions fails on `ShadowVecSize * ShadowWidthBits <= 128`
with 32-bit shadows; the caller counts unsized parameters in the TLS offset while the
callee skips them; `emitTaintArgvCall` uses the first two parameters of `main` without
checking that they exist; `insertCondBrLogCall` tests the type of the instruction
instead of the type of the value for vectors; the control-flow report function is
declared `ReadNone`; exit hooks are inserted only before `ret`; diffing.py and
`trace_to_tree` with terminals call `get_taints`, which no class has.

## What is modelled

Every definition cites its lines. By source file (paths below `/repo/polytracker`):

| source | Lean module | extent |
|--------|-------------|--------|
| include/taintdag/taint.h, encoding.h, src/taintdag/encoding.cpp | Encoding | all |
| include/taintdag/union.h | Union | all |
| include/taintdag/labels.h | Labels, LabelsConc, LabelsWeak | all; once sequential, once at the level of single loads and stores under any schedule, once under weak memory |
| include/taintdag/labeldeq.h | LabelDeq | all |
| include/taintdag/section.h | Section | all (the lock is modelled in LabelsConc) |
| include/taintdag/bitmap_section.h | Bitmap, BitmapConc | all; once sequential, once per atomic operation |
| include/taintdag/string_table.h | StringTable | all |
| include/taintdag/outputfile.h, storage.h | Layout, File | layout, header, construction and destruction, the bytes of the file; not the system calls |
| include/taintdag/taint_source.h, sink.h, stream_offset.h, fnmapping.h, fntrace.h, polytracker.h, src/taintdag/{polytracker,fnmapping,fntrace}.cpp | Tracker, StreamConc | all |
| include/taintdag/control_flow_log.h | CfLog | all |
| src/taintdag/util.cpp, src/taint_sources/{taint_sources,write_taints,string_taints,memory_taints}.cpp | Wrappers, ShadowMem, Files, Net, Stdio | the wrappers listed in C37, C40, C42, open, fopen, close, fclose, sockets; not the peer's address stored by recvfrom.  The network is the environment (Spec/Net: accept and connect that fail have no effect; getsockname does not fail). The kernel is the environment (Spec/Posix: no directories, only the owner's read permission is checked, reads are never short) |
| src/polytracker/polytracker.cpp | Startup, Dfsan, Branch, Tracker, CfRun, PassIr, Linked | all |
| src/polytracker/main.cpp (taint_start, polytracker_end), src/passes/taint_tracking.cpp (start-up calls) | Lifetime | order of construction, use and destruction; one thread |
| src/polytracker/main.cpp, src/taint_sources/argv.cpp | Startup | settings, streams, tainting of the command line; not what is printed, not the variables nothing reads |
| src/compiler-rt/lib/dfsan/{dfsan.cpp,dfsan.h,dfsan_platform.h} | Dfsan, ShadowMem | labels, union, load, set, add, flush, create_label, shadow layout; no origins, no fast labels, no event callbacks, x86-64 only |
| src/compiler-rt/lib/dfsan/dfsan_custom.cpp | ShadowMem, CustomCmp, Format, OutParam, Signal | memcpy, memmove, memset, strcpy, strncpy, strdup, strcat; comparisons, searches, strlen, strto* (number parsing itself is a parameter); sprintf, snprintf (conversion of one item is a parameter); wrappers that label memory filled in by a call (stat … inet_pton, see C58; the call itself is a parameter, structure sizes are those of x86-64 glibc); sigaction and the handlers it installs (the kernel's dispositions are the environment) |
| src/compiler-rt/lib/dfsan/dfsan_interceptors.cpp | Mapping | all but calls before the runtime is set up |
| src/compiler-rt/lib/dfsan/dfsan_thread.cpp | Threads | start of threads; not their stacks and attributes |
| src/compiler-rt/lib/sanitizer_common/sanitizer_libc.cpp | ShadowMem | internal_memset/memcpy/memmove, mem_is_zero |
| src/passes/DataFlowSanitizer.cpp (ABI-listed functions) | WrapCall | types, attributes, arguments and labels of calls of wrappers, trampolines, wrappers for calls by address, kinds; wrappers are any code over labelled memory |
| src/passes/DataFlowSanitizer.cpp | PassMem, PassIr | loads and stores at byte level; the per-function instrumentation over the language of Spec/Ir (legacy labels, TLS ABI); atomic read-modify-write, compare-exchange and stores included (the other threads are not modelled); not: origins, fast labels, struct shadows (used with fast labels only); variable arguments and memory written by functions that are not instrumented are in Foreign; invoke and landing blocks are in Unwind: exceptions come from library calls, at any moment, what a personality function selects is a parameter (the landing block of a call) |
| src/passes/DataFlowSanitizer.cpp (modules) | PassModule | names, wrappers and aliases of runImpl, which symbol a use becomes; not `.symver` directives, aliases of aliases, linkage beyond local or not |
| build.py (InstrumentTargets) | Build | names of files, search of the journal, order of steps, link command; tools are functions of contents; not environment variables, files left after an exception |
| build.py (_lower_bitcode), custom_abi/dfsan_abilist.txt | Libs, AbiData | order of archives in the link, lines of the list for functions with wrappers, names of all wrappers; not shared libraries, weak symbols, filtering of arguments |
| src/passes/tainted_control_flow.cpp | FnIds, Branch, CfPass | ids and JSON file, inserted code, where it is inserted |
| src/passes/function_tracing.cpp | Ftrace | the inserted calls; not functions left by exit, longjmp or exceptions, not musttail |
| src/passes/remove_fn_attr.cpp | PassAttr | all; of LLVM only names, callees and attributes |
| src/passes/{utils,taint_tracking}.cpp | Ignore, CfPass | ignore lists, which functions are instrumented, placement of branch reports |
| taint_forest.py, graphs.py | PyForestGraph | to_graph, roots, to_dot (which nodes and edges; not the GraphViz text); the other methods of DiGraph: see graphs.py |
| taint_dag.py | PyFile, PyCfLog, PyForest, PyTrace | all except the methods of TDProgramTrace that raise NotImplementedError, and the command line |
| mapping.py | PyMapping, PyMutate | mapping, file_cavities, the lines printed by the command cavities |
| build_in_docker/{file_cavity_detection,mutate_cavities,verify_cavities}.py (below /repo) | PyMutate | what is printed, read, changed and compared; not containers, timeouts, sampling of other bytes and the csv field limit |
| parsing.py | PyTree | traversals, clone, terminals, matches, simplify, verify without verify_bounds |
| parsing.py (intervals) | PyIntervals | trace_to_tree without terminals (recursion in place of its stack), verify_bounds, the deconflicting passes, trace_to_non_generalized_tree; an IntervalTree is the data at each offset (what the library's chop, merge and split do to single intervals is assumed) |
| graphs.py | PyDigraph | DiGraph with its caches, DAG, non_disjoint_union_all, the content of to_dot; not networkx (by contract), labels and the drawing library |
| grammars.py, datalog.py | PyGrammar, PyEarley, PyPartial, PyVerify, PyTraceGram, PyDatalog | Rule, Production and Grammar with add, remove, replace and simplify, parse_tree_to_grammar, trace_to_grammar; translation to Datalog; the Earley parser up to the question whether there is a match; not the trees that _Node builds from predecessors, nor load, extract |
| diffing.py, visualizations.py (file_diff) | PyDiff, PyCfg | ControlFlowDiff; TraceDiff for traces whose functions have `get_taints` (no class in /repo defines it, and the traces read from files do not list functions), print_file_context, file_diff; the IntervalTree methods used are modelled from their documentation; not the order and wording of str beyond the sentences named, temporal_animation |
| scripts/list_diff.py | PyListDiff | the whole script on lists of lines; not missing files |
| scripts/create_stublist.py | PyStub | lines of readelf to lines printed; not the order, failures of readelf, missing files |
| scripts/track_list_diff.py | PyAbiDiff | the whole script on lists of lines; not what is printed, blanks outside ASCII, missing files |
| containerization.py | PyDocker | last_build_time, out_of_date_sources, run up to the call of docker; not Dockerfile, rebuild, pull and the commands |
| plugins.py, __main__.py (main) | PyPlugin | class statements of commands, subcommands and extensions that are not abstract, one command as base; exit status; not the argument parsers and abstract parents |
| cache.py, tracing.py, inputs.py, cfg.py | PyCache, PyOset, PyRegions, PyFind, PyTrace, PyCfg, PyNav | LRUCache, OrderedSet, Memoized; questions about control flow and between trace events; byte offsets, regions, Taints, TaintDiff, find; ProgramTrace.taints; input identity; tainted_chunks |

Not modelled: the remaining Python tools (repl,
the parsers of plugins, the rest of containerization, build and visualisation), the build wrappers, the rest of
compiler-rt (allocator, symbolizer, flags), LLVM itself, libc++.

## Trusted base

* The Lean 4.33.0 kernel (the whole project is also re-checked from its compiled
  declarations by `vcheck`).
* Axioms: `propext`, `Classical.choice`, `Quot.sound` at most; the list at the end of
  this file, made with `#print axioms`, gives them per theorem. No axiom is added, and
  `sorry`, `native_decide`, `bv_decide` are not used.
* The correspondence between the Lean definitions and the cited lines of `/repo`,
  made by reading; nothing in `/repo` was compiled or run.
* Assumptions about the environment, built into the models:
  - atomics and locks: the concurrent models interleave single memory operations
    (sequential consistency). The code uses relaxed atomics and, for label words,
    plain `atomic_ref`-less accesses; for label words weak memory is covered by C86
    (whole 64-bit words, accesses as written), elsewhere it is outside the model.
  - memory: addresses are 64-bit numbers, x86-64 layout, little endian.
  - the C library functions behind the wrappers do what POSIX says; their results are
    parameters of the wrapper models (for all results).
  - Python semantics of dict, list, set, generators, `mmap`, `struct` layouts as
    written in the Py* modules.
  - LLVM: valid modules have dominating definitions; the dominator tree used by the
    pass is a parameter of which only soundness is assumed (C47).
  - files are not modified by others while mapped.

## Axioms per theorem

<!-- axioms -->

* none: C15_range_wrap_refuted, C59_return, C91_names_refuted

* `Classical.choice`, `Quot.sound`, `propext`: C01_decode_encode, C01_encode_injective, C01_encode_decode, C01_decode_fatal_iff, C01_decode_total, C02_addCf, C02_checkCf, C02_isSource, C02_equalIgnoreCf, C03_union_exact, C03_history, C03_commutative, C04_stable, C04_words, C04_union_fresh_or_old, C04_read_fresh, C05_wellFormed, C05_read_ok, C05_no_assert, C05_total, C05_acyclic, C06_reuse_sound, C06_repeat_partial, C06_repeat_new_partial, C07_union_exact, C07_read_exact, C07_read_zero_iff, C07_add_exact, C07_zero_operand, C08_exact, C08_terminates, C09_closed, C09_builtFrom, C09_influenced, C10_refuted, C10_bound_partial, C11_fifo, C12_faithful, C12_reports, C12_size, C12_size_bound_partial, C12_size_refuted, C12_wrap_refuted, C13_exact, C13_no_double_new, C13_one_new, C14_index, C14_given, C14_room, C15_disjoint, C16_disjoint, C16_aligned_iff, C16_shipped, C17_closed, C17_running_partial, C18_lookup, C18_iterate, C18_refuse, C19_attributed_partial, C19_stable, C19_untracked, C19_full_refuted, C19_closed_refuted, C20_read_partial, C20_stream_partial, C20_undefined_refuted, C20_offset_refuted, C21_read_offsets, C21_reads_cover, C21_write_offsets, C21_writes_cover, C21_concurrent, C22_log_partial, C22_write_partial, C22_write_label_partial, C22_others, C22_stable, C22_full_refuted, C23_varint, C23_five, C23_iter, C23_exact, C23_injective, C23_written, C24_stacks_partial, C24_stacks, C24_call_after_exit_refuted, C24_recursion_refuted, C24_threads_refuted, C25_index, C25_same, C25_enter, C25_read, C25_events, C26_agree, C26_roundtrip, C26_no_taint, C26_file, C27_node, C27_bytes, C27_same, C27_parents, C27_acyclic, C27_nodes, C27_run, C28_mapping, C28_run, C29_exact, C29_cavities_partial, C29_run, C30_roundtrip_partial, C30_names_refuted, C30_utf8, C31_value_partial, C31_marks, C31_before_start_refuted, C31_true_branch_refuted, C32_json_partial, C32_lookup_partial, C33_exact, C33_simple_partial, C33_main_refuted, C33_wildcard_refuted, C33_discard_refuted, C33_source_refuted, C33_comment_refuted, C34_exact, C34_request, C34_wellformed, C34_stable, C34_stops, C34_progress, C34_bounded, C35_complete, C35_known, C35_sound, C35_monotone, C36_own_cell, C36_outside, C36_set, C36_data, C36_sequence, C36_top_boundary, C37_memmove, C37_memcpy, C37_instruction, C37_strcpy, C37_strncpy_pad, C37_strncpy_full, C37_strdup, C37_strcat_exact, C37_strcat_refuted, C37_strcat_dfsan_partial, C37_realloc_partial, C37_realloc_refuted, C38_evicts_partial, C39_covers, C39_iterates, C39_first_partial, C39_from_source, C39_others_split, C39_maximal_refuted, C39_to_regions_partial, C39_diff_partial, C40_read_partial, C40_pread_partial, C40_getdelim_partial, C40_fread_partial, C40_getc_partial, C40_fgets_partial, C40_mmap_partial, C40_munmap, C40_fgets_empty_refuted, C41_chunks, C41_sources, C42_write_partial, C42_fwrite_partial, C42_putc_partial, C42_putc_refuted, C43_memset_partial, C43_instruction, C43_memset_aligned, C43_memset_refuted, C44_first_partial, C44_contains_sound, C44_contains_from_source, C44_contains_byte, C44_repeats_refuted, C44_contains_exact, C44_contains_refuted, C45_load, C45_load_uniform, C45_load_instruction, C45_store, C45_store_data, C45_store_load, C45_load_tainted_iff, C47_running, C47_finished, C47_values, C48_output, C48_bytes, C48_labels, C49_running, C49_finished, C49_stuck, C49_nothing_added, C50_finished, C50_running, C51_finished, C51_running, C52_mapping, C52_cavities_any, C52_cavities, C53_choice, C53_pipeline, C53_fresh, C54_inputs, C54_outputs, C54_affecting, C54_pipeline_any, C54_pipeline, C54_taints_node_refuted, C55_settings, C55_streams, C55_names, C55_argv_partial, C55_empty_refuted, C55_full_refuted, C55_flag_refuted, C56_memcmp, C56_strcmp, C56_strcasecmp, C56_strncmp, C56_strncasecmp, C56_order_partial, C56_strlen, C56_strchr_partial, C56_strchr_refuted, C56_memchr, C56_strrchr, C56_strstr, C56_strpbrk, C56_strtol, C56_strtod, C56_endptr_refuted, C57_text_partial, C57_labels_partial, C57_sprintf_partial, C57_count_partial, C57_error_refuted, C58_written_partial, C58_ctime, C58_localtime, C58_inet_pton, C59_sigaction_partial, C59_memory, C59_signal_refuted, C59_race_refuted, C60_read_partial, C60_pread, C60_write_partial, C62_extract, C62_rules, C62_sound, C63_total, C63_inline_partial, C63_simplify_partial, C63_simplify_refuted, C63_modified_refuted, C64_answers_partial, C64_replace_refuted, C64_add_refuted, C65_exact_partial, C65_own_refuted, C65_empty_refuted, C65_runtime_refuted, C65_str_refuted, C66_mapping, C66_process, C66_pipeline, C69_blocks, C69_reads, C69_inorder_partial, C69_rob_refuted, C70_graph, C70_paths, C70_roots, C70_bytes, C70_acyclic, C70_size, C70_dot, C70_run, C71_trace_partial, C71_finished_partial, C72_schedule_partial, C72_possible, C72_log_partial, C72_log_refuted, C73_output, C73_read_back_partial, C73_comma_refuted, C73_quote_refuted, C73_directory_refuted, C73_verified_partial, C73_end_refuted, C73_failed_refuted, C73_single_partial, C73_eof_refuted, C73_no_output_refuted, C74_events, C74_mapped_partial, C74_untracked, C74_unmapped, C74_mmap64_refuted, C74_tail_refuted, C74_failed_refuted, C74_mremap_refuted, C74_created_refuted, C75_uses_partial, C75_native, C75_source_refuted, C75_unlisted_refuted, C75_vararg_refuted, C75_declared_refuted, C75_alias_refuted, C76_group, C76_listed, C76_wrapper_partial, C76_late_refuted, C76_missing_refuted, C76_unused_refuted, C77_targets_partial, C77_succeeds, C77_again, C77_command_partial, C77_versions_refuted, C77_bitcode_refuted, C77_ids_refuted, C77_joined_refuted, C77_value_refuted, C78_context, C78_additional_refuted, C78_chunks_partial, C78_same, C78_functions_partial, C78_picture, C78_image_partial, C79_exceptions, C79_stacks_partial, C79_uncaught, C80_blind, C80_foreign_partial, C81_names, C81_name, C81_recv_partial, C81_send_partial, C82_fread_partial, C82_getc_partial, C82_fgets_partial, C82_fwrite_partial, C82_putc_partial, C83_once_partial, C83_ends_partial, C83_endless, C83_extracted_partial, C83_fragment_refuted, C83_rest_refuted, C83_empty_refuted, C83_whole_refuted, C83_ends_refuted, C84_table, C84_errors, C84_connected_partial, C84_extracted_partial, C84_simplified_partial, C84_leaf_refuted, C85_answers_partial, C85_dominators_partial, C85_induced_partial, C85_contract_raises, C85_dot, C85_forest_refuted, C86_exact, C86_views, C86_marks, C86_memory, C86_stops, C86_progress, C86_stale_exact, C86_stale_marks, C86_refines, C87_loop_computed, C87_loop_partial, C87_conditional, C87_diff_computed, C87_diff_partial, C87_branch_refuted, C87_header_refuted, C87_rootless_refuted, C87_connected_refuted, C87_diff_refuted, C87_single_refuted, C88_new, C89_verified, C90_next_partial, C90_blocks_partial, C90_calls, C90_count, C90_caller_partial, C90_next_refuted, C90_blocks_refuted, C90_iter_refuted, C90_caller_refuted, C92_calls, C92_frame, C92_idempotent, C92_invokes_partial, C92_invoke_refuted, C92_readnone_refuted, C93_command, C93_env_partial, C93_mounts_partial, C93_mounts_refuted, C93_fresh_partial, C93_exists, C93_remembered_refuted, C95_crash, C95_status, C95_frame, C95_frame_two, C95_choice, C95_resolved_partial, C95_resolved_refuted, C95_uninstrumented_refuted, C95_pattern_refuted, C96_list_partial, C96_size_refuted, C96_dollar_refuted, C97_source_refuted, C97_comment_refuted

* `Quot.sound`, `propext`: C02_addCf_idem, C06_same_label_refuted, C06_window_refuted, C12_refuses, C15_refines, C15_back_to_back, C15_contents, C15_index, C17_crash_partial, C17_running_image, C17_closing_partial, C17_closing_refuted, C18_increasing, C19_invalid_fd_refuted, C21_reads_disjoint, C21_writes_disjoint, C29_distinct, C29_merge_refuted, C29_unread_refuted, C30_plain_names, C30_index_refuted, C31_wide_iff, C31_wide_refuted, C32_ids, C32_same, C35_early_return, C37_strncpy_refuted, C37_realloc_null_refuted, C38_bounded, C38_value, C38_iterate, C39_shared_uid_refuted, C39_repeated_refuted, C40_fread_overflow, C40_position_refuted, C40_recv_refuted, C40_fgets_zero_refuted, C40_gets_refuted, C40_mmap_refuted, C42_position_refuted, C42_putc_eof_refuted, C42__putc_refuted, C44_slice_partial, C44_slice_refuted, C46_arguments, C46_lost_refuted, C48_branch_refuted, C48_store_refuted, C48_memcpy_refuted, C48_untracked_refuted, C48_atomic_refuted, C48_length_refuted, C48_instrumented_refuted, C49_stack, C54_uid_refuted, C54_opening_refuted, C54_output_eq_refuted, C54_taints_refuted, C55_before, C55_entry, C55_early_branch_refuted, C56_order_refuted, C56_strcmp_refuted, C57_stars_refuted, C57_negative_refuted, C58_getcwd_label, C58_select_refuted, C58_null_refuted, C58_getpwuid_refuted, C59_number_refuted, C60_same_partial, C60_root_partial, C60_mode_refuted, C60_reopen_refuted, C60_openat_refuted, C60_dup_refuted, C60_stream_refuted, C60_append_refuted, C61_traversal, C61_clone, C61_matches, C61_simplify, C61_verify_partial, C61_verify_refuted, C62_combine, C65_suffix_refuted, C67_life_partial, C68_attributes, C68_direct, C68_address, C68_native, C68_vararg_refuted, C69_order_refuted, C69_debug_refuted, C69_lost_refuted, C71_nested, C71_apart, C71_long_refuted, C71_alone_refuted, C72_argument_refuted, C72_value_refuted, C72_halves, C72_order, C72_race_refuted, C73_mutates, C73_verdicts, C74_created, C75_meaning, C75_linker, C78_text, C78_missed_refuted, C78_index_refuted, C78_inputs_refuted, C79_stacks_refuted, C80_variadic_refuted, C80_lost_refuted, C81_same_partial, C81_peek_refuted, C81_recvmsg_refuted, C81_message_refuted, C81_trunc_refuted, C81_progress_refuted, C81_family_refuted, C81_sendto_refuted, C81_address_refuted, C82_same_partial, C82_item_refuted, C82_item_pipe_refuted, C82_ungetc_refuted, C82_ungetc_pipe_refuted, C82_scan_refuted, C82_zero_refuted, C82_adopt_refuted, C82_append_refuted, C82_puts_refuted, C82_putc_refuted, C83_sound_partial, C83_complete_partial, C83_language_partial, C83_norules_refuted, C84_stale_refuted, C84_twin_refuted, C84_graph_refuted, C85_frozen, C85_contract_partial, C85_union_partial, C85_cache_refuted, C85_again_refuted, C85_descendants_refuted, C85_contract_refuted, C85_induced_refuted, C85_union_refuted, C86_buffers, C87_connected_partial, C88_update_partial, C88_operators_refuted, C89_computed, C89_exact, C89_consumed_partial, C89_twice_refuted, C89_second_refuted, C89_untouched_refuted, C89_raises_refuted, C90_next_sound, C90_blocks_sound, C91_exact_partial, C91_input_partial, C91_total_partial, C91_ruleless_refuted, C91_raises_refuted, C91_end_refuted, C91_vars_partial, C91_vars_refuted, C91_names_partial, C91_names_valid, C93_env_refuted, C93_build_time, C94_unique, C94_command, C94_registered, C94_refused_partial, C94_extension_refuted, C94_extension_partial, C94_subcommand_partial, C94_shared_refuted, C97_printed_partial, C97_same

* `propext`: C07_zero_equal, C12_query_refuses, C15_index_outside, C16_all, C16_aligned_refuted, C16_aligned_partial, C17_sizes, C26_injective, C30_path_refuted, C31_unlabelled, C32_empty_refuted, C32_quote_refuted, C32_backslash_refuted, C32_control_refuted, C33_passes, C36_pass, C36_origin_overlap, C37_instruction_refuted, C37_realloc_inplace, C37_realloc_fresh, C38_store_refuted, C55_argv_off, C57_truncated_refuted, C57_empty_refuted, C57_padded_refuted, C57_count_refuted, C57_terminator_refuted, C58_failed_refuted, C59_interrupted_refuted, C64_derives, C67_value_refuted, C67_ctor_refuted, C67_fini_refuted, C68_types, C68_stale_refuted, C68_callback_refuted, C68_moved_refuted, C78_bool_refuted, C81_gone_refuted, C88_operators, C88_memo_partial, C88_memo_frozen, C88_memo_refuted, C90_next_function_refuted, C93_python_refuted, C94_parent, C94_help_refuted, C94_override_refuted, C94_names_partial, C94_names_refuted, C94_status_partial, C94_status_refuted
