{
 "claims": [
  {
   "property": "C01",
   "status": "proved",
   "theorems": [
    "Verif.C01_decode_encode",
    "Verif.C01_encode_injective",
    "Verif.C01_encode_decode",
    "Verif.C01_decode_fatal_iff",
    "Verif.C01_decode_total"
   ],
   "note": ""
  },
  {
   "property": "C02",
   "status": "proved",
   "theorems": [
    "Verif.C02_addCf",
    "Verif.C02_checkCf",
    "Verif.C02_isSource",
    "Verif.C02_addCf_idem",
    "Verif.C02_equalIgnoreCf"
   ],
   "note": ""
  },
  {
   "property": "C03",
   "status": "proved",
   "theorems": [
    "Verif.C03_union_exact",
    "Verif.C03_history",
    "Verif.C03_commutative"
   ],
   "note": ""
  },
  {
   "property": "C04",
   "status": "proved",
   "theorems": [
    "Verif.C04_stable",
    "Verif.C04_words",
    "Verif.C04_union_fresh_or_old",
    "Verif.C04_read_fresh"
   ],
   "note": ""
  },
  {
   "property": "C05",
   "status": "proved",
   "theorems": [
    "Verif.C05_wellFormed",
    "Verif.C05_read_ok",
    "Verif.C05_no_assert",
    "Verif.C05_total",
    "Verif.C05_acyclic"
   ],
   "note": ""
  },
  {
   "property": "C06",
   "status": "partial",
   "theorems": [
    "Verif.C06_reuse_sound",
    "Verif.C06_repeat_partial",
    "Verif.C06_repeat_new_partial",
    "Verif.C06_same_label_refuted",
    "Verif.C06_window_refuted"
   ],
   "note": "Soundness of reuse proved in full. 'Same label as the first time' is false of the code (C06_same_label_refuted, C06_window_refuted); the partial theorems give the exact guarantee that holds."
  },
  {
   "property": "C07",
   "status": "proved",
   "theorems": [
    "Verif.C07_zero_equal",
    "Verif.C07_union_exact",
    "Verif.C07_read_exact",
    "Verif.C07_read_zero_iff",
    "Verif.C07_add_exact",
    "Verif.C07_zero_operand"
   ],
   "note": ""
  },
  {
   "property": "C08",
   "status": "proved",
   "theorems": [
    "Verif.C08_exact",
    "Verif.C08_terminates"
   ],
   "note": ""
  },
  {
   "property": "C09",
   "status": "proved",
   "theorems": [
    "Verif.C09_closed",
    "Verif.C09_builtFrom",
    "Verif.C09_influenced"
   ],
   "note": ""
  },
  {
   "property": "C10",
   "status": "partial",
   "theorems": [
    "Verif.C10_refuted",
    "Verif.C10_bound_partial"
   ],
   "note": "False of the code: C10_refuted gives a reachable store with 6n+8 labels in which marking needs at least 2^(n+1)-1 loop iterations. The partial theorem gives the exponential upper bound."
  },
  {
   "property": "C11",
   "status": "proved",
   "theorems": [
    "Verif.C11_fifo"
   ],
   "note": ""
  },
  {
   "property": "C12",
   "status": "partial",
   "theorems": [
    "Verif.C12_faithful",
    "Verif.C12_reports",
    "Verif.C12_refuses",
    "Verif.C12_query_refuses",
    "Verif.C12_size",
    "Verif.C12_size_bound_partial",
    "Verif.C12_size_refuted",
    "Verif.C12_wrap_refuted"
   ],
   "note": "Not true of the code in general: `size()` can exceed the allocation by a bucket; the capacity check of `set_range` wraps (C12_size_refuted, C12_wrap_refuted). C12_size_bound_partial proves what holds outside these cases; the other theorems hold as stated."
  },
  {
   "property": "C13",
   "status": "proved",
   "theorems": [
    "Verif.C13_exact",
    "Verif.C13_no_double_new",
    "Verif.C13_one_new"
   ],
   "note": ""
  },
  {
   "property": "C14",
   "status": "proved",
   "theorems": [
    "Verif.C14_index",
    "Verif.C14_given",
    "Verif.C14_room"
   ],
   "note": ""
  },
  {
   "property": "C15",
   "status": "proved",
   "theorems": [
    "Verif.C15_refines",
    "Verif.C15_disjoint",
    "Verif.C15_back_to_back",
    "Verif.C15_contents",
    "Verif.C15_index",
    "Verif.C15_range_wrap_refuted",
    "Verif.C15_index_outside"
   ],
   "note": "Not true of the code in general: `construct_range` with a huge count wraps (C15_range_wrap_refuted)."
  },
  {
   "property": "C16",
   "status": "partial",
   "theorems": [
    "Verif.C16_disjoint",
    "Verif.C16_all",
    "Verif.C16_aligned_iff",
    "Verif.C16_aligned_refuted",
    "Verif.C16_aligned_partial",
    "Verif.C16_shipped"
   ],
   "note": "Not true of the code in general: the alignment formula of `do_allocation` does not align in general (it does for the shipped sections) (C16_aligned_refuted). C16_aligned_partial proves what holds outside these cases; the other theorems hold as stated."
  },
  {
   "property": "C17",
   "status": "partial",
   "theorems": [
    "Verif.C17_closed",
    "Verif.C17_sizes",
    "Verif.C17_crash_partial",
    "Verif.C17_running_partial",
    "Verif.C17_running_image",
    "Verif.C17_closing_partial",
    "Verif.C17_closing_refuted"
   ],
   "note": "Not true of the code in general: a crash inside the destructor leaves a file that the reader accepts with some sections empty (C17_closing_refuted). C17_crash_partial, C17_running_partial, C17_closing_partial prove what holds outside these cases; the other theorems hold as stated."
  },
  {
   "property": "C18",
   "status": "proved",
   "theorems": [
    "Verif.C18_lookup",
    "Verif.C18_iterate",
    "Verif.C18_refuse",
    "Verif.C18_increasing"
   ],
   "note": ""
  },
  {
   "property": "C19",
   "status": "partial",
   "theorems": [
    "Verif.C19_attributed_partial",
    "Verif.C19_stable",
    "Verif.C19_untracked",
    "Verif.C19_full_refuted",
    "Verif.C19_closed_refuted",
    "Verif.C19_invalid_fd_refuted"
   ],
   "note": "Not true of the code in general: full source table, `close` does not remove the mapping, descriptor -1 (C19_full_refuted, C19_closed_refuted, C19_invalid_fd_refuted). C19_attributed_partial proves what holds outside these cases; the other theorems hold as stated."
  },
  {
   "property": "C20",
   "status": "partial",
   "theorems": [
    "Verif.C20_read_partial",
    "Verif.C20_stream_partial",
    "Verif.C20_undefined_refuted",
    "Verif.C20_offset_refuted"
   ],
   "note": "Not true of the code in general: zero length or exhausted label space is undefined behaviour; offsets from 2^54 end the program (C20_undefined_refuted, C20_offset_refuted). C20_read_partial, C20_stream_partial prove what holds outside these cases; the other theorems hold as stated."
  },
  {
   "property": "C21",
   "status": "proved",
   "theorems": [
    "Verif.C21_read_offsets",
    "Verif.C21_reads_disjoint",
    "Verif.C21_reads_cover",
    "Verif.C21_write_offsets",
    "Verif.C21_writes_disjoint",
    "Verif.C21_writes_cover",
    "Verif.C21_concurrent"
   ],
   "note": ""
  },
  {
   "property": "C22",
   "status": "partial",
   "theorems": [
    "Verif.C22_log_partial",
    "Verif.C22_write_partial",
    "Verif.C22_write_label_partial",
    "Verif.C22_others",
    "Verif.C22_stable",
    "Verif.C22_full_refuted"
   ],
   "note": "Not true of the code in general: a full sink log silently drops records (C22_full_refuted). C22_log_partial, C22_write_partial, C22_write_label_partial prove what holds outside these cases; the other theorems hold as stated."
  },
  {
   "property": "C23",
   "status": "proved",
   "theorems": [
    "Verif.C23_varint",
    "Verif.C23_five",
    "Verif.C23_iter",
    "Verif.C23_exact",
    "Verif.C23_injective",
    "Verif.C23_written"
   ],
   "note": ""
  },
  {
   "property": "C24",
   "status": "partial",
   "theorems": [
    "Verif.C24_stacks_partial",
    "Verif.C24_stacks",
    "Verif.C24_call_after_exit_refuted",
    "Verif.C24_recursion_refuted",
    "Verif.C24_threads_refuted"
   ],
   "note": "Not true of the code in general: call after exit, recursion, several threads: the reader's call stacks are wrong (C24_call_after_exit_refuted, C24_recursion_refuted, C24_threads_refuted). C24_stacks_partial proves what holds outside these cases; the other theorems hold as stated."
  },
  {
   "property": "C25",
   "status": "proved",
   "theorems": [
    "Verif.C25_index",
    "Verif.C25_same",
    "Verif.C25_enter",
    "Verif.C25_read",
    "Verif.C25_events"
   ],
   "note": ""
  },
  {
   "property": "C26",
   "status": "proved",
   "theorems": [
    "Verif.C26_agree",
    "Verif.C26_roundtrip",
    "Verif.C26_injective",
    "Verif.C26_no_taint",
    "Verif.C26_file"
   ],
   "note": ""
  },
  {
   "property": "C27",
   "status": "proved",
   "theorems": [
    "Verif.C27_node",
    "Verif.C27_bytes",
    "Verif.C27_same",
    "Verif.C27_parents",
    "Verif.C27_acyclic",
    "Verif.C27_nodes",
    "Verif.C27_run"
   ],
   "note": ""
  },
  {
   "property": "C28",
   "status": "proved",
   "theorems": [
    "Verif.C28_mapping",
    "Verif.C28_run"
   ],
   "note": ""
  },
  {
   "property": "C29",
   "status": "partial",
   "theorems": [
    "Verif.C29_exact",
    "Verif.C29_cavities_partial",
    "Verif.C29_distinct",
    "Verif.C29_run",
    "Verif.C29_merge_refuted",
    "Verif.C29_unread_refuted"
   ],
   "note": "Not true of the code in general: arrays of a file opened twice are merged with `zip`, which truncates; unread files are not reported (C29_merge_refuted, C29_unread_refuted). C29_cavities_partial proves what holds outside these cases; the other theorems hold as stated."
  },
  {
   "property": "C30",
   "status": "partial",
   "theorems": [
    "Verif.C30_roundtrip_partial",
    "Verif.C30_plain_names",
    "Verif.C30_names_refuted",
    "Verif.C30_utf8",
    "Verif.C30_path_refuted",
    "Verif.C30_index_refuted"
   ],
   "note": "Not true of the code in general: names that are not UTF-8, path normalisation, name index out of range (C30_names_refuted, C30_path_refuted, C30_index_refuted). C30_roundtrip_partial proves what holds outside these cases; the other theorems hold as stated."
  },
  {
   "property": "C31",
   "status": "partial",
   "theorems": [
    "Verif.C31_value_partial",
    "Verif.C31_unlabelled",
    "Verif.C31_marks",
    "Verif.C31_wide_iff",
    "Verif.C31_wide_refuted",
    "Verif.C31_before_start_refuted",
    "Verif.C31_true_branch_refuted"
   ],
   "note": "Not true of the code in general: conditions wider than 64 bits are truncated; before start-up the inserted call returns 0 (C31_wide_refuted, C31_before_start_refuted, C31_true_branch_refuted). C31_value_partial proves what holds outside these cases; the other theorems hold as stated."
  },
  {
   "property": "C32",
   "status": "partial",
   "theorems": [
    "Verif.C32_ids",
    "Verif.C32_same",
    "Verif.C32_json_partial",
    "Verif.C32_lookup_partial",
    "Verif.C32_empty_refuted",
    "Verif.C32_quote_refuted",
    "Verif.C32_backslash_refuted",
    "Verif.C32_control_refuted"
   ],
   "note": "Not true of the code in general: empty module, unescaped quotes, backslashes and control characters (C32_empty_refuted, C32_quote_refuted, C32_backslash_refuted, C32_control_refuted). C32_json_partial, C32_lookup_partial prove what holds outside these cases; the other theorems hold as stated."
  },
  {
   "property": "C33",
   "status": "partial",
   "theorems": [
    "Verif.C33_exact",
    "Verif.C33_passes",
    "Verif.C33_simple_partial",
    "Verif.C33_main_refuted",
    "Verif.C33_wildcard_refuted",
    "Verif.C33_discard_refuted",
    "Verif.C33_source_refuted",
    "Verif.C33_comment_refuted"
   ],
   "note": "Not true of the code in general: `main`, wildcards, \"discard\" inside a name, `src:` entries, indented comments (C33_*_refuted). C33_simple_partial proves what holds outside these cases; the other theorems hold as stated."
  },
  {
   "property": "C34",
   "status": "proved",
   "theorems": [
    "Verif.C34_exact",
    "Verif.C34_request",
    "Verif.C34_wellformed",
    "Verif.C34_stable",
    "Verif.C34_stops",
    "Verif.C34_progress",
    "Verif.C34_bounded"
   ],
   "note": ""
  },
  {
   "property": "C35",
   "status": "proved",
   "theorems": [
    "Verif.C35_complete",
    "Verif.C35_known",
    "Verif.C35_sound",
    "Verif.C35_monotone",
    "Verif.C35_early_return"
   ],
   "note": ""
  },
  {
   "property": "C36",
   "status": "proved",
   "theorems": [
    "Verif.C36_own_cell",
    "Verif.C36_outside",
    "Verif.C36_pass",
    "Verif.C36_set",
    "Verif.C36_data",
    "Verif.C36_sequence",
    "Verif.C36_top_boundary",
    "Verif.C36_origin_overlap"
   ],
   "note": ""
  },
  {
   "property": "C37",
   "status": "partial",
   "theorems": [
    "Verif.C37_memmove",
    "Verif.C37_memcpy",
    "Verif.C37_instruction",
    "Verif.C37_instruction_refuted",
    "Verif.C37_strcpy",
    "Verif.C37_strncpy_pad",
    "Verif.C37_strncpy_full",
    "Verif.C37_strncpy_refuted",
    "Verif.C37_strdup",
    "Verif.C37_strcat_exact",
    "Verif.C37_strcat_refuted",
    "Verif.C37_strcat_dfsan_partial",
    "Verif.C37_realloc_partial",
    "Verif.C37_realloc_inplace",
    "Verif.C37_realloc_fresh",
    "Verif.C37_realloc_refuted",
    "Verif.C37_realloc_null_refuted"
   ],
   "note": "Not true of the code in general: strcat takes labels from the wrong place, realloc leaves stale labels or dereferences null, strncpy scans unterminated memory, 32-bit memcpy lengths overflow (C37_*_refuted). C37_strcat_dfsan_partial, C37_realloc_partial prove what holds outside these cases; the other theorems hold as stated."
  },
  {
   "property": "C38",
   "status": "partial",
   "theorems": [
    "Verif.C38_bounded",
    "Verif.C38_value",
    "Verif.C38_evicts_partial",
    "Verif.C38_store_refuted",
    "Verif.C38_iterate"
   ],
   "note": "Not true of the code in general: overwriting a key does not refresh its position (C38_store_refuted). C38_evicts_partial proves what holds outside these cases; the other theorems hold as stated."
  },
  {
   "property": "C39",
   "status": "partial",
   "theorems": [
    "Verif.C39_covers",
    "Verif.C39_iterates",
    "Verif.C39_first_partial",
    "Verif.C39_from_source",
    "Verif.C39_others_split",
    "Verif.C39_maximal_refuted",
    "Verif.C39_to_regions_partial",
    "Verif.C39_diff_partial",
    "Verif.C39_shared_uid_refuted",
    "Verif.C39_repeated_refuted"
   ],
   "note": "Not true of the code in general: regions of inputs other than the first are split at every byte; inputs sharing a uid are mixed; repeats (C39_maximal_refuted, C39_shared_uid_refuted, C39_repeated_refuted). C39_first_partial, C39_to_regions_partial, C39_diff_partial prove what holds outside these cases; the other theorems hold as stated."
  },
  {
   "property": "C40",
   "status": "partial",
   "theorems": [
    "Verif.C40_read_partial",
    "Verif.C40_pread_partial",
    "Verif.C40_getdelim_partial",
    "Verif.C40_fread_partial",
    "Verif.C40_fread_overflow",
    "Verif.C40_getc_partial",
    "Verif.C40_fgets_partial",
    "Verif.C40_mmap_partial",
    "Verif.C40_munmap",
    "Verif.C40_position_refuted",
    "Verif.C40_recv_refuted",
    "Verif.C40_fgets_zero_refuted",
    "Verif.C40_fgets_empty_refuted",
    "Verif.C40_gets_refuted",
    "Verif.C40_mmap_refuted"
   ],
   "note": "Not true of the code in general: position from 2^54 on, recv with MSG_TRUNC, fgets of size 0/1 and of an empty line, gets reading 7 bytes, anonymous mmap labelled as a file (C40_*_refuted). C40_read_partial, C40_pread_partial, C40_getdelim_partial, C40_fread_partial, C40_getc_partial, C40_fgets_partial, C40_mmap_partial prove what holds outside these cases; the other theorems hold as stated."
  },
  {
   "property": "C41",
   "status": "proved",
   "theorems": [
    "Verif.C41_chunks",
    "Verif.C41_sources"
   ],
   "note": ""
  },
  {
   "property": "C42",
   "status": "partial",
   "theorems": [
    "Verif.C42_write_partial",
    "Verif.C42_fwrite_partial",
    "Verif.C42_putc_partial",
    "Verif.C42_position_refuted",
    "Verif.C42_putc_refuted",
    "Verif.C42_putc_eof_refuted",
    "Verif.C42__putc_refuted"
   ],
   "note": "Not true of the code in general: putc of values outside a byte, failing putc is logged, `_putc` is never logged (C42_*_refuted). C42_write_partial, C42_fwrite_partial, C42_putc_partial prove what holds outside these cases; the other theorems hold as stated."
  },
  {
   "property": "C43",
   "status": "partial",
   "theorems": [
    "Verif.C43_memset_partial",
    "Verif.C43_instruction",
    "Verif.C43_memset_aligned",
    "Verif.C43_memset_refuted"
   ],
   "note": "Not true of the code in general: aligned `internal_memset` of negative values (C43_memset_refuted). C43_memset_partial proves what holds outside these cases; the other theorems hold as stated."
  },
  {
   "property": "C44",
   "status": "partial",
   "theorems": [
    "Verif.C44_first_partial",
    "Verif.C44_contains_sound",
    "Verif.C44_contains_from_source",
    "Verif.C44_contains_byte",
    "Verif.C44_slice_partial",
    "Verif.C44_slice_refuted",
    "Verif.C44_repeats_refuted",
    "Verif.C44_contains_exact",
    "Verif.C44_contains_refuted"
   ],
   "note": "Not true of the code in general: `find` yields its first match for ever, slices past the end (C44_repeats_refuted, C44_slice_refuted, C44_contains_refuted). C44_first_partial, C44_slice_partial prove what holds outside these cases; the other theorems hold as stated."
  },
  {
   "property": "C45",
   "status": "proved",
   "theorems": [
    "Verif.C45_load",
    "Verif.C45_load_uniform",
    "Verif.C45_load_instruction",
    "Verif.C45_store",
    "Verif.C45_store_data",
    "Verif.C45_store_load",
    "Verif.C45_load_tainted_iff"
   ],
   "note": ""
  },
  {
   "property": "C46",
   "status": "proved",
   "theorems": [
    "Verif.C46.C46_arguments",
    "Verif.C46.C46_lost_refuted"
   ],
   "note": "Exact for the first 200 arguments for every arity; the claim for later arguments is false of the code (C46_lost_refuted: the 201st argument arrives with label 0)."
  },
  {
   "property": "C47",
   "status": "proved",
   "theorems": [
    "Verif.C47.C47_running",
    "Verif.C47.C47_finished",
    "Verif.C47.C47_values"
   ],
   "note": "Proved for every program of the small SSA language in Spec/Ir.lean (32-bit shadows, legacy labels, TLS ABI, no origins, at most 200 parameters; input by getc and read with end of file and short reads, output by putc and write with short writes). The dominator tree is a parameter assumed to claim nothing wrong."
  },
  {
   "property": "C48",
   "status": "proved",
   "theorems": [
    "Verif.C48.C48_output",
    "Verif.C48.C48_bytes",
    "Verif.C48.C48_labels",
    "Verif.C48.C48_branch_refuted",
    "Verif.C48.C48_store_refuted",
    "Verif.C48.C48_memcpy_refuted",
    "Verif.C48.C48_untracked_refuted",
    "Verif.C48.C48_atomic_refuted",
    "Verif.C48.C48_length_refuted",
    "Verif.C48.C48_instrumented_refuted"
   ],
   "note": "Proved with the stated conditions; the refuted theorems show that none of branch, store address, untracked code, atomic instructions and equal input length can be dropped."
  },
  {
   "property": "C49",
   "status": "proved",
   "theorems": [
    "Verif.C49.C49_running",
    "Verif.C49.C49_finished",
    "Verif.C49.C49_stuck",
    "Verif.C49.C49_nothing_added",
    "Verif.C49.C49_stack"
   ],
   "note": "Proved for the small SSA language, for a run that starts in any function. Assumes no jump to an entry block (LLVM verifier). Returns are reported at ReturnInst only, as in the code: functions left by unwinding or exit are not reported. The ReadNone attribute on the report function is not modelled."
  },
  {
   "property": "C50",
   "status": "proved",
   "theorems": [
    "Verif.C50.C50_finished",
    "Verif.C50.C50_running"
   ],
   "note": "Composition of C23, C47 and C49 for the small SSA language. The two ways out are the label space (C47.Does) and a log section too small for the entries."
  },
  {
   "property": "C51",
   "status": "proved",
   "theorems": [
    "Verif.C51.C51_finished",
    "Verif.C51.C51_running"
   ],
   "note": "Composition of C09, C47 and C49 for the small SSA language. The way out is the label space (C47.Does). Implicit flows are not decisions of the value's own label (C48)."
  },
  {
   "property": "C52",
   "status": "proved",
   "theorems": [
    "Verif.C52.C52_mapping",
    "Verif.C52.C52_cavities_any",
    "Verif.C52.C52_cavities"
   ],
   "note": "End-to-end composition for the small SSA language. The linked program reads and writes one stream each (getc, read, putc, write; unbuffered); the outputs are bytes (otherwise C42_putc_refuted applies) and the sink log has room (otherwise C22_full_refuted)."
  },
  {
   "property": "C53",
   "status": "proved",
   "theorems": [
    "Verif.C53.C53_choice",
    "Verif.C53.C53_pipeline",
    "Verif.C53.C53_fresh"
   ],
   "note": "Both report-inserting passes composed as polytracker build does (pt-tcf before pt-taint before pt-dfsan); the optimiser run between them (opt -O3) is not modelled. Restrictions of C52 apply."
  },
  {
   "property": "C54",
   "status": "proved",
   "theorems": [
    "Verif.C54.C54_inputs",
    "Verif.C54.C54_outputs",
    "Verif.C54.C54_affecting",
    "Verif.C54.C54_pipeline_any",
    "Verif.C54.C54_pipeline",
    "Verif.C54.C54_uid_refuted",
    "Verif.C54.C54_opening_refuted",
    "Verif.C54.C54_output_eq_refuted",
    "Verif.C54.C54_taints_refuted",
    "Verif.C54.C54_taints_node_refuted"
   ],
   "note": "Also proved: what the documentation of Input promises beyond this is false (uid unique per trace, size the number of bytes read: C54_uid_refuted), two openings of one path on one descriptor cannot be told apart (C54_opening_refuted), and TaintOutput equality compares the offset only (C54_output_eq_refuted). ProgramTrace.taints, the query for the bytes of given nodes, is empty for all nodes (C54_taints_refuted, C54_taints_node_refuted). Methods of TDProgramTrace that only raise NotImplementedError are left out."
  },
  {
   "property": "C55",
   "status": "partial",
   "theorems": [
    "Verif.C55_settings",
    "Verif.C55_streams",
    "Verif.C55_names",
    "Verif.C55_argv_off",
    "Verif.C55_argv_partial",
    "Verif.C55_empty_refuted",
    "Verif.C55_full_refuted",
    "Verif.C55_flag_refuted",
    "Verif.C55_before",
    "Verif.C55_entry",
    "Verif.C55_early_branch_refuted"
   ],
   "note": "C55_argv_partial needs non-empty arguments and room in the source, string and label tables. The rest is false: an empty argument is undefined behaviour (C55_empty_refuted, for all histories), with a full source table arguments stay untainted silently (C55_full_refuted). POLYTRACKER_TAINT_ARGV is tested by its first character only (C55_flag_refuted). Before start-up the control-flow report returns 0 in place of the condition (C55_early_branch_refuted)."
  },
  {
   "property": "C56",
   "status": "partial",
   "theorems": [
    "Verif.C56_memcmp",
    "Verif.C56_strcmp",
    "Verif.C56_strcasecmp",
    "Verif.C56_strncmp",
    "Verif.C56_strncasecmp",
    "Verif.C56_order_partial",
    "Verif.C56_order_refuted",
    "Verif.C56_strcmp_refuted",
    "Verif.C56_strlen",
    "Verif.C56_strchr_partial",
    "Verif.C56_strchr_refuted",
    "Verif.C56_memchr",
    "Verif.C56_strrchr",
    "Verif.C56_strstr",
    "Verif.C56_strpbrk",
    "Verif.C56_strtol",
    "Verif.C56_strtod",
    "Verif.C56_endptr_refuted"
   ],
   "note": "Labels are exact for all functions. Values: comparisons are exact in the order of signed characters, which is the order of the C standard only if the pair that differs is on the same side of 0x80 (C56_order_partial); otherwise the sign is wrong (C56_order_refuted, C56_strcmp_refuted). strchr is right for a character argument in the range of char (C56_strchr_partial) and finds nothing otherwise (C56_strchr_refuted, which also shows that its null result is labelled, unlike the other searches). The pointer stored through endptr keeps the stale label of its cell (C56_endptr_refuted). The library's number parsing is not modelled: end and value are parameters."
  },
  {
   "property": "C57",
   "status": "partial",
   "theorems": [
    "Verif.C57_text_partial",
    "Verif.C57_labels_partial",
    "Verif.C57_sprintf_partial",
    "Verif.C57_count_partial",
    "Verif.C57_truncated_refuted",
    "Verif.C57_empty_refuted",
    "Verif.C57_padded_refuted",
    "Verif.C57_stars_refuted",
    "Verif.C57_negative_refuted",
    "Verif.C57_count_refuted",
    "Verif.C57_terminator_refuted",
    "Verif.C57_error_refuted"
   ],
   "note": "Text for every buffer size, labels when the text fits, for formats with at least one item, at most one * per item and no negative *. False otherwise: a truncated text labels the wrong number of bytes, also behind the buffer (C57_truncated_refuted); an empty format stores no terminator (C57_empty_refuted); padding shifts the labels of %s (C57_padded_refuted); of two * arguments the first is lost, a negative one is not passed on (C57_stars_refuted, C57_negative_refuted); %n clears eight labels for four bytes (C57_count_refuted); the terminator keeps a stale label (C57_terminator_refuted); the label of a negative result is not stored (C57_error_refuted)."
  },
  {
   "property": "C58",
   "status": "partial",
   "theorems": [
    "Verif.C58_written_partial",
    "Verif.C58_ctime",
    "Verif.C58_localtime",
    "Verif.C58_inet_pton",
    "Verif.C58_getcwd_label",
    "Verif.C58_select_refuted",
    "Verif.C58_null_refuted",
    "Verif.C58_getpwuid_refuted",
    "Verif.C58_failed_refuted"
   ],
   "note": "Proved for every call except: select and nanosleep with a null timeout or rem, and a failed calloc, crash (C58_select_refuted, C58_null_refuted); getpwuid_r keeps stale labels on all strings but the first (C58_getpwuid_refuted); failed select and nanosleep drop labels of memory they did not write (C58_failed_refuted)."
  },
  {
   "property": "C59",
   "status": "partial",
   "theorems": [
    "Verif.C59_sigaction_partial",
    "Verif.C59_return",
    "Verif.C59_memory",
    "Verif.C59_number_refuted",
    "Verif.C59_signal_refuted",
    "Verif.C59_race_refuted",
    "Verif.C59_interrupted_refuted"
   ],
   "note": "Proved for signal numbers 0 to 1023, handlers of the program, and calls that are not overlapped by a signal in another thread. False otherwise: a negative number accesses the table out of bounds and one of 1024 or more stops the program (C59_number_refuted); signal is not wrapped and returns the runtime's function, reinstalling it recurses without end (C59_signal_refuted); a signal in another thread during a call calls the new handler with the arguments of the old kind (C59_race_refuted); a handler erases argument labels of the code it interrupts (C59_interrupted_refuted)."
  },
  {
   "property": "C60",
   "status": "partial",
   "theorems": [
    "Verif.C60_read_partial",
    "Verif.C60_pread",
    "Verif.C60_write_partial",
    "Verif.C60_same_partial",
    "Verif.C60_root_partial",
    "Verif.C60_mode_refuted",
    "Verif.C60_reopen_refuted",
    "Verif.C60_openat_refuted",
    "Verif.C60_dup_refuted",
    "Verif.C60_stream_refuted",
    "Verif.C60_append_refuted"
   ],
   "note": "Proved for descriptors from open (streams: not duplicated; writes: without O_APPEND) as long as tables and numbers have room, and for programs that create no files or for which permissions are not checked. False otherwise: the mode given to open is replaced by the address of the argument list (C60_mode_refuted, C60_reopen_refuted); openat and dup are not tracked, and on a reused number the bytes are attributed to the file opened before (C60_openat_refuted, C60_dup_refuted); the position in a stream read through a duplicate is wrong (C60_stream_refuted); with O_APPEND the recorded positions are wrong (C60_append_refuted)."
  },
  {
   "property": "C61",
   "status": "partial",
   "theorems": [
    "Verif.C61_traversal",
    "Verif.C61_clone",
    "Verif.C61_matches",
    "Verif.C61_simplify",
    "Verif.C61_verify_partial",
    "Verif.C61_verify_refuted"
   ],
   "note": "False for verify: it does not notice bytes of the string that are left over (C61_verify_refuted); proved is that it returns exactly if the tree matches a beginning of the string (C61_verify_partial). The check of byte offsets inside verify (verify_bounds) is not modelled."
  },
  {
   "property": "C62",
   "status": "proved",
   "theorems": [
    "Verif.C62_extract",
    "Verif.C62_rules",
    "Verif.C62_combine",
    "Verif.C62_sound"
   ],
   "note": ""
  },
  {
   "property": "C63",
   "status": "partial",
   "theorems": [
    "Verif.C63_total",
    "Verif.C63_inline_partial",
    "Verif.C63_simplify_partial",
    "Verif.C63_simplify_refuted",
    "Verif.C63_modified_refuted"
   ],
   "note": "False: rules keep their has_terminals when names in them are replaced by terminals, so simplify removes productions that derive something; for the input acb the grammar then derives c and not acb (C63_simplify_refuted). It also returns False although it removed rules (C63_modified_refuted). Proved: no exception and consistent tables (C63_total), the first part keeps all languages (C63_inline_partial), and all of it does if every production with two different rules has terminals in each (C63_simplify_partial)."
  },
  {
   "property": "C64",
   "status": "partial",
   "theorems": [
    "Verif.C64_answers_partial",
    "Verif.C64_derives",
    "Verif.C64_replace_refuted",
    "Verif.C64_add_refuted"
   ],
   "note": "False after changes: has_terminals of a rule is not computed again when names in it are replaced (C64_replace_refuted), and a remembered answer stays when a rule is added (C64_add_refuted). Proved for grammars as extracted and any sequence of questions (C64_answers_partial)."
  },
  {
   "property": "C65",
   "status": "partial",
   "theorems": [
    "Verif.C65_exact_partial",
    "Verif.C65_own_refuted",
    "Verif.C65_empty_refuted",
    "Verif.C65_runtime_refuted",
    "Verif.C65_suffix_refuted",
    "Verif.C65_str_refuted"
   ],
   "note": "False. Productions with the same rules count as equal, so a grammar can fail to match its own input (C65_own_refuted). A production without terminals completes the production that asked for it: the grammar of idle() a matches the empty sentence and not a (C65_empty_refuted). With an empty alternative match raises RuntimeError (C65_runtime_refuted). If the start is used in rules, suffixes are accepted: (x for S ::= (S) | x (C65_suffix_refuted). For str sentences that are not ASCII it raises IndexError (C65_str_refuted). Proved: exact for trees in which every node has read something and no two productions have the same rules (C65_exact_partial)."
  },
  {
   "property": "C66",
   "status": "proved",
   "theorems": [
    "Verif.C66.C66_mapping",
    "Verif.C66.C66_process",
    "Verif.C66.C66_pipeline"
   ],
   "note": "Composition of C52, C53 and C55 for the small SSA language. That the labels in shadow memory are those the tracker wrote is the link between the two models of memory (After; such a memory always exists). Arguments are non-empty (C55_empty_refuted); restrictions of C52 apply."
  },
  {
   "property": "C67",
   "status": "partial",
   "theorems": [
    "Verif.C67.C67_life_partial",
    "Verif.C67.C67_value_refuted",
    "Verif.C67.C67_ctor_refuted",
    "Verif.C67.C67_fini_refuted"
   ],
   "note": "Proved if constructors of the program have a priority above 0 and functions in .fini_array do not use the runtime; false without (C67_value_refuted, C67_ctor_refuted, C67_fini_refuted). One thread; the C runtime's order of constructors and handlers is the environment."
  },
  {
   "property": "C68",
   "status": "proved",
   "theorems": [
    "Verif.C68.C68_types",
    "Verif.C68.C68_attributes",
    "Verif.C68.C68_direct",
    "Verif.C68.C68_address",
    "Verif.C68.C68_native",
    "Verif.C68.C68_stale_refuted",
    "Verif.C68.C68_callback_refuted",
    "Verif.C68.C68_moved_refuted",
    "Verif.C68.C68_vararg_refuted"
   ],
   "note": "Exact for wrappers that store the label of the result; a wrapper that does not leaves a stale one (C68_stale_refuted). False for functions of the program called back by code that is not instrumented (C68_callback_refuted), for memory changed by such code (C68_moved_refuted) and for functions with variable arguments called by address, which stop the process (C68_vararg_refuted). Legacy labels, TLS ABI, no invoke."
  },
  {
   "property": "C69",
   "status": "partial",
   "theorems": [
    "Verif.C69.C69_blocks",
    "Verif.C69.C69_reads",
    "Verif.C69.C69_inorder_partial",
    "Verif.C69.C69_order_refuted",
    "Verif.C69.C69_debug_refuted",
    "Verif.C69.C69_lost_refuted",
    "Verif.C69.C69_rob_refuted"
   ],
   "note": "That a returned tree reads the whole input, and that its blocks were executed, is proved for all traces; that a tree is returned and complete only for bytes used in order, and it is false otherwise: the function raises (C69_order_refuted), drops a block although no other used its byte (C69_lost_refuted), and under python -O returns a tree that does not read the input (C69_debug_refuted). No node is ever robbed by its parent (C69_rob_refuted)."
  },
  {
   "property": "C70",
   "status": "proved",
   "theorems": [
    "Verif.C70_graph",
    "Verif.C70_paths",
    "Verif.C70_roots",
    "Verif.C70_bytes",
    "Verif.C70_acyclic",
    "Verif.C70_size",
    "Verif.C70_dot",
    "Verif.C70_run"
   ],
   "note": ""
  },
  {
   "property": "C71",
   "status": "partial",
   "theorems": [
    "Verif.C71.C71_nested",
    "Verif.C71.C71_trace_partial",
    "Verif.C71.C71_finished_partial",
    "Verif.C71.C71_apart",
    "Verif.C71.C71_long_refuted",
    "Verif.C71.C71_alone_refuted"
   ],
   "note": "Names of 65536 bytes or more are cut (C71_long_refuted). With function tracing alone no tracker is ever constructed, so nothing is logged (C71_alone_refuted). Functions left by exit, longjmp or an exception are not in the language."
  },
  {
   "property": "C72",
   "status": "partial",
   "theorems": [
    "Verif.C72.C72_schedule_partial",
    "Verif.C72.C72_possible",
    "Verif.C72.C72_log_partial",
    "Verif.C72.C72_argument_refuted",
    "Verif.C72.C72_value_refuted",
    "Verif.C72.C72_halves",
    "Verif.C72.C72_order",
    "Verif.C72.C72_race_refuted",
    "Verif.C72.C72_log_refuted"
   ],
   "note": "The label of the argument of a new thread and of its value is dropped (C72_argument_refuted, C72_value_refuted), so C72_schedule_partial asks for untainted arguments and for values collected into memory of the same taint. The control-flow log has no thread in it, and Python fails on interleaved calls (C72_log_refuted); C72_log_partial says what is in the log. An instruction and the code inserted for it are one step in these theorems. ThreadsHalf has them as two steps (C72_halves: with nothing in between they are one step of the other model); with another thread in between, a race of two stores leaves a byte with the label of another byte (C72_race_refuted)."
  },
  {
   "property": "C73",
   "status": "partial",
   "theorems": [
    "Verif.C73.C73_output",
    "Verif.C73.C73_read_back_partial",
    "Verif.C73.C73_comma_refuted",
    "Verif.C73.C73_quote_refuted",
    "Verif.C73.C73_directory_refuted",
    "Verif.C73.C73_mutates",
    "Verif.C73.C73_verdicts",
    "Verif.C73.C73_verified_partial",
    "Verif.C73.C73_end_refuted",
    "Verif.C73.C73_failed_refuted",
    "Verif.C73.C73_single_partial",
    "Verif.C73.C73_eof_refuted",
    "Verif.C73.C73_no_output_refuted"
   ],
   "note": "C73_output is the claim about cavities (end to end, from C52 and C48_bytes). The tools are partial: C73_read_back_partial asks for plain paths, C73_verified_partial for ranges inside cavities, C73_single_partial for ranges inside the file and programs that leave an output. The refuted theorems show that the shipped combination meets these conditions only for cavities at the end of files without a directory in their path."
  },
  {
   "property": "C74",
   "status": "partial",
   "theorems": [
    "Verif.C74_events",
    "Verif.C74_mapped_partial",
    "Verif.C74_untracked",
    "Verif.C74_unmapped",
    "Verif.C74_created",
    "Verif.C74_mmap64_refuted",
    "Verif.C74_tail_refuted",
    "Verif.C74_failed_refuted",
    "Verif.C74_mremap_refuted",
    "Verif.C74_created_refuted"
   ],
   "note": "C74_events is the byte-level claim; C74_mapped_partial the call of mmap (partial: mmap64 and mappings longer than the file are excluded by the refuted theorems; anonymous mappings see C40_mmap_refuted); C74_untracked and C74_unmapped the other calls."
  },
  {
   "property": "C75",
   "status": "partial",
   "theorems": [
    "Verif.C75_meaning",
    "Verif.C75_uses_partial",
    "Verif.C75_native",
    "Verif.C75_linker",
    "Verif.C75_source_refuted",
    "Verif.C75_unlisted_refuted",
    "Verif.C75_vararg_refuted",
    "Verif.C75_declared_refuted",
    "Verif.C75_alias_refuted"
   ],
   "note": "C75_uses_partial is partial because the claim is false without the conditions on the list (C75_*_refuted, one for each). C75_native is about calls from code that is not instrumented; C75_linker shows that the hypothesis about linkers can be met."
  },
  {
   "property": "C76",
   "status": "partial",
   "theorems": [
    "Verif.C76_group",
    "Verif.C76_listed",
    "Verif.C76_wrapper_partial",
    "Verif.C76_late_refuted",
    "Verif.C76_missing_refuted",
    "Verif.C76_unused_refuted"
   ],
   "note": "C76_wrapper_partial is about references of the program itself, since the claim is false for references of libraries (C76_late_refuted). C76_missing_refuted and C76_unused_refuted hold for all programs: functions without a wrapper, wrappers without a list entry. The tables of the list and of the wrappers were read from the files by a script."
  },
  {
   "property": "C77",
   "status": "partial",
   "theorems": [
    "Verif.C77_targets_partial",
    "Verif.C77_succeeds",
    "Verif.C77_again",
    "Verif.C77_command_partial",
    "Verif.C77_versions_refuted",
    "Verif.C77_bitcode_refuted",
    "Verif.C77_ids_refuted",
    "Verif.C77_joined_refuted",
    "Verif.C77_value_refuted"
   ],
   "note": "C77_targets_partial and C77_command_partial are partial because the claims are false without their conditions on names and command lines (C77_*_refuted). C77_succeeds and C77_again are under the same conditions on names."
  },
  {
   "property": "C78",
   "status": "partial",
   "theorems": [
    "Verif.Py.C78_context",
    "Verif.Py.C78_text",
    "Verif.Py.C78_additional_refuted",
    "Verif.Py.C78_chunks_partial",
    "Verif.Py.C78_missed_refuted",
    "Verif.Py.C78_same",
    "Verif.Py.C78_functions_partial",
    "Verif.Py.C78_index_refuted",
    "Verif.Py.C78_bool_refuted",
    "Verif.Py.C78_picture",
    "Verif.Py.C78_image_partial",
    "Verif.Py.C78_inputs_refuted"
   ],
   "note": "C78_chunks_partial: bytes that hang together with bytes of the other trace are not reported (C78_missed_refuted). C78_functions_partial is for traces of one build (C78_index_refuted). C78_image_partial is for one of the inputs (C78_inputs_refuted)."
  },
  {
   "property": "C79",
   "status": "partial",
   "theorems": [
    "Verif.C79.C79_exceptions",
    "Verif.C79.C79_stacks_partial",
    "Verif.C79.C79_uncaught",
    "Verif.C79.C79_stacks_refuted"
   ],
   "note": "C79_stacks_partial: the reports must follow a stack; an exception that leaves a function that has reported its entry makes the stacks wrong (C79_stacks_refuted)."
  },
  {
   "property": "C80",
   "status": "partial",
   "theorems": [
    "Verif.C80.C80_blind",
    "Verif.C80.C80_foreign_partial",
    "Verif.C80.C80_variadic_refuted",
    "Verif.C80.C80_lost_refuted"
   ],
   "note": "C80_blind is proved for all writes; C80_foreign_partial needs the origins to agree with the labels in place: the taint of variable arguments of instrumented functions is lost (C80_lost_refuted) and replaced by stale taint of the stack (C80_variadic_refuted)."
  },
  {
   "property": "C81",
   "status": "partial",
   "theorems": [
    "Verif.C81_names",
    "Verif.C81_name",
    "Verif.C81_same_partial",
    "Verif.C81_recv_partial",
    "Verif.C81_send_partial",
    "Verif.C81_gone_refuted",
    "Verif.C81_peek_refuted",
    "Verif.C81_recvmsg_refuted",
    "Verif.C81_message_refuted",
    "Verif.C81_trunc_refuted",
    "Verif.C81_progress_refuted",
    "Verif.C81_family_refuted",
    "Verif.C81_sendto_refuted",
    "Verif.C81_address_refuted"
   ],
   "note": "Names are proved right and different for all endpoints. Receiving and sending are proved for connections over IPv4 that were complete on return, as long as bytes are taken without flags and not by recvmsg and sent only by send and write; each of these conditions is needed (refutations). C81_same_partial covers programs that are not stopped; accepting a connection whose other side is gone stops the program (C81_gone_refuted)."
  },
  {
   "property": "C82",
   "status": "partial",
   "theorems": [
    "Verif.C82_same_partial",
    "Verif.C82_fread_partial",
    "Verif.C82_getc_partial",
    "Verif.C82_fgets_partial",
    "Verif.C82_fwrite_partial",
    "Verif.C82_putc_partial",
    "Verif.C82_item_refuted",
    "Verif.C82_item_pipe_refuted",
    "Verif.C82_ungetc_refuted",
    "Verif.C82_ungetc_pipe_refuted",
    "Verif.C82_scan_refuted",
    "Verif.C82_zero_refuted",
    "Verif.C82_adopt_refuted",
    "Verif.C82_append_refuted",
    "Verif.C82_puts_refuted",
    "Verif.C82_putc_refuted"
   ],
   "note": "Reading is proved for streams from fopen with nothing pushed back, on pipes as long as bytes were taken only in whole items, by getc, or in lines without zero bytes. Writing is proved for streams that do not append, on pipes as long as only fwrite and putc of characters in 0..255 were used. Each of these conditions is needed (refutations). C82_same_partial covers programs that are not stopped."
  },
  {
   "property": "C83",
   "status": "partial",
   "theorems": [
    "Verif.C83_sound_partial",
    "Verif.C83_complete_partial",
    "Verif.C83_once_partial",
    "Verif.C83_language_partial",
    "Verif.C83_ends_partial",
    "Verif.C83_endless",
    "Verif.C83_extracted_partial",
    "Verif.C83_fragment_refuted",
    "Verif.C83_rest_refuted",
    "Verif.C83_empty_refuted",
    "Verif.C83_whole_refuted",
    "Verif.C83_ends_refuted",
    "Verif.C83_norules_refuted"
   ],
   "note": "For sentences that are not empty and grammars in which every production has a rule the enumerated matches are exactly the complete trees of proper beginnings and the trees cut off behind the last terminal, each once. The enumeration ends if no name calls itself at the left, and C83_endless shows that otherwise it does not. False in general: fragments that end within a terminal, the empty sentence, symbols left by inner matches, left recursion, productions without rules."
  },
  {
   "property": "C84",
   "status": "partial",
   "theorems": [
    "Verif.C84_table",
    "Verif.C84_errors",
    "Verif.C84_connected_partial",
    "Verif.C84_extracted_partial",
    "Verif.C84_simplified_partial",
    "Verif.C84_leaf_refuted",
    "Verif.C84_stale_refuted",
    "Verif.C84_twin_refuted",
    "Verif.C84_graph_refuted"
   ],
   "note": "The test of the table is characterised for all grammars (C84_table, C84_errors), except that entries for uses that are not there are not noticed. The test of connections is characterised for grammars without such entries. Grammars from parse_tree_to_grammar are accepted unless <START> uses no name. False in general: stale entries, productions with the same rules, a start without edges, the nodes of the graph."
  },
  {
   "property": "C85",
   "status": "partial",
   "theorems": [
    "Verif.C85_answers_partial",
    "Verif.C85_frozen",
    "Verif.C85_dominators_partial",
    "Verif.C85_induced_partial",
    "Verif.C85_contract_partial",
    "Verif.C85_contract_raises",
    "Verif.C85_union_partial",
    "Verif.C85_dot",
    "Verif.C85_cache_refuted",
    "Verif.C85_again_refuted",
    "Verif.C85_descendants_refuted",
    "Verif.C85_contract_refuted",
    "Verif.C85_induced_refuted",
    "Verif.C85_union_refuted",
    "Verif.C85_forest_refuted"
   ],
   "note": "A graph that is built first and asked afterwards gives the right answers, however often it is asked (C85_answers_partial); with one root the dominator forest is a tree of immediate dominators and its ancestors are the strict dominators in order (C85_dominators_partial); to_dot is right (C85_dot). False: answers after changes (C85_frozen shows that lengths never change once asked), descendants, contract, vertex_induced_subgraph, unions of graphs with isolated nodes, dominators for several roots. For the last four the theorems say what is computed instead, contract only for graphs without anything to merge and for callbacks that make new nodes (always an exception)."
  },
  {
   "property": "C86",
   "status": "proved",
   "theorems": [
    "Verif.C86_exact",
    "Verif.C86_views",
    "Verif.C86_marks",
    "Verif.C86_memory",
    "Verif.C86_stops",
    "Verif.C86_progress",
    "Verif.C86_stale_exact",
    "Verif.C86_stale_marks",
    "Verif.C86_refines",
    "Verif.C86_buffers"
   ],
   "note": "C86_exact, C86_views, C86_marks, C86_memory, C86_stops and C86_progress are for x86-TSO, C86_stale_exact and C86_stale_marks for the machine with arbitrary old values; C86_refines says that the first is a case of the second. C86_buffers shows that the flags can be incomplete in memory while stores are waiting. Words are read and written as a whole, and the compiler is assumed not to reorder or invent accesses beyond that."
  },
  {
   "property": "C87",
   "status": "partial",
   "theorems": [
    "Verif.C87_loop_computed",
    "Verif.C87_loop_partial",
    "Verif.C87_conditional",
    "Verif.C87_connected_partial",
    "Verif.C87_diff_computed",
    "Verif.C87_diff_partial",
    "Verif.C87_branch_refuted",
    "Verif.C87_header_refuted",
    "Verif.C87_rootless_refuted",
    "Verif.C87_connected_refuted",
    "Verif.C87_diff_refuted",
    "Verif.C87_single_refuted"
   ],
   "note": "C87_loop_computed says what is_loop_entry computes for every graph with one entry block, C87_loop_partial that it is right for loops whose header has one predecessor outside; C87_conditional says what is_conditional computes; C87_connected_partial is for graphs without cycles; C87_diff_computed says what ControlFlowDiff computes, C87_diff_partial that it is right if the two chains of dominators have the same names. The refutations are joins said to be loop entries, headers with two entries said not to be, an exception without entry block, cycles, and a function that dominates in both traces but is missed."
  },
  {
   "property": "C88",
   "status": "partial",
   "theorems": [
    "Verif.C88_new",
    "Verif.C88_update_partial",
    "Verif.C88_operators",
    "Verif.C88_operators_refuted",
    "Verif.C88_memo_partial",
    "Verif.C88_memo_frozen",
    "Verif.C88_memo_refuted"
   ],
   "note": "C88_new and C88_update_partial: construction, add, discard, pop and the assigning |, -, ^ are right. C88_operators: the operators &, |, -, ^ always give a set with one generator object and `&=` changes nothing. C88_memo_partial: functions without arguments and exceptions; C88_memo_frozen says what happens in general: the first call decides, an exception becomes None."
  },
  {
   "property": "C89",
   "status": "partial",
   "theorems": [
    "Verif.C89_computed",
    "Verif.C89_exact",
    "Verif.C89_consumed_partial",
    "Verif.C89_verified",
    "Verif.C89_twice_refuted",
    "Verif.C89_second_refuted",
    "Verif.C89_untouched_refuted",
    "Verif.C89_raises_refuted"
   ],
   "note": "C89_verified holds for every grammar that comes out. C89_computed gives, for traces whose functions all touch taint, a string that is in the language, and C89_exact that nothing else is if no name repeats; it differs from the bytes consumed: what follows a call comes twice, and of several calls in a block only the first counts. C89_consumed_partial: right if functions consume nothing after a call. With functions that touch no taint the language can be empty or an exception is raised."
  },
  {
   "property": "C90",
   "status": "partial",
   "theorems": [
    "Verif.C90.C90_next_sound",
    "Verif.C90.C90_next_partial",
    "Verif.C90.C90_blocks_sound",
    "Verif.C90.C90_blocks_partial",
    "Verif.C90.C90_calls",
    "Verif.C90.C90_count",
    "Verif.C90.C90_caller_partial",
    "Verif.C90.C90_next_refuted",
    "Verif.C90.C90_blocks_refuted",
    "Verif.C90.C90_iter_refuted",
    "Verif.C90.C90_caller_refuted",
    "Verif.C90.C90_next_function_refuted"
   ],
   "note": "C90_calls and C90_count hold in full. C90_next_sound: what is answered is right; C90_next_partial: None is right if no indirect or uninstrumented call follows. C90_blocks_sound: nothing wrong is yielded, and no exception; C90_blocks_partial: everything is, if the invocation begins with a block and has no such calls. C90_caller_partial: right if the calling invocation has entered a block. next_function_entry is wrong for every function that has returned. function_entry and function_return are abstract in the code and given by contract."
  },
  {
   "property": "C91",
   "status": "partial",
   "theorems": [
    "Verif.C91.C91_exact_partial",
    "Verif.C91.C91_input_partial",
    "Verif.C91.C91_total_partial",
    "Verif.C91.C91_ruleless_refuted",
    "Verif.C91.C91_raises_refuted",
    "Verif.C91.C91_end_refuted",
    "Verif.C91.C91_vars_partial",
    "Verif.C91.C91_vars_refuted",
    "Verif.C91.C91_names_partial",
    "Verif.C91.C91_names_valid",
    "Verif.C91.C91_names_refuted"
   ],
   "note": "C91_exact_partial and C91_input_partial need that every production has a rule; C91_total_partial that no terminal is empty; C91_vars_partial that a rule has at most 25 names and bytes; C91_names_partial that names are printable ASCII. C91_names_valid holds in full."
  },
  {
   "property": "C92",
   "status": "partial",
   "theorems": [
    "Verif.C92.C92_calls",
    "Verif.C92.C92_frame",
    "Verif.C92.C92_idempotent",
    "Verif.C92.C92_invokes_partial",
    "Verif.C92.C92_invoke_refuted",
    "Verif.C92.C92_readnone_refuted"
   ],
   "note": "C92_calls, C92_frame and C92_idempotent hold in full. C92_invokes_partial: for invokes it holds only if the instruction has no such attribute itself, since the visitor has no function for invokes. ReadNone, which says more than ReadOnly, stays."
  },
  {
   "property": "C93",
   "status": "partial",
   "theorems": [
    "Verif.C93.C93_command",
    "Verif.C93.C93_env_partial",
    "Verif.C93.C93_mounts_partial",
    "Verif.C93.C93_env_refuted",
    "Verif.C93.C93_mounts_refuted",
    "Verif.C93.C93_build_time",
    "Verif.C93.C93_fresh_partial",
    "Verif.C93.C93_exists",
    "Verif.C93.C93_python_refuted",
    "Verif.C93.C93_remembered_refuted"
   ],
   "note": "C93_command, C93_build_time and C93_exists hold in full. C93_fresh_partial: for the first question, and Python files do not count. C93_env_partial: values without quotation marks; C93_mounts_partial: names without colons."
  },
  {
   "property": "C94",
   "status": "partial",
   "theorems": [
    "Verif.C94.C94_unique",
    "Verif.C94.C94_command",
    "Verif.C94.C94_registered",
    "Verif.C94.C94_parent",
    "Verif.C94.C94_refused_partial",
    "Verif.C94.C94_help_refuted",
    "Verif.C94.C94_extension_refuted",
    "Verif.C94.C94_override_refuted",
    "Verif.C94.C94_names_partial",
    "Verif.C94.C94_names_refuted",
    "Verif.C94.C94_extension_partial",
    "Verif.C94.C94_subcommand_partial",
    "Verif.C94.C94_shared_refuted",
    "Verif.C94.C94_status_partial",
    "Verif.C94.C94_status_refuted"
   ],
   "note": "C94_unique, C94_registered, C94_parent and C94_command hold in full. C94_refused_partial: commands refused because their name is taken. C94_names_partial: parents whose names have no underscore and no plugin_name. C94_extension_partial and C94_subcommand_partial: commands not derived from other commands. C94_status_partial: commands without extensions."
  },
  {
   "property": "C95",
   "status": "partial",
   "theorems": [
    "Verif.C95.C95_crash",
    "Verif.C95.C95_status",
    "Verif.C95.C95_frame",
    "Verif.C95.C95_frame_two",
    "Verif.C95.C95_choice",
    "Verif.C95.C95_resolved_partial",
    "Verif.C95.C95_resolved_refuted",
    "Verif.C95.C95_uninstrumented_refuted",
    "Verif.C95.C95_pattern_refuted"
   ],
   "note": "C95_status, C95_crash, C95_frame, C95_frame_two and C95_choice hold in full. C95_resolved_partial: lists in which no function is treated twice."
  },
  {
   "property": "C96",
   "status": "partial",
   "theorems": [
    "Verif.C96.C96_list_partial",
    "Verif.C96.C96_size_refuted",
    "Verif.C96.C96_dollar_refuted"
   ],
   "note": "C96_list_partial: tables in which no function has 100000 bytes or more (and the other columns keep their widths) and no name has a dollar sign. The format of readelf is assumed (Spec/Readelf)."
  },
  {
   "property": "C97",
   "status": "partial",
   "theorems": [
    "Verif.C97.C97_printed_partial",
    "Verif.C97.C97_same",
    "Verif.C97.C97_source_refuted",
    "Verif.C97.C97_comment_refuted"
   ],
   "note": "C97_printed_partial: lists in which every line is an entry for a function. C97_same holds in full: a list compared with itself gives nothing."
  }
 ]
}