{
 "claims": [
  {
   "property": "C01",
   "status": "proved",
   "theorems": [
    "NanoLog.C01_int_round_trip",
    "NanoLog.C01_int_round_trip_same",
    "NanoLog.C01_wider_read_false"
   ],
   "note": "C01_wider_read_false shows the width condition of the property is needed."
  },
  {
   "property": "C02",
   "status": "proved",
   "theorems": [
    "NanoLog.C02_bits_round_trip"
   ],
   "note": ""
  },
  {
   "property": "C03",
   "status": "proved",
   "theorems": [
    "NanoLog.C03_packed_size",
    "NanoLog.C03_minimal",
    "NanoLog.C03_small_negative"
   ],
   "note": ""
  },
  {
   "property": "C04",
   "status": "proved",
   "theorems": [
    "NanoLog.C04_argument_list"
   ],
   "note": ""
  },
  {
   "property": "C05",
   "status": "proved",
   "theorems": [
    "NanoLog.C05_header_round_trip",
    "NanoLog.C05_header_size",
    "NanoLog.C05_return_value_false"
   ],
   "note": "Also shows that the (unused) return value of the header compressor is not always the header size."
  },
  {
   "property": "C06",
   "status": "proved",
   "theorems": [
    "NanoLog.C06_extent_header_empty",
    "NanoLog.C06_extent_header"
   ],
   "note": "Extents with and without messages."
  },
  {
   "property": "C07",
   "status": "proved",
   "theorems": [
    "NanoLog.C07_fifo",
    "NanoLog.C07_prefix",
    "NanoLog.C07_view",
    "NanoLog.C07_eventually"
   ],
   "note": "All interleavings of producer and consumer, under TSO and PSO store buffers, any buffer size. C07_eventually: under fairness every published byte is consumed."
  },
  {
   "property": "C08",
   "status": "proved",
   "theorems": [
    "NanoLog.C08_no_overlap",
    "NanoLog.C08_assertions"
   ],
   "note": ""
  },
  {
   "property": "C09",
   "status": "proved",
   "theorems": [
    "NanoLog.C09_too_large_never",
    "NanoLog.C09_eventually",
    "NanoLog.C09_bounded"
   ],
   "note": "Too large: never reserved. Smaller than the buffer: reserved in every fair execution, and within 13 steps from a drained buffer."
  },
  {
   "property": "C10",
   "status": "proved",
   "theorems": [
    "NanoLog.C10_empty",
    "NanoLog.C10_visible",
    "NanoLog.C10_below_capacity",
    "NanoLog.C10_never_full"
   ],
   "note": ""
  },
  {
   "property": "C11",
   "status": "proved",
   "theorems": [
    "NanoLog.C11_freed_after_drained",
    "NanoLog.C11_no_use_after_free",
    "NanoLog.C11_reordered_false",
    "NanoLog.C11_freed",
    "NanoLog.C11_no_undefined"
   ],
   "note": "Under TSO (x86), the target of the code. C11_reordered_false shows that a machine that reorders stores would break it."
  },
  {
   "property": "C12",
   "status": "proved",
   "theorems": [
    "NanoLog.C12_reserved_equals_written"
   ],
   "note": ""
  },
  {
   "property": "C13",
   "status": "proved",
   "theorems": [
    "NanoLog.C13_arguments_recovered",
    "NanoLog.C13_through_both_parsers",
    "NanoLog.C13_unsigned_char_string_false"
   ],
   "note": "For all formats of the C grammar with argument types %s/%ls = char*/wchar_t*. Second theorem: an unsigned char* argument of %s is not covered and does go wrong in the code. C13_through_both_parsers starts from the format string and uses the results of both parsers."
  },
  {
   "property": "C14",
   "status": "proved",
   "theorems": [
    "NanoLog.C14_batch_never_overruns",
    "NanoLog.C14_message_touches",
    "NanoLog.C14_dictionary_never_overruns",
    "NanoLog.C14_run_never_overruns"
   ],
   "note": ""
  },
  {
   "property": "C15",
   "status": "proved",
   "theorems": [
    "NanoLog.C15_batch_whole_messages",
    "NanoLog.C15_no_room"
   ],
   "note": ""
  },
  {
   "property": "C16",
   "status": "proved",
   "theorems": [
    "NanoLog.C16_progress_after_flush",
    "NanoLog.C16_progress_eventually"
   ],
   "note": ""
  },
  {
   "property": "C17",
   "status": "proved",
   "theorems": [
    "NanoLog.C17_decoder_accepts",
    "NanoLog.C17_oversized_false"
   ],
   "note": "C17_oversized_false: with the real constants, the bound on message size in the statement is needed."
  },
  {
   "property": "C18",
   "status": "proved",
   "theorems": [
    "NanoLog.C18_run_exists",
    "NanoLog.C18_file_decodes"
   ],
   "note": "Any number of executions, dictionary steps, batches and flushes in any order; any configuration with sizes below 2^30."
  },
  {
   "property": "C19",
   "status": "proved",
   "theorems": [
    "NanoLog.C19_info_precedes"
   ],
   "note": "Every file at every moment of every execution, also cut off in the middle of a write."
  },
  {
   "property": "C20",
   "status": "proved",
   "theorems": [
    "NanoLog.C20_ids",
    "NanoLog.C20_stable",
    "NanoLog.C20_next",
    "NanoLog.C20_logged"
   ],
   "note": "All interleavings of any number of threads (transition system of the runtime)."
  },
  {
   "property": "C21",
   "status": "partial",
   "theorems": [
    "NanoLog.C21_entry_round_trip_partial",
    "NanoLog.C21_fragment_round_trip_partial",
    "NanoLog.C21_long_string_false",
    "NanoLog.C21_bad_format_false"
   ],
   "note": "Proved for statements whose file name and format fit the 16-bit length fields and whose format the decoder understands; false otherwise (witnesses)."
  },
  {
   "property": "C22",
   "status": "partial",
   "theorems": [
    "NanoLog.C22_parsers_agree_partial",
    "NanoLog.C22_false",
    "NanoLog.C22_255_bound_needed"
   ],
   "note": "Proved for every format of the C standard grammar with at most 255 pieces/half bytes; false for some strings outside it that the compile-time parser accepts."
  },
  {
   "property": "C23",
   "status": "partial",
   "theorems": [
    "NanoLog.C23_no_text_lost_partial",
    "NanoLog.C23_one_conversion_each",
    "NanoLog.C23_256_conversions_lost"
   ],
   "note": "Every format string with fewer than 256 fragments; false beyond (8-bit counter), third theorem."
  },
  {
   "property": "C24",
   "status": "proved",
   "theorems": [
    "NanoLog.C24_iterator_agrees"
   ],
   "note": "Also for files cut anywhere: C28_cut_loses_tail."
  },
  {
   "property": "C25",
   "status": "partial",
   "theorems": [
    "NanoLog.C25_ordered_partial",
    "NanoLog.C25_appended_false"
   ],
   "note": "Proved for files with one execution (any extents, flags, time stamps); false for appended executions, where the dictionary can be replaced before the last messages are printed (C25_appended_false). Positive result for appended executions under conditions: C27_ordered_partial."
  },
  {
   "property": "C26",
   "status": "partial",
   "theorems": [
    "NanoLog.C26_chronological_partial",
    "NanoLog.C26_false"
   ],
   "note": "False of the code as stated (C26_false: 20 printed before 15). Proved if in addition every stage has messages and no stage ends before its predecessor ends."
  },
  {
   "property": "C27",
   "status": "partial",
   "theorems": [
    "NanoLog.C27_appended_partial",
    "NanoLog.C27_appended_many_partial",
    "NanoLog.C27_ordered_partial",
    "NanoLog.C27_ordered_false"
   ],
   "note": "Unordered and iterator decoding: proved for any number of appended executions. Ordered decoding: false in general (C27_ordered_false), proved under the conditions of C26_chronological_partial. Preprocessor mode, with dictionaries inside the checkpoints: see C50."
  },
  {
   "property": "C28",
   "status": "proved",
   "theorems": [
    "NanoLog.C28_cut_loses_tail",
    "NanoLog.C28_cut_checkpoint"
   ],
   "note": ""
  },
  {
   "property": "C29",
   "status": "partial",
   "theorems": [
    "NanoLog.C29_unordered_terminates_partial",
    "NanoLog.C29_no_infinite_unordered_partial",
    "NanoLog.C29_extent_terminates_partial",
    "NanoLog.C29_dictionary_terminates_partial",
    "NanoLog.C29_next_terminates_partial",
    "NanoLog.C29_no_infinite_iteration_partial",
    "NanoLog.C29_ordered_terminates_partial",
    "NanoLog.C29_no_infinite_ordered_partial",
    "NanoLog.C29_memory_terminates_partial",
    "NanoLog.C29_no_infinite_memory_partial",
    "NanoLog.C29_memory_extent_partial",
    "NanoLog.C29_memory_index_partial",
    "NanoLog.C29_memory_dictionary_partial",
    "NanoLog.C29_memory_next_partial",
    "NanoLog.C29_no_infinite_memory_iteration_partial",
    "NanoLog.C29_memory_ordered_partial",
    "NanoLog.C29_no_infinite_memory_ordered_partial",
    "NanoLog.C50_unknown_id_false"
   ],
   "note": "All loops of the three decoding interfaces, for all byte strings and decoder states, also with the decoder's memory and dictionaries of preprocessor mode. False with generated functions and an unknown identifier (C50_unknown_id_false)."
  },
  {
   "property": "C30",
   "status": "proved",
   "theorems": [
    "NanoLog.C30_prefix",
    "NanoLog.C30_complete"
   ],
   "note": "Files decoded with the decoder model; at most 2^32 staging buffers allocated (see C34); messages smaller than half a staging buffer (see C09, C17)."
  },
  {
   "property": "C31",
   "status": "partial",
   "theorems": [
    "NanoLog.C31_sync_partial",
    "NanoLog.C31_simple_partial",
    "NanoLog.C31_delete_false",
    "NanoLog.C31_spurious_false"
   ],
   "note": "False after a spurious wake-up and when second passes that encode nothing delete the buffer they begin with while others exist; proved otherwise, for all interleavings with any number of threads, including concurrent sync and setLogFile; C31_simple_partial: in particular with at most one logging thread, or if no logging thread ends."
  },
  {
   "property": "C32",
   "status": "proved",
   "theorems": [
    "NanoLog.C32_throws",
    "NanoLog.C32_old_files",
    "NanoLog.C32_messages"
   ],
   "note": "C32_throws is a direct consequence of how the model represents the checks made first in setLogFile_internal."
  },
  {
   "property": "C33",
   "status": "proved",
   "theorems": [
    "NanoLog.C33_level",
    "NanoLog.C33_setLevel",
    "NanoLog.C33_recorded"
   ],
   "note": ""
  },
  {
   "property": "C34",
   "status": "partial",
   "theorems": [
    "NanoLog.C34_unique_partial",
    "NanoLog.C34_stable",
    "NanoLog.C34_wraps_false"
   ],
   "note": "Holds for up to 2^32 staging buffers; ids are uint32_t and repeat afterwards (proved)."
  },
  {
   "property": "C35",
   "status": "proved",
   "theorems": [
    "NanoLog.C35_container",
    "NanoLog.C35_limit",
    "NanoLog.C35_wider_read",
    "NanoLog.C35_decoded"
   ],
   "note": "Up to 10*2^27 values in one message, which is shown to be exactly where the int capacity overflows. long double values are not kept by the code. C35_wider_read: what a read with a wider type than pushed returns."
  },
  {
   "property": "C36",
   "status": "partial",
   "theorems": [
    "NanoLog.C36_dynamic_width_precision_partial",
    "NanoLog.C36_negative_false"
   ],
   "note": "True exactly for non-negative widths and precisions; the code drops negative star arguments (second theorem is an iff)."
  },
  {
   "property": "C37",
   "status": "partial",
   "theorems": [
    "NanoLog.C37_ids_exact",
    "NanoLog.C37_ids_partial",
    "NanoLog.C37_numbering",
    "NanoLog.C37_own_code_partial",
    "NanoLog.C37_not_invalid",
    "NanoLog.C37_digits_false",
    "NanoLog.C37_level_false"
   ],
   "note": "Exact condition for equal identifiers, uniqueness without digits and control characters, numbering for all units. False with digits: x! and x33 on one line collide; the severity is not part of the identifier."
  },
  {
   "property": "C38",
   "status": "partial",
   "theorems": [
    "NanoLog.C38_round_trip_partial",
    "NanoLog.C38_accepted",
    "NanoLog.C38_dictionary",
    "NanoLog.C38_overread_false",
    "NanoLog.C38_zero_precision_false"
   ],
   "note": "All formats and all arguments with readable strings; both the generated decompression function and the decoder with the generated dictionary. False for legal string arguments without terminator: the record function reads one character too many."
  },
  {
   "property": "C39",
   "status": "partial",
   "theorems": [
    "NanoLog.C39_same_text_partial",
    "NanoLog.C39_literals_partial",
    "NanoLog.C39_Z_false",
    "NanoLog.C39_backslash_false",
    "NanoLog.C39_hidden_percent_false"
   ],
   "note": "All texts and all literals: whatever the preprocessor accepts, the decoder parses to the same fragments. Excluded, with counterexamples: the length modifier Z, and escapes denoting a percent sign or backslash."
  },
  {
   "property": "C40",
   "status": "partial",
   "theorems": [
    "NanoLog.C40_extract_exact",
    "NanoLog.C40_extract_partial",
    "NanoLog.C40_single",
    "NanoLog.C40_backslash_false",
    "NanoLog.C40_joined_escape_false",
    "NanoLog.C40_empty_false"
   ],
   "note": "Exact result for all sequences of literals; value preserved under the two stated conditions. False for a literal ending in an escaped backslash and for a numeric escape before a literal starting with a digit."
  },
  {
   "property": "C41",
   "status": "proved",
   "theorems": [
    "NanoLog.C41_argument",
    "NanoLog.C41_statement",
    "NanoLog.C41_char_paren_false",
    "NanoLog.C41_char_quote_false"
   ],
   "note": "Single arguments and whole statements over any number of lines. The last two theorems show that the claim does not extend to character constants containing brackets or quotes."
  },
  {
   "property": "C42",
   "status": "partial",
   "theorems": [
    "NanoLog.C42_time",
    "NanoLog.C42_printed_partial",
    "NanoLog.C42_rounding_false",
    "NanoLog.C42_far_false"
   ],
   "note": "Exact rational arithmetic. The computed value is exact and in range; the nanoseconds printed with %09.0lf can round up to 10^9, and differences beyond the range of the cast go wrong."
  },
  {
   "property": "C43",
   "status": "proved",
   "theorems": [
    "NanoLog.C43_untouched",
    "NanoLog.C43_stream",
    "NanoLog.C43_handed"
   ],
   "note": "Without O_DIRECT (Config.h:27-28)."
  },
  {
   "property": "C44",
   "status": "proved",
   "theorems": [
    "NanoLog.C44_padding_ignored",
    "NanoLog.C44_written",
    "NanoLog.C44_zero"
   ],
   "note": "Padding between any two encoder operations; in both interfaces."
  },
  {
   "property": "C45",
   "status": "partial",
   "theorems": [
    "NanoLog.C45_reuse_unordered",
    "NanoLog.C45_reuse_iterator_partial",
    "NanoLog.C45_stale_false"
   ],
   "note": "Full for unordered decoding. False for the iterator in the code when the earlier file was left in the middle of an extent (third theorem)."
  },
  {
   "property": "C46",
   "status": "partial",
   "theorems": [
    "NanoLog.C46_pass_partial",
    "NanoLog.C46_bounds",
    "NanoLog.C46_false"
   ],
   "note": "False when the background thread deletes the buffer with which the pass began while there are others (C46_false); proved for all other passes; no index out of bounds in any."
  },
  {
   "property": "C47",
   "status": "partial",
   "theorems": [
    "NanoLog.C47_aggregate_partial",
    "NanoLog.C47_empty_false",
    "NanoLog.C47_stale_false"
   ],
   "note": "For at least one matching message, each with a first argument. Without a match the code divides by zero; a message without arguments contributes the argument of an earlier one."
  },
  {
   "property": "C48",
   "status": "partial",
   "theorems": [
    "NanoLog.C48_once",
    "NanoLog.C48_trace_partial",
    "NanoLog.C48_start",
    "NanoLog.C48_lock_false",
    "NanoLog.C48_unsorted_false",
    "NanoLog.C48_last_stamp_false"
   ],
   "note": "For rings not written while printing. The reader count never becomes positive (fetch_and instead of fetch_add), so concurrent recording is not suppressed and loses events."
  },
  {
   "property": "C49",
   "status": "partial",
   "theorems": [
    "NanoLog.C49_dictionary_partial",
    "NanoLog.C49_no_overrun",
    "NanoLog.C49_literal",
    "NanoLog.C49_null_false",
    "NanoLog.C49_backslash_false"
   ],
   "note": "For statements whose literal contains no null character, whose file name contains no backslash, and whose counters fit 8 and 16 bit fields (otherwise false, with witnesses: the whole file is rejected). No overrun holds for every accepted statement. Universal character names are not modelled."
  },
  {
   "property": "C50",
   "status": "partial",
   "theorems": [
    "NanoLog.C50_file_partial",
    "NanoLog.C50_iterator_partial",
    "NanoLog.C50_ordered_many_partial",
    "NanoLog.C50_ordered_partial",
    "NanoLog.C50_progress",
    "NanoLog.C50_generated",
    "NanoLog.C50_unknown_id_false",
    "NanoLog.C50_other_program_false",
    "NanoLog.C50_other_program_lost_false"
   ],
   "note": "All three decoding interfaces; for one program (any number of executions appended), statements as in C49, messages below half a staging buffer, files without dictionary fragments. Ordered decoding prints a merge of the extents, chronological if the time stamps are close to the order of logging as in C26/C27. False when executions of different programs share a file: the old dictionary stays in use; and an id without generated function makes the decoder loop forever."
  },
  {
   "property": "C51",
   "status": "partial",
   "theorems": [
    "NanoLog.C51_marker",
    "NanoLog.C51_rewrite_partial",
    "NanoLog.C51_detect_partial",
    "NanoLog.C51_marker_inside_false",
    "NanoLog.C51_longer_name_false",
    "NanoLog.C51_char_constant_false",
    "NanoLog.C51_end_false"
   ],
   "note": "Rewriting: for runs that end without exception, first line a line marker, no line marker inside arguments. Detection: for every line the loop reaches, read as tokens without quotes in character constants, and no identifier containing NNANO_LOG; the first call of the line is found, or there is none. Each excluded case is shown false."
  },
  {
   "property": "C52",
   "status": "partial",
   "theorems": [
    "NanoLog.C52_sync_returns_partial",
    "NanoLog.C52_sync_returns_later_partial",
    "NanoLog.C52_setLogFile_returns_partial",
    "NanoLog.C52_starved_false"
   ],
   "note": "Proved for fair executions in which from some time on nothing is logged (and no other sync, setLogFile or allocation happens); also for setLogFile, if only the caller is in setLogFile. Without this restriction the claim is false: a thread that logs before each pass of the background thread keeps sync waiting for ever (C52_starved_false). The wait in the destructor of the logger is C59_returns_partial."
  },
  {
   "property": "C53",
   "status": "partial",
   "theorems": [
    "NanoLog.C53_drained_partial",
    "NanoLog.C53_persisted_partial",
    "NanoLog.C53_served_partial",
    "NanoLog.C53_busy_partial",
    "NanoLog.C53_threads_false"
   ],
   "note": "C53_busy_partial: in every fair execution with finitely many starts of threads, whatever has been logged at any time is decoded from the files from some time on, although threads go on logging, registering statements, calling sync and setLogFile and ending for ever; needs an output buffer more than three times a staging buffer (shipped values: 64 times) and that a thread's queued messages fit into its staging buffer (C07-C11). C53_served_partial: each non-empty staging buffer is served. C53_drained_partial, C53_persisted_partial: without the condition on sizes if logging stops. If threads go on starting for ever the claim is false: a message can stay in its staging buffer for ever (C53_threads_false)."
  },
  {
   "property": "C54",
   "status": "proved",
   "theorems": [
    "NanoLog.C54_record",
    "NanoLog.C54_rejected",
    "NanoLog.C54_dictionary",
    "NanoLog.C54_decoder",
    "NanoLog.C54_decoder_small",
    "NanoLog.C54_file_decodes",
    "NanoLog.C54_overflow_false"
   ],
   "note": "The condition on the size of the memory is part of the statement; C54_overflow_false shows that it is needed and that the code does not check it."
  },
  {
   "property": "C55",
   "status": "partial",
   "theorems": [
    "NanoLog.C55_buffered_partial",
    "NanoLog.C55_aligned_partial",
    "NanoLog.C55_in_bounds",
    "NanoLog.C55_hands_exists",
    "NanoLog.C55_direct_false"
   ],
   "note": "False with O_DIRECT: the padding is written over the beginning of the buffer, which destroys the checkpoint of every file whose first buffer is not a multiple of 512 bytes long (C55_direct_false). Proved for the default setting, and with O_DIRECT for buffers that need no padding; bounds and lengths are proved for both settings."
  },
  {
   "property": "C56",
   "status": "partial",
   "theorems": [
    "NanoLog.C56_lost_partial",
    "NanoLog.C56_survive_exists",
    "NanoLog.C56_no_failure",
    "NanoLog.C56_wrong_text_false",
    "NanoLog.C56_abort_false",
    "NanoLog.C56_short_false"
   ],
   "note": "Proved if each write succeeds or leaves nothing and lost writes hold no static information. False otherwise: after the loss of a dictionary fragment a message is delivered with the text and position of another statement while decoding reports success (C56_wrong_text_false), or decoding aborts (C56_abort_false); a short write makes the decoder deliver a message that was never logged instead of one in a complete write (C56_short_false)."
  },
  {
   "property": "C57",
   "status": "partial",
   "theorems": [
    "NanoLog.C57_events",
    "NanoLog.C57_bytes",
    "NanoLog.C57_flushes",
    "NanoLog.C57_ratio_partial",
    "NanoLog.C57_ratio_range",
    "NanoLog.C57_ratio_false",
    "NanoLog.C57_written_false"
   ],
   "note": "The counters are proved for all executions. False: the printed range of the compression ratio, which adds the padding a second time to a count that already includes it, so with padding the ratio without padding is never in the range (C57_ratio_range, C57_ratio_false); without O_DIRECT it is proved. Also false is that the events and bytes reported as written are in the file: they are counted when encoded and handed over (C57_written_false)."
  },
  {
   "property": "C58",
   "status": "partial",
   "theorems": [
    "NanoLog.C58_counts",
    "NanoLog.C58_grants",
    "NanoLog.C58_peek",
    "NanoLog.C58_average_partial",
    "NanoLog.C58_average_false",
    "NanoLog.C58_blocked_false",
    "NanoLog.C58_clock_false"
   ],
   "note": "Counters, distribution and the index for peek are proved. False: with RECORD_PRODUCER_STATS getHistograms divides by zero for every buffer whose thread never entered the slow path (C58_average_false); 'Times Blocked' also counts requests that find an empty buffer and only wrap around (C58_blocked_false); a clock below 50 MHz makes cyclesIn10Ns 0 (C58_clock_false)."
  },
  {
   "property": "C59",
   "status": "partial",
   "theorems": [
    "NanoLog.C59_messages_partial",
    "NanoLog.C59_complete_partial",
    "NanoLog.C59_simple_partial",
    "NanoLog.C59_final",
    "NanoLog.C59_no_undefined",
    "NanoLog.C59_returns_partial",
    "NanoLog.C59_delete_false",
    "NanoLog.C59_spurious_false",
    "NanoLog.C59_late_false",
    "NanoLog.C59_use_after_end"
   ],
   "note": "Proved unless the destructor is woken spuriously or a second pass that encodes nothing deletes the buffer it began with while others exist; in particular for programs with at most one logging thread or in which no logging thread ends (C59_simple_partial). Files are final after the destructor; no undefined behaviour as long as other threads have stopped using NanoLog; the destructor returns in fair executions in which from some time on nothing is logged. False in general: the last message of main can be lost in a regular exit if another thread has just ended (C59_delete_false), a spurious wake-up loses everything queued (C59_spurious_false), a thread still inside a log statement uses the destroyed object (C59_late_false)."
  },
  {
   "property": "C60",
   "status": "partial",
   "theorems": [
    "NanoLog.C60_rows_partial",
    "NanoLog.C60_bound",
    "NanoLog.C60_last_partial",
    "NanoLog.C60_last_false",
    "NanoLog.C60_mean_partial",
    "NanoLog.C60_mean_false",
    "NanoLog.C60_empty_false",
    "NanoLog.C60_file_partial",
    "NanoLog.C60_frequency",
    "NanoLog.C60_threads_false"
   ],
   "note": "Proved: all lines but the last give the share of the differences that are larger, over any non-empty list and any bound, and end to end for a log file with time stamps in order. False in general: the last line is 1/n even if the largest value occurs more often (C60_last_false), the mean leaves out the least value (C60_mean_false), a log with fewer than two messages is undefined behaviour (C60_empty_false), times are negative with several threads (C60_threads_false). The printed nanoseconds are right only if the machine that decompresses has the frequency of the one that logged (C60_frequency)."
  },
  {
   "property": "C61",
   "status": "partial",
   "theorems": [
    "NanoLog.C61_unordered",
    "NanoLog.C61_ordered_partial",
    "NanoLog.C61_ordered_false",
    "NanoLog.C61_cut",
    "NanoLog.C61_usage",
    "NanoLog.C61_usage_status",
    "NanoLog.C61_open",
    "NanoLog.C61_id",
    "NanoLog.C61_id_false",
    "NanoLog.C61_find",
    "NanoLog.C61_status_false"
   ],
   "note": "Proved: decompressUnordered prints every message once and the right total for any number of appended executions; decompress for files with one execution; usage exactly when command or arguments are missing; status 1 for files that cannot be opened; decimal ids below 2^31 are understood, larger or negative ones refused; find lists exactly the ids whose format contains the text. False in general: text after the digits of an id is ignored (C61_id_false), an incomplete file gives 'Decompression Complete' and status 0 (C61_status_false), ordered output of appended executions (C61_ordered_false)."
  },
  {
   "property": "C62",
   "status": "partial",
   "theorems": [
    "NanoLog.C62_calibration_partial",
    "NanoLog.C62_agree",
    "NanoLog.C62_drift_false",
    "NanoLog.C62_race_false",
    "NanoLog.C62_round",
    "NanoLog.C62_overflow_false",
    "NanoLog.C62_micros_partial",
    "NanoLog.C62_micros_false",
    "NanoLog.C62_roundtrip_partial",
    "NanoLog.C62_roundtrip_false",
    "NanoLog.C62_sleep_partial",
    "NanoLog.C62_sleep_false"
   ],
   "note": "Proved: calibration ends only when two successive estimates agree to 0.001%; error bound of the measured frequency from resolution and delay of the clocks; conversions round to nearest when the result fits; nanoseconds are recovered exactly above one gigahertz; sleep waits as long as asked if nothing overflows. False in general: the documented 0.001% (C62_drift_false), rounding of toMicroseconds (C62_micros_false), the frequency in a checkpoint written while Cycles::init still runs (C62_race_false), conversions and sleep with numbers that overflow."
  },
  {
   "property": "C63",
   "status": "proved",
   "theorems": [
    "NanoLog.C63_step",
    "NanoLog.C63_content",
    "NanoLog.C63_shown",
    "NanoLog.C63_deleted",
    "NanoLog.C63_step_reordered",
    "NanoLog.C63_reordered_false"
   ],
   "note": "Refinement of the byte-level staging buffer (delayed stores of both threads, wrap around) to a queue of whole messages, for x86. C63_step_reordered: also under partial store order, except for the deletion, which is then too early (C63_reordered_false)."
  },
  {
   "property": "C64",
   "status": "partial",
   "theorems": [
    "NanoLog.C64_format_partial",
    "NanoLog.C64_format_null_false",
    "NanoLog.C64_format_overflow_false",
    "NanoLog.C64_dump",
    "NanoLog.C64_recover",
    "NanoLog.C64_dump_huge_false"
   ],
   "note": "Util::format returns the text only if it has no null character and is shorter than INT_MAX (both other cases proved). hexDump is proved in full for every buffer of at most 2^64-16 bytes; beyond, its loop never ends (C64_dump_huge_false; no object is that large)."
  },
  {
   "property": "C65",
   "status": "partial",
   "theorems": [
    "NanoLog.C65_line",
    "NanoLog.C65_output_partial",
    "NanoLog.C65_min_false",
    "NanoLog.C65_none_false",
    "NanoLog.C65_first",
    "NanoLog.C65_number_partial",
    "NanoLog.C65_program_partial",
    "NanoLog.C65_last_line_false",
    "NanoLog.C65_no_number_false",
    "NanoLog.C65_long_line_false"
   ],
   "note": "Script: the minimum is right exactly if no zero is followed by another number at the end (a zero counts as 'not set'); without a number it ends with an exception. Program: right for the lines ended by a newline; a last line without newline is ignored, without a number it divides by zero, a line of 1024 or more characters ends it; overflow of the sum is undefined."
  },
  {
   "property": "C66",
   "status": "partial",
   "theorems": [
    "NanoLog.C66_refinement",
    "NanoLog.C66_no_ub",
    "NanoLog.C66_prefix",
    "NanoLog.C66_complete",
    "NanoLog.C66_sync_partial",
    "NanoLog.C66_unordered_false",
    "NanoLog.C66_never_stuck"
   ],
   "note": "The runtime with byte-wise staging buffers and store buffers is simulated by the runtime with queues, for all executions. sync: as C31, only for programs with at most one logging thread or without ends of logging threads (C31 proves the rest false), and calls of other threads count when their stores have reached memory (C66_unordered_false: otherwise the message may be missing). Programs whose threads end: C80."
  },
  {
   "property": "C67",
   "status": "partial",
   "theorems": [
    "NanoLog.C67_busy_partial"
   ],
   "note": "For all fair infinite executions of the runtime with byte-wise staging buffers and store buffers, while threads go on logging, calling sync and setLogFile, and ending. Missing: executions in which threads start for ever, for which the claim is false of the code (C53_threads_false), and output buffers less than three times as large as a staging buffer (Config.h: 64 times)."
  },
  {
   "property": "C68",
   "status": "partial",
   "theorems": [
    "NanoLog.C68_returns_partial",
    "NanoLog.C68_recorded_partial"
   ],
   "note": "For all fair infinite executions of the runtime with byte-wise staging buffers and store buffers, from every place in the log call, including a full staging buffer. Missing: executions in which threads start for ever (the background thread may then never write, C53_threads_false, so a full buffer is never emptied), and output buffers less than three times as large as a staging buffer (Config.h: 64 times)."
  },
  {
   "property": "C69",
   "status": "partial",
   "theorems": [
    "NanoLog.C69_sync_returns_partial",
    "NanoLog.C69_setLogFile_returns_partial",
    "NanoLog.C69_persisted_partial"
   ],
   "note": "For all fair infinite executions of the runtime with byte-wise staging buffers and store buffers in which at some time logging stops. Missing: sync while other threads log for ever, where the claim is false of the code (C52_starved_false)."
  },
  {
   "property": "C70",
   "status": "partial",
   "theorems": [
    "NanoLog.C70_heaps",
    "NanoLog.C70_messages_partial",
    "NanoLog.C70_chronological_partial",
    "NanoLog.C70_one_place",
    "NanoLog.C70_deleted_once",
    "NanoLog.C70_returned_partial",
    "NanoLog.C70_leak_false",
    "NanoLog.C70_damaged_false"
   ],
   "note": "Proved for all files, all decoders in use and all sizes: refinement to the model of C25-C27, each fragment in one place, no double delete. Partial: that every fragment is returned and deleted is false of the code for bufferFragment (C70_leak_false) and for damaged files, where also messages that were read are not printed (C70_damaged_false)."
  },
  {
   "property": "C71",
   "status": "partial",
   "theorems": [
    "NanoLog.C71_cut",
    "NanoLog.C71_cut_heaps",
    "NanoLog.C71_appended_partial"
   ],
   "note": "Proved in full for files of one execution, cut at any byte, for every choice among equal time stamps, and for the code with pointers and heaps. Partial for files with several executions: there the conditions of C27 are needed, without which ordered decompression loses messages even of files that are not cut (C25_appended_false, C27_ordered_false)."
  },
  {
   "property": "C72",
   "status": "partial",
   "theorems": [
    "NanoLog.C72_unordered_partial",
    "NanoLog.C72_iterator_partial",
    "NanoLog.C72_ordered_false"
   ],
   "note": "Proved for the unordered loop and the iterator, for every run and all bytes behind it, if the decoder does not abort. Ordered decompression: false of the code (C72_ordered_false, C70_damaged_false)."
  },
  {
   "property": "C73",
   "status": "proved",
   "theorems": [
    "NanoLog.C73_prefix",
    "NanoLog.C73_complete",
    "NanoLog.C73_single",
    "NanoLog.C73_chronological_false",
    "NanoLog.C73_equal_false"
   ],
   "note": "For every execution of the runtime over byte-wise staging buffers (TSO) and the decompressor with pointers and heaps. That the output of all threads together is in time order is not claimed, it is false of the code (C73_chronological_false: calls that do not overlap, increasing time stamps, nothing full); the condition on the time stamps of a thread is needed (C73_equal_false)."
  },
  {
   "property": "C74",
   "status": "partial",
   "theorems": [
    "NanoLog.C74_sync_partial",
    "NanoLog.C74_busy_partial",
    "NanoLog.C74_persisted_partial"
   ],
   "note": "For the output of the ordered decompressor (pointers, heaps) and the runtime over byte-wise staging buffers. Partial as C66, C67 and C69 are: the claims without their hypotheses are false of the code (C31_delete_false, C53_threads_false, C66_unordered_false). Programs whose threads end: C80."
  },
  {
   "property": "C75",
   "status": "proved",
   "theorems": [
    "NanoLog.C75_kinds",
    "NanoLog.C75_sorted",
    "NanoLog.C75_pair",
    "NanoLog.C75_later"
   ],
   "note": "For every execution of the runtime over byte-wise staging buffers (TSO) and the decompressor with pointers and heaps. Pairs that are in the file against the order of time may or may not be turned round (exChrono_files, C73_chronological_false)."
  },
  {
   "property": "C76",
   "status": "partial",
   "theorems": [
    "NanoLog.C76_sync_partial"
   ],
   "note": "Has the hypotheses of C74_sync_partial, without which it is false of the code (C66_unordered_false, C31_delete_false), and is stated for messages with increasing time stamps per thread. Programs whose threads end: C80."
  },
  {
   "property": "C77",
   "status": "partial",
   "theorems": [
    "NanoLog.C77_end_partial",
    "NanoLog.C77_complete_partial",
    "NanoLog.C77_final",
    "NanoLog.C77_no_undefined"
   ],
   "note": "C77_final and C77_no_undefined hold in full. The other two have the hypotheses of C59_simple_partial (no spurious wakeup; at most one logging thread or no thread that logs ends) and that stores have reached memory, without which the claim is false of the code (C59_spurious_false, C59_delete_false, C66_unordered_false). Programs whose threads end: C80."
  },
  {
   "property": "C78",
   "status": "partial",
   "theorems": [
    "NanoLog.C78_returns_partial",
    "NanoLog.C78_output_partial",
    "NanoLog.C78_complete_partial"
   ],
   "note": "For fair executions in which from some time on nothing is logged (a thread that logs before each pass can keep the wait going for ever, C52_starved_false), no other thread is in setLogFile, no spurious wakeup of the destructor, and at most one thread logs or no thread that logs ends (C59_spurious_false, C59_delete_false: false otherwise). Programs whose threads end: C80."
  },
  {
   "property": "C79",
   "status": "partial",
   "theorems": [
    "NanoLog.C79_appended",
    "NanoLog.C79_processes",
    "NanoLog.C79_iterator",
    "NanoLog.C79_regular",
    "NanoLog.C79_ended_partial",
    "NanoLog.C79_kept_partial",
    "NanoLog.C79_killed_false",
    "NanoLog.C79_abort_false"
   ],
   "note": "Proved (C79_appended, C79_processes, C79_iterator, for unordered decompression and iterator) when every process but the last has finished its writes; the last may be at any moment or killed. C79_regular: this holds of every process that ended through the destructor of the logger; C79_ended_partial: then all calls that had returned before its destructor are in the common file (conditions of C80). False of the code behind a process killed in the middle of a write: the log of the next process is lost (C79_killed_false) or the decoder aborts (C79_abort_false); what is in front is kept unless it aborts (C79_kept_partial). For ordered decompression of appended logs see C27_ordered_partial and C27_ordered_false."
  },
  {
   "property": "C80",
   "status": "partial",
   "theorems": [
    "NanoLog.C80_sync_partial",
    "NanoLog.C80_end_partial",
    "NanoLog.C80_no_cut",
    "NanoLog.C80_joined_partial",
    "NanoLog.C80_complete_partial",
    "NanoLog.C80_fair_partial",
    "NanoLog.C80_printed_partial",
    "NanoLog.C80_separates_partial",
    "NanoLog.C80_delete_false"
   ],
   "note": "C66_sync_partial, C74_sync_partial (C80_printed_partial), C76_sync_partial (C80_separates_partial), C77_end_partial, C77_complete_partial and C78_output_partial (C80_fair_partial) for programs whose threads end. Proved if no pass is cut short, that is, no deletion of the buffer at which a second pass began while others exist (CutsPass); C80_no_cut and C80_joined_partial give the usual cases in which this holds (ended threads whose buffers were deleted before; one buffer left). False of the code otherwise: C80_delete_false loses the last message of the main thread at a regular exit (also C31_delete_false). No spurious wakeup (C59_spurious_false), stores of the calls in memory (C66_unordered_false), at most 2^32 threads (C34)."
  },
  {
   "property": "C81",
   "status": "partial",
   "theorems": [
    "NanoLog.C81_appended_partial",
    "NanoLog.C81_processes_partial",
    "NanoLog.C81_ended_partial",
    "NanoLog.C81_threads_false"
   ],
   "note": "Ordered decompression of a file to which several processes have appended. Proved if the logs in front of the last one are in time order (in C81_processes_partial: one logging thread with increasing time stamps) and have no empty extents; the last one may be cut anywhere and have any number of threads. False of the code for several threads even if their time stamps increase: C81_threads_false, an execution in which the last message of the first process is printed with the clock calibration of the second, behind a message of the second (the same defect as C27_ordered_false, reached by the runtime)."
  }
 ]
}