{
 "claims": [
  {
   "property": "C01",
   "status": "proved",
   "theorems": [
    "Verif.Decomp.C01_shares_tile",
    "Verif.Decomp.C01_no_ranks"
   ],
   "note": ""
  },
  {
   "property": "C02",
   "status": "proved",
   "theorems": [
    "Verif.Decomp.C02_location_inverse",
    "Verif.Decomp.C02_location_unique",
    "Verif.Decomp.C02_out_of_range"
   ],
   "note": ""
  },
  {
   "property": "C03",
   "status": "proved",
   "theorems": [
    "Verif.Endian.C03_encode_digits",
    "Verif.Endian.C03_encode_unsigned",
    "Verif.Endian.C03_decode16_value",
    "Verif.Endian.C03_decode32_value",
    "Verif.Endian.C03_roundtrip16",
    "Verif.Endian.C03_roundtrip32",
    "Verif.Endian.C03_roundtrip16_bytes",
    "Verif.Endian.C03_roundtrip32_bytes"
   ],
   "note": ""
  },
  {
   "property": "C04",
   "status": "partial",
   "theorems": [
    "Verif.IBM.C04_byte_order",
    "Verif.IBM.C04_exact",
    "Verif.IBM.C04_exact_bytes",
    "Verif.IBM.C04_zero_refuted"
   ],
   "note": "Exact for every normalised pattern in the normal range, both byte orders. The zero clause is false of the code: every zero fraction converts to 0.5 (C04_zero_refuted)."
  },
  {
   "property": "C05",
   "status": "partial",
   "theorems": [
    "Verif.IBM.C05_overflow",
    "Verif.IBM.C05_subnormal_partial",
    "Verif.IBM.C05_underflow_refuted",
    "Verif.IBM.C05_unnormalised_refuted",
    "Verif.IBM.C05_carry_refuted"
   ],
   "note": "Overflow and subnormal rounding proved for normalised patterns down to 2^-157. Below that the shift is undefined; unnormalised patterns convert to a different value; to_float loses the carry out of the subnormal range (refuted theorems)."
  },
  {
   "property": "C06",
   "status": "proved",
   "theorems": [
    "Verif.CharEnc.C06_table_pairs",
    "Verif.CharEnc.C06_injective",
    "Verif.CharEnc.C06_text_roundtrip"
   ],
   "note": ""
  },
  {
   "property": "C07",
   "status": "partial",
   "theorems": [
    "Verif.CharEnc.C07_substitute_refuted",
    "Verif.CharEnc.C07_next_entry_partial"
   ],
   "note": "The code has no equality test after lower_bound: unmapped bytes take the code of the next mapped one; exactly one unmapped EBCDIC byte yields SUB (C07_substitute_refuted). The proved part gives the value returned for every byte."
  },
  {
   "property": "C08",
   "status": "proved",
   "theorems": [
    "Verif.Layout.C08_layout_tiles",
    "Verif.Layout.C08_disjoint",
    "Verif.Layout.C08_count_roundtrip"
   ],
   "note": "Under the hypothesis that the file size fits 64 bits."
  },
  {
   "property": "C09",
   "status": "partial",
   "theorems": [
    "Verif.Rules.C09_slots_partial",
    "Verif.Rules.C09_progress",
    "Verif.Rules.C09_copy_key_refuted"
   ],
   "note": "Proved for every history that never adds an ordinary item under the header-copy key; with such a history two items share a slot (C09_copy_key_refuted)."
  },
  {
   "property": "C10",
   "status": "partial",
   "theorems": [
    "Verif.Rules.C10_step_partial",
    "Verif.Rules.C10_addRules",
    "Verif.Rules.C10_history_partial",
    "Verif.Rules.C10_lookup_refuted",
    "Verif.Rules.C10_ctor"
   ],
   "note": "Refinement to a last-add-wins map for every history without lookups of absent items; a lookup of an absent item inserts a null entry and later calls crash (C10_lookup_refuted)."
  },
  {
   "property": "C11",
   "status": "proved",
   "theorems": [
    "Verif.Params.C11_set_get",
    "Verif.Params.C11_built",
    "Verif.Params.C11_in_range"
   ],
   "note": "Every Param whose storage matches its rule (all built on reachable rules do), every item, trace, and conversion type."
  },
  {
   "property": "C12",
   "status": "proved",
   "theorems": [
    "Verif.Params.C12_roundtrip",
    "Verif.Params.C12_known_layout"
   ],
   "note": "Every reachable full-extent rule with distinct header bytes, any number of traces and stride; floats must be convertible (otherwise the code has undefined behaviour). Library items shown to be distinct."
  },
  {
   "property": "C13",
   "status": "partial",
   "theorems": [
    "Verif.Params.C13_bytes_refuted",
    "Verif.Params.C13_insert_refuted",
    "Verif.Rules.C13_window_partial",
    "Verif.Rules.C13_full",
    "Verif.Rules.C13_copy_refuted",
    "Verif.Rules.C13_empty_refuted"
   ],
   "note": "Window is the smallest one containing all fields for rules that never held a header copy; stale after addCopy and wrong for the empty rule (refuted). The byte part is refuted for every partial-extent rule: the lowest field is read one byte before the window."
  },
  {
   "property": "C14",
   "status": "partial",
   "theorems": [
    "Verif.Scalar.C14_power_partial",
    "Verif.Scalar.C14_power_refuted",
    "Verif.Scalar.C14_exact",
    "Verif.Scalar.C14_readback_refuted",
    "Verif.Scalar.C14_fits",
    "Verif.Scalar.C14_large_partial",
    "Verif.Scalar.C14_edge_refuted"
   ],
   "note": "Decimals with at most 4 places that fit are stored exactly; every value up to 2^31-1 fits with its scalar to half a unit; large values get the smallest scalar. Refuted: values beyond every scalar get 0, rounding overflow at the edge (21474836475), and the double read back may differ in the last place (0.3)."
  },
  {
   "property": "C15",
   "status": "partial",
   "theorems": [
    "Verif.Scalar.C15_shared_partial",
    "Verif.Scalar.C15_overflow_refuted"
   ],
   "note": "Scalar of the group characterised; read back within half a unit and exact for multiples, provided the coordinate fits with the shared scalar. That proviso fails in the code: the finest scalar of the group may overflow another coordinate (C15_overflow_refuted)."
  },
  {
   "property": "C16",
   "status": "partial",
   "theorems": [
    "Verif.Params.C16_copy_partial",
    "Verif.Params.C16_kind_refuted"
   ],
   "note": "Items of the same kind are copied and other positions unchanged; refuted for items of different kinds in the two rules."
  },
  {
   "property": "C17",
   "status": "partial",
   "theorems": [
    "Verif.DataIO.C17_pieces_partial",
    "Verif.DataIO.C17_list_refuted",
    "Verif.DataIO.C17_count_refuted",
    "Verif.DataIO.C17_int_refuted",
    "Verif.DataIO.C17_failed_view_refuted"
   ],
   "note": "Proved for contiguous, strided and list requests of any size with any failing transfers, provided views and datatypes succeed and (lists) twice the block is within the limit. Refuted: a list block above half the limit divides by zero; after a failed view a strided request moves bytes at the start of the file. A list piece of 178956970 blocks or more fails an assertion (C17_count_refuted), one of 2^31 bytes or more is undefined behaviour (C17_int_refuted)."
  },
  {
   "property": "C18",
   "status": "partial",
   "theorems": [
    "Verif.DataIO.C18_same_calls_partial",
    "Verif.DataIO.C18_list_refuted",
    "Verif.DataIO.C18_strided_refuted"
   ],
   "note": "Proved for any number of processes and any sequence of requests with any failing transfers, provided views and datatypes succeed. Refuted for a view failing inside a list request and for a datatype failing inside a strided request."
  },
  {
   "property": "C19",
   "status": "partial",
   "theorems": [
    "Verif.DataIO.C19_reported_partial",
    "Verif.DataIO.C19_no_false_report_partial",
    "Verif.DataIO.C19_list_refuted"
   ],
   "note": "Proved for contiguous and strided requests under any failures. Refuted for list requests in general: iol ignores the result of the transfer, so no failing transfer is ever recorded."
  },
  {
   "property": "C20",
   "status": "partial",
   "theorems": [
    "Verif.Files.C20_last_write_partial",
    "Verif.Files.C20_caller_buffer",
    "Verif.Files.C20_elsewhere",
    "Verif.Files.C20_unnamed_refuted"
   ],
   "note": "For any sequence of successful writes (contiguous or list, samples, parameters or both) the samples and header fields of a trace are those of the last write touching them, other bytes are untouched, and the caller's buffer is restored. Refuted: writing parameters through a rule that does not name a field zeroes that field in the file."
  },
  {
   "property": "C21",
   "status": "partial",
   "theorems": [
    "Verif.Files.C21_close_partial",
    "Verif.Files.C21_text_partial",
    "Verif.Files.C21_zero_refuted",
    "Verif.Files.C21_beyond_refuted",
    "Verif.Files.C21_mismatch_refuted",
    "Verif.Files.C21_increment_refuted",
    "Verif.Files.C21_huge_refuted",
    "Verif.Files.C21_untouched_refuted"
   ],
   "note": "Any number of processes, any error-free history with non-zero samples: size, samples, count, increment and text as set last, traces untouched. Refuted: a call without traces extends the file to the place it names; traces beyond the declared count override it; with zero samples the processes can disagree on the collective resize; an unused writer keeps the size of an old file. Increments of 32768 microseconds or more wrap around (C21_increment_refuted), and beyond the range of long closing is undefined behaviour (C21_huge_refuted)."
  },
  {
   "property": "C22",
   "status": "partial",
   "theorems": [
    "Verif.Files.C22_clamped_partial",
    "Verif.Files.C22_transfer_partial",
    "Verif.Files.C22_beyond_refuted",
    "Verif.Files.C22_memory_refuted"
   ],
   "note": "Offsets within the file: exactly the traces that exist are read. Refuted: an offset beyond the end asks for nearly 2^64 traces (C22_beyond_refuted). The allocation for it cannot succeed (C22_memory_refuted)."
  },
  {
   "property": "C23",
   "status": "partial",
   "theorems": [
    "Verif.Files.C23_nonmonotonic_partial",
    "Verif.Files.C23_empty_refuted",
    "Verif.Files.C23_null_refuted"
   ],
   "note": "Non-empty lists with a parameter structure, any repetition and order, whichever order std::sort leaves equal elements in. Refuted: empty list, and a call without parameters (null pointer)."
  },
  {
   "property": "C24",
   "status": "partial",
   "theorems": [
    "Verif.Files.C24_ibm_refuted",
    "Verif.Files.C24_widen_partial"
   ],
   "note": "False of the code: each sample is widened to double before its bytes are taken, so every IBM read returns 0.5 for every sample (C24_ibm_refuted). Kept: widening to double loses nothing (C24_widen_partial)."
  },
  {
   "property": "C25",
   "status": "partial",
   "theorems": [
    "Verif.CharEnc.C25_header_bytes",
    "Verif.CharEnc.C25_ascii_partial",
    "Verif.CharEnc.C25_letters_refuted",
    "Verif.CharEnc.C25_ebcdic"
   ],
   "note": "Proved when the detection picks the encoding the text was written in; a text of characters at or above 0x40 only is taken for EBCDIC (C25_letters_refuted)."
  },
  {
   "property": "C26",
   "status": "proved",
   "theorems": [
    "Verif.Sort.C26_keys",
    "Verif.Sort.C26_strict_total"
   ],
   "note": "Every comparison equals the lexicographic order of the documented keys and the trace number. Coordinates are finite doubles; the evaluation of the calculated offset is an arbitrary function."
  },
  {
   "property": "C27",
   "status": "partial",
   "theorems": [
    "Verif.Sort.C27_sorted_partial",
    "Verif.Sort.C27_small_refuted",
    "Verif.Sort.C27_isolated",
    "Verif.Sort.C27_traces_partial"
   ],
   "note": "Proved for one process or at least four elements on every process; with fewer the exchange region is empty and the result is unsorted (refuted, and shown in general by C27_isolated)."
  },
  {
   "property": "C28",
   "status": "proved",
   "theorems": [
    "Verif.Sort.C28_ends"
   ],
   "note": "Ends within one more round than the number of inversions, for every number of processes and distribution, comparison a strict total order on the elements; std::sort is any function meeting its specification."
  },
  {
   "property": "C29",
   "status": "partial",
   "theorems": [
    "Verif.Sort.C29_inverse_partial",
    "Verif.Sort.C29_positions_partial",
    "Verif.Sort.C29_small_refuted"
   ],
   "note": "Proved for one process or at least four traces on every process; refuted with fewer."
  },
  {
   "property": "C30",
   "status": "partial",
   "theorems": [
    "Verif.Sort.C30_check_partial",
    "Verif.Sort.C30_boundary_refuted"
   ],
   "note": "checkOrder compares neighbours within a share only; the boundary between two shares is not looked at (refuted). Shares exact; whole file exact when the boundaries are in order."
  },
  {
   "property": "C31",
   "status": "partial",
   "theorems": [
    "Verif.Flow.C31_positions_partial",
    "Verif.Flow.C31_share_refuted"
   ],
   "note": "positions enumerate the output once in order, for any number of processes and files; files of different geometry do share an output when each group has one file (C31_share_refuted)"
  },
  {
   "property": "C32",
   "status": "partial",
   "theorems": [
    "Verif.Flow.C32_positions_partial",
    "Verif.Flow.C32_deal",
    "Verif.Flow.C32_small_refuted",
    "Verif.Flow.C32_sizes_refuted"
   ],
   "note": "output position = rank for one process or files of equal size with at least four traces per process; refuted for files of different sizes on several processes; sorting with a process of one or two traces is undefined behaviour (refuted)"
  },
  {
   "property": "C33",
   "status": "partial",
   "theorems": [
    "Verif.Flow.C33_sorts_partial",
    "Verif.Flow.C33_files_refuted",
    "Verif.Flow.C33_small_refuted",
    "Verif.Flow.C33_order_refuted",
    "Verif.Flow.C33_late_refuted",
    "Verif.Flow.C33_twice_refuted",
    "Verif.Flow.C33_second_refuted",
    "Verif.Flow.C33_gathers_partial",
    "Verif.Flow.C33_again_refuted",
    "Verif.Flow.C33_ties_refuted",
    "Verif.Flow.C33_gather_partial"
   ],
   "note": "proved for sorts of at least three traces followed by single-trace operations and for one final gather operation; refuted for the other mixed sequences, for sorts of one or two traces, and for ties between traces of different files, which interleave (one group, one process modelled; what happens after the output is C85)"
  },
  {
   "property": "C34",
   "status": "partial",
   "theorems": [
    "Verif.Flow.C34_forgotten_refuted",
    "Verif.Flow.C34_single_partial",
    "Verif.Flow.C34_names_partial",
    "Verif.Flow.C34_names_refuted"
   ],
   "note": "names of groups of several files are distinct; groups of one file collide, and output returns no name when the first operation is a sort or gather"
  },
  {
   "property": "C35",
   "status": "partial",
   "theorems": [
    "Verif.Flow.C35_cover_partial",
    "Verif.Flow.C35_two_refuted"
   ],
   "note": "proved for one gather operation, any number of processes and gather sizes; refuted for two consecutive gather operations"
  },
  {
   "property": "C36",
   "status": "partial",
   "theorems": [
    "Verif.Flow.C36_runs_partial",
    "Verif.Flow.C36_file_partial",
    "Verif.Flow.C36_bounds_refuted",
    "Verif.Flow.C36_defined_partial",
    "Verif.Flow.C36_last_refuted",
    "Verif.Flow.C36_empty_refuted",
    "Verif.Flow.C36_again_refuted"
   ],
   "note": "Proved when every process has a trace, equal keys stand together, and either all traces of the last process continue the run before (C36_defined_partial) or the read beyond the gathered lists gives some value. Refuted: that read is undefined behaviour in all other cases (C36_last_refuted, C36_bounds_refuted), as are processes without traces; keys that come back are counted wrongly."
  },
  {
   "property": "C37",
   "status": "partial",
   "theorems": [
    "Verif.Ops.C37_minmax_partial",
    "Verif.Ops.C37_empty",
    "Verif.Ops.C37_ties_refuted"
   ],
   "note": "proved for every distribution (also empty processes), ties within a process decided by the second coordinate; refuted: between processes ties are not"
  },
  {
   "property": "C38",
   "status": "partial",
   "theorems": [
    "Verif.Ops.C38_set_partial",
    "Verif.Ops.C38_numbers_partial",
    "Verif.Ops.C38_negative_refuted",
    "Verif.Ops.C38_empty_refuted"
   ],
   "note": "proved when every file has a trace and some value is at least the smallest positive normal double, values and trace numbers; refuted in general for negative values (the maximum starts at DBL_MIN) and for empty files"
  },
  {
   "property": "C39",
   "status": "proved",
   "theorems": [
    "Verif.Ops.C39_error",
    "Verif.Ops.C39_stored",
    "Verif.Ops.C39_count",
    "Verif.Ops.C39_check"
   ],
   "note": "for every sequence of log calls"
  },
  {
   "property": "C40",
   "status": "partial",
   "theorems": [
    "Verif.Signal.C40_window_partial",
    "Verif.Signal.C40_bounds",
    "Verif.Signal.C40_even_refuted"
   ],
   "note": "proved for every signal, gain function and window size whose next odd size is below the signal length, and absence of out-of-bounds accesses for all; refuted for even sizes one below the length (failed assertion)"
  },
  {
   "property": "C41",
   "status": "partial",
   "theorems": [
    "Verif.Signal.C41_taper_partial",
    "Verif.Signal.C41_zero_refuted",
    "Verif.Signal.C41_short_refuted"
   ],
   "note": "proved when the part after the muted start is longer than both tapers; refuted for muted signals (read behind the signal) and short unmuted parts (failed assertion); exact for any sample multiplication"
  },
  {
   "property": "C42",
   "status": "partial",
   "theorems": [
    "Verif.Signal.C42_mean_partial",
    "Verif.Signal.C42_mean_refuted",
    "Verif.Signal.C42_median_partial",
    "Verif.Signal.C42_pair_refuted",
    "Verif.Signal.C42_even_refuted"
   ],
   "note": "exact field arithmetic; mean proved for windows of one sign, median for odd sizes; refuted for mixed signs and for every even size; accesses stay in the window except for size two"
  },
  {
   "property": "C43",
   "status": "partial",
   "theorems": [
    "Verif.Signal.C43_time_partial",
    "Verif.Signal.C43_symmetric_refuted",
    "Verif.Signal.C43_cyclic_refuted",
    "Verif.Signal.C43_replicate_refuted",
    "Verif.Signal.C43_window_partial",
    "Verif.Signal.C43_default",
    "Verif.Signal.C43_window_refuted"
   ],
   "note": "holds for windows inside the trace (always for the default centre) and for zero padding, or replicate padding of windows that are not shorter than the padding less one; symmetric and cyclic padding always read outside the window; the frequency domain is the subject of C68; exact field arithmetic"
  },
  {
   "property": "C44",
   "status": "proved",
   "theorems": [
    "Verif.Signal.C44_expand",
    "Verif.Signal.C44_empty"
   ],
   "note": "exact ring arithmetic; empty list of roots separately"
  },
  {
   "property": "C45",
   "status": "partial",
   "theorems": [
    "Verif.Signal.C45_difference_partial",
    "Verif.Signal.C45_linear_partial",
    "Verif.Signal.C45_zero_refuted",
    "Verif.Signal.C45_short_refuted"
   ],
   "note": "order at least one and signals at least as long as the order; both refuted otherwise; exact ring arithmetic"
  },
  {
   "property": "C46",
   "status": "partial",
   "theorems": [
    "Verif.Util.C46_inline_partial",
    "Verif.Util.C46_crossline_partial",
    "Verif.Util.C46_xl_refuted",
    "Verif.Util.C46_il_refuted",
    "Verif.Util.C46_spacing_refuted",
    "Verif.Util.C46_open_refuted"
   ],
   "note": "Proved for one inline with crosslines one apart and for one crossline with at least three inlines. Every grid with at least two lines in both directions, in either order, and every spacing of at least two is refuted. 64-bit overflow of the offsets is not modelled."
  },
  {
   "property": "C47",
   "status": "partial",
   "theorems": [
    "Verif.Util.C47_array_partial",
    "Verif.Util.C47_bytes",
    "Verif.Util.C47_memory_refuted",
    "Verif.Util.C47_first_refuted",
    "Verif.Util.C47_behind"
   ],
   "note": "Proved for processes other than the first and elements that were allocated, and for all elements of one-byte types. Larger element types and rank 0 are refuted. The concurrency of the window locks is not modelled."
  },
  {
   "property": "C48",
   "status": "partial",
   "theorems": [
    "Verif.Util.C48_sound_partial",
    "Verif.Util.C48_matched_partial",
    "Verif.Util.C48_last_refuted",
    "Verif.Util.C48_ignored_refuted",
    "Verif.Util.C48_first_refuted",
    "Verif.Util.C48_window_refuted",
    "Verif.Util.C48_compared_partial",
    "Verif.Util.C48_defined_partial",
    "Verif.Util.C48_forward_partial",
    "Verif.Util.C48_reverse_refuted",
    "Verif.Util.C48_missed_refuted"
   ],
   "note": "Proved: every reported pair is a real one with its criterion and within the limit; a pair going in the same direction is taken into account if both traces have a close successor; no undefined behaviour with two close traces per process. Refuted: the last trace of a process on either side, a process with one trace in range, boats in opposite directions, and the transfer windows."
  },
  {
   "property": "C49",
   "status": "proved",
   "theorems": [
    "Verif.Ops.C49_once",
    "Verif.Ops.C49_user",
    "Verif.Ops.C49_library"
   ],
   "note": "for every sequence of calls; wrong calls of the user end the program (MPI's doing), wrong calls of the library are a distinct outcome proved not to occur"
  },
  {
   "property": "C50",
   "status": "partial",
   "theorems": [
    "Verif.Files.C50_roundtrip_partial",
    "Verif.Files.C50_nearest_refuted"
   ],
   "note": "The header always holds the whole number of microseconds, and readers return one fixed double within two units of the last place, stable under rewriting. Refuted as equality with the nearest double (5 microseconds)."
  },
  {
   "property": "C51",
   "status": "proved",
   "theorems": [
    "Verif.Util.C51_cover"
   ],
   "note": "for all distributions whose sum is the number of traces of the file, as the callers pass them"
  },
  {
   "property": "C52",
   "status": "partial",
   "theorems": [
    "Verif.Util.C52_tiles_partial",
    "Verif.Util.C52_inside_refuted",
    "Verif.Util.C52_size_refuted"
   ],
   "note": "ranges that meet more than one block; ranges inside a block refuted"
  },
  {
   "property": "C53",
   "status": "proved",
   "theorems": [
    "Verif.Scalar.C53_header",
    "Verif.Scalar.C53_reread"
   ],
   "note": "Every 32-bit integer and every accepted scalar, doubles rounded to nearest even (C53_reread); whole headers of any number of traces with any rule, where coordinates share scalar fields (C53_header)."
  },
  {
   "property": "C54",
   "status": "partial",
   "theorems": [
    "Verif.Sort.C54_recorded_partial",
    "Verif.Sort.C54_recorded_refuted",
    "Verif.Sort.C54_wrapped_partial"
   ],
   "note": "Holds for recorded offsets from 0 to 2^53; refuted for negative ones, which are converted to size_t and sort after all others (C54_wrapped_partial)."
  },
  {
   "property": "C55",
   "status": "partial",
   "theorems": [
    "Verif.Sort.C55_headers_refuted",
    "Verif.Sort.C55_records_partial"
   ],
   "note": "Holds when the rule copies no header; refuted with a copied header, which is not sent between processes."
  },
  {
   "property": "C56",
   "status": "partial",
   "theorems": [
    "Verif.Signal.C56_rectangular_partial",
    "Verif.Signal.C56_triangular_partial",
    "Verif.Signal.C56_zero_refuted",
    "Verif.Signal.C56_single_refuted",
    "Verif.Signal.C56_clipped"
   ],
   "note": "exact field arithmetic; proved for windows that are not zero under the weights; refuted for muted windows (failed assertion) and windows of one sample (not a number)"
  },
  {
   "property": "C57",
   "status": "proved",
   "theorems": [
    "Verif.Signal.C57_linear",
    "Verif.Signal.C57_cosine",
    "Verif.Signal.C57_cosine_square"
   ],
   "note": "exact real arithmetic"
  },
  {
   "property": "C58",
   "status": "partial",
   "theorems": [
    "Verif.Signal.C58_steady_partial",
    "Verif.Signal.C58_constant_refuted"
   ],
   "note": "steady state of one pass proved; the whole filter refuted, because the padding behind the window ends in three zeros; exact field arithmetic"
  },
  {
   "property": "C59",
   "status": "partial",
   "theorems": [
    "Verif.Util.C59_small",
    "Verif.Util.C59_naive_partial",
    "Verif.Util.C59_blocks_partial",
    "Verif.Util.C59_pieces_refuted",
    "Verif.Util.C59_standard_partial",
    "Verif.Util.C59_standard_pieces_refuted",
    "Verif.Util.C59_standard_small_refuted"
   ],
   "note": "Proved: small files and the two plain versions for files copied in one piece; the version that exchanges data between neighbours for files of at least a block and a header that fit into one round. Refuted: more pieces in each version; files below a block for the exchanging version on several processes."
  },
  {
   "property": "C60",
   "status": "partial",
   "theorems": [
    "Verif.Util.C60_tiles_partial",
    "Verif.Util.C60_sizes_partial",
    "Verif.Util.C60_rounding_refuted",
    "Verif.Util.C60_large_refuted",
    "Verif.Util.C60_weights_refuted"
   ],
   "note": "sizes below 2^32 for which rounding does not exceed the first share; other sizes and the direction of the weights refuted; exact quotients (products below 2^52)"
  },
  {
   "property": "C61",
   "status": "partial",
   "theorems": [
    "Verif.Util.C61_calls_partial",
    "Verif.Util.C61_limit_refuted"
   ],
   "note": "limits of at least one trace; smaller limits divide by zero"
  },
  {
   "property": "C62",
   "status": "partial",
   "theorems": [
    "Verif.Util.C62_contiguous_partial",
    "Verif.Util.C62_scattered_refuted"
   ],
   "note": "contiguous mode; scattered mode refuted"
  },
  {
   "property": "C63",
   "status": "partial",
   "theorems": [
    "Verif.Util.C63_calls_partial",
    "Verif.Util.C63_first_partial",
    "Verif.Util.C63_second_refuted"
   ],
   "note": "Proved for the first phase and, for up to 6100805 traces per process, for both. Refuted for the second phase with 12782641 traces on two processes. Memory limits that wrap around are outside the hypotheses."
  },
  {
   "property": "C64",
   "status": "proved",
   "theorems": [
    "Verif.Util.C64_output",
    "Verif.Util.C64_pairs"
   ],
   "note": "Positions and source trace numbers of all writes, for every limit of at least one trace. Reading and writing the traces themselves is the subject of C21 to C30."
  },
  {
   "property": "C65",
   "status": "proved",
   "theorems": [
    "Verif.Signal.C65_lowpass",
    "Verif.Signal.C65_highpass",
    "Verif.Signal.C65_bandpass",
    "Verif.Signal.C65_bandstop",
    "Verif.Signal.C65_corners"
   ],
   "note": "All four types, every order of at least one, exact real and complex arithmetic: rounding of float is not modelled. Order 0 is undefined behaviour (C66_zero)."
  },
  {
   "property": "C66",
   "status": "proved",
   "theorems": [
    "Verif.Signal.C66_stable",
    "Verif.Signal.C66_zero"
   ],
   "note": "All four types, exact arithmetic."
  },
  {
   "property": "C67",
   "status": "partial",
   "theorems": [
    "Verif.Signal.C67_lowpass_partial",
    "Verif.Signal.C67_rate_refuted",
    "Verif.Signal.C67_highpass_refuted",
    "Verif.Signal.C67_band_refuted",
    "Verif.Signal.C67_bandpass_partial",
    "Verif.Signal.C67_bandstop_partial",
    "Verif.Signal.C67_bandpass_refuted",
    "Verif.Signal.C67_bandstop_refuted"
   ],
   "note": "Low pass at sampling rate 1: the smallest order that meets the bound. Refuted for other rates (the order ignores the rate), for high pass (always undefined behaviour) and for band filters called with the two corners that Set::temporalFilter asks for. Four corners at one sample per unit of time: proved exactly where the order is defined."
  },
  {
   "property": "C68",
   "status": "partial",
   "theorems": [
    "Verif.Signal.C68_gain_refuted",
    "Verif.Signal.C68_circle_partial"
   ],
   "note": "Refuted for low pass at every rational sampling rate and every bin strictly between zero and half the rate: the exponential has fs where it should have 2 pi. Kept: bin zero has the right gain, and every factor has the modulus of the response at some point of the unit circle. FFTW is not modelled."
  },
  {
   "property": "C69",
   "status": "proved",
   "theorems": [
    "Verif.Flow.C69_calls",
    "Verif.Flow.C69_memory"
   ],
   "note": "Every number of processes and division. The functions of the operations themselves are the subject of C33 and C40 to C45."
  },
  {
   "property": "C70",
   "status": "partial",
   "theorems": [
    "Verif.Ops.C70_world_partial",
    "Verif.Ops.C70_hang_refuted",
    "Verif.Ops.C70_split_refuted"
   ],
   "note": "Proved for the communicator of all processes. Refuted for every smaller one: the call does not return, or adds the values of processes outside."
  },
  {
   "property": "C71",
   "status": "partial",
   "theorems": [
    "Verif.Props.C71_samples_partial",
    "Verif.Props.C71_first_refuted",
    "Verif.Props.C71_late_refuted",
    "Verif.Props.C71_bin_refuted"
   ],
   "note": "Proved when the model covers the time of every sample, for traces from the second on. Refuted: the first trace is never used; samples at or after the end of the model take the next gather's velocity or are undefined behaviour; a bin of 0 is undefined behaviour. The distance itself (division by the cosine, rounding) is left open."
  },
  {
   "property": "C72",
   "status": "partial",
   "theorems": [
    "Verif.Props.C72_reads_partial",
    "Verif.Props.C72_rule_refuted",
    "Verif.Props.C72_element_refuted",
    "Verif.Props.C72_check_refuted",
    "Verif.Props.C72_traces_refuted",
    "Verif.Props.C72_flush_refuted"
   ],
   "note": "Proved for the rule that first asked for the files. Refuted: another rule is ignored; the checks always say no; traces are never given; dropping files that are not held is undefined behaviour."
  },
  {
   "property": "C73",
   "status": "partial",
   "theorems": [
    "Verif.Props.C73_text_partial",
    "Verif.Props.C73_zeros_refuted",
    "Verif.Props.C73_negative_refuted"
   ],
   "note": "Proved for non-negative coordinates with a fraction of at least a tenth. Refuted: leading zeros of the fraction are dropped; negative coordinates are put below their whole part."
  },
  {
   "property": "C74",
   "status": "partial",
   "theorems": [
    "Verif.Props.C74_axes_partial",
    "Verif.Props.C74_mirror_partial",
    "Verif.Props.C74_zone_partial",
    "Verif.Props.C74_north_partial",
    "Verif.Props.C74_south_refuted",
    "Verif.Props.C74_foot_partial",
    "Verif.Props.C74_series_refuted",
    "Verif.Props.C74_east_partial",
    "Verif.Props.C74_lng_partial",
    "Verif.Props.C74_lat_partial",
    "Verif.Props.C74_signs_refuted"
   ],
   "note": "Proved over the reals: central meridian and equator, mirror symmetry, zones, growth northwards on the middle meridian and eastwards. Refuted: the southern hemisphere is turned around; integer divisions in the series. Compared with the published series: the terms agree but for the sign of the third power in longitude and of the fourth power and the coefficient of the sixth power in latitude (C74_signs_refuted)."
  },
  {
   "property": "C75",
   "status": "partial",
   "theorems": [
    "Verif.Props.C75_utm_partial",
    "Verif.Props.C75_order_refuted",
    "Verif.Props.C75_message_refuted",
    "Verif.Props.C75_diagonal_refuted"
   ],
   "note": "Proved for converted coordinates. Refuted: coordinates that are not converted come latitude first; without a zone the message is printed for valid coordinates too; the line joins corners of the box where there may be no trace."
  },
  {
   "property": "C76",
   "status": "partial",
   "theorems": [
    "Verif.Util.C76_moves_partial",
    "Verif.Util.C76_messages",
    "Verif.Util.C76_far_refuted"
   ],
   "note": "Proved when each border stays inside the old or new share of a neighbour. Refuted for borders that move further."
  },
  {
   "property": "C77",
   "status": "partial",
   "theorems": [
    "Verif.Extremes.C77_items_partial",
    "Verif.Extremes.C77_absent_refuted",
    "Verif.Extremes.C77_extremes_partial",
    "Verif.Extremes.C77_file_partial",
    "Verif.Extremes.C77_number_refuted",
    "Verif.Extremes.C77_empty_refuted"
   ],
   "note": "Proved for every file with traces, any number of processes: headers, numbers and the file written. False of the code and refuted: numbers from 2^31 on are cut to 32 bits; without traces headers are decoded from the header of the file; a process without traces makes the library read through a null pointer if an item is not in the default rule."
  },
  {
   "property": "C78",
   "status": "partial",
   "theorems": [
    "Verif.Flow.C78_concatenate_partial",
    "Verif.Flow.C78_zero_refuted",
    "Verif.Flow.C78_ibm_refuted"
   ],
   "note": "From bytes to bytes for all files, processes and schedules, if the numbers are not in the IBM format and the interval is positive. Interval 0 is refuted (C78_zero_refuted: no file header is written). IBM numbers are refuted (C78_ibm_refuted: if the program ends, every sample of the files in the IBM format is 0.5 in the output, with headers right). Different groups of one file each share a name (C31_share_refuted)."
  },
  {
   "property": "C79",
   "status": "partial",
   "theorems": [
    "Verif.Flow.C79_verdict",
    "Verif.Flow.C79_sorted_partial",
    "Verif.Flow.C79_verify_partial",
    "Verif.Flow.C79_depth_refuted",
    "Verif.Flow.C79_verify_refuted"
   ],
   "note": "From input bytes to output bytes, for one process and at least three traces or files of equal size and at least four traces per process: ends, output opens, traces are a rearrangement in order, bytes kept except coordinates, receiver depth and their scalars, which keep their values. verifysort succeeds for scalars without decimal places and its verdict is characterised for every file. Refuted: decimal coordinates can fail the check (C79_verify_refuted), source depth and elevations change with the scalar (C79_depth_refuted)."
  },
  {
   "property": "C80",
   "status": "partial",
   "theorems": [
    "Verif.CCopy.C80_copy_partial",
    "Verif.CCopy.C80_text_partial",
    "Verif.CCopy.C80_rounds_refuted",
    "Verif.CCopy.C80_memory_refuted",
    "Verif.CCopy.C80_interval_refuted",
    "Verif.CCopy.C80_flags_refuted",
    "Verif.CCopy.C80_main_partial",
    "Verif.CCopy.C80_header_refuted",
    "Verif.CCopy.C80_nul_refuted",
    "Verif.CCopy.C80_linear_refuted",
    "Verif.CCopy.C80_sources"
   ],
   "note": "From file bytes to file bytes for every number of processes, memory limit and schedule when all processes need the same number of rounds: ends, output opens with the same sizes and interval, samples, numbers and coordinates kept. Refuted: unequal rounds abort exactly when stated (C80_rounds_refuted), small memory limits divide by zero, interval 0 ends with an error, -p/-t/unknown options are undefined behaviour, header bytes outside the default rule are zeroed, text after a NUL is lost, -t misses samples (C80_linear_refuted); -p characterised by C80_sources."
  },
  {
   "property": "C81",
   "status": "partial",
   "theorems": [
    "Verif.Sort.C81_distance_partial",
    "Verif.Sort.C81_distance_refuted",
    "Verif.Sort.C81_nearer_partial"
   ],
   "note": "Exact for coordinates that are whole numbers apart, below 2^26 (C81_distance_partial); for all others the nearer trace comes first if the squared distances differ by one part in 2^49 (C81_nearer_partial). Without such a gap it is false: C81_distance_refuted."
  },
  {
   "property": "C82",
   "status": "partial",
   "theorems": [
    "Verif.CCreate.C82_create_partial",
    "Verif.CCreate.C82_ccreate_partial",
    "Verif.CCreate.C82_maincc_partial",
    "Verif.CCreate.C82_main_refuted",
    "Verif.CCreate.C82_interval_refuted",
    "Verif.CCreate.C82_processes_refuted",
    "Verif.CCreate.C82_lines_refuted",
    "Verif.CCreate.C82_coords_refuted",
    "Verif.CCreate.C82_example1_refuted"
   ],
   "note": "Both versions for intervals of whole microseconds up to 32767 and up to 2^24 traces (C++: 2^24 - 2399), C on at most as many processes as traces; C82_maincc_partial for what exampleCreateFile.cc itself makes. exampleCreateFile.c loses its interval and so writes no file header (C82_main_refuted); no whole number of seconds survives (C82_interval_refuted); example1 records 2304 microseconds (C82_example1_refuted); more processes than traces end the C version (C82_processes_refuted); lines and coordinates repeat beyond 2^24 (C82_lines_refuted, C82_coords_refuted)."
  },
  {
   "property": "C83",
   "status": "partial",
   "theorems": [
    "Verif.CSwap.C83_swap_partial",
    "Verif.CSwap.C83_rounds",
    "Verif.CSwap.C83_twice_partial",
    "Verif.CSwap.C83_samples_refuted",
    "Verif.CSwap.C83_header_refuted",
    "Verif.CSwap.C83_interval_refuted"
   ],
   "note": "Whole program, any number of processes and any order of calls, for files with a positive interval: numbers, coordinates (with a usable scalar) and zero elsewhere in the header; the number of calls is the same on all processes (C83_rounds) and twice restores the values of the default rule (C83_twice_partial). The samples are not copied (C83_samples_refuted), header bytes outside the default rule are lost (C83_header_refuted), and a file with the interval 0 is refused (C83_interval_refuted)."
  },
  {
   "property": "C84",
   "status": "partial",
   "theorems": [
    "Verif.CTurn.C84_square_partial",
    "Verif.CTurn.C84_shape_refuted",
    "Verif.CTurn.C84_overread_refuted",
    "Verif.CTurn.C84_long_refuted",
    "Verif.CTurn.C84_interval_refuted",
    "Verif.CTurn.C84_processes_refuted"
   ],
   "note": "True of files with as many traces as samples, IEEE format, positive interval (C84_square_partial). False otherwise, because writeNs is given the number of traces and writeNt the number of samples: fewer traces than samples give a file of the wrong shape (C84_shape_refuted), more are undefined (C84_overread_refuted), more than 32767 leave no file header and no samples (C84_long_refuted). An interval of 0 leaves no file header without complaint (C84_interval_refuted); more processes than traces can fail an assertion (C84_processes_refuted)."
  },
  {
   "property": "C85",
   "status": "partial",
   "theorems": [
    "Verif.Life.C85_endings",
    "Verif.Life.C85_lost_refuted",
    "Verif.Life.C85_again_partial",
    "Verif.Life.C85_outputs_partial",
    "Verif.Life.C85_once_partial",
    "Verif.Life.C85_gather_partial",
    "Verif.Life.C85_text_refuted",
    "Verif.Life.C85_groups_refuted",
    "Verif.Life.C85_overwritten_refuted",
    "Verif.Life.C85_second_refuted",
    "Verif.Life.C85_kept_refuted"
   ],
   "note": "Proved: any number of outputs after sorts of files of one kind (C85_outputs_partial; the end changes nothing after sorts whatever came before, C85_again_partial), a set with a prefix and no output call (C85_once_partial), one gather operation with single-trace operations (C85_gather_partial: applied twice after the output, once at the end). Refuted: single-trace operations before the last output are lost for every program (C85_lost_refuted), the text is lost with gathers or when a file is added later (C85_text_refuted), two kinds of files with a gather are undefined or lose traces (C85_groups_refuted, C85_overwritten_refuted), a second gather is undefined (C85_second_refuted). One process. C85_endings: which names the set takes."
  },
  {
   "property": "C86",
   "status": "partial",
   "theorems": [
    "Verif.RadonTool.C86_inline_partial",
    "Verif.RadonTool.C86_crossline_partial",
    "Verif.RadonTool.C86_grid_refuted",
    "Verif.RadonTool.C86_order_refuted"
   ],
   "note": "Kept for a velocity model that is one inline with crosslines one apart or one crossline of at least three inlines, gathers in the order of the model, and the first trace of a gather never used (C71). Refuted: for a model of two or more inlines and crosslines every gather beyond the first inline becomes zero (C86_grid_refuted); gathers in another order than the model's are undefined behaviour on one process (C86_order_refuted)."
  },
  {
   "property": "C87",
   "status": "partial",
   "theorems": [
    "Verif.FourDOut.C87_output_partial",
    "Verif.FourDOut.C87_zero_refuted",
    "Verif.FourDOut.C87_pairs_partial",
    "Verif.FourDOut.C87_fourdbin_partial",
    "Verif.FourDOut.C87_criterion"
   ],
   "note": "Kept for sources in IEEE format with a positive interval and at most 32767 samples, for any lists, numbers of processes and order of the writes; the criterion is stored within half a unit of its scalar. Missing: IBM samples, which are converted. Refuted for a source whose interval is 0: the traces are written but no file header (C87_zero_refuted)."
  },
  {
   "property": "C88",
   "status": "partial",
   "theorems": [
    "Verif.FourDOut.C88_coords_partial",
    "Verif.FourDOut.C88_few_refuted",
    "Verif.FourDOut.C88_stuck_refuted",
    "Verif.FourDOut.C88_binning_partial",
    "Verif.FourDOut.C88_ends_partial",
    "Verif.FourDOut.C88_single_refuted"
   ],
   "note": "Coordinates: kept for up to 6100805 traces per process on average (each process always in order, all processes together if there is one or at least four traces for each). Program: whenever it ends the outputs hold real pairs within the limit, every trace of the first file once at most; it does end if all sources are near to each other and every process has a trace of the first and two of the second file. Refuted: several processes with fewer than four traces each are not in order together (C88_few_refuted); 12782641 traces on two processes wait for ever (C88_stuck_refuted); fewer than two traces of the second file for each process never give outputs (C88_single_refuted). Missing: near pairs where one of the two is the last near trace of its process, which C48 refutes; IBM samples."
  },
  {
   "property": "C89",
   "status": "partial",
   "theorems": [
    "Verif.Gen.C89_contiguous_partial",
    "Verif.Gen.C89_scattered_partial",
    "Verif.Gen.C89_scattered_refuted",
    "Verif.Gen.C89_lines_refuted",
    "Verif.Gen.C89_memory_refuted"
   ],
   "note": "Written in one run (C89_contiguous_partial): everything holds for up to 2^25 - 4800 traces, in the uneven mode with at least (P-1)P(P+1)/4 of them. Scattered (C89_scattered_partial): sizes and headers are right, the samples are those of a trace no further on, and its own on one process. Refuted: with -r on two or more processes the trace whose number is the number of processes holds the samples of trace 1 (C89_scattered_refuted); from 2^25 + 2 traces neighbouring traces have the same lines (C89_lines_refuted); 2^44 MiB of memory divide by zero (C89_memory_refuted). Missing: uneven shares of few traces (C60 refutes them), the value of a sample as a number, parsing of the options."
  },
  {
   "property": "C90",
   "status": "partial",
   "theorems": [
    "Verif.Flow.C90_operations_partial",
    "Verif.Flow.C90_ibm_refuted",
    "Verif.Flow.C90_dead_refuted",
    "Verif.Flow.C90_example_refuted"
   ],
   "note": "C90_operations_partial: for every list of tapers, gain controls and time-domain filters and all files whose traces can be worked on, headers come out byte for byte and samples are the operations in order applied to each trace alone. Refuted: a taper ends the program at any trace with only zero samples (C90_dead_refuted); a filter with symmetric padding, that of examples/exampleFilterTaper.cc, reads behind its window for every set with a trace (C90_example_refuted). For IBM input the operations are given 0.5 for every sample (C90_ibm_refuted). Missing: intervals that are not positive; float arithmetic is any multiplication for tapers and gains and a field for the filter."
  },
  {
   "property": "C91",
   "status": "partial",
   "theorems": [
    "Verif.Flow.C91_operations_partial",
    "Verif.Flow.C91_sort_partial",
    "Verif.Gen.C91_filemake_partial",
    "Verif.Gen.C91_scattered_refuted",
    "Verif.FourDOut.C91_binning_refuted"
   ],
   "note": "C91_operations_partial: two runs of a set with any list of single-trace operations (none: concatenation) leave the same bytes whatever the numbers of processes, the schedules and the earlier contents. C91_sort_partial: the same for the sort tool, whatever std::sort does with ties. C91_filemake_partial: the same for filemake without -r, for any shares and limits of memory. Refuted: filemake -r gives another file on several processes than on one (C91_scattered_refuted); 4D binning of two files at the same places gives outputs of another length on two processes than on one (C91_binning_refuted). Missing: what the theorems used for each program leave out (C78, C79, C89, C90)."
  },
  {
   "property": "C92",
   "status": "partial",
   "theorems": [
    "Verif.Flow.C92_queue_partial",
    "Verif.Flow.C92_ibm_refuted",
    "Verif.Flow.C92_late_refuted",
    "Verif.Flow.C92_ignored_refuted"
   ],
   "note": "C92_queue_partial: any number of sorts and then any list of tapers, gains and filters, from input bytes to output bytes: every trace once, in the order of the last sort (ties by trace number, then file), headers kept except for the representation of coordinates, samples as the operations in order make them of the same trace. Refuted: a sort after an operation is left out, with all that follows it, for all files and comparisons (C92_late_refuted: the traces stay in the order of the files; C92_ignored_refuted: after an earlier sort the outcome is that without the second one); traces of files in the IBM format become halves before the operations, also in the sort tool (C92_ibm_refuted). Missing: what C79_sorted_partial and C90_operations_partial leave out (numbers of traces below what the sort works for, traces for which an operation is undefined)."
  },
  {
   "property": "C93",
   "status": "partial",
   "theorems": [
    "Verif.Util.C93_copies_partial",
    "Verif.Util.C93_stale_refuted",
    "Verif.Util.C93_trailing_refuted",
    "Verif.Util.C93_default_refuted",
    "Verif.Util.C93_version_refuted"
   ],
   "note": "C93_copies_partial: from the bytes of the input to the bytes of the output and to what opening it shows, for all versions, orders of writes and numbers of processes, when the file is small (less than a header per process) or copied in one piece (1 GiB per process) and, with blocks on several processes, larger than a block. Refuted: an output that was longer keeps its length and its old traces (C93_stale_refuted); bytes behind the last trace of the input shift every repetition but the first (C93_trailing_refuted); the default version on several processes never gives a file of the right size for files below 2 MiB (C93_default_refuted); another word after -v is undefined (C93_version_refuted). Missing: files larger than one piece (C59_pieces_refuted shows the repetitions overwrite each other)."
  },
  {
   "property": "C94",
   "status": "partial",
   "theorems": [
    "Verif.Signal.C94_amplitude",
    "Verif.Signal.C94_linear",
    "Verif.Signal.C94_cosine",
    "Verif.Signal.C94_cosine_square",
    "Verif.Signal.C94_cosine_end",
    "Verif.Signal.C94_zero_refuted"
   ],
   "note": "In IEEE single precision with every operation rounded. C94_amplitude: no sample grows or changes sign, for all traces, lengths and built-in ramps, using of cosf and pow only their ranges. C94_linear: within 2^-24 of j/n, strictly rising from above zero to exactly one, lengths up to 2^22. C94_cosine, C94_cosine_square, C94_cosine_end: within 2^-21 and 2^-19 of the formulas in exact arithmetic (lengths below 2^24, cosf within 9/16 of a last place), one at the end. Refuted: cosine ramps of 16384 samples and more are zero at their start, so the first sample is lost (C94_zero_refuted). Missing: infinities and NaN."
  },
  {
   "property": "C95",
   "status": "partial",
   "theorems": [
    "Verif.Signal.C95_gain_partial",
    "Verif.Signal.C95_agc_partial",
    "Verif.Signal.C95_quiet_refuted",
    "Verif.Signal.C95_loud_refuted"
   ],
   "note": "In IEEE single precision with infinities. C95_gain_partial and C95_agc_partial: for samples that are zero or between 2^-40 and 2^40 in magnitude, windows with a sample that is not zero and targets between 2^-20 and 2^20, the gain is that of the formula within (n + 6) 2^-24 and each output sample within (w + 9) 2^-24, relative. Refuted outside: windows of samples below 2^-75 fail an assertion although they are not zero (C95_quiet_refuted), samples of 2^64 and more make the gain zero and silence the signal (C95_loud_refuted). Missing: the ranges in between, and the other gain functions."
  },
  {
   "property": "C96",
   "status": "partial",
   "theorems": [
    "Verif.Life.C96_files_partial",
    "Verif.Life.C96_ignored_refuted"
   ],
   "note": "C96_files_partial: two files or more of one kind, any sorts, a gather operation, any single-trace operations, an output; the life of the set to its end (after the output itself the single-trace operations have been applied twice, C85). Refuted for one file: sorts before the gather operation have no effect, the files left behind are the same as without them (C96_ignored_refuted). Missing: sets of several kinds (C85_groups_refuted), a second gather operation (C85_second_refuted)."
  },
  {
   "property": "C97",
   "status": "partial",
   "theorems": [
    "Verif.FourDSingle.C97_criterion_partial",
    "Verif.FourDSingle.C97_finite",
    "Verif.FourDSingle.C97_binning_partial",
    "Verif.FourDSingle.C97_zero_refuted",
    "Verif.FourDSingle.C97_partner_refuted"
   ],
   "note": "C97_criterion_partial: for coordinates of at most 2^(E+24) the criterion is that of the headers up to 3*2^E and a relative error of 2^-21. C97_binning_partial: the whole program, on top of C88_binning_partial: pairs are within the limit, the stored criterion is theirs and partners are nearest, up to these errors. C97_finite: never an infinity or not-a-number. Refuted: for coordinates between 4194304 and 8388608 the accuracy of the headers is lost, traces 67 cm apart have criterion zero (C97_zero_refuted), and a trace beside is taken although another is exactly in place (C97_partner_refuted). The square root is a parameter that rounds correctly. Missing besides: the traces for which C48 and C88 are refuted."
  },
  {
   "property": "C98",
   "status": "partial",
   "theorems": [
    "Verif.KmlTool.C98_lines_partial",
    "Verif.KmlTool.C98_processes",
    "Verif.KmlTool.C98_markup_refuted",
    "Verif.KmlTool.C98_empty_refuted",
    "Verif.KmlTool.C98_degrees_refuted",
    "Verif.KmlTool.C98_dropped_refuted",
    "Verif.KmlTool.C98_nothing_refuted",
    "Verif.KmlTool.C98_unnamed_refuted",
    "Verif.KmlTool.C98_zone_refuted"
   ],
   "note": "C98_lines_partial: for SEG-Y files with traces and names without markup the output is read by a reader of XML (written for this claim) as one placemark for each file, in order, named after it, and its line joins the corners of the box of the sources, converted if the easting is over 180 and a zone is given. C98_processes: the same output for every number of processes. Refuted: names with < or & make a document that cannot be read (C98_markup_refuted); missing files and files without traces are drawn at longitude and latitude zero (C98_empty_refuted); coordinates in degrees are written with x, the longitude, in the place of the latitude (C98_degrees_refuted); if the first name does not end in y the other names are passed over (C98_dropped_refuted) and if it is not there the document is empty (C98_nothing_refuted); an empty name is undefined (C98_unnamed_refuted); a zone of letters ends the program by an exception (C98_zone_refuted). The formula of the conversion is a parameter here (C74); negative numbers and numbers with a zero as first decimal are those of C73."
  },
  {
   "property": "C99",
   "status": "partial",
   "theorems": [
    "Verif.Signal.C99_nan_refuted",
    "Verif.Signal.C99_unstable_refuted",
    "Verif.Signal.C99_difference_partial",
    "Verif.Signal.C99_output_partial"
   ],
   "note": "C99_difference_partial: for all coefficients, signals and initial conditions, every sample of a result made of numbers is that of the difference equation up to N + 2 roundings of the sizes of its terms. C99_output_partial: if the response of the denominator to an impulse is summable the whole result in floats is made of numbers and stays within an explicit distance of the exact one. Refuted: for every order and corner with (1 + 2 tan(pi c/fs))^N at most 27/16 and (2 tan(pi c/fs))^N at most 2^-27, all floats near the denominator designed give a filter that is not stable, or one with a gain for constants of at most one half instead of one (C99_unstable_refuted); there is a low pass of order 4 at almost 2 Hz and 1 kHz whose nearest floats add up to zero, so that for every trace, numerator and padding no sample of the result is a number (C99_nan_refuted). The design itself is exact (C65, C66); its own rounding in double precision is not modelled."
  },
  {
   "property": "C100",
   "status": "partial",
   "theorems": [
    "Verif.ConcatTool.C100_interval",
    "Verif.ConcatTool.C100_files_partial",
    "Verif.ConcatTool.C100_processes",
    "Verif.ConcatTool.C100_declined",
    "Verif.ConcatTool.C100_alone_refuted",
    "Verif.ConcatTool.C100_input_refuted",
    "Verif.ConcatTool.C100_ending_refuted",
    "Verif.ConcatTool.C100_shell_refuted",
    "Verif.ConcatTool.C100_options"
   ],
   "note": "C100_files_partial: from the arguments and the files on disk to the files on disk, for all processes, orders of the writes and contents of the outputs before, if at most one file differs from all others in samples or interval, no output is an input, intervals are positive and numbers not in the IBM format. C100_processes: the same bytes for any processes. C100_options: options in any order, the last of each counts. C100_declined: no file changes without a yes. Refuted: two files of different kinds go to the same output and only one remains (C100_alone_refuted); an output that is an input is opened twice (C100_input_refuted); files whose names do not end in segy or sgy are left out without an error (C100_ending_refuted); of names given one by one all but the first are passed over (C100_shell_refuted). C100_interval: the interval in the output's name is six digits of microseconds."
  },
  {
   "property": "C101",
   "status": "partial",
   "theorems": [
    "Verif.Options.C101_options",
    "Verif.Options.C101_letters",
    "Verif.Options.C101_number",
    "Verif.SortMain.C101_sort_options",
    "Verif.SortMain.C101_verify_options",
    "Verif.SortMain.C101_sort_partial",
    "Verif.SortMain.C101_type_refuted",
    "Verif.SortMain.C101_text_refuted",
    "Verif.SortMain.C101_missing_refuted",
    "Verif.SortMain.C101_verdict",
    "Verif.SortMain.C101_boundary_refuted",
    "Verif.SortMain.C101_ending_refuted"
   ],
   "note": "C101_sort_partial: from the arguments and the files on disk to the files on disk, and from there through verifysort on any number of processes, under the conditions of C79_sorted_partial and C100_files_partial (enough traces, files of equal size on several processes, no IBM numbers, at most one file alone in its kind). C101_options, C101_sort_options and C101_number: command lines are read as meant. C101_type_refuted: numbers that are not types sort by source and receiver without a message. C101_text_refuted: text after the number is passed over. C101_missing_refuted: verifysort reports success for files that are not there or too short. C101_verdict: on one process verifysort reports success exactly for files in order. C101_boundary_refuted: on as many processes as traces it reports success for every file. C101_ending_refuted: undefined behaviour if no matching name ends in segy or sgy. C101_verify_options: the options of verifysort in any order. C101_letters: several options in one argument, unknown letters, values in the same or the next argument, missing values and what follows --."
  },
  {
   "property": "C102",
   "status": "partial",
   "theorems": [
    "Verif.Extremes.C102_extremes_partial",
    "Verif.Extremes.C102_negative_refuted",
    "Verif.Extremes.C102_empty_refuted",
    "Verif.Extremes.C102_share_refuted",
    "Verif.Extremes.C102_item_refuted"
   ],
   "note": "C102_extremes_partial: from the bytes of the files to the four values and numbers, any two of the 27 items of the header, any number of processes; the rule's items are restored. C102_negative_refuted: without a positive value the largest is the smallest positive normal double. C102_empty_refuted: a file without traces, or missing, counts as a trace with the value 0. C102_share_refuted: undefined behaviour for an item outside the default rule if a file has fewer traces than there are processes. C102_item_refuted: undefined behaviour for items 30 and above."
  },
  {
   "property": "C103",
   "status": "partial",
   "theorems": [
    "Verif.Signal.C103_triangular_partial",
    "Verif.Signal.C103_one_refuted",
    "Verif.Signal.C103_agc_partial",
    "Verif.Signal.C103_nan_refuted",
    "Verif.Signal.C103_mean_partial",
    "Verif.Signal.C103_cancel_refuted",
    "Verif.Signal.C103_overflow_refuted",
    "Verif.Signal.C103_median_partial",
    "Verif.Signal.C103_pair_refuted",
    "Verif.Signal.C103_start_refuted"
   ],
   "note": "C103_triangular_partial, C103_mean_partial, C103_median_partial and C103_agc_partial: the gains and gain control in floats against the exact formulas, for samples that are zero or between 2^-30 and 2^30 (the median for every odd window without overflow), windows up to 2^20 samples, one sign for the mean. C103_one_refuted and C103_nan_refuted: the triangle of one sample gives not-a-number, and gain control with it makes every sample not-a-number. C103_cancel_refuted: the assertion of the mean fails for samples whose sum is not zero. C103_overflow_refuted: the mean of loud samples gives gain zero. C103_pair_refuted and C103_start_refuted: undefined behaviour of the median of two samples, and of gain control with windows of two or three samples for every signal. The exact versions are C42 and C56; the rectangular gain is C95."
  },
  {
   "property": "C104",
   "status": "partial",
   "theorems": [
    "Verif.RadonMain.C104_files_partial",
    "Verif.RadonMain.C104_interval_refuted",
    "Verif.RadonMain.C104_time_refuted",
    "Verif.RadonMain.C104_between_refuted",
    "Verif.RadonMain.C104_name_refuted",
    "Verif.RadonMain.C104_clash_refuted",
    "Verif.RadonMain.C104_ending_refuted",
    "Verif.RadonMain.C104_joined_partial",
    "Verif.RadonMain.C104_options"
   ],
   "note": "C104_files_partial: one input file, from the arguments and the bytes on disk to the bytes on disk; C104_joined_partial: several files with the same samples and interval; C104_options: the options. As in C86 the model must be one inline or one crossline with the gathers in its order, and there must be no more processes than traces. C104_interval_refuted: the output has 17453 microseconds as its interval whatever the input has. C104_between_refuted: gtemp.segy is overwritten and stays. C104_name_refuted: the file with the given name is not written, .segy is appended. C104_clash_refuted: undefined behaviour for the name gtemp. C104_ending_refuted: the program ends for names that do not end in segy or sgy. C104_time_refuted: with equal intervals of a quarter of a millisecond sample 2001 takes the velocity of sample 2000. Bins of size zero: C71_bin_refuted."
  },
  {
   "property": "C105",
   "status": "partial",
   "theorems": [
    "Verif.Release.C105_same",
    "Verif.Release.C105_window",
    "Verif.Release.C105_wide_refuted",
    "Verif.Release.C105_muted_refuted",
    "Verif.Release.C105_quiet_refuted",
    "Verif.Release.C105_taper",
    "Verif.Release.C105_taper_refuted",
    "Verif.Release.C105_zero_refuted",
    "Verif.Release.C105_filter_refuted"
   ],
   "note": "The first half holds: C105_same. C105_window and C105_taper: the default build succeeds in more cases, with the result C40 and C41 ask for. The second half fails: C105_muted_refuted (not-a-number for windows of zeros), C105_quiet_refuted (infinite values), C105_wide_refuted, C105_taper_refuted, C105_zero_refuted, C105_filter_refuted (undefined behaviour). The assertions outside signal processing are C106."
  },
  {
   "property": "C106",
   "status": "partial",
   "theorems": [
    "Verif.Release.C106_same",
    "Verif.Release.C106_array",
    "Verif.Release.C106_end_refuted",
    "Verif.Release.C106_inside_refuted",
    "Verif.Release.C106_large_refuted",
    "Verif.Release.C106_corner_refuted",
    "Verif.Release.C106_programs",
    "Verif.Release.C106_concat_refuted",
    "Verif.Release.C106_sort_refuted",
    "Verif.Release.C106_verify_refuted"
   ],
   "note": "The first half holds: C106_same, C106_programs. C106_array: the distributed vector is one array for all processes, the first one too (C47_first_refuted is about the build with assertions). The second half fails: C106_end_refuted and C106_corner_refuted (undefined behaviour), C106_inside_refuted and C106_large_refuted (shares longer than the range; the last element in no share), C106_concat_refuted and C106_sort_refuted (files under names without the prefix), C106_verify_refuted (success for no file). The assertions of Set.cc 304 and 447, DataMPIIO.cc 81 and ReadSEGY.cc 77, of the C bindings and of the other programs are not covered."
  },
  {
   "property": "C107",
   "status": "partial",
   "theorems": [
    "Verif.FourDMain.C107_options",
    "Verif.FourDMain.C107_number",
    "Verif.FourDMain.C107_limit",
    "Verif.FourDMain.C107_limit_refuted",
    "Verif.FourDMain.C107_nonumber",
    "Verif.FourDMain.C107_files_partial",
    "Verif.FourDMain.C107_ends_partial",
    "Verif.FourDMain.C107_missing",
    "Verif.FourDMain.C107_input_refuted",
    "Verif.FourDMain.C107_twice_refuted",
    "Verif.FourDMain.C107_tmp_refuted",
    "Verif.FourDMain.C107_record_partial",
    "Verif.FourDMain.C107_record_refuted",
    "Verif.FourDMain.C107_over_refuted"
   ],
   "note": "C107_options, C107_number, C107_limit, C107_nonumber: what the arguments mean. C107_files_partial: whenever the program ends, the files hold the pairs of C97, and nothing else has changed; C107_ends_partial: it ends on surveys close to each other. C107_record_partial: the records of -v in the build with assertions. The rest of the claim fails: C107_limit_refuted, C107_input_refuted and C107_tmp_refuted (undefined behaviour), C107_record_refuted (empty records in the default build), C107_twice_refuted (one name for both outputs: the first is lost), C107_over_refuted (the second survey as the first output: the second output has traces of the first survey). Missing: IBM surveys, sizes beyond C88; hexadecimal limits."
  },
  {
   "property": "C108",
   "status": "partial",
   "theorems": [
    "Verif.ExampleMain.C108_example_last",
    "Verif.MinMaxMain.C108_options",
    "Verif.MinMaxMain.C108_status",
    "Verif.MinMaxMain.C108_files_partial",
    "Verif.MinMaxMain.C108_interval_refuted",
    "Verif.MinMaxMain.C108_missing_refuted",
    "Verif.MinMaxMain.C108_empty_refuted",
    "Verif.MinMaxMain.C108_input_refuted",
    "Verif.MinMaxMain.C108_example_partial",
    "Verif.MinMaxMain.C108_letter_refuted"
   ],
   "note": "C108_options, C108_status: what the arguments mean and when the status is -1. C108_files_partial: the output and the rest of the disk for inputs with traces, usable scalars and an interval; order and values are those of the header fields, not of rounded numbers. C108_example_last: which pattern counts. C108_example_partial: what the examples print, for coordinates that are positive somewhere. The rest of the claim fails: C108_interval_refuted, C108_missing_refuted (status 0 but an output without header), C108_empty_refuted (twelve traces of an input that has none), C108_input_refuted (undefined), C108_letter_refuted (the example in C is undefined for an unknown option, the one in C++ goes on). Missing: negative intervals, scalars that the library does not write."
  },
  {
   "property": "C109",
   "status": "partial",
   "theorems": [
    "Verif.MakeMain.C109_filemake_options",
    "Verif.MakeMain.C109_interval",
    "Verif.MakeMain.C109_filemake_status",
    "Verif.MakeMain.C109_filemake_partial",
    "Verif.MakeMain.C109_ignored_refuted",
    "Verif.MakeMain.C109_release_refuted",
    "Verif.MakeMain.C109_makerep_options",
    "Verif.MakeMain.C109_makerep_status",
    "Verif.MakeMain.C109_makerep_partial",
    "Verif.MakeMain.C109_version_refuted",
    "Verif.MakeMain.C109_zero_refuted",
    "Verif.MakeMain.C109_inplace_refuted"
   ],
   "note": "C109_filemake_options, C109_makerep_options: what the arguments mean. C109_interval: the interval as a text. C109_filemake_status, C109_makerep_status: calls without what is needed. C109_filemake_partial, C109_makerep_partial: the files and the rest of the disk. The rest of the claim fails: C109_ignored_refuted (unknown options and options without value are passed over), C109_release_refuted (division by zero without -m in the default build), C109_version_refuted (undefined for an unknown version), C109_zero_refuted (-r 0 is -r 1), C109_inplace_refuted. Missing: see C89 and C93 for the sizes for which the programs are wrong."
  },
  {
   "property": "C110",
   "status": "partial",
   "theorems": [
    "Verif.Signal.C110_bins_partial",
    "Verif.Signal.C110_tone_partial",
    "Verif.Signal.C110_constant_partial",
    "Verif.Signal.C110_linear_partial",
    "Verif.Signal.C110_plan_refuted",
    "Verif.Signal.C110_first_refuted",
    "Verif.Signal.C110_phase_refuted",
    "Verif.Signal.C110_traces_partial",
    "Verif.Signal.C110_only_partial"
   ],
   "note": "With a planner that leaves the arrays alone: C110_bins_partial (all frequencies), C110_only_partial (no other samples have them), C110_tone_partial (amplitude and phase of a cosine, in samples), C110_constant_partial, C110_linear_partial, C110_traces_partial. The rest of the claim fails: C110_plan_refuted (the trace is in the array before the plan is made), C110_first_refuted (equal traces, different results), C110_phase_refuted. Missing: rounding."
  },
  {
   "property": "C111",
   "status": "partial",
   "theorems": [
    "Verif.Flow.C111_files_partial",
    "Verif.Flow.C111_lost_refuted"
   ],
   "note": "C111_files_partial: whole files if the planner of FFTW leaves the arrays alone. C111_lost_refuted: with one trace per process, a planner that leaves zeros makes zeros of the window of every trace. Missing: samples in the IBM format, intervals that are not positive, rounding."
  },
  {
   "property": "C112",
   "status": "partial",
   "theorems": [
    "Verif.Assess.C112_assess_partial",
    "Verif.Assess.C112_assess_status",
    "Verif.Assess.C112_rest_refuted",
    "Verif.Assess.C112_short_refuted",
    "Verif.Assess.C112_negative_refuted",
    "Verif.Assess.C112_division_refuted",
    "Verif.Assess.C112_cropen_partial",
    "Verif.Assess.C112_once_refuted",
    "Verif.Assess.C112_unique_refuted",
    "Verif.Assess.C112_missing_refuted",
    "Verif.Assess.C112_cropen_status"
   ],
   "note": "C112_assess_partial: files with a header and less than 32768 samples. C112_assess_status, C112_cropen_status: the status. C112_cropen_partial: exactly what cropen looks at, if the MPI library lets it open the file twice. The rest of the claim fails: C112_rest_refuted (all arguments but the first passed over), C112_short_refuted (files without header described as empty), C112_negative_refuted, C112_division_refuted, C112_unique_refuted (cropen is undefined for every file that is there), C112_missing_refuted (and returns zero for one that is not), C112_once_refuted (999 of 1000 files of a round not compared)."
  },
  {
   "property": "C113",
   "status": "partial",
   "theorems": [
    "Verif.TraceTool.C113_options",
    "Verif.TraceTool.C113_shown_partial",
    "Verif.TraceTool.C113_line_refuted",
    "Verif.TraceTool.C113_last_refuted",
    "Verif.TraceTool.C113_missing_refuted",
    "Verif.TraceTool.C113_beyond_refuted",
    "Verif.TraceTool.C113_minus_refuted"
   ],
   "note": "C113_options: what the arguments mean. C113_shown_partial: the numbers printed for traces whose bytes are in the file, scalars that the library writes and line numbers that are not negative. The rest of the claim fails: C113_line_refuted (negative line numbers near 2^64), C113_last_refuted (one trace too far: zeros, status 0), C113_beyond_refuted (an exception further on), C113_minus_refuted (trace -1 is made of bytes of the file header, status 0), C113_missing_refuted (zeros for a file that is not there, status 0)."
  },
  {
   "property": "C114",
   "status": "partial",
   "theorems": [
    "Verif.ExampleMain.C114_modprm_partial",
    "Verif.ExampleMain.C114_turn_partial",
    "Verif.ExampleMain.C114_make_partial",
    "Verif.ExampleMain.C114_missing",
    "Verif.ExampleMain.C114_letter_refuted",
    "Verif.ExampleMain.C114_value_refuted",
    "Verif.ExampleMain.C114_same_refuted"
   ],
   "note": "C114_modprm_partial, C114_turn_partial, C114_make_partial: from command lines with known options to all files on disk, within the limits of C83, C84 and C82. C114_missing: without a name or an input the programs end before anything is written. The rest of the claim fails: C114_letter_refuted (an unknown letter is undefined behaviour in the programs in C), C114_value_refuted (an option without its value), C114_same_refuted (the same name twice)."
  },
  {
   "property": "C115",
   "status": "partial",
   "theorems": [
    "Verif.CopyMain.C115_copy_partial",
    "Verif.CopyMain.C115_missing",
    "Verif.CopyMain.C115_limit",
    "Verif.CopyMain.C115_flag_refuted",
    "Verif.CopyMain.C115_small_refuted",
    "Verif.CopyMain.C115_same_refuted"
   ],
   "note": "C115_copy_partial: from command lines with names and limits to all files on disk, within the limits of C80. C115_missing, C115_limit: without a name or an input, or after a limit that is not a number, the program ends before anything is written. The rest of the claim fails: C115_flag_refuted (-p, -t and unknown letters are undefined behaviour), C115_small_refuted (limits below a trace divide by zero), C115_same_refuted (the same name twice)."
  },
  {
   "property": "C116",
   "status": "partial",
   "theorems": [
    "Verif.KmlMain.C116_files_partial",
    "Verif.KmlMain.C116_help",
    "Verif.KmlMain.C116_missing",
    "Verif.KmlMain.C116_zone",
    "Verif.KmlMain.C116_unknown_refuted",
    "Verif.KmlMain.C116_same_refuted"
   ],
   "note": "C116_files_partial: from the arguments and the files on disk to the files on disk, within the limits of C98, if the output is none of the SEG-Y files. C116_help, C116_missing, C116_zone: the status without a document. The rest of the claim fails: C116_same_refuted (a SEG-Y file that is also the output is lost, with status zero), C116_unknown_refuted (unknown options are passed over)."
  },
  {
   "property": "C117",
   "status": "partial",
   "theorems": [
    "Verif.CLayout.C117_layout_partial",
    "Verif.CLayout.C117_rest_refuted",
    "Verif.CLayout.C117_wide_refuted",
    "Verif.CLayout.C117_short_refuted",
    "Verif.CLayout.C117_set_refuted",
    "Verif.CLayout.C117_number_refuted"
   ],
   "note": "C117_layout_partial: from the calls to the bytes of the file and back through any other layout, for layouts whose fields do not meet and integers that fit. Missing: coordinates that are set (C15 has them), copies of headers (C20). The rest of the claim fails: C117_rest_refuted (all header bytes that the layout does not name become zero), C117_number_refuted (without the trace number in the layout reading is undefined behaviour), C117_wide_refuted (an integer too large for a four-byte field is cut and the write succeeds), C117_short_refuted (the same for two bytes), C117_set_refuted (setting an item outside the layout or a row past the last is undefined behaviour)."
  }
 ]
}
