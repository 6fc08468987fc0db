{
 "C01": [
  "proved",
  ""
 ],
 "C02": [
  "proved",
  ""
 ],
 "C03": [
  "proved",
  ""
 ],
 "C04": [
  "partial",
  "Exact for every normalised pattern in the normal range, both byte orders. The zero clause is false of the code: every zero fraction converts to 0.5 (C04_zero_refuted)."
 ],
 "C05": [
  "partial",
  "Overflow and subnormal rounding proved for normalised patterns down to 2^-157. Below that the shift is undefined; unnormalised patterns convert to a different value; to_float loses the carry out of the subnormal range (refuted theorems)."
 ],
 "C06": [
  "proved",
  ""
 ],
 "C07": [
  "partial",
  "The code has no equality test after lower_bound: unmapped bytes take the code of the next mapped one; exactly one unmapped EBCDIC byte yields SUB (C07_substitute_refuted). The proved part gives the value returned for every byte."
 ],
 "C08": [
  "proved",
  "Under the hypothesis that the file size fits 64 bits."
 ],
 "C09": [
  "partial",
  "Proved for every history that never adds an ordinary item under the header-copy key; with such a history two items share a slot (C09_copy_key_refuted)."
 ],
 "C10": [
  "partial",
  "Refinement to a last-add-wins map for every history without lookups of absent items; a lookup of an absent item inserts a null entry and later calls crash (C10_lookup_refuted)."
 ],
 "C13": [
  "partial",
  "Window is the smallest one containing all fields for rules that never held a header copy; stale after addCopy and wrong for the empty rule (refuted). The byte part is refuted for every partial-extent rule: the lowest field is read one byte before the window."
 ],
 "C25": [
  "partial",
  "Proved when the detection picks the encoding the text was written in; a text of characters at or above 0x40 only is taken for EBCDIC (C25_letters_refuted)."
 ],
 "C11": [
  "proved",
  "Every Param whose storage matches its rule (all built on reachable rules do), every item, trace, and conversion type."
 ],
 "C12": [
  "proved",
  "Every reachable full-extent rule with distinct header bytes, any number of traces and stride; floats must be convertible (otherwise the code has undefined behaviour). Library items shown to be distinct."
 ],
 "C16": [
  "partial",
  "Items of the same kind are copied and other positions unchanged; refuted for items of different kinds in the two rules."
 ],
 "C14": [
  "partial",
  "Decimals with at most 4 places that fit are stored exactly; every value up to 2^31-1 fits with its scalar to half a unit; large values get the smallest scalar. Refuted: values beyond every scalar get 0, rounding overflow at the edge (21474836475), and the double read back may differ in the last place (0.3)."
 ],
 "C15": [
  "partial",
  "Scalar of the group characterised; read back within half a unit and exact for multiples, provided the coordinate fits with the shared scalar. That proviso fails in the code: the finest scalar of the group may overflow another coordinate (C15_overflow_refuted)."
 ],
 "C53": [
  "proved",
  "Every 32-bit integer and every accepted scalar, doubles rounded to nearest even (C53_reread); whole headers of any number of traces with any rule, where coordinates share scalar fields (C53_header)."
 ],
 "C17": [
  "partial",
  "Proved for contiguous, strided and list requests of any size with any failing transfers, provided views and datatypes succeed and (lists) twice the block is within the limit. Refuted: a list block above half the limit divides by zero; after a failed view a strided request moves bytes at the start of the file. A list piece of 178956970 blocks or more fails an assertion (C17_count_refuted), one of 2^31 bytes or more is undefined behaviour (C17_int_refuted)."
 ],
 "C18": [
  "partial",
  "Proved for any number of processes and any sequence of requests with any failing transfers, provided views and datatypes succeed. Refuted for a view failing inside a list request and for a datatype failing inside a strided request."
 ],
 "C19": [
  "partial",
  "Proved for contiguous and strided requests under any failures. Refuted for list requests in general: iol ignores the result of the transfer, so no failing transfer is ever recorded."
 ],
 "C20": [
  "partial",
  "For any sequence of successful writes (contiguous or list, samples, parameters or both) the samples and header fields of a trace are those of the last write touching them, other bytes are untouched, and the caller's buffer is restored. Refuted: writing parameters through a rule that does not name a field zeroes that field in the file."
 ],
 "C22": [
  "partial",
  "Offsets within the file: exactly the traces that exist are read. Refuted: an offset beyond the end asks for nearly 2^64 traces (C22_beyond_refuted). The allocation for it cannot succeed (C22_memory_refuted)."
 ],
 "C23": [
  "partial",
  "Non-empty lists with a parameter structure, any repetition and order, whichever order std::sort leaves equal elements in. Refuted: empty list, and a call without parameters (null pointer)."
 ],
 "C24": [
  "partial",
  "False of the code: each sample is widened to double before its bytes are taken, so every IBM read returns 0.5 for every sample (C24_ibm_refuted). Kept: widening to double loses nothing (C24_widen_partial)."
 ],
 "C21": [
  "partial",
  "Any number of processes, any error-free history with non-zero samples: size, samples, count, increment and text as set last, traces untouched. Refuted: a call without traces extends the file to the place it names; traces beyond the declared count override it; with zero samples the processes can disagree on the collective resize; an unused writer keeps the size of an old file. Increments of 32768 microseconds or more wrap around (C21_increment_refuted), and beyond the range of long closing is undefined behaviour (C21_huge_refuted)."
 ],
 "C50": [
  "partial",
  "The header always holds the whole number of microseconds, and readers return one fixed double within two units of the last place, stable under rewriting. Refuted as equality with the nearest double (5 microseconds)."
 ],
 "C26": [
  "proved",
  "Every comparison equals the lexicographic order of the documented keys and the trace number. Coordinates are finite doubles; the evaluation of the calculated offset is an arbitrary function."
 ],
 "C27": [
  "partial",
  "Proved for one process or at least four elements on every process; with fewer the exchange region is empty and the result is unsorted (refuted, and shown in general by C27_isolated)."
 ],
 "C28": [
  "proved",
  "Ends within one more round than the number of inversions, for every number of processes and distribution, comparison a strict total order on the elements; std::sort is any function meeting its specification."
 ],
 "C29": [
  "partial",
  "Proved for one process or at least four traces on every process; refuted with fewer."
 ],
 "C30": [
  "partial",
  "checkOrder compares neighbours within a share only; the boundary between two shares is not looked at (refuted). Shares exact; whole file exact when the boundaries are in order."
 ],
 "C54": [
  "partial",
  "Holds for recorded offsets from 0 to 2^53; refuted for negative ones, which are converted to size_t and sort after all others (C54_wrapped_partial)."
 ],
 "C55": [
  "partial",
  "Holds when the rule copies no header; refuted with a copied header, which is not sent between processes."
 ],
 "C31": [
  "partial",
  "positions enumerate the output once in order, for any number of processes and files; files of different geometry do share an output when each group has one file (C31_share_refuted)"
 ],
 "C32": [
  "partial",
  "output position = rank for one process or files of equal size with at least four traces per process; refuted for files of different sizes on several processes; sorting with a process of one or two traces is undefined behaviour (refuted)"
 ],
 "C33": [
  "partial",
  "proved for sorts of at least three traces followed by single-trace operations and for one final gather operation; refuted for the other mixed sequences, for sorts of one or two traces, and for ties between traces of different files, which interleave (one group, one process modelled; what happens after the output is C85)"
 ],
 "C34": [
  "partial",
  "names of groups of several files are distinct; groups of one file collide, and output returns no name when the first operation is a sort or gather"
 ],
 "C35": [
  "partial",
  "proved for one gather operation, any number of processes and gather sizes; refuted for two consecutive gather operations"
 ],
 "C36": [
  "partial",
  "Proved when every process has a trace, equal keys stand together, and either all traces of the last process continue the run before (C36_defined_partial) or the read beyond the gathered lists gives some value. Refuted: that read is undefined behaviour in all other cases (C36_last_refuted, C36_bounds_refuted), as are processes without traces; keys that come back are counted wrongly."
 ],
 "C37": [
  "partial",
  "proved for every distribution (also empty processes), ties within a process decided by the second coordinate; refuted: between processes ties are not"
 ],
 "C38": [
  "partial",
  "proved when every file has a trace and some value is at least the smallest positive normal double, values and trace numbers; refuted in general for negative values (the maximum starts at DBL_MIN) and for empty files"
 ],
 "C39": [
  "proved",
  "for every sequence of log calls"
 ],
 "C49": [
  "proved",
  "for every sequence of calls; wrong calls of the user end the program (MPI's doing), wrong calls of the library are a distinct outcome proved not to occur"
 ],
 "C40": [
  "partial",
  "proved for every signal, gain function and window size whose next odd size is below the signal length, and absence of out-of-bounds accesses for all; refuted for even sizes one below the length (failed assertion)"
 ],
 "C41": [
  "partial",
  "proved when the part after the muted start is longer than both tapers; refuted for muted signals (read behind the signal) and short unmuted parts (failed assertion); exact for any sample multiplication"
 ],
 "C42": [
  "partial",
  "exact field arithmetic; mean proved for windows of one sign, median for odd sizes; refuted for mixed signs and for every even size; accesses stay in the window except for size two"
 ],
 "C56": [
  "partial",
  "exact field arithmetic; proved for windows that are not zero under the weights; refuted for muted windows (failed assertion) and windows of one sample (not a number)"
 ],
 "C57": [
  "proved",
  "exact real arithmetic"
 ],
 "C43": [
  "partial",
  "holds for windows inside the trace (always for the default centre) and for zero padding, or replicate padding of windows that are not shorter than the padding less one; symmetric and cyclic padding always read outside the window; the frequency domain is the subject of C68; exact field arithmetic"
 ],
 "C44": [
  "proved",
  "exact ring arithmetic; empty list of roots separately"
 ],
 "C45": [
  "partial",
  "order at least one and signals at least as long as the order; both refuted otherwise; exact ring arithmetic"
 ],
 "C58": [
  "partial",
  "steady state of one pass proved; the whole filter refuted, because the padding behind the window ends in three zeros; exact field arithmetic"
 ],
 "C51": [
  "proved",
  "for all distributions whose sum is the number of traces of the file, as the callers pass them"
 ],
 "C52": [
  "partial",
  "ranges that meet more than one block; ranges inside a block refuted"
 ],
 "C59": [
  "partial",
  "Proved: small files and the two plain versions for files copied in one piece; the version that exchanges data between neighbours for files of at least a block and a header that fit into one round. Refuted: more pieces in each version; files below a block for the exchanging version on several processes."
 ],
 "C60": [
  "partial",
  "sizes below 2^32 for which rounding does not exceed the first share; other sizes and the direction of the weights refuted; exact quotients (products below 2^52)"
 ],
 "C61": [
  "partial",
  "limits of at least one trace; smaller limits divide by zero"
 ],
 "C62": [
  "partial",
  "contiguous mode; scattered mode refuted"
 ],
 "C46": [
  "partial",
  "Proved for one inline with crosslines one apart and for one crossline with at least three inlines. Every grid with at least two lines in both directions, in either order, and every spacing of at least two is refuted. 64-bit overflow of the offsets is not modelled."
 ],
 "C47": [
  "partial",
  "Proved for processes other than the first and elements that were allocated, and for all elements of one-byte types. Larger element types and rank 0 are refuted. The concurrency of the window locks is not modelled."
 ],
 "C48": [
  "partial",
  "Proved: every reported pair is a real one with its criterion and within the limit; a pair going in the same direction is taken into account if both traces have a close successor; no undefined behaviour with two close traces per process. Refuted: the last trace of a process on either side, a process with one trace in range, boats in opposite directions, and the transfer windows."
 ],
 "C63": [
  "partial",
  "Proved for the first phase and, for up to 6100805 traces per process, for both. Refuted for the second phase with 12782641 traces on two processes. Memory limits that wrap around are outside the hypotheses."
 ],
 "C64": [
  "proved",
  "Positions and source trace numbers of all writes, for every limit of at least one trace. Reading and writing the traces themselves is the subject of C21 to C30."
 ],
 "C65": [
  "proved",
  "All four types, every order of at least one, exact real and complex arithmetic: rounding of float is not modelled. Order 0 is undefined behaviour (C66_zero)."
 ],
 "C66": [
  "proved",
  "All four types, exact arithmetic."
 ],
 "C67": [
  "partial",
  "Low pass at sampling rate 1: the smallest order that meets the bound. Refuted for other rates (the order ignores the rate), for high pass (always undefined behaviour) and for band filters called with the two corners that Set::temporalFilter asks for. Four corners at one sample per unit of time: proved exactly where the order is defined."
 ],
 "C68": [
  "partial",
  "Refuted for low pass at every rational sampling rate and every bin strictly between zero and half the rate: the exponential has fs where it should have 2 pi. Kept: bin zero has the right gain, and every factor has the modulus of the response at some point of the unit circle. FFTW is not modelled."
 ],
 "C69": [
  "proved",
  "Every number of processes and division. The functions of the operations themselves are the subject of C33 and C40 to C45."
 ],
 "C70": [
  "partial",
  "Proved for the communicator of all processes. Refuted for every smaller one: the call does not return, or adds the values of processes outside."
 ],
 "C71": [
  "partial",
  "Proved when the model covers the time of every sample, for traces from the second on. Refuted: the first trace is never used; samples at or after the end of the model take the next gather's velocity or are undefined behaviour; a bin of 0 is undefined behaviour. The distance itself (division by the cosine, rounding) is left open."
 ],
 "C72": [
  "partial",
  "Proved for the rule that first asked for the files. Refuted: another rule is ignored; the checks always say no; traces are never given; dropping files that are not held is undefined behaviour."
 ],
 "C73": [
  "partial",
  "Proved for non-negative coordinates with a fraction of at least a tenth. Refuted: leading zeros of the fraction are dropped; negative coordinates are put below their whole part."
 ],
 "C74": [
  "partial",
  "Proved over the reals: central meridian and equator, mirror symmetry, zones, growth northwards on the middle meridian and eastwards. Refuted: the southern hemisphere is turned around; integer divisions in the series. Compared with the published series: the terms agree but for the sign of the third power in longitude and of the fourth power and the coefficient of the sixth power in latitude (C74_signs_refuted)."
 ],
 "C75": [
  "partial",
  "Proved for converted coordinates. Refuted: coordinates that are not converted come latitude first; without a zone the message is printed for valid coordinates too; the line joins corners of the box where there may be no trace."
 ],
 "C76": [
  "partial",
  "Proved when each border stays inside the old or new share of a neighbour. Refuted for borders that move further."
 ],
 "C77": [
  "partial",
  "Proved for every file with traces, any number of processes: headers, numbers and the file written. False of the code and refuted: numbers from 2^31 on are cut to 32 bits; without traces headers are decoded from the header of the file; a process without traces makes the library read through a null pointer if an item is not in the default rule."
 ],
 "C78": [
  "partial",
  "From bytes to bytes for all files, processes and schedules, if the numbers are not in the IBM format and the interval is positive. Interval 0 is refuted (C78_zero_refuted: no file header is written). IBM numbers are refuted (C78_ibm_refuted: if the program ends, every sample of the files in the IBM format is 0.5 in the output, with headers right). Different groups of one file each share a name (C31_share_refuted)."
 ],
 "C79": [
  "partial",
  "From input bytes to output bytes, for one process and at least three traces or files of equal size and at least four traces per process: ends, output opens, traces are a rearrangement in order, bytes kept except coordinates, receiver depth and their scalars, which keep their values. verifysort succeeds for scalars without decimal places and its verdict is characterised for every file. Refuted: decimal coordinates can fail the check (C79_verify_refuted), source depth and elevations change with the scalar (C79_depth_refuted)."
 ],
 "C80": [
  "partial",
  "From file bytes to file bytes for every number of processes, memory limit and schedule when all processes need the same number of rounds: ends, output opens with the same sizes and interval, samples, numbers and coordinates kept. Refuted: unequal rounds abort exactly when stated (C80_rounds_refuted), small memory limits divide by zero, interval 0 ends with an error, -p/-t/unknown options are undefined behaviour, header bytes outside the default rule are zeroed, text after a NUL is lost, -t misses samples (C80_linear_refuted); -p characterised by C80_sources."
 ],
 "C81": [
  "partial",
  "Exact for coordinates that are whole numbers apart, below 2^26 (C81_distance_partial); for all others the nearer trace comes first if the squared distances differ by one part in 2^49 (C81_nearer_partial). Without such a gap it is false: C81_distance_refuted."
 ],
 "C82": [
  "partial",
  "Both versions for intervals of whole microseconds up to 32767 and up to 2^24 traces (C++: 2^24 - 2399), C on at most as many processes as traces; C82_maincc_partial for what exampleCreateFile.cc itself makes. exampleCreateFile.c loses its interval and so writes no file header (C82_main_refuted); no whole number of seconds survives (C82_interval_refuted); example1 records 2304 microseconds (C82_example1_refuted); more processes than traces end the C version (C82_processes_refuted); lines and coordinates repeat beyond 2^24 (C82_lines_refuted, C82_coords_refuted)."
 ],
 "C83": [
  "partial",
  "Whole program, any number of processes and any order of calls, for files with a positive interval: numbers, coordinates (with a usable scalar) and zero elsewhere in the header; the number of calls is the same on all processes (C83_rounds) and twice restores the values of the default rule (C83_twice_partial). The samples are not copied (C83_samples_refuted), header bytes outside the default rule are lost (C83_header_refuted), and a file with the interval 0 is refused (C83_interval_refuted)."
 ],
 "C84": [
  "partial",
  "True of files with as many traces as samples, IEEE format, positive interval (C84_square_partial). False otherwise, because writeNs is given the number of traces and writeNt the number of samples: fewer traces than samples give a file of the wrong shape (C84_shape_refuted), more are undefined (C84_overread_refuted), more than 32767 leave no file header and no samples (C84_long_refuted). An interval of 0 leaves no file header without complaint (C84_interval_refuted); more processes than traces can fail an assertion (C84_processes_refuted)."
 ],
 "C85": [
  "partial",
  "Proved: any number of outputs after sorts of files of one kind (C85_outputs_partial; the end changes nothing after sorts whatever came before, C85_again_partial), a set with a prefix and no output call (C85_once_partial), one gather operation with single-trace operations (C85_gather_partial: applied twice after the output, once at the end). Refuted: single-trace operations before the last output are lost for every program (C85_lost_refuted), the text is lost with gathers or when a file is added later (C85_text_refuted), two kinds of files with a gather are undefined or lose traces (C85_groups_refuted, C85_overwritten_refuted), a second gather is undefined (C85_second_refuted). One process. C85_endings: which names the set takes."
 ],
 "C86": [
  "partial",
  "Kept for a velocity model that is one inline with crosslines one apart or one crossline of at least three inlines, gathers in the order of the model, and the first trace of a gather never used (C71). Refuted: for a model of two or more inlines and crosslines every gather beyond the first inline becomes zero (C86_grid_refuted); gathers in another order than the model's are undefined behaviour on one process (C86_order_refuted)."
 ],
 "C87": [
  "partial",
  "Kept for sources in IEEE format with a positive interval and at most 32767 samples, for any lists, numbers of processes and order of the writes; the criterion is stored within half a unit of its scalar. Missing: IBM samples, which are converted. Refuted for a source whose interval is 0: the traces are written but no file header (C87_zero_refuted)."
 ],
 "C88": [
  "partial",
  "Coordinates: kept for up to 6100805 traces per process on average (each process always in order, all processes together if there is one or at least four traces for each). Program: whenever it ends the outputs hold real pairs within the limit, every trace of the first file once at most; it does end if all sources are near to each other and every process has a trace of the first and two of the second file. Refuted: several processes with fewer than four traces each are not in order together (C88_few_refuted); 12782641 traces on two processes wait for ever (C88_stuck_refuted); fewer than two traces of the second file for each process never give outputs (C88_single_refuted). Missing: near pairs where one of the two is the last near trace of its process, which C48 refutes; IBM samples."
 ],
 "C89": [
  "partial",
  "Written in one run (C89_contiguous_partial): everything holds for up to 2^25 - 4800 traces, in the uneven mode with at least (P-1)P(P+1)/4 of them. Scattered (C89_scattered_partial): sizes and headers are right, the samples are those of a trace no further on, and its own on one process. Refuted: with -r on two or more processes the trace whose number is the number of processes holds the samples of trace 1 (C89_scattered_refuted); from 2^25 + 2 traces neighbouring traces have the same lines (C89_lines_refuted); 2^44 MiB of memory divide by zero (C89_memory_refuted). Missing: uneven shares of few traces (C60 refutes them), the value of a sample as a number, parsing of the options."
 ],
 "C90": [
  "partial",
  "C90_operations_partial: for every list of tapers, gain controls and time-domain filters and all files whose traces can be worked on, headers come out byte for byte and samples are the operations in order applied to each trace alone. Refuted: a taper ends the program at any trace with only zero samples (C90_dead_refuted); a filter with symmetric padding, that of examples/exampleFilterTaper.cc, reads behind its window for every set with a trace (C90_example_refuted). For IBM input the operations are given 0.5 for every sample (C90_ibm_refuted). Missing: intervals that are not positive; float arithmetic is any multiplication for tapers and gains and a field for the filter."
 ],
 "C91": [
  "partial",
  "C91_operations_partial: two runs of a set with any list of single-trace operations (none: concatenation) leave the same bytes whatever the numbers of processes, the schedules and the earlier contents. C91_sort_partial: the same for the sort tool, whatever std::sort does with ties. C91_filemake_partial: the same for filemake without -r, for any shares and limits of memory. Refuted: filemake -r gives another file on several processes than on one (C91_scattered_refuted); 4D binning of two files at the same places gives outputs of another length on two processes than on one (C91_binning_refuted). Missing: what the theorems used for each program leave out (C78, C79, C89, C90)."
 ],
 "C92": [
  "partial",
  "C92_queue_partial: any number of sorts and then any list of tapers, gains and filters, from input bytes to output bytes: every trace once, in the order of the last sort (ties by trace number, then file), headers kept except for the representation of coordinates, samples as the operations in order make them of the same trace. Refuted: a sort after an operation is left out, with all that follows it, for all files and comparisons (C92_late_refuted: the traces stay in the order of the files; C92_ignored_refuted: after an earlier sort the outcome is that without the second one); traces of files in the IBM format become halves before the operations, also in the sort tool (C92_ibm_refuted). Missing: what C79_sorted_partial and C90_operations_partial leave out (numbers of traces below what the sort works for, traces for which an operation is undefined)."
 ],
 "C93": [
  "partial",
  "C93_copies_partial: from the bytes of the input to the bytes of the output and to what opening it shows, for all versions, orders of writes and numbers of processes, when the file is small (less than a header per process) or copied in one piece (1 GiB per process) and, with blocks on several processes, larger than a block. Refuted: an output that was longer keeps its length and its old traces (C93_stale_refuted); bytes behind the last trace of the input shift every repetition but the first (C93_trailing_refuted); the default version on several processes never gives a file of the right size for files below 2 MiB (C93_default_refuted); another word after -v is undefined (C93_version_refuted). Missing: files larger than one piece (C59_pieces_refuted shows the repetitions overwrite each other)."
 ],
 "C94": [
  "partial",
  "In IEEE single precision with every operation rounded. C94_amplitude: no sample grows or changes sign, for all traces, lengths and built-in ramps, using of cosf and pow only their ranges. C94_linear: within 2^-24 of j/n, strictly rising from above zero to exactly one, lengths up to 2^22. C94_cosine, C94_cosine_square, C94_cosine_end: within 2^-21 and 2^-19 of the formulas in exact arithmetic (lengths below 2^24, cosf within 9/16 of a last place), one at the end. Refuted: cosine ramps of 16384 samples and more are zero at their start, so the first sample is lost (C94_zero_refuted). Missing: infinities and NaN."
 ],
 "C95": [
  "partial",
  "In IEEE single precision with infinities. C95_gain_partial and C95_agc_partial: for samples that are zero or between 2^-40 and 2^40 in magnitude, windows with a sample that is not zero and targets between 2^-20 and 2^20, the gain is that of the formula within (n + 6) 2^-24 and each output sample within (w + 9) 2^-24, relative. Refuted outside: windows of samples below 2^-75 fail an assertion although they are not zero (C95_quiet_refuted), samples of 2^64 and more make the gain zero and silence the signal (C95_loud_refuted). Missing: the ranges in between, and the other gain functions."
 ],
 "C96": [
  "partial",
  "C96_files_partial: two files or more of one kind, any sorts, a gather operation, any single-trace operations, an output; the life of the set to its end (after the output itself the single-trace operations have been applied twice, C85). Refuted for one file: sorts before the gather operation have no effect, the files left behind are the same as without them (C96_ignored_refuted). Missing: sets of several kinds (C85_groups_refuted), a second gather operation (C85_second_refuted)."
 ],
 "C97": [
  "partial",
  "C97_criterion_partial: for coordinates of at most 2^(E+24) the criterion is that of the headers up to 3*2^E and a relative error of 2^-21. C97_binning_partial: the whole program, on top of C88_binning_partial: pairs are within the limit, the stored criterion is theirs and partners are nearest, up to these errors. C97_finite: never an infinity or not-a-number. Refuted: for coordinates between 4194304 and 8388608 the accuracy of the headers is lost, traces 67 cm apart have criterion zero (C97_zero_refuted), and a trace beside is taken although another is exactly in place (C97_partner_refuted). The square root is a parameter that rounds correctly. Missing besides: the traces for which C48 and C88 are refuted."
 ],
 "C98": [
  "partial",
  "C98_lines_partial: for SEG-Y files with traces and names without markup the output is read by a reader of XML (written for this claim) as one placemark for each file, in order, named after it, and its line joins the corners of the box of the sources, converted if the easting is over 180 and a zone is given. C98_processes: the same output for every number of processes. Refuted: names with < or & make a document that cannot be read (C98_markup_refuted); missing files and files without traces are drawn at longitude and latitude zero (C98_empty_refuted); coordinates in degrees are written with x, the longitude, in the place of the latitude (C98_degrees_refuted); if the first name does not end in y the other names are passed over (C98_dropped_refuted) and if it is not there the document is empty (C98_nothing_refuted); an empty name is undefined (C98_unnamed_refuted); a zone of letters ends the program by an exception (C98_zone_refuted). The formula of the conversion is a parameter here (C74); negative numbers and numbers with a zero as first decimal are those of C73."
 ],
 "C99": [
  "partial",
  "C99_difference_partial: for all coefficients, signals and initial conditions, every sample of a result made of numbers is that of the difference equation up to N + 2 roundings of the sizes of its terms. C99_output_partial: if the response of the denominator to an impulse is summable the whole result in floats is made of numbers and stays within an explicit distance of the exact one. Refuted: for every order and corner with (1 + 2 tan(pi c/fs))^N at most 27/16 and (2 tan(pi c/fs))^N at most 2^-27, all floats near the denominator designed give a filter that is not stable, or one with a gain for constants of at most one half instead of one (C99_unstable_refuted); there is a low pass of order 4 at almost 2 Hz and 1 kHz whose nearest floats add up to zero, so that for every trace, numerator and padding no sample of the result is a number (C99_nan_refuted). The design itself is exact (C65, C66); its own rounding in double precision is not modelled."
 ],
 "C100": [
  "partial",
  "C100_files_partial: from the arguments and the files on disk to the files on disk, for all processes, orders of the writes and contents of the outputs before, if at most one file differs from all others in samples or interval, no output is an input, intervals are positive and numbers not in the IBM format. C100_processes: the same bytes for any processes. C100_options: options in any order, the last of each counts. C100_declined: no file changes without a yes. Refuted: two files of different kinds go to the same output and only one remains (C100_alone_refuted); an output that is an input is opened twice (C100_input_refuted); files whose names do not end in segy or sgy are left out without an error (C100_ending_refuted); of names given one by one all but the first are passed over (C100_shell_refuted). C100_interval: the interval in the output's name is six digits of microseconds."
 ],
 "C101": [
  "partial",
  "C101_sort_partial: from the arguments and the files on disk to the files on disk, and from there through verifysort on any number of processes, under the conditions of C79_sorted_partial and C100_files_partial (enough traces, files of equal size on several processes, no IBM numbers, at most one file alone in its kind). C101_options, C101_sort_options and C101_number: command lines are read as meant. C101_type_refuted: numbers that are not types sort by source and receiver without a message. C101_text_refuted: text after the number is passed over. C101_missing_refuted: verifysort reports success for files that are not there or too short. C101_verdict: on one process verifysort reports success exactly for files in order. C101_boundary_refuted: on as many processes as traces it reports success for every file. C101_ending_refuted: undefined behaviour if no matching name ends in segy or sgy. C101_verify_options: the options of verifysort in any order. C101_letters: several options in one argument, unknown letters, values in the same or the next argument, missing values and what follows --."
 ],
 "C102": [
  "partial",
  "C102_extremes_partial: from the bytes of the files to the four values and numbers, any two of the 27 items of the header, any number of processes; the rule's items are restored. C102_negative_refuted: without a positive value the largest is the smallest positive normal double. C102_empty_refuted: a file without traces, or missing, counts as a trace with the value 0. C102_share_refuted: undefined behaviour for an item outside the default rule if a file has fewer traces than there are processes. C102_item_refuted: undefined behaviour for items 30 and above."
 ],
 "C103": [
  "partial",
  "C103_triangular_partial, C103_mean_partial, C103_median_partial and C103_agc_partial: the gains and gain control in floats against the exact formulas, for samples that are zero or between 2^-30 and 2^30 (the median for every odd window without overflow), windows up to 2^20 samples, one sign for the mean. C103_one_refuted and C103_nan_refuted: the triangle of one sample gives not-a-number, and gain control with it makes every sample not-a-number. C103_cancel_refuted: the assertion of the mean fails for samples whose sum is not zero. C103_overflow_refuted: the mean of loud samples gives gain zero. C103_pair_refuted and C103_start_refuted: undefined behaviour of the median of two samples, and of gain control with windows of two or three samples for every signal. The exact versions are C42 and C56; the rectangular gain is C95."
 ],
 "C104": [
  "partial",
  "C104_files_partial: one input file, from the arguments and the bytes on disk to the bytes on disk; C104_joined_partial: several files with the same samples and interval; C104_options: the options. As in C86 the model must be one inline or one crossline with the gathers in its order, and there must be no more processes than traces. C104_interval_refuted: the output has 17453 microseconds as its interval whatever the input has. C104_between_refuted: gtemp.segy is overwritten and stays. C104_name_refuted: the file with the given name is not written, .segy is appended. C104_clash_refuted: undefined behaviour for the name gtemp. C104_ending_refuted: the program ends for names that do not end in segy or sgy. C104_time_refuted: with equal intervals of a quarter of a millisecond sample 2001 takes the velocity of sample 2000. Bins of size zero: C71_bin_refuted."
 ],
 "C105": [
  "partial",
  "The first half holds: C105_same. C105_window and C105_taper: the default build succeeds in more cases, with the result C40 and C41 ask for. The second half fails: C105_muted_refuted (not-a-number for windows of zeros), C105_quiet_refuted (infinite values), C105_wide_refuted, C105_taper_refuted, C105_zero_refuted, C105_filter_refuted (undefined behaviour). The assertions outside signal processing are C106."
 ],
 "C106": [
  "partial",
  "The first half holds: C106_same, C106_programs. C106_array: the distributed vector is one array for all processes, the first one too (C47_first_refuted is about the build with assertions). The second half fails: C106_end_refuted and C106_corner_refuted (undefined behaviour), C106_inside_refuted and C106_large_refuted (shares longer than the range; the last element in no share), C106_concat_refuted and C106_sort_refuted (files under names without the prefix), C106_verify_refuted (success for no file). The assertions of Set.cc 304 and 447, DataMPIIO.cc 81 and ReadSEGY.cc 77, of the C bindings and of the other programs are not covered."
 ],
 "C107": [
  "partial",
  "C107_options, C107_number, C107_limit, C107_nonumber: what the arguments mean. C107_files_partial: whenever the program ends, the files hold the pairs of C97, and nothing else has changed; C107_ends_partial: it ends on surveys close to each other. C107_record_partial: the records of -v in the build with assertions. The rest of the claim fails: C107_limit_refuted, C107_input_refuted and C107_tmp_refuted (undefined behaviour), C107_record_refuted (empty records in the default build), C107_twice_refuted (one name for both outputs: the first is lost), C107_over_refuted (the second survey as the first output: the second output has traces of the first survey). Missing: IBM surveys, sizes beyond C88; hexadecimal limits."
 ],
 "C108": [
  "partial",
  "C108_options, C108_status: what the arguments mean and when the status is -1. C108_files_partial: the output and the rest of the disk for inputs with traces, usable scalars and an interval; order and values are those of the header fields, not of rounded numbers. C108_example_last: which pattern counts. C108_example_partial: what the examples print, for coordinates that are positive somewhere. The rest of the claim fails: C108_interval_refuted, C108_missing_refuted (status 0 but an output without header), C108_empty_refuted (twelve traces of an input that has none), C108_input_refuted (undefined), C108_letter_refuted (the example in C is undefined for an unknown option, the one in C++ goes on). Missing: negative intervals, scalars that the library does not write."
 ],
 "C109": [
  "partial",
  "C109_filemake_options, C109_makerep_options: what the arguments mean. C109_interval: the interval as a text. C109_filemake_status, C109_makerep_status: calls without what is needed. C109_filemake_partial, C109_makerep_partial: the files and the rest of the disk. The rest of the claim fails: C109_ignored_refuted (unknown options and options without value are passed over), C109_release_refuted (division by zero without -m in the default build), C109_version_refuted (undefined for an unknown version), C109_zero_refuted (-r 0 is -r 1), C109_inplace_refuted. Missing: see C89 and C93 for the sizes for which the programs are wrong."
 ],
 "C110": [
  "partial",
  "With a planner that leaves the arrays alone: C110_bins_partial (all frequencies), C110_only_partial (no other samples have them), C110_tone_partial (amplitude and phase of a cosine, in samples), C110_constant_partial, C110_linear_partial, C110_traces_partial. The rest of the claim fails: C110_plan_refuted (the trace is in the array before the plan is made), C110_first_refuted (equal traces, different results), C110_phase_refuted. Missing: rounding."
 ],
 "C111": [
  "partial",
  "C111_files_partial: whole files if the planner of FFTW leaves the arrays alone. C111_lost_refuted: with one trace per process, a planner that leaves zeros makes zeros of the window of every trace. Missing: samples in the IBM format, intervals that are not positive, rounding."
 ],
 "C112": [
  "partial",
  "C112_assess_partial: files with a header and less than 32768 samples. C112_assess_status, C112_cropen_status: the status. C112_cropen_partial: exactly what cropen looks at, if the MPI library lets it open the file twice. The rest of the claim fails: C112_rest_refuted (all arguments but the first passed over), C112_short_refuted (files without header described as empty), C112_negative_refuted, C112_division_refuted, C112_unique_refuted (cropen is undefined for every file that is there), C112_missing_refuted (and returns zero for one that is not), C112_once_refuted (999 of 1000 files of a round not compared)."
 ],
 "C113": [
  "partial",
  "C113_options: what the arguments mean. C113_shown_partial: the numbers printed for traces whose bytes are in the file, scalars that the library writes and line numbers that are not negative. The rest of the claim fails: C113_line_refuted (negative line numbers near 2^64), C113_last_refuted (one trace too far: zeros, status 0), C113_beyond_refuted (an exception further on), C113_minus_refuted (trace -1 is made of bytes of the file header, status 0), C113_missing_refuted (zeros for a file that is not there, status 0)."
 ],
 "C114": [
  "partial",
  "C114_modprm_partial, C114_turn_partial, C114_make_partial: from command lines with known options to all files on disk, within the limits of C83, C84 and C82. C114_missing: without a name or an input the programs end before anything is written. The rest of the claim fails: C114_letter_refuted (an unknown letter is undefined behaviour in the programs in C), C114_value_refuted (an option without its value), C114_same_refuted (the same name twice)."
 ],
 "C115": [
  "partial",
  "C115_copy_partial: from command lines with names and limits to all files on disk, within the limits of C80. C115_missing, C115_limit: without a name or an input, or after a limit that is not a number, the program ends before anything is written. The rest of the claim fails: C115_flag_refuted (-p, -t and unknown letters are undefined behaviour), C115_small_refuted (limits below a trace divide by zero), C115_same_refuted (the same name twice)."
 ],
 "C116": [
  "partial",
  "C116_files_partial: from the arguments and the files on disk to the files on disk, within the limits of C98, if the output is none of the SEG-Y files. C116_help, C116_missing, C116_zone: the status without a document. The rest of the claim fails: C116_same_refuted (a SEG-Y file that is also the output is lost, with status zero), C116_unknown_refuted (unknown options are passed over)."
 ],
 "C117": [
  "partial",
  "C117_layout_partial: from the calls to the bytes of the file and back through any other layout, for layouts whose fields do not meet and integers that fit. Missing: coordinates that are set (C15 has them), copies of headers (C20). The rest of the claim fails: C117_rest_refuted (all header bytes that the layout does not name become zero), C117_number_refuted (without the trace number in the layout reading is undefined behaviour), C117_wide_refuted (an integer too large for a four-byte field is cut and the write succeeds), C117_short_refuted (the same for two bytes), C117_set_refuted (setting an item outside the layout or a row past the last is undefined behaviour)."
 ]
}