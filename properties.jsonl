{"id": "C01", "title": "Block decomposition tiles the range", "statement": "block_decomposition(range, n, rank) gives every rank a contiguous interval; taken in rank order the intervals follow one another with no gap and no overlap, start at 0 and end at range; no two ranks differ by more than one element and larger shares come first.", "quantifier": "every range, every number of ranks n>0, every rank<n", "why_tests_cant": "Tests pick a few (range,n) pairs; the remainder handling must be right for all of them, including range<n and huge ranges.", "anchors": ["src/utils/decomposition/block_decomposition.cc:block_decomposition", "include/ExSeisDat/utils/decomposition/block_decomposition.h"]}
{"id": "C02", "title": "Element location is the inverse of the decomposition", "statement": "block_decomposition_location(range, n, i) names the one rank whose interval contains i and the position of i inside that interval; converting back gives i, and the named rank and local index are in bounds.", "quantifier": "every range, n>0 and i<range", "why_tests_cant": "The two functions compute remainders independently; agreement for all triples is a universally quantified arithmetic fact.", "anchors": ["src/utils/decomposition/block_decomposition.cc:block_decomposition_location", "src/utils/decomposition/block_decomposition.cc:block_decomposition"]}
{"id": "C03", "title": "Big-endian encoding round-trips", "statement": "Encoding an integer or float with to_big_endian and decoding with from_big_endian returns the same value, decoding then encoding returns the same bytes, and the bytes are the base-256 digits most significant first.", "quantifier": "every 16-bit and 32-bit integer, every 32-bit float bit pattern, every byte string of those lengths", "why_tests_cant": "2^32 values and all byte strings; tests sample a handful.", "anchors": ["include/ExSeisDat/utils/encoding/number_encoding.hh:from_big_endian", "include/ExSeisDat/utils/encoding/number_encoding.hh:to_big_endian"]}
{"id": "C04", "title": "IBM to IEEE conversion is exact in the normal range", "statement": "For every IBM single whose fraction is normalised and whose magnitude is in the IEEE single normal range, from_IBM_to_float returns the IEEE single with exactly the same real value; true zero fractions give zero.", "quantifier": "every 32-bit IBM pattern, both byte orders", "why_tests_cant": "2^32 patterns; tests compare a few constants.", "anchors": ["src/utils/encoding/number_encoding.cc:from_IBM", "src/utils/encoding/number_encoding.cc:to_float", "src/utils/encoding/number_encoding.cc:from_IBM_to_float"]}
{"id": "C05", "title": "IBM conversion is defined and correctly rounded outside the normal range", "statement": "from_IBM_to_float has defined behaviour for every bit pattern; magnitudes above the largest IEEE single give infinity of the same sign, and magnitudes below the smallest normal give the nearest denormal (ties to even); unnormalised fractions denote the same value as their normalised form.", "quantifier": "every 32-bit IBM pattern", "why_tests_cant": "The failing patterns (very small exponents, rounding up to the smallest normal, leading zero hex digits) are a thin slice of 2^32 and the failure is undefined behaviour a test may not notice.", "anchors": ["src/utils/encoding/number_encoding.cc:rshift_with_rounding", "src/utils/encoding/number_encoding.cc:to_float", "src/utils/encoding/number_encoding.cc:from_IBM"]}
{"id": "C06", "title": "ASCII/EBCDIC conversion is a bijection on shared characters", "statement": "For every character that the conversion table contains, converting to the other code and back gives the original character; two different table characters never convert to the same one; conversion changes no text length.", "quantifier": "every character in the table, every text built of them", "why_tests_cant": "Requires the pair table, the two derived sorted arrays and the search to agree for every entry.", "anchors": ["src/utils/encoding/character_encoding.cc:to_ASCII_from_EBCDIC", "src/utils/encoding/character_encoding.cc:to_EBCDIC_from_ASCII"]}
{"id": "C07", "title": "Characters without a counterpart become the substitute character", "statement": "A character that has no counterpart in the other code is converted to that code's substitute character (0x1A in ASCII, 0x3F in EBCDIC).", "quantifier": "every byte value not in the table", "why_tests_cant": "Tests convert characters that are in the table; the miss path needs every absent byte.", "anchors": ["src/utils/encoding/character_encoding.cc:to_ASCII_from_EBCDIC", "src/utils/encoding/character_encoding.cc:to_EBCDIC_from_ASCII"]}
{"id": "C08", "title": "SEG-Y layout tiles the file", "statement": "The file header, and for each trace its header and its data, occupy byte intervals which are pairwise disjoint, ordered by trace number and cover the file of size getFileSz(nt,ns) exactly; a file of that size is read back as having nt traces.", "quantifier": "every nt and ns", "why_tests_cant": "Offsets are computed by four different functions; disjointness is over all pairs of traces.", "anchors": ["include/ExSeisDat/PIOL/segy_utils.hh:getDOLoc", "include/ExSeisDat/PIOL/segy_utils.hh:getDODFLoc", "include/ExSeisDat/PIOL/segy_utils.hh:getFileSz", "include/ExSeisDat/PIOL/segy_utils.hh:getNt"]}
{"id": "C09", "title": "Rule entries never share parameter storage", "statement": "After any history of adding and removing entries, the entries of each kind use storage slots 0..count-1, each slot used by exactly one entry, so no two items of trace metadata alias and every slot is inside the allocated storage.", "quantifier": "every sequence of addLong/addShort/addSEGYFloat/addIndex/addCopy/rmRule/addRule calls starting from any constructor", "why_tests_cant": "Removal renumbers slots; a stale slot shows only after particular add/remove histories.", "anchors": ["src/Rule.cc:Rule::rmRule", "src/Rule.cc:Rule::addLong", "src/Rule.cc:Rule::addSEGYFloat", "src/Rule.cc:Rule::addShort", "src/Rule.cc:Rule::addIndex"]}
{"id": "C10", "title": "A Rule is a map with last-add-wins", "statement": "After any history of calls, looking up an item gives the kind and header location of the most recent add of that item that was not followed by its removal, and gives nothing if there is none; operations on other items do not change it; addRule(item) reports true exactly when the item was absent and is known, and then uses the documented SEG-Y location.", "quantifier": "every sequence of rule operations and every item", "why_tests_cant": "History-dependent; unit tests check a few hand-written histories.", "anchors": ["src/Rule.cc:Rule::addRule", "src/Rule.cc:Rule::rmRule", "src/Rule.cc:Rule::getEntry"]}
{"id": "C11", "title": "Trace parameters are independent variables", "statement": "For a Param built on any reachable rule, getPrm after setPrm of the same item and trace returns the stored value (converted to the slot's type); setting one item of one trace changes no other item of that trace and no item of any other trace.", "quantifier": "every reachable rule, every pair of (item, trace), every value in range", "why_tests_cant": "Aliasing depends on the rule's history and on index arithmetic over all traces.", "anchors": ["include/ExSeisDat/PIOL/param_utils.hh:setPrm", "include/ExSeisDat/PIOL/param_utils.hh:getPrm", "src/Param.cc:Param::Param"]}
{"id": "C12", "title": "Integer header fields survive write and read", "statement": "Writing parameters of any number of traces into header storage with a rule and reading them back with the same rule returns every 16-bit item and every 32-bit integer item unchanged, provided the items occupy distinct header bytes; bytes not named by the rule are not modified.", "quantifier": "every full-extent rule with non-overlapping locations, every number of traces, every stride, all values in range", "why_tests_cant": "All field layouts and batch sizes; overlap is the only excuse.", "anchors": ["src/segy_utils.cc:insertParam", "src/segy_utils.cc:extractParam"]}
{"id": "C13", "title": "A partial-extent rule stays inside its window", "statement": "For a rule not covering the full header, extent() is the length of the smallest window containing every field of the rule, and reading or writing headers through the rule only touches bytes inside the window.", "quantifier": "every rule with full extent disabled", "why_tests_cant": "Out-of-window access is undefined behaviour which depends on which field is lowest.", "anchors": ["src/Rule.cc:Rule::extent", "src/segy_utils.cc:insertParam", "src/segy_utils.cc:extractParam"]}
{"id": "C14", "title": "Coordinate scalar selection keeps what fits", "statement": "The scalar chosen for a coordinate is a power of ten accepted by SEG-Y (1, 10..10000 or -10..-10000); a coordinate with at most four decimals whose scaled value fits 32 bits is represented exactly, and a coordinate too large for 32 bits gets the smallest scalar making it fit.", "quantifier": "every coordinate value", "why_tests_cant": "Depends on digit patterns and on limits near 2^31.", "anchors": ["src/segy_utils.cc:find_scalar", "src/segy_utils.cc:parse_scalar"]}
{"id": "C15", "title": "Coordinates sharing a scalar survive write and read", "statement": "When several coordinates of one trace share a scalar field, the scalar written serves all of them and reading the header returns each coordinate to within half a unit of the scalar, exactly if each is a multiple of the scalar and fits.", "quantifier": "every set of coordinates sharing a scalar field", "why_tests_cant": "The combined scalar is a fold over the items in map order, tests use one or two coordinates.", "anchors": ["src/segy_utils.cc:insertParam", "src/segy_utils.cc:extractParam", "src/segy_utils.cc:find_scalar"]}
{"id": "C16", "title": "Copying parameters copies every shared item", "statement": "cpyPrm(i, src, j, dst) makes every item known to both rules equal at dst position j to src position i, and changes nothing at other positions of dst.", "quantifier": "every pair of reachable rules, all positions, all contents", "why_tests_cant": "Rules with different histories store the same item in different slots.", "anchors": ["src/param_utils.cc:cpyPrm"]}
{"id": "C17", "title": "Large transfers are split without loss", "statement": "A contiguous or strided transfer of any size is issued as consecutive pieces each within the MPI count limit whose union is exactly the requested byte range, each byte once, in order.", "quantifier": "every transfer size, every offset, every block/stride size not above the limit", "why_tests_cant": "Transfers larger than 2 GiB are not run in unit tests.", "anchors": ["src/DataMPIIO.cc:DataMPIIO::contigIO", "src/DataMPIIO.cc:DataMPIIO::listIO"]}
{"id": "C18", "title": "All processes issue the same number of collective calls", "statement": "Whatever number of elements each process contributes (including none), every process makes the same number of collective I/O calls, so a collective operation cannot deadlock.", "quantifier": "every number of processes and every vector of local sizes, with or without errors", "why_tests_cant": "Deadlock appears for particular combinations of local sizes above the limit.", "anchors": ["src/DataMPIIO.cc:DataMPIIO::contigIO", "src/DataMPIIO.cc:DataMPIIO::listIO", "src/Flow/Set.cc:Set::startSingle"]}
{"id": "C19", "title": "I/O failures are reported", "statement": "If the underlying MPI-IO call fails for any piece of a transfer, the error state of the library is set before the call returns.", "quantifier": "every transfer and every pattern of failing pieces", "why_tests_cant": "Needs fault injection at every piece.", "anchors": ["src/DataMPIIO.cc:DataMPIIO::contigIO", "src/DataMPIIO.cc:DataMPIIO::listIO", "src/DataMPIIO.cc:iol"]}
{"id": "C20", "title": "SEG-Y files behave as an array of traces", "statement": "After any sequence of trace, parameter and trace-list writes, reading trace k returns the samples and header fields most recently written at k; writes at other positions never change it; the caller's trace buffer is unchanged by a write.", "quantifier": "every sequence of writes and reads, all positions, sizes and sample values", "why_tests_cant": "History and position dependent; needs refinement to an abstract array.", "anchors": ["src/WriteSEGY.cc:writeTraceT", "src/ReadSEGY.cc:readTraceT", "src/ObjectSEGY.cc:ObjectSEGY::writeDO"]}
{"id": "C21", "title": "Closing a writer leaves a consistent file", "statement": "When a writer is closed without error the file size is that of nt traces, where nt is the declared count if given and otherwise one more than the highest trace index written by any process, and reading the header returns the ns, increment and text that were set last.", "quantifier": "every sequence of writer calls on every process", "why_tests_cant": "The deferred header write depends on the whole call history on all processes.", "anchors": ["src/WriteSEGY.cc:WriteSEGY::~WriteSEGY", "src/WriteSEGY.cc:WriteSEGY::calcNt", "src/WriteSEGY.cc:WriteSEGY::writeTrace", "src/ReadSEGY.cc:ReadSEGY::ReadSEGY"]}
{"id": "C22", "title": "Reads beyond the end are clamped", "statement": "A contiguous read of sz traces at any offset transfers exactly the traces that exist in that interval and never addresses bytes beyond the end of the file.", "quantifier": "every nt, offset and sz", "why_tests_cant": "The guard is size_t arithmetic; the failing inputs are offsets past the end.", "anchors": ["src/ReadSEGY.cc:ReadSEGY::readTrace"]}
{"id": "C23", "title": "List reads return traces in the order asked", "statement": "readTraceNonMonotonic with any list of trace numbers, in any order and with repetitions, returns in position i the samples and parameters of trace list[i].", "quantifier": "every list of valid trace numbers", "why_tests_cant": "All permutations with all duplicate patterns.", "anchors": ["src/ReadSEGY.cc:ReadSEGY::readTraceNonMonotonic"]}
{"id": "C24", "title": "IBM-format files read as the numbers they store", "statement": "Reading a trace from a file whose format code is IBM returns, for each sample, the IEEE value of the IBM number stored in the file.", "quantifier": "every sample pattern", "why_tests_cant": "Every stored sample; the failing path reinterprets memory and needs bit-level reasoning.", "anchors": ["src/ReadSEGY.cc:readTraceT"]}
{"id": "C25", "title": "Text header survives", "statement": "The textual header set on a writer is what a reader returns, padded to 3200 characters, when it is ASCII text with a majority of printable characters; an EBCDIC header is returned converted to ASCII.", "quantifier": "every text of at most 3200 characters", "why_tests_cant": "The reader guesses the code by counting printable characters; the guess must be right for all texts.", "anchors": ["src/ReadSEGY.cc:ReadSEGY::ReadSEGY", "src/WriteSEGY.cc:WriteSEGY::writeText"]}
{"id": "C26", "title": "Sort comparators are strict total orders", "statement": "Each sort type's comparison is irreflexive and transitive, and for two traces with different trace numbers exactly one precedes the other, so sorting is well defined and deterministic.", "quantifier": "every sort type and every triple of traces", "why_tests_cant": "A comparison that is not a strict weak order is undefined behaviour in std::sort only for special triples.", "anchors": ["src/sort.cc:lessSrcRcv", "src/sort.cc:lessSrcOff", "src/sort.cc:lessRcvOff", "src/sort.cc:lessLineOff", "src/sort.cc:lessOffLine"]}
{"id": "C27", "title": "Parallel sort sorts", "statement": "After the parallel sort, concatenating the parts of all processes in rank order gives an ordered rearrangement of the concatenated input, each process keeping its number of elements.", "quantifier": "every number of processes, every distribution of elements, every comparison that is a strict total order", "why_tests_cant": "All distributions; the exchange region is a quarter of the smallest part, so small parts matter.", "anchors": ["src/sort.cc:sort", "src/sort.cc:sortP", "src/sort.cc:sendRight", "src/sort.cc:sendLeft"]}
{"id": "C28", "title": "Parallel sort terminates", "statement": "The repeated exchange of the parallel sort reaches a round with no change on any process after finitely many rounds.", "quantifier": "every number of processes and every input", "why_tests_cant": "Termination of an unbounded loop.", "anchors": ["src/sort.cc:sort", "src/sort.cc:sortP"]}
{"id": "C29", "title": "File-order lists are the inverse permutation", "statement": "With file order requested, the list returned on all processes, taken in rank order, is a permutation of 0..N-1 giving for each original trace its position in the sorted order.", "quantifier": "every number of processes, distribution and input", "why_tests_cant": "It composes two distributed sorts and a renumbering.", "anchors": ["src/sort.cc:sort", "src/sort.cc:getSortIndex"]}
{"id": "C30", "title": "checkOrder accepts exactly sorted files", "statement": "checkOrder over all processes' shares reports success exactly if the whole file is ordered by the sort type.", "quantifier": "every file and every decomposition", "why_tests_cant": "A disorder can sit on the boundary between two processes' shares.", "anchors": ["src/sort.cc:checkOrder"]}
{"id": "C31", "title": "Adding files to a set concatenates them", "statement": "For files with equal sample count and increment added to a set, the traces of all processes are assigned output positions that enumerate 0..total-1 exactly once and keep the order of files and of traces within a file; files of different geometry never share an output.", "quantifier": "every list of files, sizes and number of processes", "why_tests_cant": "Positions are computed locally from running totals on every process.", "anchors": ["src/Flow/Set.cc:Set::add", "src/Flow/Set.cc:Set::startSingle"]}
{"id": "C32", "title": "Sorting a set sorts its output", "statement": "After sort on a set, the output position given to each trace is its rank in the sorted order of all traces of the set.", "quantifier": "every list of files, sizes, number of processes and comparison", "why_tests_cant": "Depends on a derived global trace number being strictly increasing over files and processes.", "anchors": ["src/Flow/Cache.cc:Cache::getCache", "src/Flow/Set.cc:Set::sort", "src/Flow/Set.cc:Set::calcFuncS"]}
{"id": "C33", "title": "Operations on a set are applied once each in order", "statement": "The output of a set equals the result of applying every queued operation exactly once in the order of the calls.", "quantifier": "every sequence of operations (sort, per-trace, gather)", "why_tests_cant": "Sequences of mixed kinds of every length.", "anchors": ["src/Flow/Set.cc:Set::calcFunc", "src/Flow/Set.cc:Set::startSingle", "src/Flow/Set.cc:Set::startGather", "src/Flow/Set.cc:Set::output"]}
{"id": "C34", "title": "Output of a set names every file written", "statement": "output returns the names of all files it wrote; different groups of traces are written to different names.", "quantifier": "every set of groups and every sequence of operations", "why_tests_cant": "Name collisions need particular groupings.", "anchors": ["src/Flow/Set.cc:Set::startSingle", "src/Flow/Set.cc:Set::output"]}
{"id": "C35", "title": "Gather processing covers each gather once", "statement": "With any number of processes, each gather is processed by exactly one process, which reads exactly that gather's traces, and the output gathers are written in order without gap or overlap.", "quantifier": "every list of gather sizes and number of processes", "why_tests_cant": "Offsets are accumulated over rounds from per-round prefix sums.", "anchors": ["src/Flow/Set.cc:Set::startGather"]}
{"id": "C36", "title": "Gather detection returns the runs of the file", "statement": "getIlXlGathers returns, in file order, one record per maximal run of traces with equal inline and crossline, with the run's length, for any distribution over processes.", "quantifier": "every file and number of processes", "why_tests_cant": "Runs crossing one or several process boundaries.", "anchors": ["src/gather.cc:getGathers", "src/gather.cc:getIlXlGathers"]}
{"id": "C37", "title": "Minimum and maximum are global", "statement": "getMinMax returns the smallest and largest value over all processes and trace numbers attaining them; equal values are decided by the second coordinate; processes without traces do not take part.", "quantifier": "every distribution of traces over processes", "why_tests_cant": "Ties across processes and empty processes.", "anchors": ["include/ExSeisDat/PIOL/operations/minmax.h:getCoordMinMax"]}
{"id": "C38", "title": "Set minimum and maximum span all files", "statement": "getMinMax on a set returns the smallest and largest value over all its files.", "quantifier": "every list of files and values", "why_tests_cant": "Fails only for sign patterns not used in tests.", "anchors": ["src/Flow/Set.cc:Set::getMinMax"]}
{"id": "C39", "title": "Errors stick in the log", "statement": "Once an error is recorded the library reports an error for ever after, whatever is recorded or printed later; without an error record it never does; messages above the verbosity limit are not stored.", "quantifier": "every sequence of log operations", "why_tests_cant": "All histories.", "anchors": ["src/Logger.cc:Logger::record", "src/Logger.cc:Logger::isErr", "src/Logger.cc:Logger::procLog"]}
{"id": "C40", "title": "Gain control uses the centred window of the original signal", "statement": "AGC multiplies each sample by the gain of the window of half-width w/2 around it clipped to the signal, evaluated on the unmodified signal, never addressing samples outside it.", "quantifier": "every signal, every window size smaller than the signal, every gain function", "why_tests_cant": "Three loops with different boundary arithmetic for all sizes.", "anchors": ["src/utils/signal_processing/AGC.cc:AGC"]}
{"id": "C41", "title": "Taper leaves the muted start and the middle alone", "statement": "taper multiplies the first left samples after the muted (zero) start by the ramp, the last right samples by the reversed ramp and changes nothing else; it accepts every signal longer than the tapers.", "quantifier": "every signal and taper lengths below the signal length, every ramp function", "why_tests_cant": "Depends on where the first non-zero sample lies, including signals that are entirely zero.", "anchors": ["src/utils/signal_processing/taper.cc:taper"]}
{"id": "C42", "title": "Built-in gain functions compute what they name", "statement": "mean_abs_gain divides the target by the mean absolute value of the non-zero samples; median_gain divides it by the median of the window; both only address samples of the window.", "quantifier": "every window and size", "why_tests_cant": "Even window sizes and mixed signs.", "anchors": ["src/utils/signal_processing/Gain_function.cc:mean_abs_gain", "src/utils/signal_processing/Gain_function.cc:median_gain"]}
{"id": "C43", "title": "Temporal filter stays inside the trace", "statement": "temporalFilter reads and writes only samples of the trace being filtered, and padding only reads samples inside the window, for every window length, centre and padding mode it accepts.", "quantifier": "every ns, window, centre, filter order and padding mode", "why_tests_cant": "Out-of-bounds reads depend on sizes and do not necessarily crash.", "anchors": ["src/temporalfilter.cc:temporalFilter", "src/temporalfilter.cc:filterTime", "src/temporalfilter.cc:getPad"]}
{"id": "C44", "title": "Filter polynomial expansion", "statement": "expandPoly returns the coefficients, lowest first, of the monic polynomial having exactly the given roots.", "quantifier": "every non-empty list of roots", "why_tests_cant": "In-place recurrence over all degrees.", "anchors": ["src/temporalfilter.cc:expandPoly"]}
{"id": "C45", "title": "Recursive filter satisfies its difference equation", "statement": "The output of the recursive filter satisfies, at every sample, the difference equation given by numerator and denominator coefficients with the initial conditions added on the first samples; it is linear in signal and initial conditions.", "quantifier": "every order, coefficients and signal", "why_tests_cant": "All orders and lengths.", "anchors": ["src/temporalfilter.cc:IIR"]}
{"id": "C46", "title": "3D model reads return the trace at the coordinates asked", "statement": "Reading a model by inline and crossline returns the trace of the file whose header has that inline and crossline, for every regular grid.", "quantifier": "every regular grid and coordinate on it", "why_tests_cant": "All grid shapes and orders.", "anchors": ["src/ReadSEGYModel.cc:ReadSEGYModel::ReadSEGYModel", "src/ReadSEGYModel.cc:ReadSEGYModel::readModel"]}
{"id": "C47", "title": "Distributed vector behaves as one array", "statement": "A value set at a global index is returned by get of that index on any process, other indices are unaffected, and no access leaves the memory allocated for the vector.", "quantifier": "every size, number of processes, element size, sequence of sets and gets", "why_tests_cant": "Window sizes depend on element size and share.", "anchors": ["include/ExSeisDat/utils/mpi/MPI_Distributed_vector.hh:MPI_Distributed_vector"]}
{"id": "C48", "title": "4D binning finds the closest trace", "statement": "For each trace of the first file 4D binning returns the trace of the second file with the smallest difference criterion, whenever that criterion is within the limit.", "quantifier": "every pair of files and number of processes", "why_tests_cant": "Pruning by source coordinate must be sound for all geometries.", "anchors": ["util/4dcore.cc:update", "util/4dcore.cc:calc4DBin", "util/4dcore.cc:dsr"]}
{"id": "C49", "title": "MPI is finalised exactly when the library owns it", "statement": "Under every sequence of manual or automatic initialisation and shutdown, MPI is initialised at most once and finalised at most once, never before it is initialised, and never by the library when the user manages it.", "quantifier": "every sequence of lifecycle calls", "why_tests_cant": "Static state machine over all call orders.", "anchors": ["src/CommunicatorMPI.cc:MPIManager", "src/CommunicatorMPI.cc:CommunicatorMPI::CommunicatorMPI"]}
{"id": "C50", "title": "Sampling increment survives", "statement": "An increment that is a whole number of microseconds between 1 and 32767 is returned by a reader as the same number.", "quantifier": "every such increment", "why_tests_cant": "All representable increments with floating-point rounding.", "anchors": ["src/WriteSEGY.cc:WriteSEGY::~WriteSEGY", "src/ReadSEGY.cc:ReadSEGY::ReadSEGY"]}
{"id": "C51", "title": "Test-file generator covers every trace once", "statement": "In scattered mode the generator gives the processes lists of trace numbers which together enumerate every trace of the file exactly once, each list increasing.", "quantifier": "every distribution of trace counts over processes", "why_tests_cant": "Round-robin bookkeeping simulated independently on every process.", "anchors": ["util/filemake.cc:writeRandom"]}
{"id": "C52", "title": "Block-aligned decomposition tiles the file", "statement": "The block-aligned decomposition of a byte range over processes gives intervals which tile the range in rank order and break only at block boundaries.", "quantifier": "every range, offset, block size and number of processes", "why_tests_cant": "Edge sizes of the first and last block.", "anchors": ["util/sglobal.cc:blockDecomp"]}
{"id": "C53", "title": "Reading coordinates and writing them again is lossless", "statement": "Reading a coordinate whose header scalar is one of the powers of ten SEG-Y accepts and writing it again stores exactly the same coordinate value (scalar times integer), even though the scalar field may change.", "quantifier": "every 32-bit header integer and every accepted scalar", "why_tests_cant": "2^32 integers times 9 scalars, with double rounding at every step (multiplication by 1/10^d, truncation, division).", "anchors": ["src/segy_utils.cc:extractParam", "src/segy_utils.cc:find_scalar", "src/segy_utils.cc:insertParam"]}
{"id": "C54", "title": "Sorting by recorded offset uses the recorded value", "statement": "The sort types that use the offset read from file order traces by the value of that header field, so a trace with the smaller recorded offset comes first.", "quantifier": "every pair of traces and every recorded offset, of either sign", "why_tests_cant": "Only negative offsets are misordered, through a conversion to an unsigned type.", "anchors": ["src/sort.cc:lessSrcOff", "src/sort.cc:lessRcvOff", "src/sort.cc:lessLineOff", "src/sort.cc:lessOffLine"]}
{"id": "C55", "title": "Sorting keeps trace records whole", "statement": "After the parallel sort of a parameter structure every trace record still carries every value it had before, including the raw header kept by a copy rule, on whichever process it ends up.", "quantifier": "every number of processes, every rule, every input", "why_tests_cant": "Depends on which records cross a process boundary.", "anchors": ["src/sort.cc:sendRight", "src/sort.cc:sendLeft", "src/sort.cc:sortP"]}
{"id": "C56", "title": "Root mean square gains normalise the window", "statement": "The rectangular and triangular gain functions return the factor which, applied to the window, makes the (weighted) mean square of its non-zero samples the square of the target; in gain control the triangle has the same half-width for every window, clipped or not.", "quantifier": "every window, centre and target", "why_tests_cant": "All windows, including muted ones and windows of one sample.", "anchors": ["src/utils/signal_processing/Gain_function.cc:rectangular_RMS_gain", "src/utils/signal_processing/Gain_function.cc:triangular_RMS_gain"]}
{"id": "C57", "title": "Built-in ramps rise from above zero to one", "statement": "Each built-in taper function is positive on the first sample of a taper, strictly increasing along it and one at its end, for every taper length.", "quantifier": "every taper length and position in it", "why_tests_cant": "All lengths.", "anchors": ["src/utils/signal_processing/Taper_function.cc:linear_taper", "src/utils/signal_processing/Taper_function.cc:cosine_taper", "src/utils/signal_processing/Taper_function.cc:cosine_square_taper"]}
{"id": "C58", "title": "Time-domain filter keeps constants with replicate padding", "statement": "A constant trace filtered in the time domain with replicate padding is the constant times the square of the gain at frequency zero; started from its initial conditions the recursive filter answers a constant with a constant.", "quantifier": "every filter, order and window", "why_tests_cant": "Padding offsets matter at the ends only and decay.", "anchors": ["src/temporalfilter.cc:filterTime", "src/temporalfilter.cc:IIR"]}
{"id": "C59", "title": "File repetition copies the traces exactly", "statement": "The repetition tool writes a file that is the header of the input once followed by its traces as many times as asked: every byte written has the contents that belong at its place, no byte is written outside, every byte is written, whatever the order in which the processes write.", "quantifier": "every file size, repetition count and number of processes", "why_tests_cant": "Pieces are 1 GiB per process; test files are one piece.", "anchors": ["util/makerep.cc:smallCopy", "util/makerep.cc:mpiMakeSEGYCopyNaive"]}
{"id": "C60", "title": "Uneven decomposition tiles the range", "statement": "The uneven decomposition used to test load imbalance gives shares which tile the range in rank order, gives the lower ranks more, and tells every process the largest share.", "quantifier": "every size and number of processes", "why_tests_cant": "Rounding errors and 32-bit sums only show for particular sizes.", "anchors": ["util/sglobal.cc:lobdecompose"]}
{"id": "C61", "title": "Generator makes as many collective calls on every process", "statement": "The test-file generator writes the share of each process in pieces within the memory limit, the pieces make up the share, and every process makes the same number of collective calls.", "quantifier": "every share, largest share and memory limit", "why_tests_cant": "A missing call deadlocks only for particular shares.", "anchors": ["util/filemake.cc:FileMake", "util/filemake.cc:writeContig", "util/filemake.cc:writeRandom"]}
{"id": "C62", "title": "Generated contents depend on the trace number only", "statement": "The samples the test-file generator writes for a trace are determined by its number in the file, in contiguous and in scattered mode, for every number of processes and memory limit.", "quantifier": "every share, list of trace numbers, trace length and memory limit", "why_tests_cant": "Contents are computed per piece and pieces depend on processes and memory.", "anchors": ["util/filemake.cc:writeContig", "util/filemake.cc:writeRandom"]}
{"id": "C63", "title": "Reading coordinates makes as many collective calls on every process", "statement": "4D binning reads the coordinates of a file in two phases, and in each of them every process makes the same number of collective calls.", "quantifier": "every number of traces, of processes and either setting for line numbers", "why_tests_cant": "The number of calls differs only from millions of traces per process on, and then the program hangs.", "anchors": ["util/4dio.cc:getCoords"]}
{"id": "C64", "title": "4D binning outputs are aligned", "statement": "The two output files of 4D binning have as many traces as there are matched pairs, and the traces at the same position of both belong to one pair, in the order of the processes.", "quantifier": "every list of pairs on every process and every memory limit of both files", "why_tests_cant": "Positions come from a prefix sum over processes and a piecewise loop.", "anchors": ["util/4dio.cc:outputNonMono", "util/fourdbin.cc:main"]}
{"id": "C65", "title": "The designed filter has the Butterworth response", "statement": "makeFilter(type, N, corners, fs) yields a digital filter whose power at frequency f is 1/(1+(tan(pi f/fs)/tan(pi fc/fs))^2N) for low pass, and the corresponding expression for high pass, band pass and band stop, so that the power is one half at the corner frequencies.", "quantifier": "every order of at least one, sampling rate and corner frequencies below half of it, every frequency", "why_tests_cant": "A test compares a few coefficients; the response is a statement about all frequencies, orders and corners.", "anchors": ["src/temporalfilter.cc:makeFilter", "src/temporalfilter.cc:lowpass", "src/temporalfilter.cc:highpass", "src/temporalfilter.cc:bandpass", "src/temporalfilter.cc:bandstop"]}
{"id": "C66", "title": "The designed filter is stable", "statement": "Every pole of the filter made by makeFilter lies strictly inside the unit circle, so filtering a bounded trace cannot grow without bound.", "quantifier": "every type, order of at least one, sampling rate and corners below half of it", "why_tests_cant": "Instability shows only for particular orders and corners.", "anchors": ["src/temporalfilter.cc:makeFilter"]}
{"id": "C67", "title": "The automatic order meets the attenuation asked for", "statement": "When temporalFilter chooses the order from a pass and a stop frequency, the filter passes half of the power at the first and at most one hundredth at the second, and no smaller order does.", "quantifier": "every pair of frequencies and every sampling rate, all four types", "why_tests_cant": "The choice of order depends on real arithmetic over all rates; tests use one rate.", "anchors": ["src/temporalfilter.cc:filterOrder", "src/temporalfilter.cc:temporalFilter", "src/Flow/Set.cc:Set::temporalFilter"]}
{"id": "C68", "title": "Filtering in the frequency domain has the response of the filter", "statement": "The factor by which filterFreq multiplies bin i of the transform has the gain that the designed filter has at the frequency of the bin, i*fs/nss.", "quantifier": "every filter, sampling rate, window length and bin", "why_tests_cant": "Equality of two responses over all frequencies; a tolerance on one trace does not show a wrong frequency axis.", "anchors": ["src/temporalfilter.cc:filterFreq", "src/temporalfilter.cc:filterTime"]}
{"id": "C69", "title": "A set is processed in blocks with the same collective calls everywhere", "statement": "When a set is processed trace by trace, all processes make the same sequence of collective reads and writes whatever their shares; every trace of a process is read once and written once at its output position, and no block needs more than the memory limit.", "quantifier": "every number of processes, every division of the traces, every block size", "why_tests_cant": "A mismatch hangs only for particular shares around multiples of the block size, which needs a gigabyte per process to reach.", "anchors": ["src/Flow/Set.cc:Set::startSingle"]}
{"id": "C70", "title": "Offsets are taken within the communicator", "statement": "CommunicatorMPI::offset returns on each process the sum of the values of the processes before it in the communicator the object was made for, and the call returns when all processes of that communicator make it.", "quantifier": "every communicator, size and values", "why_tests_cant": "Tests use the communicator of all processes only; a hang cannot be tested for.", "anchors": ["src/CommunicatorMPI.cc:CommunicatorMPI::offset"]}
{"id": "C71", "title": "Angle gathers take each sample from the trace the velocity points to", "statement": "Sample z of the trace for angle j made by toAngle is sample z of the input trace whose number is the rounded distance for the velocity of that gather at the time of the sample, divided by the bin, and zero if there is no such trace; every trace has the inline and crossline of the gather.", "quantifier": "every gather, velocity model, bin, number of angles, traces and samples", "why_tests_cant": "The index arithmetic depends on data; a limit that is wrong by one reads the next gather's velocity and shows only past the end of the model.", "anchors": ["src/Flow/Set.cc:Set::toAngle", "src/Flow/RadonGatherState.cc:RadonGatherState::makeState"]}
{"id": "C72", "title": "The cache returns what was asked for", "statement": "After any calls, the cache returns for a list of files and a rule the parameters of these files under this rule, reads files only when it does not hold them, tells truthfully whether it holds parameters or traces, gives traces when asked for them, and can drop what it holds.", "quantifier": "every sequence of calls, list of files and rules", "why_tests_cant": "The answer depends on the history of calls; a test sees one history.", "anchors": ["src/Flow/Cache.cc:Cache::getCache", "src/Flow/Cache.cc:Cache::getOutputTrace", "include/ExSeisDat/Flow/Cache.hh:Cache::cachePrm", "include/ExSeisDat/Flow/Cache.hh:Cache::flush", "include/ExSeisDat/Flow/CacheElem.hh:CacheElem::checkPrm"]}
{"id": "C73", "title": "Coordinates are written to ten decimals", "statement": "The text that segy2kml writes for a coordinate stands for that coordinate, rounded to ten decimals.", "quantifier": "every coordinate of every trace, both signs", "why_tests_cant": "The text is put together from the digits of two integers; whether it stands for the value depends on zeros after the point and on the sign, for all values.", "anchors": ["util/segy2kml.cc:highPrecStr"]}
{"id": "C74", "title": "Conversion of map coordinates to latitude and longitude", "statement": "segy2kml turns eastings and northings of a zone into the latitude and longitude of the same place: on the central meridian and the equator, symmetrically to the meridian, shifted by six degrees from zone to zone, growing northwards and eastwards, and for the southern hemisphere as well.", "quantifier": "every easting, northing and zone, both hemispheres", "why_tests_cant": "The series has real arithmetic over all places of the earth; a test knows some.", "anchors": ["util/segy2kml.cc:utm2LatLong"]}
{"id": "C75", "title": "A file is shown as a line between places of the survey", "statement": "For each file segy2kml adds a line between two places where the file has traces, as longitude and latitude, and prints a message exactly if the coordinates are not valid.", "quantifier": "every file with any coordinates, with and without conversion", "why_tests_cant": "It depends on all combinations of the extreme coordinates of a file.", "anchors": ["util/segy2kml.cc:addLine", "util/segy2kml.cc:main"]}
{"id": "C76", "title": "Moving the borders of shares between processes", "statement": "When makerep changes the share that each process holds, each process afterwards holds exactly the bytes of its new share.", "quantifier": "every number of processes, all old and new shares, all contents", "why_tests_cant": "It needs every pattern of enlarging and shrinking neighbouring shares.", "anchors": ["util/makerep.cc:distribToDistrib"]}
{"id": "C77", "title": "The minmax tool writes the traces with the extreme coordinates", "statement": "For a file with traces, the tool writes twelve traces whose headers are those of traces with the smallest and the largest source x, source y, receiver x, receiver y, midpoint x and midpoint y of the whole file, each with the number of the trace in the input; the library function below it gives the numbers and values of the extreme traces for any two items of any rule.", "quantifier": "every file, every number of processes and division of the traces among them, every pair of items", "why_tests_cant": "The answer depends on all traces of all processes, including processes without traces and numbers beyond 32 bits that no test file reaches.", "anchors": ["util/minmax.cc:calcMin", "src/minmax.cc:getMinMax", "include/ExSeisDat/PIOL/operations/minmax.h:getMinMax"]}
{"id": "C78", "title": "The output of a set of files holds the records of its inputs", "statement": "A set made from files and written out (the concatenate tool) gives, for every number of samples and sample interval among the inputs, a file that opens with that number of samples and interval, the total number of traces and the text given, and whose trace records (headers and samples) are byte for byte those of the inputs with that number of samples and interval, in the order of adding.", "quantifier": "every set of files, every number of processes, every order in which the writes of the processes reach the file, every text", "why_tests_cant": "The blocks read by each process, their places and the order of the writes depend on the number of processes, the sizes of all files and the memory limit; a test covers one combination.", "anchors": ["util/concatenate.cc:main", "src/Flow/Set.cc:Set::add", "src/Flow/Set.cc:Set::startSingle"]}
{"id": "C79", "title": "The sort tool writes the traces of its inputs in order, and the checking tool agrees", "statement": "For a set of files and a sort type the sort tool ends and writes a file that opens with the number of samples, interval and total number of traces of the inputs. Every input trace appears once, in the order of the sort type, ties by trace number and then by file; its samples and all header values are those of the input. verifysort reports success on the output, on any number of processes.", "quantifier": "every set of files, sort type, number of processes, result of std::sort that is sorted, schedule of the writes and text", "why_tests_cant": "The order of traces, the exchange between processes, the places of the blocks and the scalar chosen for every header depend on the values of all headers and on the number of processes; a test fixes a few values, and whether equal coordinates are still equal doubles when read again depends on the decimal digits of the others in the same header.", "anchors": ["util/sort.cc:main", "util/verifysort.cc:main", "src/Flow/Set.cc:Set::sort", "src/Flow/Set.cc:Set::calcFuncS", "src/Flow/Cache.cc:CachePrm::getCache", "src/sort.cc:checkOrder"]}
{"id": "C80", "title": "The copying example reproduces a file through the C interface", "statement": "For a SEG-Y file that opens, the example that reads and writes through the C interface ends on any number of processes and with any memory limit, and its output opens with the same text, number of samples, number of traces and interval; every trace has the samples and header values of the input. With the options for modification it changes the sample of every trace, or the source of every trace, as asked and nothing else.", "quantifier": "every file, number of processes, memory limit, option list, schedule of the calls and content of the memory that malloc returns", "why_tests_cant": "How the traces are dealt to processes and calls depends on three sizes at once, and whether all processes make the same number of calls is a divisibility condition on them; the shipped tests do not run the example on more than a few sizes, and what malloc leaves in memory is not under the control of a test.", "anchors": ["examples/creadwrite.c:main", "examples/creadwrite.c:readWriteFile", "examples/creadwrite.c:readWriteFullTrace", "src/PIOL_C_bindings.cc:PIOL_File_ReadDirect_readTrace", "src/PIOL_C_bindings.cc:PIOL_File_WriteDirect_writeTrace", "src/PIOL_C_bindings.cc:PIOL_File_ReadDirect_readText"]}
{"id": "C81", "title": "Sorting by calculated offset orders by distance", "statement": "The sort types that calculate the offset put, among traces that agree in the earlier keys, the one with the smaller distance between source and receiver first.", "quantifier": "every pair of traces and all source and receiver coordinates", "why_tests_cant": "The offset is a sum of squares in floating point; whether rounding changes the order depends on the digits of eight coordinates.", "anchors": ["src/sort.cc:off", "src/sort.cc:lessSrcOff", "src/sort.cc:lessRcvOff", "src/sort.cc:lessLineOff", "src/sort.cc:lessOffLine"]}
{"id": "C82", "title": "The examples that create a file make the file they describe", "statement": "exampleCreateFile and example1, in C and in C++, asked for a number of traces and samples and an interval, end on any number of processes and leave a file that opens with those numbers, that interval and their text. Trace k has the coordinates, line numbers and trace number computed from k, the samples counted on through the file, and nothing else in its header.", "quantifier": "every number of traces, samples and processes, every interval, every previous content of the output and every order of the writes", "why_tests_cant": "The examples are not run by any test; where single precision merges two traces, and where an interval leaves its 16-bit field, lies beyond the sizes anyone would create in a test, and the order of the writes is not under its control.", "anchors": ["examples/exampleCreateFile.c:createFile", "examples/exampleCreateFile.cc:createFile", "examples/example1.c:main", "examples/example1.cc:main", "src/Param.cc:setPrm", "src/WriteSEGY.cc"]}
{"id": "C83", "title": "modprm exchanges the source coordinates of every trace", "statement": "modprm ends on any number of processes, each making the same number of calls, and leaves a file that opens with the numbers and the interval of the input. Each trace has the source coordinates of the input exchanged, its other coordinates, line numbers and trace number unchanged, and everything else as in the input; applied twice it changes nothing.", "quantifier": "every readable input, every number of processes, every previous content of the output and every order of the calls", "why_tests_cant": "No test runs the example; the share of a process ends in the middle of a block only in files of many gigabytes, and the order of the writes of different processes is not under a test's control.", "anchors": ["examples/modprm.c:readwriteParam", "examples/modprm.c:writePayload", "examples/modprm.c:main", "src/Param.cc:setPrm", "src/ReadSEGY.cc", "src/WriteSEGY.cc"]}
{"id": "C84", "title": "example2 copies the file it is given", "statement": "example2 ends on any number of processes and leaves a file that opens with the number of samples, the number of traces and the interval of its input, and in which every trace has the samples and the trace parameters of the input.", "quantifier": "every readable input, every number of processes, every previous content of the output and every order of the writes", "why_tests_cant": "The program exchanges two numbers, which shows only in files that are not square, in a different way for few, many and very many traces, and depending on what malloc gives for no bytes; a test sees one of these.", "anchors": ["examples/example2.c:main", "src/PIOL_C_bindings.cc:PIOL_File_WriteDirect_writeTrace", "src/WriteSEGY.cc:writeNs", "src/WriteSEGY.cc:writeTraceT"]}
{"id": "C85", "title": "The files a set leaves behind are the ones its outputs wrote", "statement": "After a program has made a Set from files, queued operations, called output any number of times with different names and deleted the Set, every output file holds the text given, all traces of the set, with every operation queued before that output applied once, in the order of the last sort; no other file has changed.", "quantifier": "every number of files and traces, every sequence of operations and outputs, every content of the file system", "why_tests_cant": "What the destructor does to files already written depends on the whole history of the set (which kinds of operations came before which output, whether a gather replaced the files), and a test that looks at the file before the set is deleted sees something else than what stays behind.", "anchors": ["src/Flow/Set.cc:~Set", "src/Flow/Set.cc:output", "src/Flow/Set.cc:calcFunc", "src/Flow/Set.cc:startSingle", "src/Flow/Set.cc:startGather", "src/Flow/Set.cc:startSubset", "src/Flow/Set.cc:text", "src/Flow/Set.cc:add", "src/Flow/Flow_C_bindings.cc:PIOL_Set_delete", "examples/exampleSort.c:main"]}
{"id": "C86", "title": "The radon program makes an angle gather of every gather of its input", "statement": "On any number of processes the output of the radon program has as many traces for every gather of the input as there are angles, in the order of the gathers, with the inline and crossline of the gather; sample z of the trace for an angle is sample z of the trace of that gather that belongs to the angle and to the velocity which the model has for that inline and crossline at the time of the sample.", "quantifier": "every velocity model on a regular grid, every number and order of the gathers, every number of traces, samples and angles, every number of processes", "why_tests_cant": "The gathers are dealt to the processes in turn, and each process numbers its own gathers, velocities and headers from zero; a mistake in one of the numbers shows only for particular numbers of processes and gathers, and what is read beyond the model depends on the whole grid.", "anchors": ["util/radon.cc:main", "src/Flow/Set.cc:toAngle", "src/Flow/Set.cc:startGather", "src/Flow/RadonGatherState.cc:makeState", "src/ReadSEGYModel.cc:readModel", "src/gather.cc:getIlXlGathers"]}
{"id": "C87", "title": "The two outputs of 4D binning hold the matched traces, pair by pair", "statement": "When 4D binning has matched the traces of two surveys, both outputs open as SEG-Y files with one trace for each matched pair, with the number of samples and the interval of their own source; trace j of the first output is the first trace of pair j and trace j of the second output its partner, samples and header byte for byte, except that the header also holds the criterion of the pair when that is asked for.", "quantifier": "every number of processes and every number of pairs on each of them, every order and repetition of the trace numbers, every size of the traces, every order in which the processes reach the file", "why_tests_cant": "The traces are read in sorted order without repetitions in blocks whose size follows from a memory limit, put back in the order of the pairs and written at a position that depends on what every other process found; the tests have no set with more than one block, and none compares the two outputs.", "anchors": ["util/4dio.cc:outputNonMono", "util/fourdbin.cc:main", "src/ReadSEGY.cc:readTraceNonMonotonic", "src/WriteSEGY.cc:writeTrace"]}
{"id": "C88", "title": "4D binning sees every trace of both files once, and its outputs follow from the two files alone", "statement": "Reading the coordinates of a file for 4D binning ends on any number of processes; together the processes then hold every trace of the file exactly once, with the source and receiver coordinates (and lines if asked for) of its header, in the order of the x coordinates of the sources. The program ends with two outputs for any two files, in which every trace of the first file occurs at most once, each paired with a real trace of the second whose criterion is within the limit, and never with a worse one than a trace nearby.", "quantifier": "every pair of files, every number of processes, every size of the files, every limit", "why_tests_cant": "The distribution, the parallel sort, the two-phase read with blocks from a memory limit and the search each depend on the number of processes and of traces; no test runs the program, and the failures (too few traces on a process, different numbers of collective calls) appear at particular combinations only.", "anchors": ["util/4dio.cc:getCoords", "util/fourdbin.cc:main", "util/4dcore.cc:calc4DBin", "src/sort.cc:sort"]}
{"id": "C89", "title": "filemake makes the file asked for, in every mode and on any number of processes", "statement": "filemake with a number of samples, a number of traces, an interval and a memory limit ends with a SEG-Y file that opens with these sizes and this interval and has exactly the bytes of that many traces; trace k carries the number k, line numbers and coordinates that rise to the middle of the file and fall again, and the samples computed from its own place in the file, whether the traces are written in one run or scattered (-r), in even or uneven (-l) shares.", "quantifier": "every number of processes, traces and samples, every memory limit (every division into pieces), both ways of sharing and of placing the traces, every order in which the pieces reach the file", "why_tests_cant": "filemake is what makes the files of the system tests, so its own output is never compared with anything; pieces, shares and scattered places depend on sizes and on the number of processes, and the wrong samples of the scattered mode only appear on more than one process.", "anchors": ["util/filemake.cc:FileMake", "util/filemake.cc:writeContig", "util/filemake.cc:writeRandom", "util/filemake.cc:main"]}
{"id": "C90", "title": "Operations on single traces reach the output file trace by trace, in the order asked for", "statement": "A set of files with any list of tapers, gain controls and time-domain filters queued on it writes, for each group of files with equal number of samples and interval, a file that opens with these and the total number of traces, whose trace headers are those of the inputs byte for byte in order, and the samples of each of whose traces are what the operations, applied one after the other in the order of the calls, make of the samples of that one trace, independent of the other traces and of how the traces are divided into blocks and among processes.", "quantifier": "every list of operations and parameters, every number of files, traces, samples and processes, every schedule of the writes of the processes, every content of the traces including dead ones", "why_tests_cant": "Tests run each operation on one array or on small sets with mocked files. That an operation never looks at a neighbouring trace in the block, that the queue keeps its order through block after block, and that every record lands in its place for any division of the work, are statements about all sizes and schedules; a dead trace is rare in test data.", "anchors": ["src/Flow/Set.cc:calcFunc", "src/Flow/Set.cc:startSingle", "src/Flow/Set.cc:taper", "src/Flow/Set.cc:AGC", "src/Flow/Set.cc:temporalFilter", "examples/exampleFilterTaper.cc:main"]}
{"id": "C91", "title": "The number of processes does not show in the files written", "statement": "A program run twice on the same input with the same options, on different numbers of processes, with any timing of the processes and whatever the output file held before, writes files with the same bytes: this holds for concatenation, for sets with tapers, gains and filters queued, for sorting, for the generation of files and for 4D binning.", "quantifier": "every two numbers of processes, every two orders in which the blocks reach the file, every two earlier contents of the output file, every set of input files", "why_tests_cant": "A test compares finitely many runs on few process counts and one timing each. The orders in which blocks of several processes reach a file are too many to try, and the differences show only where a share boundary falls on particular traces.", "anchors": ["src/Flow/Set.cc:calcFunc", "src/Flow/Set.cc:sort", "util/filemake.cc:writeContig", "util/filemake.cc:writeRandom", "util/4dcore.cc:calc4DBin", "util/concatenate.cc:main"]}
{"id": "C92", "title": "Sorts and operations queued on a set are all carried out", "statement": "A user of ExSeis::Set (or of the C interface) asks for sorts, tapers, gain controls and filters in any order and then calls output. The file written holds every trace of the inputs once, in the order of the last sort asked for, with samples that are what the operations, in the order asked for, make of the samples of the same trace in the input; an operation neither undoes a sort nor mixes traces, and a sort before an operation never separates a header from its samples.", "quantifier": "every list of sorts and single-trace operations, every set of input files with enough traces, every number of processes, every schedule of the writes, every choice std::sort makes between equal elements", "why_tests_cant": "A test queues a few operations on a file of its own. That a request is dropped shows only for particular orders of the calls, and that headers and samples stay together has to hold for all permutations the sort can produce and all ways the blocks are cut.", "anchors": ["src/Flow/Set.cc:calcFunc", "src/Flow/Set.cc:startSingle", "src/Flow/Set.cc:sort", "src/Flow/Set.cc:output", "src/Flow/Set.cc:taper", "examples/exampleFilterTaper.cc"]}
{"id": "C93", "title": "makerep gives a file with the traces of the input repeated", "statement": "A user runs makerep -i in -o out -r n, with any version of the copy and on any number of processes. The output is a SEG-Y file of exactly the right size: opening it shows the text, sample interval, number of samples and format of the input and n times its number of traces, and its trace records are those of the input n times over. What was in the output file before and how the input ends does not matter.", "quantifier": "every input and output file, every number of repetitions, every number of processes, every version of the copy, every order in which the writes of the processes reach the file", "why_tests_cant": "makerep is not tested. Which bytes a process copies depends on the size of the file, the number of processes and the blocks of the file system together; a wrong share only shows at particular sizes, and stale bytes only with particular old files.", "anchors": ["util/makerep.cc:main", "util/makerep.cc:mpiMakeSEGYCopy", "util/makerep.cc:mpiMakeSEGYCopyNaive", "util/makerep.cc:smallCopy", "util/makerep.cc:getVersion", "util/sglobal.cc:blockDecomp"]}
{"id": "C94", "title": "A taper in single precision only damps", "statement": "A user applies a taper with one of the built-in ramps to a trace of finite values. In the arithmetic of the program (single precision, every operation rounded) no sample becomes larger in magnitude or changes its sign, whatever the lengths of the tapers and whether or not they overlap; the factors agree with the formulas of the ramps up to a few units in the last place; the linear ramp still rises strictly and ends with exactly one; no ramp is zero where the formula is not.", "quantifier": "every trace of finite floats, all taper lengths, all three ramps, every implementation of the cosine and of pow with the accuracy stated", "why_tests_cant": "A test compares a few factors with a tolerance. That rounding never pushes a factor above one or below zero, for any length up to the largest, is a statement about all pairs of numbers and all roundings; the ramp that is zero at its start shows only for tapers longer than those of any test.", "anchors": ["src/utils/signal_processing/Taper_function.cc:linear_taper", "src/utils/signal_processing/Taper_function.cc:cosine_taper", "src/utils/signal_processing/Taper_function.cc:cosine_square_taper", "src/utils/signal_processing/taper.cc:taper"]}
{"id": "C95", "title": "Gain control in single precision follows its formula", "statement": "A user applies gain control with the rectangular root-mean-square gain to a trace of finite values. In the arithmetic of the program (single precision, every operation rounded, with underflow and overflow) each sample of the result is the sample times the target over the root mean square of its window, up to a relative error proportional to the size of the window, and the call succeeds whenever every window has a sample that is not zero.", "quantifier": "every trace of finite floats, every window size below the length, every target, every square root rounded as IEEE-754 asks", "why_tests_cant": "Tests compare a few short signals of ordinary size with a tolerance. How the errors of a sum of squares grow with the window, for all signals, is a statement about all roundings; the underflow and overflow of squares show only for signals scaled in other units than those of the tests.", "anchors": ["src/utils/signal_processing/Gain_function.cc:rectangular_RMS_gain", "src/utils/signal_processing/AGC.cc:AGC"]}
{"id": "C96", "title": "A gather operation after a sort works on the sorted traces", "statement": "A program sorts a set, then queues a gather operation (toAngle) and operations on single traces, and asks for the output. The gathers are the runs of equal inline and crossline numbers of the sorted traces, the gather operation is applied once to each, the operations on single traces once to every trace it gives, and the output holds the result, whatever the number of input files.", "quantifier": "every number of files of one kind and every contents, all sorts, every gather operation and every list of single-trace operations, every name of the output", "why_tests_cant": "The tests run sorts and gathers in separate programs. That the order asked for reaches the gather operation is a statement about the queue of operations and the files between them, and it depends on the number of input files.", "anchors": ["src/Flow/Set.cc:Set::startGather", "src/Flow/Set.cc:Set::calcFunc", "src/Flow/Set.cc:Set::sort"]}
{"id": "C97", "title": "4D binning compares the positions that the headers give", "statement": "fourdbin pairs traces of two surveys by the sum of the distances between their sources and between their receivers. The criterion it compares with the limit, by which it chooses between partners and which it stores in the output, is that of the positions given by the trace headers, to the accuracy of the headers: pairs in the outputs are within the limit, and a partner that is nearer is not passed over.", "quantifier": "every two files and every coordinate and scalar in them, every limit, every number of processes and every order of the messages, every correctly rounded square root", "why_tests_cant": "Tests use small coordinates that floats hold exactly. How the rounding of the coordinates, the differences, squares, roots and sums adds up, and whether anything overflows, has to be shown for all values.", "anchors": ["util/4dcore.cc:dsr", "util/4dcore.cc:update", "util/4dio.cc:getCoords", "util/4d.hh:fourd_t"]}
{"id": "C98", "title": "segy2kml draws one line for each file", "statement": "segy2kml writes a KML document that any reader of XML can read. It has one placemark for each input file, in the order in which the files were given on the command line or in the list, with the name of the file. Its line joins the two corners of the box around the sources of all traces of the file, as longitude and latitude, converted from UTM if a zone was given. The document does not depend on the number of processes.", "quantifier": "every list of options, every set of SEG-Y files with every number of traces and all coordinates and scalars, every number of processes", "why_tests_cant": "There is no test of the program. That the text is well-formed whatever the names are, and that the box covers every trace however traces are shared among processes, are claims about all names and all files.", "anchors": ["util/segy2kml.cc:main", "util/segy2kml.cc:calcMin", "util/segy2kml.cc:addLine", "util/segy2kml.cc:initKML"]}
{"id": "C99", "title": "A temporal filter in single precision is the filter designed", "statement": "The time-domain filter computes in floats, with coefficients stored as floats. Its result is that of the designed filter up to rounding: every sample follows the difference equation up to a few roundings of its terms, the whole result stays near the exact one, a filter designed to be stable is stable when its coefficients are floats, and a trace of numbers gives a trace of numbers.", "quantifier": "every type, order, sampling frequency and corner, every trace and every padding", "why_tests_cant": "The unit tests compare a few orders with reference values at moderate corners. How rounding adds up over a trace of any length, and whether rounding the coefficients moves a pole out of the unit circle, depends on the corner and the order; no set of samples covers them.", "anchors": ["src/temporalfilter.cc:IIR", "src/temporalfilter.cc:filter", "src/temporalfilter.cc:makeFilter"]}
{"id": "C100", "title": "concatenate joins all files that match, one output for each kind", "statement": "Called with a pattern and a prefix, `concatenate` writes for every number of samples and interval found one file that holds the traces of all matching files of this kind, file by file in the order of their names, with headers and samples byte for byte, and the message as its text. Nothing is written when the question is answered by no. Inputs and all other files stay as they are, and the bytes written do not depend on the number of processes.", "quantifier": "every command line, every set of files on disk, every number of processes and order of the writes, anything in the output files before", "why_tests_cant": "No test runs the program. What it writes depends on how many files share samples and interval, on their names and on how the shell passes the pattern; outputs of different kinds can have the same name.", "anchors": ["util/concatenate.cc:main", "util/concatenate.cc:doPrompt", "src/Flow/Set.cc:Set::add", "src/Flow/Set.cc:Set::startSingle"]}
{"id": "C101", "title": "sort and verifysort, from the command line to the file and the verdict", "statement": "Called with a pattern, a prefix and the number of a sort type, `sort` writes for every number of samples and interval found one file with the traces of all matching files of this kind, each once and with its header and samples, in the order of this type; `verifysort` of this file with the same number reports success on every process, and reports it only for files in this order. What is not a sort type, and files that are not there, are errors. No other file changes.", "quantifier": "all command lines, sets of files, numbers of processes, results of std::sort, orders of the writes, and contents of the outputs before", "why_tests_cant": "The tests sort sets in memory with one comparison; no test runs the programs, and whether the two programs agree depends on all coordinates and scalars and on how the file is cut for any number of processes.", "anchors": ["util/sort.cc:14-51", "util/verifysort.cc:18-59", "src/sort.cc:300-420", "src/Flow/Set.cc:85-266", "src/Flow/Set.cc:437-459"]}
{"id": "C102", "title": "Smallest and largest header items over a set of files", "statement": "`Set::getMinMax` of two items gives, for each, the smallest and the largest value found in the headers of all traces of all files of the set, where the SEG-Y standard has the item and with its scalar, together with the number of a trace that has it; the items the set reads afterwards are those it read before.", "quantifier": "all sets of files and their bytes, all pairs of header items, all numbers of processes, all rules of the set made for the whole header", "why_tests_cant": "The tests call the function on a few files with increasing positive coordinates on the processes of the test; which items, signs, scalars and shares of traces go wrong depends on all of them together.", "anchors": ["src/Flow/Set.cc:517-570", "src/Flow/Set.cc:726-748", "include/ExSeisDat/PIOL/operations/minmax.h:66-164", "src/Rule.cc:108-233"]}
{"id": "C103", "title": "The triangular, mean and median gains in single precision", "statement": "In the arithmetic of the program (single precision, every operation rounded, with overflow and not-a-number) the triangular gain is the target over the root of the mean of the weighted squares, the mean gain the target over the mean magnitude of the samples that are not zero, and the median gain the target over the median, each up to a few units of the last place per sample of the window; gain control with the triangle gives for each sample the sample times this gain. Every window with a sample that is not zero has a gain that is a number.", "quantifier": "all windows and signals, window sizes, centres, targets, and correctly rounded square roots", "why_tests_cant": "The error grows with the window and depends on all values; the tests compare single results with a tolerance and use no window of one or two samples.", "anchors": ["src/utils/signal_processing/Gain_function.cc:48-191", "src/utils/signal_processing/AGC.cc:22-86"]}
{"id": "C104", "title": "The program radon, from the arguments and files to the files", "statement": "Called with a pattern that matches the input, a velocity model and a name, radon writes the file of this name in which every gather of the input has its angle gather, in the order of the gathers: the traces have the line numbers of the gather, and each sample is that of the input trace which the velocity at its time and the angle select. The options may come in any order. Several input files are treated as one. No other file changes.", "quantifier": "all arguments, file contents, numbers of processes, orders in which the writes reach the files, results of std::sort and earlier contents of the outputs", "why_tests_cant": "The result passes through two files and two decompositions over the processes; the tests cover neither the program nor Set::toAngle on files.", "anchors": ["util/radon.cc:14-74", "src/Flow/Set.cc:270-397", "src/Flow/Set.cc:606-665", "src/Flow/RadonGatherState.cc:15-34", "src/gather.cc:20-110", "src/ReadSEGYModel.cc:19-99"]}
{"id": "C105", "title": "Signal processing in the default build", "statement": "The library is built without assertions unless the user asks for another build type. Gain control, tapers and filters do the same there as with assertions: what succeeds gives the same result, and no call that an assertion would have ended goes on to undefined behaviour or puts values that are not numbers into the traces.", "quantifier": "all signals, window and taper sizes, targets and window centres", "why_tests_cant": "The tests run one build, and the calls concerned are those which end in a failed assertion there.", "anchors": ["CMakeLists.txt:86-105", "src/utils/signal_processing/Gain_function.cc:20-191", "src/utils/signal_processing/AGC.cc:22-86", "src/utils/signal_processing/taper.cc:16-67", "src/temporalfilter.cc:480-529"]}
{"id": "C106", "title": "Decompositions, distributed vector and programs in the default build", "statement": "The decompositions, the distributed vector, the corners of a filter and the programs do the same in the default build, which has no assertions, as in a build with assertions; arguments which an assertion refuses are refused there too, and do not lead to undefined behaviour, shares outside the range, files with unintended names or a report of success.", "quantifier": "all sizes, numbers of processes, indices, corners, arguments and files", "why_tests_cant": "The arguments concerned end the tests where assertions are on, and the sizes concerned are beyond what a test can allocate.", "anchors": ["CMakeLists.txt:86-105", "src/utils/decomposition/block_decomposition.cc:21-130", "include/ExSeisDat/utils/mpi/MPI_Distributed_vector.hh:101-169", "util/sglobal.cc:8-75", "src/Flow/Set.cc:750-771", "util/concatenate.cc:58-110", "util/sort.cc:14-51", "util/verifysort.cc:18-59"]}
{"id": "C107", "title": "The program fourdbin, from the arguments and files to the files", "statement": "Called with two surveys, two output names and a limit, fourdbin writes the matched traces of the first survey under the first name and their partners under the second, as many in both and in the same order, every trace as it is in its survey but for the stored criterion; it leaves every other file alone, and with -v leaves a record of the matches of every process; arguments it cannot serve do not lead to undefined behaviour or to outputs that are something else.", "quantifier": "all arguments, surveys, contents of the disk, numbers of processes, orders of the writes, both builds", "why_tests_cant": "Whole runs for all arguments and disks on any number of processes, with file names that clash and limits at the end of the range of a float, cannot be enumerated; the default build differs from the one tested.", "anchors": ["util/fourdbin.cc:52-165", "util/4dio.cc:33-259", "util/4d.hh:15-28", "src/DataMPIIO.cc:226-232", "CMakeLists.txt:86-105"]}
{"id": "C108", "title": "The programs minmax, from the arguments and files to the files", "statement": "Called with the names of a SEG-Y file and of another file, minmax writes to the latter twelve traces which, in pairs for source x and y, receiver x and y, midpoint x and y, have the coordinates and numbers of traces of the input where that coordinate is smallest and largest in value, with the interval of the input and whatever was in the output before; no other file changes; arguments or inputs it cannot serve are told by its status. The examples of the same name print the smallest and largest values over the files of a set, and both versions take the same arguments.", "quantifier": "all arguments, contents of the disk, inputs, numbers of processes", "why_tests_cant": "Whole runs for all arguments and disks on any number of processes cannot be enumerated; that the order of rounded coordinates is that of the values in the headers, with any mixture of scalars, is a statement about all pairs of headers; missing inputs and intervals give no sign when tested.", "anchors": ["util/minmax.cc:22-127", "examples/minmax.cc:20-60", "examples/minmax.c:16-73", "src/minmax.cc:16-43", "src/WriteSEGY.cc:53-124", "include/ExSeisDat/Flow/Set.hh:177-179"]}
{"id": "C109", "title": "filemake and makerep, from the arguments and files to the files", "statement": "Called with the name of a file, its numbers of samples and traces, an interval and an amount of memory, filemake makes this file, whatever was there before; called with the names of an input and of another file, makerep puts the traces of the input in the latter as often as -r says. No other file changes. Options may be in any order and the last of each counts. Calls that do not say what is needed, or that say what the programs do not know, end without a file and with a status that says so.", "quantifier": "all arguments, contents of the disk, inputs, numbers of processes, orders of the writes", "why_tests_cant": "Whole runs for all arguments and disks on any number of processes cannot be enumerated; what a call with a misspelt option leaves behind looks like a good file.", "anchors": ["util/filemake.cc:180-247", "util/makerep.cc:258-342", "src/DataMPIIO.cc:221-237", "CMakeLists.txt:86-105"]}
{"id": "C110", "title": "Filtering in the frequency domain, transforms included", "statement": "Filtering a trace in the frequency domain multiplies the amplitude of each of its frequencies by the size of the filter's response there and leaves its phase; the result is linear in the trace, samples outside of the window stay, and equal traces give equal results.", "quantifier": "all traces, windows, filters, and everything the planner of FFTW may leave in the arrays", "why_tests_cant": "A statement about all real traces of all lengths; what planning does to the arrays depends on what the process has transformed before, so that the same call may pass and fail.", "anchors": ["src/temporalfilter.cc:329-374", "src/temporalfilter.cc:480-530"]}
{"id": "C111", "title": "Files filtered in the frequency domain", "statement": "For any number of processes, a set of files with any sequence of tapers, gain controls and filters in the time or the frequency domain is written with the headers of the files byte for byte, the number of traces, samples and the interval, and with samples that are what the operations in their order make of the samples of the file: for a filter in the frequency domain the only samples whose frequencies are those of the window times the factors of the filter, and the samples outside of the window as they were.", "quantifier": "all files, processes, schedules of the writes, sequences of operations, filters and windows", "why_tests_cant": "Compositions of operations over all files and numbers of processes; whether the planner of FFTW overwrites a trace depends on the history of each process.", "anchors": ["src/Flow/Set.cc:750-795", "src/temporalfilter.cc:329-374", "src/temporalfilter.cc:480-530"]}
{"id": "C112", "title": "The programs that look at files: assess and cropen", "statement": "assess prints for every SEG-Y file that matches its arguments the numbers of samples and traces, the interval and the text that the header and size of the file give, in the order of the pattern, and tells by its status if there was nothing to look at or a file is not SEG-Y. cropen returns zero exactly if the file named can be opened again and again and shows the same numbers, interval and text every time.", "quantifier": "all arguments, patterns, disks, header fields and changes of the file between the openings", "why_tests_cant": "All values of the header fields and sizes, including those that a signed field turns into others; all histories of a file between ten thousand openings.", "anchors": ["util/assess.cc:26-61", "util/cropen.c:21-116", "src/DataMPIIO.cc:226"]}
{"id": "C113", "title": "One trace shown by traceanalysis", "statement": "traceanalysis with the name of a SEG-Y file and the number of a trace prints the source, receiver and midpoint coordinates (scalar times integer) and the inline and crossline numbers that are in the header of that trace; if there is no such file or trace it says so and its status is not zero.", "quantifier": "all arguments, files and trace numbers", "why_tests_cant": "All numbers of traces, including the ones outside of the file, whose addresses wrap around in 64 bits, and all header bytes.", "anchors": ["util/traceanalysis.cc:26-89", "src/ReadSEGY.cc:212-229", "include/ExSeisDat/PIOL/segy_utils.hh:219-231"]}
{"id": "C114", "title": "The examples that make files, from their arguments", "statement": "With the names of an input and of an output given in any order, the last of each counting, modprm writes the input with the source coordinates exchanged and example2 a copy, to the output and to no other file; example1 makes a file under the name given. Where an option is unknown, has no value, a name is missing, the names are the same or there is no input, the programs end without touching a file.", "quantifier": "all command lines, files on disk, numbers of processes and orders of their calls", "why_tests_cant": "All command lines and all states of the disk, including the undefined behaviour for arguments that a test may happen to survive.", "anchors": ["examples/modprm.c:106-179", "examples/example2.c:17-101", "examples/example1.c:16-122", "examples/example1.cc:21-82"]}
{"id": "C115", "title": "creadwrite from its arguments", "statement": "With the names of an input and of an output and a memory limit given in any order, the last of each counting, creadwrite copies the input to the output, changes no other file and its status is zero; -p and -t ask for changes of the parameters and of the samples. Where a limit is not a number, an option is unknown, a name is missing, the names are the same or there is no input, the program ends without touching a file.", "quantifier": "all command lines, files on disk, memory limits, numbers of processes and orders of their calls", "why_tests_cant": "All command lines and all states of the disk, including the undefined behaviour for arguments that a test may happen to survive.", "anchors": ["examples/creadwrite.c:146-232", "examples/creadwrite.c:95-130"]}
{"id": "C116", "title": "segy2kml from its arguments", "statement": "Called with the names of SEG-Y files, or of a list of them, of an output, a zone and a folder in any order, segy2kml writes the document of C98 to the output, changes no other file, in particular none of the SEG-Y files, and its status is zero; with -h it only prints how it is called; unknown options, missing names and impossible zones give a status that is not zero and touch no file.", "quantifier": "all command lines, files on disk and numbers of processes", "why_tests_cant": "All command lines and all states of the disk, including outputs that are also inputs.", "anchors": ["util/segy2kml.cc:194-299", "util/segy2kml.cc:22-38"]}
{"id": "C117", "title": "Header layouts made through the C interface", "statement": "A program that makes a layout of its own with PIOL_File_Rule_new or PIOL_File_Rule_new_from_list and the calls that add and remove items, sets values with PIOL_File_setPrm_Integer and writes them with PIOL_File_WriteDirect_writeParam finds each value set last at the header bytes it named, big endian; a program with any layout that has the item at the same bytes reads it back with PIOL_File_ReadDirect_readParam and PIOL_File_getPrm_Integer; samples, other traces and fields that the layout does not name keep their bytes; no call has undefined behaviour.", "quantifier": "all sequences of calls that make a layout, values, traces, files and other layouts for reading", "why_tests_cant": "All sequences of calls and all layouts, with every combination of kinds and places in the header.", "anchors": ["src/PIOL_C_bindings.cc:30-202", "src/PIOL_C_bindings.cc:393-415", "src/Rule.cc:60-356", "src/WriteInterface.cc:11-17", "src/ReadInterface.cc:18-24"]}
