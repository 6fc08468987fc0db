# Formal model of ExSeisDat: design

Source: `/repo` (C++), read as text; nothing is built or run.  Model and proofs:
Lean 4.33, `lean/Verif/*.lean`, built by `lake build` in `lean/`.

## Conventions

* One Lean module per area of the code.  Definitions that model code live in
  `Verif/<Area>/Model.lean` (or at the top of the area's file) and carry a
  comment with the file and lines in `/repo`; simplifications are stated there.
* Property theorems live in `Verif/Props/*.lean`, apart from helper lemmas, and
  are named after the property: `C01_...`.  Beside every theorem an `example`
  instantiates its hypotheses on a concrete non-trivial case.
* Undefined behaviour is a distinct outcome (`Res.ub`, or `Option.none` where
  stated) of the model, never a totalised default.
* `size_t` is `Nat` where the theorem carries explicit no-wrap hypotheses or
  no wrap is possible; where wrap-around is the point the model uses
  arithmetic modulo `2^64` or `BitVec`.
* If the code violates a property the model is kept faithful, the negation is
  proved with a concrete witness (`..._refuted`), and the part that does hold is
  proved under the weakest guard found (`..._partial`).

## Trusted base

* Lean's kernel; axioms `propext`, `Classical.choice`, `Quot.sound` only
  (`#print axioms` for each theorem is in the table at the end of this file).
* The reading of the C++ recorded in the comments of each definition.
* MPI and the file system appear only as their contracts: `MPI_Allgather`,
  `Allreduce`, `Exscan` return what the standard says; `MPI_File_read_at`/
  `write_at` transfer exactly the bytes asked or return an error code; point to
  point messages are delivered in order.  `std::sort`, `std::lower_bound`,
  `std::minmax_element`, `std::map`, `std::deque` behave as specified.
* Assertions: a failed `assert` is the outcome `Res.abort`, as in a build with
  assertions. The default build type (`CMakeLists.txt` 86-105) leaves them out;
  that build is modelled separately for signal processing (C105) and for the
  decompositions, the distributed vector and three programs (C106), where a
  call that does not end in `abort` does the same in both.
* IEEE arithmetic on `double`/`float` samples is abstracted as stated per
  property (exact rationals, an arbitrary linear order, or an arbitrary ring);
  where rounding is the point the model has bit patterns or explicit rounding.

## Plan per property

| id | model | proof |
|----|-------|-------|
| C01 | `block_decomposition` on `Nat` | induction over ranks: prefix sums; closed-form arithmetic for balance |
| C02 | `block_decomposition_location` | Euclidean division cases; uniqueness from C01 |
| C03 | byte lists, `BitVec 16/32` | digits of base 256; round trip both ways |
| C04 | `from_IBM`, `to_float` on bit patterns; specification: rational value of an IBM / IEEE pattern | shift/power algebra over `ℚ` |
| C05 | same, shift out of range = UB | overflow and denormal theorems where true; witnesses for UB, lost carry and unnormalised inputs; exact characterisation of the UB set |
| C06 | the 126-entry table, both sorted arrays, `lower_bound` as a function | decision over the whole table lifted to texts by induction |
| C07 | same | refutation over the complete set of absent bytes |
| C08 | layout functions | linear/nonlinear arithmetic; coverage: every byte below the size lies in exactly one region |
| C09 | `Rule` as association map + counters, all mutators and constructors | invariant by induction over operation sequences |
| C10 | same; specification: fold to `Meta → Option Location` | refinement |
| C11 | `Param` arrays, `setPrm`/`getPrm` | from C09 injectivity of slot index |
| C12 | `insertParam`/`extractParam` on byte arrays | disjoint writes commute; C03 |
| C13 | `extent`, window offset arithmetic mod 2^64 | smallest-window theorem; refutation of the in-window claim |
| C14 | `find_scalar` on exact rationals with `lround` | case analysis |
| C15 | scalar fold of `insertParam`, exact rationals | bound by half a unit; refutation for mixed signs of scalar |
| C16 | `cpyPrm` | from C11 |
| C17 | chunk loops of `contigIO`/`listIO` | induction on the loop |
| C18 | call counts of all ranks | ceil-division algebra; refutation with an error break |
| C19 | error propagation | theorem for `contigIO`, refutation for `iol` |
| C20 | file = partial byte function; object layer; write and read | refinement to array of traces |
| C21 | writer state machine over all ranks; destructor | invariant over call histories; witness for zero-length write |
| C22 | clamp arithmetic mod 2^64 | theorem for `offset ≤ nt`, refutation beyond |
| C23 | sort, dedup, read, scatter | list induction |
| C24 | IEEE double bytes of a widened float | refutation for every sample; nothing positive holds |
| C25 | header bytes, printable counts | round trip for texts with more ASCII-printable than EBCDIC-printable bytes |
| C26 | comparators over a linearly ordered field of coordinates | lexicographic order; refutation for the signed-offset variants |
| C27 | concatenated array, two phases of window sorts | permutation invariant, fixed point implies sorted when region ≥ 1; refutation for region 0 |
| C28 | iteration with inversion count | strictly decreasing measure |
| C29 | two sorts and relabelling | permutation algebra |
| C30 | per-rank neighbour check | refutation on boundary; theorem for one rank and for the conjunction with boundary checks |
| C31 | `Set::add` bookkeeping | bijection by induction on files; C01 |
| C32 | gtn assignment | monotone for non-decreasing file sizes; collision witness otherwise |
| C33 | interpreter of the op queue as the code runs it, versus the ideal fold | equality on `sort* ; trace*` queues; refutations for the rest |
| C34 | naming function | refutation; theorem for single group |
| C35 | rounds, exscan | invariant over rounds |
| C36 | local runs and merge | theorem when keys are contiguous; refutations |
| C37 | local min/max, gather, erase, global | order theory; tie-break refutation |
| C38 | fold with initial values | refutation for negative data; theorem otherwise |
| C39 | logger state machine | induction over operations |
| C40 | three loops | pointwise equality to clipped window |
| C41 | recursion over muted prefix | pointwise equality; refutation for all-zero signals |
| C42 | the two gain functions on rationals | refutations; theorem for odd windows / same-sign windows |
| C43 | index arithmetic with out-of-range as UB | theorem for default window and zero/replicate padding; refutations |
| C44 | in-place recurrence over a commutative ring | induction, `Polynomial` product |
| C45 | IIR recurrence over a commutative ring | unfolding by index; linearity by strong induction |
| C46 | constructor and index formula with C++ division | refutation for every grid with at least two inlines, crossline fastest; degenerate grids hold |
| C47 | windows as byte arrays | theorem for a window large enough; refutation for the allocated size |
| C48 | pruned minimisation over a linear order | theorem when criterion bounds the source distance; refutation for reversed geometry |
| C49 | lifecycle state machine | invariant over histories |
| C50 | increment as rational microseconds, `lround` | exact for whole microseconds |
| C51 | round-robin simulation | invariant over rounds |
| C52 | `blockDecomp` | arithmetic; refutation where the code's assertion fails |
| C53 | extract, `find_scalar`, insert with doubles rounded to nearest even (`FP/Double.lean`) | every 32-bit integer and accepted scalar; whole headers with shared scalar fields (`C53_header`) |
| C54 | conversion of a recorded offset to `size_t` | order embedding on 0 to 2^53; negative witness |
| C55 | exchange of parameter arrays without the copied headers | records permuted whole; witness with a copied header |
| C56 | RMS gains over an ordered field with square root | normalised windows; muted and one-sample windows refuted |
| C57 | ramps over the reals | monotone, positive, one at the end |
| C58 | one pass of `filterTime`, padding | steady state; refutation from the padding |
| C59 | pieces copied by `smallCopy`, `mpiMakeSEGYCopyNaive` | bytes of the result; refutation for two pieces |
| C60 | `lobdecompose` with rounding | tiling under guards; refutations |
| C61 | rounds of `FileMake` | ceil-division algebra |
| C62 | contents by position | contiguous mode; scattered mode refuted |
| C63 | rounds of `getCoords` in both phases | ceil-division algebra; refutation for the second phase |
| C64 | positions of `outputNonMono` | prefix sums |
| C65 | poles and zeros over the complex numbers, expansion to coefficients | factorisation of the response, products over roots of unity |
| C66 | the same poles | pole moduli by the bilinear map |
| C67 | `filterOrder` with logarithms and ceiling over the reals | monotone powers; refutations by evaluating the model |
| C68 | the factor of `filterFreq` | irrationality of pi |
| C69 | reads and writes of `startSingle` as a list of calls | ceil-division algebra, permutations |
| C70 | the exclusive scan over the world and the communicator | prefix sums; refutations |
| C71 | the loops of `toAngle` with unsigned division | loop invariants; refutations |
| C72 | the cache as a list of elements, sequences of calls | simulation by the first rule asked for; refutations |
| C73 | `highPrecStr` on rationals | digits of the decimal expansion; refutations |
| C74 | `utm2LatLong` over the reals | the series at its axes, symmetry, derivatives; refutations |
| C75 | `addLine` and the corners that `main` passes on | evaluation of the model; refutations |
| C76 | `distribToDistrib` as messages between processes | lists of bytes cut at borders; refutation for far borders |
| C77 | `calcMin` from the bytes of the input to the bytes of the output, `getMinMax` of items of parameters | extremes of a function of the trace number; header bytes of both files; refutations for no traces, large numbers, absent items |
| C78 | `Set::add`, `Set::startSingle`, the readers and the writer, from the bytes of the inputs to the bytes of the output | every record lies in one block of one process, and no other write touches its place; any order of the blocks; refutations for interval 0 and for IBM numbers |
| C79 | `util/sort.cc`, `Set::sort`, `calcFuncS`, `CachePrm::getCache`, `startSingle` and `util/verifysort.cc`, from bytes to bytes | numbers of the cache give back file and trace; places dealt to files; C32 for the order, C78's machinery for the output, C53 for values written again; refutations for decimal coordinates and shared scalars |
| C80 | `examples/creadwrite.c` with the C bindings it calls, from bytes to bytes | the calls of all processes cover every trace once when the rounds agree; each call writes what it read; C53 for coordinates; refutations for rounds, memory, interval, options, header bytes, text and the modifications |
| C81 | `off` and the comparisons that call it | C26 for the keys; exactness of small integers; four relative errors of `2^-53` otherwise |
| C82 | `exampleCreateFile` and `example1` in both languages, from arguments to bytes | rows of parameters set item by item; writes of all processes are apart, so in any order; header from C21's history; refutations for interval, processes and single precision |
| C83 | `examples/modprm.c`, from the input file to the bytes of the output | rows exchanged one by one, headers stored by C82's lemmas, calls of the processes apart; twice by applying the theorem to its own result; refutations for samples, header and interval |
| C84 | `examples/example2.c`, with the two numbers exchanged as in the code | one lemma for a share written with any smaller number of samples, used for the square case, the wrong shape and the headers alone; undefined behaviour from the length of the memory |
| C85 | a set from its making to its end, with the names of the files on disk and the files it has open | a lemma for an output of sorts and single-trace operations in closed form; an update of the file system repeated with the same names; invariants of a set with one group of files |
| C86 | the whole of an angle transform: gathers found, dealt out, velocities read, gathers treated and written, on any number of processes | C35, C36, C46 and C71 put together: the number of a gather on its process is tied to the number in the file by a lemma on the dealing; the writes of all processes are a permutation of the output |
| C87 | both outputs of 4D binning, from the matched pairs to the bytes of the two files | `readNonMonotonic` (C70) per block, `putAll` independent of the order of disjoint writes, the prefix sums of C64 and `close` (C78) put together |
| C88 | the coordinates that 4D binning reads and sorts, and the whole program from two files to two files | both phases of `getCoords` as reads of headers (C52), the parallel sort (C27, C28), the calls counted (C63), then C48 and C87 |
| C89 | the whole of `filemake`: one run or scattered, even or uneven shares | pieces (C61) of shares (C60, C01) or of dealt numbers (C51) write disjoint traces; every order of them gives the same file, then the closing of the file (C74) |
| C90 | `calcFunc` of single-trace operations between reading and writing of a block, from bytes to bytes | a relation between traces is carried through the blocks (the machinery of C78 generalised from equality to any relation); C40, C41, C43 for one trace; uniqueness of the results composes them; one failing block fails every schedule |
| C91 | all bytes of the output of two runs of `concatenate`, a set with operations, `sort`, `filemake`, `fourdbin` | the bytes of the file header are a function of the text, the interval and the number of samples of the first writer; those of the records are determined by the relations of C78, C79, C89 and C90, which are shown to be functional; the sorted order is unique because the comparison is total |
| C92 | all bytes of the output of `Set::output` after sorts and single-trace operations | as in C79 and C90: a list `src` of all traces, each once, sorted; the header of the trace at each place and the mathematical relation `GivesAll` between its samples and those of its source |
| C93 | all bytes of the output of `makerep`, and what `ReadSEGY` shows of it | the list of trace records as `replicate rep` of the input's, the size, the header fields; the old output and the order of the writes are universally quantified |
| C94 | the samples after `taper` with the built-in ramps | inequalities between samples before and after, and distance of the factors from the real-valued formulas of C57; floats are rationals with IEEE rounding, the C library functions are parameters |
| C95 | the samples after `AGC` with the rectangular gain | distance from the real-valued formula of C56 (`exactGain`); floats are rationals with IEEE rounding, infinities and not-a-number; the square root is a parameter with the accuracy of IEEE-754 |
| C96 | files left behind by a program that sorts a set and then gathers | the abstract set of C85 (`Flow/Life.lean`): traces as they should be after each operation (`applied`) against the files at the end |
| C97 | the partners and the criterion in the outputs of `fourdbin` | the real-valued distance criterion of the positions in the header bytes (`place`, `distance`); floats are rationals with IEEE rounding, the square root is a parameter that rounds correctly |
| C98 | the text that `segy2kml` writes | a reader of XML over characters (`readXml`: tags are balanced, references are known), the texts of its elements at given places (`labels`, `paths`), the box of the header bytes (`IsBox`), the number that a decimal text stands for |
| C99 | the result of `IIR` and `filter` over floats | the difference equation as a sum over the samples before (`target`, `termSize`), the exact result of the same coefficients, the response of the denominator to an impulse given by its recursion, `Nearest` as distance to every float |
| C100 | the files on disk after `concatenate` | the list of inputs alike in samples and interval, a reader of the output, `records` as slices of the bytes of the inputs, `content` as the bytes of a file |
| C101 | the files on disk after `sort` and the verdicts of `verifysort` | the list of inputs alike in samples and interval, a permutation of their traces, the comparison of the type, `Kept` over the bytes of the records |
| C102 | what `Set::getMinMax` of two items returns, and the items of its rule | the bytes of the header at the standard's positions, the order on rationals over all traces of all files |
| C103 | the gain in floats for a window, the samples after gain control | the exact weighted mean square, mean magnitude and median over the rationals, a relative error in units of `2 ^ -24` |
| C104 | the output file after `radon`, all other files | line numbers and samples read from the bytes; the gathers as lists of traces, the selected trace by C86 |
| C105 | results of gain control, tapers and filters without assertions | equality with the other build, the products and windows of C40 and C41, not-a-number and infinity as values of the samples |
| C106 | shares, array elements, files and reports without assertions | equality with the other build, an array of all processes, `Joined`/`Sorted` files by name |
| C107 | `fourdbin` from the arguments and the disk to the disk | `Chosen` pairs of real distances, `Written` outputs by bytes, `Recorded` files by bytes |
| C108 | `minmax` and the examples of that name from the arguments and the disk to the disk | `value`: scalar times integer by the bytes of the header; `Bounds` |
| C109 | `filemake` and `makerep` from the arguments and the disk to the disk | `Arg`, `RepArg`: the options as they are given; `Made`, `records` |
| C110 | `filterFreq` with the transforms | `bin`: sum of samples times `exp (-2 π i j k / n)`; cosines and constants in samples; `response` |
| C111 | sets of files with filters in the frequency domain | `Passed`: the frequencies of the window; `Windowed`; headers and traces of files |
| C112 | `assess` and `cropen` from the arguments and the disk to what they print or return | `Describes`: header fields and room for traces by the bytes; `Ends`; `Agree`: texts position by position |
| C113 | `traceanalysis` from the arguments and the disk to what it prints | `value`: scalar times integer by the bytes of the header; `be32`; `at16`, `at32`: bytes anywhere in the file |
| C114 | `modprm`, `example2`, `example1` from the arguments and the disk to the disk | `Last`: the last value given for an option; `Swapped`, `Carried`, `Made` as in C83, C84, C82 |
| C115 | `creadwrite` from the arguments and the disk to the disk | `Last`, `Limit`: the last values given; `Carried` as in C80 |
| C116 | `segy2kml` from the arguments and the disk to the disk | `Last`: the last value given; the reader of XML and `IsBox` of C98 |
| C117 | Layouts of the user, from the C calls to the bytes and back | `planned`: the last call about an item decides; bytes of the file read as big-endian numbers |

## What is modelled

Line numbers are in the comment of every definition.

| code in `/repo` | module | left out |
|---|---|---|
| `src/utils/decomposition` | `Decomp` | - |
| `utils/encoding`, byte order, IBM numbers, characters | `Endian`, `IBM`, `CharEnc` | - |
| SEG-Y layout (`segy_utils`) | `Layout` | - |
| `Rule`, `Param`, scalars | `Rule`, `Param`, `Scalar`, `FP` | memory addresses of arrays (indices instead) |
| `DataMPIIO` | `DataIO` | MPI internals: a transfer succeeds on all its bytes or fails |
| `ObjectSEGY`, `Read*`, `WriteSEGY` | `File` | string handling of the text header beyond its 3200 bytes |
| `sort.cc` | `Sort` | message contents other than the elements |
| `Set`, gather detection, angle gathers, cache | `Flow` | verbose output, arithmetic of the distance in `toAngle` |
| min/max, `Logger`, `PIOL` lifetime, `CommunicatorMPI::offset` | `Ops` | wall-clock times in log records |
| AGC, gain, taper, temporal filter and its design | `Signal` | how FFTW computes (`Signal/Freq.lean`: the transforms are exact sums, the planner is arbitrary), rounding of samples, but for tapers (`Signal/Single.lean`, C94), the rectangular gain (`Signal/GainSingle.lean`, C95) and the recursive filter (C99) |
| `util/sort.cc`, `util/verifysort.cc`, `util/concatenate.cc` | `Flow` | option parsing, printing |
| `examples/creadwrite.c` and the C bindings it uses (`src/PIOL_C_bindings.cc`) | `Util/CopyTool` | `getopt` itself, printing, allocation failure |
| `examples/exampleCreateFile.c`, `.cc`, `examples/example1.c`, `.cc` | `Util/CreateTool` | printing, allocation failure, `PIOL` errors |
| `examples/modprm.c` | `Util/SwapTool` | `getopt`, allocation failure, input and output being the same file |
| `examples/example2.c` | `Util/TurnTool` | `getopt`, allocation failure, input and output being the same file |
| `Set`: several outputs, the destructor, temporary files | `Flow/Life` | several processes, blocks, what a file holds beside samples, interval, text and traces |
| `util/radon.cc`, `RadonGatherState.cc`, `Set::toAngle` in `startGather` | `Flow/RadonTool` | the options of the program (`-a`, printed as the increment, is the number of angles; the increment is always one degree), trace parameters other than inline and crossline (the output has none), the file formats (`Flow/Output`) |
| `util/4dio.cc` 177-259 `outputNonMono`, `util/fourdbin.cc` 124-158 | `Util/FourDOut.lean` | messages and barriers; the restart file of the verbose mode; an output that is also a source |
| `util/4dio.cc` 33-173 `getCoords`, `util/fourdbin.cc` 120-158 | `Util/FourDCoords.lean` | messages, times and barriers; the transfer of coordinates between processes (`getsInside`, C48); coordinates are read as doubles and kept through a monotone conversion |
| `util/filemake.cc` | `Util/FileMake.lean`, `Util/GenTool.lean` | `getopt`; the float arithmetic of a sample is a function of its number; memory is enough |
| `src/Flow/Set.cc` 136-168, 666-712, 752-800: the queue of a set, `taper`, `AGC`, `temporalFilter` | `Flow/Process.lean`, `Flow/Output.lean` (`processSet`) | filters in the frequency domain, the design of the coefficients (C44 does that); `float` multiplication is any operation, the arithmetic of the filter that of a field |
| `src/Flow/Set.cc` 136-268, 399-500, 572-604: sorts and single-trace operations together | `Flow/SortTool.lean` (`queueSet`) | gathers after them (`Flow/RadonTool`), sorts with a rule or a comparison of the user |
| `util/4dcore.cc` 84-88, 203-220, 243-249, 286-295, 327-333, 473-477, `util/4d.hh` 15 in floats | `Util/FourDSingle.lean` | vectorised loops compute the same as the scalar code; `float` operations round to nearest each (no fused multiply-add); the square root is a parameter |
| `util/segy2kml.cc` 25-37, 57-80, 158-180, 194-299 | `Util/KmlTool.lean` | options are those that `getopt` gives; the UTM formula and `std::stof` are parameters; messages are left out; every process writes the same text to the output, which is not one of the inputs |
| `util/concatenate.cc` 26-110, names of outputs in `src/Flow/Set.cc` 174-191 | `Flow/ConcatTool.lean` | `getopt` and `std::to_string` are those of the GNU libraries; which names match a pattern is a parameter; messages are left out |
| `util/sort.cc` 14-51, `util/verifysort.cc` 18-59 | `Flow/SortMain.lean`, `Util/Options.lean` | `getopt` and `std::stoul` are those of the GNU libraries; which names match a pattern is a parameter; messages are left out; groups are sorted and written one by one |
| `Flow/Set.cc` 517-570, 726-748 from bytes | `Flow/SetExtremes.lean` | `comm->offset` is the sum over the processes before; not-a-number does not occur (items are numbers of the header) |
| `Gain_function.cc` 48-191, in floats | `Signal/GainSingle.lean` | every operation rounded; signed zeros identified; `std::sort` is an insertion sort, undefined with not-a-number among two or more samples |
| `util/radon.cc`, `Set.cc` 270-397 and 606-665, `RadonGatherState.cc`, on bytes | `Flow/RadonMain.lean` | `llround(v / cos(a))` a parameter; `std::atan(1)` correctly rounded; the glob a parameter; the read beyond the end in `gather.cc` 69 a parameter |
| `Gain_function.cc`, `AGC.cc`, `taper.cc`, `temporalfilter.cc` 480-529 as `CMakeLists.txt` 86-105 builds them | `Signal/Release.lean` | the assertions left out; floats as in `GainSingle.lean` |
| `block_decomposition.cc`, `MPI_Distributed_vector.hh`, `sglobal.cc`, `Set.cc` 750-772, `concatenate.cc`, `sort.cc`, `verifysort.cc` as `CMakeLists.txt` 86-105 builds them | `Util/Release.lean` | the assertions left out |
| `util/fourdbin.cc` 52-165 with the names of `util/4dio.cc` | `Util/FourDMain.lean` | messages; `std::stod` for decimal numbers only; different names are different files |
| `util/minmax.cc` 95-127, `examples/minmax.cc`, `examples/minmax.c` | `Util/MinMaxMain.lean` | messages and the format of the numbers printed; a file that cannot be opened reads as empty |
| `util/filemake.cc` 180-247, `util/makerep.cc` 258-342 | `Util/MakeMain.lean` | messages; hexadecimal, infinite and not-a-number intervals |
| `util/assess.cc`, `util/cropen.c` | `Util/Assess.lean` | messages; `glob` is a function from patterns to names; files that are opened anew may have changed |
| `util/traceanalysis.cc` | `Util/TraceTool.lean` | messages and the format of the numbers printed |
| `main` of `examples/modprm.c`, `example2.c`, `example1.c`, `example1.cc` | `Util/ExampleMain.lean` | messages; `free` and `malloc` of the names |
| `main` of `examples/creadwrite.c` | `Util/CopyMain.lean` | messages; `free` and `malloc` of the names |
| `main` of `util/segy2kml.cc` | `Util/KmlMain.lean` | messages; `std::stof` and the arithmetic of `utm2LatLong` are parameters, as is what is found in the output while it is written |
| `src/PIOL_C_bindings.cc` 30-202, 393-415: rules and parameters | `Util/CLayout.lean` | null handles; `PIOL_File_Rule_addRule_Rule` (C10 has it); the sizes `memUsage` and `paramMem` |
| `util/`: `sglobal`, `filemake`, `makerep`, `segy2kml`, `minmax`, 4D binning, 3D model, distributed vector | `Util` | option parsing, printing, statistics |

Not modelled at all: MPI internals, memory allocation, the operating system, timing,
rounding of transcendental functions, printing. Option parsing is modelled by `Util/Options.lean` for the programs
whose rows name a `...Main.lean`, `Assess.lean` or `TraceTool.lean`; rows that leave it out describe the work behind it.

## Where the code does not do what it promises

Each item is a theorem `..._refuted`, or a stated guard of a `..._partial` theorem, of the property in brackets.

* Zero fractions of IBM numbers become 0.5; shifts by 32 or more below 2^-157; unnormalised patterns convert to another
  value; a carry out of the subnormal range is lost [C04, C05].
* Characters without a counterpart take the code of the next one in the table [C07].  A text of letters only is taken for
  EBCDIC [C25].
* A `Rule` that gets an ordinary item under the header-copy key lets two items share storage [C09].  Looking up an absent
  item inserts a null entry [C10].  The extent is stale after `addCopy`, wrong for the empty rule, and the lowest field of
  a partial-extent rule is read one byte before the buffer [C13].
* `find_scalar` returns 0 beyond every scalar and overflows at the edge [C14]; the shared scalar of a group overflows
  another coordinate [C15].  `cpyPrm` mixes storage of items of different kinds [C16].
* Lists with a block above half of the transfer limit divide by zero; a strided write after a failed view overwrites the
  file header; list pieces of very many blocks fail an assertion or overflow an `int` [C17].  A failing view inside a list ends the loop on one process only [C18].  List transfers drop the
  error code [C19].
* Writing through a rule that does not name a field zeroes it [C20].  A write of no traces inflates the count; writes beyond
  the declared count override it; processes can disagree on the collective resize; an untouched writer keeps the old size;
  increments of 32768 microseconds or more wrap around [C21].  A read beyond the end asks for nearly 2^64 traces [C22].  Empty lists and missing parameters of list reads
  are undefined behaviour [C23].  Every sample of an IBM file reads as 0.5 [C24].  Increments can differ in the last place
  [C50].
* The parallel sort leaves data unsorted when a process has fewer than four elements [C27, C29].  `checkOrder` does not
  look at boundaries [C30].  Negative recorded offsets sort last [C54].  Copied headers stay behind [C55].
* `Set`: positions collide for files of different sizes [C32]; operations are dropped, doubled or ignored in mixed
  sequences [C33]; names of one-file groups collide and names are missing after a sort or gather [C31, C34]; a second
  gather operation is dealt out twice [C35]; gather detection reads out of bounds on the last process and on empty
  processes [C36]; ties of a minimum between processes are not decided [C37]; the maximum of negative values is
  `DBL_MIN`, empty files count as zero [C38]; sorting with one or two traces on a process is undefined behaviour [C32, C33].
  Angle gathers never use the first trace and run past the velocity model [C71].  The cache ignores the rule, denies holding
  anything and gives no traces [C72].  `CommunicatorMPI::offset` always uses all processes [C70].
* AGC fails its assertion for an even window one below the length [C40].  Taper reads behind a muted signal [C41].  Mean and
  median are not those of absolute values or of even windows [C42].  RMS gains are undefined for muted or
  one-sample windows [C56].  Symmetric and cyclic padding read outside the window [C43]; replicate padding ends in zeros
  [C58].  Short signals are read out of bounds by the recursive filter [C45].
  The automatic order ignores the sampling rate, never works for high pass and reads corners that are not there for the
  band types or is undefined with four corners [C67].  The frequency-domain factor leaves out pi [C68].
* `blockDecomp` fails for a range inside one block [C52]; `lobdecompose` rounds beyond the total and turns the weights
  around [C60]; `filemake` divides by zero and scatters its contents [C61, C62]; `makerep` writes its second piece to a wrong
  offset and leaves short files wrong [C59], and moves borders by one neighbour only [C76]; `segy2kml` drops zeros after the
  point and signs [C73], uses integer divisions and wrong signs in its series and turns the southern hemisphere around [C74], and mixes the order of
  coordinates and draws diagonals [C75]; the 3D model reader computes wrong offsets for every proper grid [C46]; the distributed vector has windows
  of as many bytes as elements [C47]; 4D binning ignores the last trace of each process, drops opposite
  directions and uses windows that are too small [C48]; its balancing of collective calls uses the wrong limit [C63];
  `minmax` cuts trace numbers to 32 bits, decodes the header of a file without traces, and the library function it calls
  reads items of processes without traces through a null pointer [C77].
* A set of files with interval 0 writes its traces but no file header [C78].
* A set of files in the IBM format comes out with every sample 0.5 if all conversions are defined, and is undefined
  otherwise [C78, C90].
* The output of the sort tool, read again, need not be sorted, and `verifysort` fails on it: every header gets the coarsest
  scalar its own coordinates allow, and 3 tenths and 30 hundredths are different doubles [C79].
* The rule of a sort reads and writes the receiver water depth but not the other values that share its scalar: source depth
  and elevations change by a power of ten [C79].
- `examples/creadwrite.c` ends in a failed assertion exactly when the number of traces is not a multiple of the number of
  processes and the traces per call divide the smaller share (so always with more processes than traces): idle processes
  call with a null pointer [C80].
- The same program divides by zero for a memory limit below one trace or header, copies nothing of a file with interval 0,
  and takes the length of a null pointer for `-p`, `-t` and unknown options [C80].
- Its `-t` modification indexes by trace number instead of trace number times samples; its `-p` modification gives all
  traces of a call the same source; header bytes outside the default rule become zero; the text ends at its first NUL [C80].
* `exampleCreateFile.c` passes `.01` through a `size_t`: the interval 0 is refused and the destructor writes neither file
  header nor size; whole seconds leave the 16-bit field. `example1` passes 4.0 seconds for 4 microseconds and records 2304
  microseconds. The C versions end in an assertion with more processes than traces. Line numbers (C++) and coordinates (both)
  are computed in single precision and repeat beyond `2^24` [C82].
- `modprm.c` writes no samples: those of the output are whatever the file had before; header bytes outside the
  default rule become 0, and a file with the interval 0 is refused [C83].
- `example2.c` calls `writeNs` with the number of traces and `writeNt` with the number of samples. Only square files are
  copied; with more traces than samples (nearly all files) it reads beyond its memory, with more than 32767 it writes no file
  header, with fewer the output has the wrong shape [C84].
- The destructor of a `Set` writes the files of the last output again, after the queue has been cleared: single-trace
  operations (AGC, taper, filter) are not in what a program leaves behind if it called `output`, as every C program
  must. After a gather operation they are applied twice until the end of the set and once afterwards. The text is lost with
  a gather operation. A second gather, or a gather of two files of different kinds, opens a file twice [C85].
- Traces with equal keys in different files of a group are interleaved by a sort, file by file [C33].
- The radon program gives zeros for every gather that is not on the first inline of its velocity model, and its result on
  gathers that are not in the order of the model is undefined on one process but not on enough processes [C86].
* `util/4dio.cc` 222-225: the calls that make the file header of an output of 4D binning are not followed by a check of
  the error flag. A source with interval 0 makes the interval of the output an error, and the output is closed with its
  traces but without a file header [C87].
* `util/4dio.cc` 86-102: on several processes with fewer than four traces for each the sort only sorts each process's own
  block, so that the coordinates are not in order over the processes; `util/4dcore.cc` 277-295: if a process has fewer than
  two traces of the second file, near to those of the first, the search reads in front of its array [C88].
* `util/filemake.cc` 115-118: in scattered mode the samples of a piece are numbered on from its first trace although its
  traces lie apart, so that on several processes almost every trace has the samples of another; 36: the trace number is
  converted to `float`, so that large files repeat their lines [C89].
* A taper queued on a set ends the program at the first trace whose samples are all zero: `taper.cc` 27-33 looks behind the
  trace and then calls itself with an empty one [C90]. `examples/exampleFilterTaper.cc` asks for symmetric padding, which
  reads behind the window for every trace [C90].
* The output of `filemake -r` and of 4D binning depends on the number of processes [C91].
* A sort queued on a set after a taper, gain or filter is silently left out, with everything after it: `calcFunc` leaves the loop
  after the first run of single-trace operations [C92].
* `makerep` never sets the size of its output: an old, longer file keeps its last traces. Bytes behind the last trace of the input
  shift all repetitions but the first. The default version fails on several processes for files below 2 MiB. An unknown word after
  `-v` dereferences the end of a map [C93].
* Cosine tapers of 16384 samples and more have a first factor of zero in single precision, where the formula is positive [C94].
* Gain control squares samples in single precision: a window of samples below 2^-75 in magnitude fails the assertion that its
  sum of squares is not zero, and samples of 2^64 and more silence their windows [C95].
* A gather operation on a set of one file reads the file, not the sorted set: sorts before it have no effect [C96].
* 4D binning keeps coordinates as floats: between 4194304 and 8388608 m, where northings are, positions are known to half a metre only. A
  trace 24 cm off in every coordinate has criterion zero and is taken instead of the one exactly in place [C97].
* `segy2kml` writes names of files without escaping, so `<` or `&` in one make a document that no reader accepts. Missing files get a line at
  longitude and latitude zero. Coordinates in degrees are written with x, the longitude, where the latitude belongs. If the first name
  does not end in `y` all other names are passed over [C98].
* The coefficients of a temporal filter are stored as floats. For narrow low and high passes (order 4 and a corner of 1/500 of the sampling
  frequency, order 8 and 1/100) the denominator in floats adds up to zero, to less or to much more than designed: traces of not-a-number,
  a filter that is not stable or one with a wrong gain [C99].
* `concatenate` with two files of different samples or intervals writes both to `prefix.segy`; the one with fewer samples or the smaller
  interval is lost. A pattern that the shell replaces by names joins nothing: all names after the first are passed over. Files that do not
  end in `segy` or `sgy` are left out without an error [C100].
* `sort -t` takes any number: the types are 35 to 43, and all others, such as 0 to 8, sort by source and receiver without a message.
  `verifysort` reports success for a file that is not there. `sort` with a pattern that matches no SEG-Y file has undefined
  behaviour [C101].
* `Set::getMinMax` of two items gives 2^-1022 as the largest if no value is positive, takes a missing file for a trace with the
  value 0, and has undefined behaviour for an item outside the default rule as soon as one file has fewer traces than there are
  processes, and for items 30 and above always [C102].
* Gain control with the triangular gain and a window of one sample makes every sample not-a-number. With the median gain and a
  window of two or three it reads behind the sorted samples, for every signal. The mean gain stops on `2^25, x, -2^25` for small
  `x`, and is zero for two samples of `2^127` [C103].
* `radon` gives every output the interval of one degree in microseconds (17453) whatever that of the input, overwrites and leaves
  behind `gtemp.segy` and, for several inputs, `temp…segy`, appends `.segy` to the name that is given, and opens a file twice for
  `-o gtemp` [C104].
* `toAngle` divides the time by the interval of the model and cuts off: where input and model have the same interval, many samples
  take the velocity of the sample before, the first with a quarter of a millisecond being number 2001 [C104].
* The default build has no assertions. There gain control turns windows of zeros into not-a-number and samples below 2^-75 into
  infinities, reads outside the signal for windows wider than it, and tapers longer than the signal and window centres behind the
  trace change memory outside it [C105].
* In the default build also: the index behind the last element of a distributed vector is looked for on a process that does not
  exist; a range inside one block gets a share longer than itself, and the last of 2^34 elements is in no share; a pass filter with
  one corner reads behind it; `concatenate` and `sort` without `-o` write `.segy`, and `verifysort` without `-i` reports success
  [C106].
* `fourdbin` does not check its limit (undefined if no float can hold it) nor its names: the same name for both outputs loses the
  first, the second survey as the first output puts traces of the first survey into the second output, and an output that is its
  own input is undefined; with `-v` it is undefined without a directory `tmp`, and in the default build every record is empty,
  because the calls that write are inside assertions [C107].
* `minmax` returns zero if its input is missing or gives no sample interval, and leaves an output without header; from an input
  without traces it makes twelve; `examples/minmax.c` (and four more examples in C) take the length of the value of an option before
  they look at its letter, a null pointer for unknown ones [C108].
* `filemake` passes over options it does not know or that lack their value and returns zero; in the default build it divides by zero
  without `-m`; `makerep -r 0` repeats once, and `-v` with another word is undefined even if a good one follows [C109].
* `filterFreq` puts the trace in the array before it makes a plan with `FFTW_MEASURE`, which may overwrite it: the first trace of each length can be
  lost while later ones are filtered; the factor of each frequency has a phase of its own [C110, C111].
* `assess` looks at its first argument only, describes files without header as empty ones and divides by zero for a file with
  −60 samples; `cropen` opens a file it has opened with `MPI_MODE_UNIQUE_OPEN`, returns zero for a file that is not there and compares
  file `i` of round `i` a thousand times instead of a thousand files [C112].
* `traceanalysis` prints zeros for a file that is not there and for the trace after the last, ends with an exception for later ones, and takes
  the bytes before the first trace for trace −1; `readTrace` subtracts an offset beyond the end without looking [C113].
* `modprm.c`, `example2.c` and `example1.c` take the length of the value of every option, which for an unknown letter or a missing value is
  that of a null pointer; the same name for input and output is not looked for [C114].
* `creadwrite` does the same, so that its own options `-p` and `-t` cannot be used; a limit `-m` below a trace divides by zero [C115].
* `segy2kml` empties its output before it reads its inputs: a SEG-Y file that is also the output is lost, with status 0 [C116].
* Writing through a layout zeroes every header byte that it does not name; reading through one without the trace number is undefined; an integer too large for its field is cut without a sign of it; setting an item outside the layout or a row past the last is undefined [C117].

## Axioms per theorem

From `#print axioms`, written by `tools/axioms.py`.

| theorem | axioms |
|---|---|
| `Verif.Decomp.C01_shares_tile` | propext, Classical.choice, Quot.sound |
| `Verif.Decomp.C01_no_ranks` | none |
| `Verif.Decomp.C02_location_inverse` | propext, Quot.sound |
| `Verif.Decomp.C02_location_unique` | propext, Quot.sound |
| `Verif.Decomp.C02_out_of_range` | propext, Quot.sound |
| `Verif.Endian.C03_encode_digits` | propext, Classical.choice, Quot.sound |
| `Verif.Endian.C03_encode_unsigned` | propext, Classical.choice, Quot.sound |
| `Verif.Endian.C03_decode16_value` | propext, Quot.sound |
| `Verif.Endian.C03_decode32_value` | propext, Quot.sound |
| `Verif.Endian.C03_roundtrip16` | propext, Classical.choice, Quot.sound |
| `Verif.Endian.C03_roundtrip32` | propext, Classical.choice, Quot.sound |
| `Verif.Endian.C03_roundtrip16_bytes` | propext, Classical.choice, Quot.sound |
| `Verif.Endian.C03_roundtrip32_bytes` | propext, Classical.choice, Quot.sound |
| `Verif.IBM.C04_byte_order` | propext, Classical.choice, Quot.sound |
| `Verif.IBM.C04_exact` | propext, Classical.choice, Quot.sound |
| `Verif.IBM.C04_exact_bytes` | propext, Classical.choice, Quot.sound |
| `Verif.IBM.C04_zero_refuted` | propext, Classical.choice, Quot.sound |
| `Verif.IBM.C05_overflow` | propext, Classical.choice, Quot.sound |
| `Verif.IBM.C05_subnormal_partial` | propext, Classical.choice, Quot.sound |
| `Verif.IBM.C05_underflow_refuted` | propext, Classical.choice, Quot.sound |
| `Verif.IBM.C05_unnormalised_refuted` | propext, Classical.choice, Quot.sound |
| `Verif.IBM.C05_carry_refuted` | propext, Classical.choice, Quot.sound |
| `Verif.CharEnc.C06_table_pairs` | propext, Quot.sound |
| `Verif.CharEnc.C06_injective` | propext, Quot.sound |
| `Verif.CharEnc.C06_text_roundtrip` | propext, Quot.sound |
| `Verif.CharEnc.C07_substitute_refuted` | propext, Quot.sound |
| `Verif.CharEnc.C07_next_entry_partial` | propext, Quot.sound |
| `Verif.Layout.C08_layout_tiles` | propext, Quot.sound |
| `Verif.Layout.C08_disjoint` | propext, Classical.choice, Quot.sound |
| `Verif.Layout.C08_count_roundtrip` | propext, Quot.sound |
| `Verif.Rules.C09_slots_partial` | propext, Classical.choice, Quot.sound |
| `Verif.Rules.C09_progress` | propext, Classical.choice, Quot.sound |
| `Verif.Rules.C09_copy_key_refuted` | propext, Quot.sound |
| `Verif.Rules.C10_step_partial` | propext, Classical.choice, Quot.sound |
| `Verif.Rules.C10_addRules` | propext, Classical.choice, Quot.sound |
| `Verif.Rules.C10_history_partial` | propext, Classical.choice, Quot.sound |
| `Verif.Rules.C10_lookup_refuted` | propext |
| `Verif.Rules.C10_ctor` | propext, Classical.choice, Quot.sound |
| `Verif.Params.C11_set_get` | propext, Classical.choice, Quot.sound |
| `Verif.Params.C11_built` | propext, Classical.choice, Quot.sound |
| `Verif.Params.C11_in_range` | propext, Quot.sound |
| `Verif.Params.C12_roundtrip` | propext, Classical.choice, Quot.sound |
| `Verif.Params.C12_known_layout` | propext, Classical.choice, Quot.sound |
| `Verif.Params.C13_bytes_refuted` | propext, Classical.choice, Quot.sound |
| `Verif.Params.C13_insert_refuted` | propext, Quot.sound |
| `Verif.Rules.C13_window_partial` | propext, Classical.choice, Quot.sound |
| `Verif.Rules.C13_full` | propext, Classical.choice, Quot.sound |
| `Verif.Rules.C13_copy_refuted` | propext, Quot.sound |
| `Verif.Rules.C13_empty_refuted` | none |
| `Verif.Scalar.C14_power_partial` | propext, Classical.choice, Quot.sound |
| `Verif.Scalar.C14_power_refuted` | propext, Classical.choice, Quot.sound |
| `Verif.Scalar.C14_exact` | propext, Classical.choice, Quot.sound |
| `Verif.Scalar.C14_readback_refuted` | propext, Classical.choice, Quot.sound |
| `Verif.Scalar.C14_fits` | propext, Classical.choice, Quot.sound |
| `Verif.Scalar.C14_large_partial` | propext, Classical.choice, Quot.sound |
| `Verif.Scalar.C14_edge_refuted` | propext, Classical.choice, Quot.sound |
| `Verif.Scalar.C15_shared_partial` | propext, Classical.choice, Quot.sound |
| `Verif.Scalar.C15_overflow_refuted` | propext, Classical.choice, Quot.sound |
| `Verif.Params.C16_copy_partial` | propext, Classical.choice, Quot.sound |
| `Verif.Params.C16_kind_refuted` | propext, Quot.sound |
| `Verif.DataIO.C17_pieces_partial` | propext, Classical.choice, Quot.sound |
| `Verif.DataIO.C17_list_refuted` | propext, Quot.sound |
| `Verif.DataIO.C17_count_refuted` | propext, Quot.sound |
| `Verif.DataIO.C17_int_refuted` | propext, Quot.sound |
| `Verif.DataIO.C17_failed_view_refuted` | propext, Quot.sound |
| `Verif.DataIO.C18_same_calls_partial` | propext, Classical.choice, Quot.sound |
| `Verif.DataIO.C18_list_refuted` | propext, Classical.choice, Quot.sound |
| `Verif.DataIO.C18_strided_refuted` | propext, Classical.choice, Quot.sound |
| `Verif.DataIO.C19_reported_partial` | propext, Quot.sound |
| `Verif.DataIO.C19_no_false_report_partial` | propext, Quot.sound |
| `Verif.DataIO.C19_list_refuted` | propext, Classical.choice, Quot.sound |
| `Verif.Files.C20_last_write_partial` | propext, Classical.choice, Quot.sound |
| `Verif.Files.C20_caller_buffer` | propext, Classical.choice, Quot.sound |
| `Verif.Files.C20_elsewhere` | propext, Classical.choice, Quot.sound |
| `Verif.Files.C20_unnamed_refuted` | propext, Classical.choice, Quot.sound |
| `Verif.Files.C21_close_partial` | propext, Classical.choice, Quot.sound |
| `Verif.Files.C21_text_partial` | propext, Classical.choice, Quot.sound |
| `Verif.Files.C21_zero_refuted` | propext, Classical.choice, Quot.sound |
| `Verif.Files.C21_beyond_refuted` | propext, Classical.choice, Quot.sound |
| `Verif.Files.C21_mismatch_refuted` | propext, Classical.choice, Quot.sound |
| `Verif.Files.C21_increment_refuted` | propext, Classical.choice, Quot.sound |
| `Verif.Files.C21_huge_refuted` | propext, Classical.choice, Quot.sound |
| `Verif.Files.C21_untouched_refuted` | propext, Classical.choice, Quot.sound |
| `Verif.Files.C22_clamped_partial` | propext, Classical.choice, Quot.sound |
| `Verif.Files.C22_transfer_partial` | propext, Classical.choice, Quot.sound |
| `Verif.Files.C22_beyond_refuted` | propext, Quot.sound |
| `Verif.Files.C22_memory_refuted` | propext, Quot.sound |
| `Verif.Files.C23_nonmonotonic_partial` | propext, Classical.choice, Quot.sound |
| `Verif.Files.C23_empty_refuted` | propext, Quot.sound |
| `Verif.Files.C23_null_refuted` | propext, Quot.sound |
| `Verif.Files.C24_ibm_refuted` | propext, Classical.choice, Quot.sound |
| `Verif.Files.C24_widen_partial` | propext, Classical.choice, Quot.sound |
| `Verif.CharEnc.C25_header_bytes` | propext, Classical.choice, Quot.sound |
| `Verif.CharEnc.C25_ascii_partial` | propext, Classical.choice, Quot.sound |
| `Verif.CharEnc.C25_letters_refuted` | propext, Classical.choice, Quot.sound |
| `Verif.CharEnc.C25_ebcdic` | propext, Quot.sound |
| `Verif.Sort.C26_keys` | propext, Classical.choice, Quot.sound |
| `Verif.Sort.C26_strict_total` | propext, Classical.choice, Quot.sound |
| `Verif.Sort.C27_sorted_partial` | propext, Classical.choice, Quot.sound |
| `Verif.Sort.C27_small_refuted` | propext, Quot.sound |
| `Verif.Sort.C27_isolated` | propext, Classical.choice, Quot.sound |
| `Verif.Sort.C27_traces_partial` | propext, Classical.choice, Quot.sound |
| `Verif.Sort.C28_ends` | propext, Classical.choice, Quot.sound |
| `Verif.Sort.C29_inverse_partial` | propext, Classical.choice, Quot.sound |
| `Verif.Sort.C29_positions_partial` | propext, Classical.choice, Quot.sound |
| `Verif.Sort.C29_small_refuted` | propext, Classical.choice, Quot.sound |
| `Verif.Sort.C30_check_partial` | propext, Classical.choice, Quot.sound |
| `Verif.Sort.C30_boundary_refuted` | propext, Classical.choice, Quot.sound |
| `Verif.Flow.C31_positions_partial` | propext, Classical.choice, Quot.sound |
| `Verif.Flow.C31_share_refuted` | propext, Classical.choice, Quot.sound |
| `Verif.Flow.C32_positions_partial` | propext, Classical.choice, Quot.sound |
| `Verif.Flow.C32_deal` | propext, Quot.sound |
| `Verif.Flow.C32_small_refuted` | propext, Quot.sound |
| `Verif.Flow.C32_sizes_refuted` | propext, Quot.sound |
| `Verif.Flow.C33_sorts_partial` | propext, Classical.choice, Quot.sound |
| `Verif.Flow.C33_files_refuted` | propext, Classical.choice, Quot.sound |
| `Verif.Flow.C33_small_refuted` | propext |
| `Verif.Flow.C33_order_refuted` | propext, Quot.sound |
| `Verif.Flow.C33_late_refuted` | propext, Quot.sound |
| `Verif.Flow.C33_twice_refuted` | propext, Classical.choice, Quot.sound |
| `Verif.Flow.C33_second_refuted` | propext |
| `Verif.Flow.C33_gathers_partial` | propext, Classical.choice, Quot.sound |
| `Verif.Flow.C33_again_refuted` | propext, Quot.sound |
| `Verif.Flow.C33_ties_refuted` | propext |
| `Verif.Flow.C33_gather_partial` | propext, Classical.choice, Quot.sound |
| `Verif.Flow.C34_forgotten_refuted` | propext, Quot.sound |
| `Verif.Flow.C34_single_partial` | propext |
| `Verif.Flow.C34_names_partial` | propext, Classical.choice, Quot.sound |
| `Verif.Flow.C34_names_refuted` | propext, Classical.choice, Quot.sound |
| `Verif.Flow.C35_cover_partial` | propext, Classical.choice, Quot.sound |
| `Verif.Flow.C35_two_refuted` | propext, Quot.sound |
| `Verif.Flow.C36_runs_partial` | propext, Quot.sound |
| `Verif.Flow.C36_file_partial` | propext, Classical.choice, Quot.sound |
| `Verif.Flow.C36_bounds_refuted` | propext, Quot.sound |
| `Verif.Flow.C36_defined_partial` | propext, Quot.sound |
| `Verif.Flow.C36_last_refuted` | propext, Quot.sound |
| `Verif.Flow.C36_empty_refuted` | propext |
| `Verif.Flow.C36_again_refuted` | propext, Quot.sound |
| `Verif.Ops.C37_minmax_partial` | propext, Classical.choice, Quot.sound |
| `Verif.Ops.C37_empty` | propext, Classical.choice, Quot.sound |
| `Verif.Ops.C37_ties_refuted` | propext, Quot.sound |
| `Verif.Ops.C38_set_partial` | propext, Classical.choice, Quot.sound |
| `Verif.Ops.C38_numbers_partial` | propext, Classical.choice, Quot.sound |
| `Verif.Ops.C38_negative_refuted` | propext, Classical.choice, Quot.sound |
| `Verif.Ops.C38_empty_refuted` | propext, Classical.choice, Quot.sound |
| `Verif.Ops.C39_error` | propext, Quot.sound |
| `Verif.Ops.C39_stored` | propext, Classical.choice, Quot.sound |
| `Verif.Ops.C39_count` | propext, Quot.sound |
| `Verif.Ops.C39_check` | propext, Quot.sound |
| `Verif.Signal.C40_window_partial` | propext, Classical.choice, Quot.sound |
| `Verif.Signal.C40_bounds` | propext, Quot.sound |
| `Verif.Signal.C40_even_refuted` | propext, Quot.sound |
| `Verif.Signal.C41_taper_partial` | propext, Classical.choice, Quot.sound |
| `Verif.Signal.C41_zero_refuted` | propext, Classical.choice, Quot.sound |
| `Verif.Signal.C41_short_refuted` | propext, Classical.choice, Quot.sound |
| `Verif.Signal.C42_mean_partial` | propext, Classical.choice, Quot.sound |
| `Verif.Signal.C42_mean_refuted` | propext, Classical.choice, Quot.sound |
| `Verif.Signal.C42_median_partial` | propext, Classical.choice, Quot.sound |
| `Verif.Signal.C42_pair_refuted` | propext, Classical.choice, Quot.sound |
| `Verif.Signal.C42_even_refuted` | propext, Classical.choice, Quot.sound |
| `Verif.Signal.C43_time_partial` | propext, Classical.choice, Quot.sound |
| `Verif.Signal.C43_symmetric_refuted` | propext, Classical.choice, Quot.sound |
| `Verif.Signal.C43_cyclic_refuted` | propext, Classical.choice, Quot.sound |
| `Verif.Signal.C43_replicate_refuted` | propext, Classical.choice, Quot.sound |
| `Verif.Signal.C43_window_partial` | propext, Classical.choice, Quot.sound |
| `Verif.Signal.C43_default` | propext, Classical.choice, Quot.sound |
| `Verif.Signal.C43_window_refuted` | propext, Classical.choice, Quot.sound |
| `Verif.Signal.C44_expand` | propext, Classical.choice, Quot.sound |
| `Verif.Signal.C44_empty` | propext |
| `Verif.Signal.C45_difference_partial` | propext, Classical.choice, Quot.sound |
| `Verif.Signal.C45_linear_partial` | propext, Classical.choice, Quot.sound |
| `Verif.Signal.C45_zero_refuted` | propext, Classical.choice, Quot.sound |
| `Verif.Signal.C45_short_refuted` | propext, Classical.choice, Quot.sound |
| `Verif.Util.C46_inline_partial` | propext, Quot.sound |
| `Verif.Util.C46_crossline_partial` | propext, Classical.choice, Quot.sound |
| `Verif.Util.C46_xl_refuted` | propext, Quot.sound |
| `Verif.Util.C46_il_refuted` | propext, Classical.choice, Quot.sound |
| `Verif.Util.C46_spacing_refuted` | propext, Classical.choice, Quot.sound |
| `Verif.Util.C46_open_refuted` | propext, Classical.choice, Quot.sound |
| `Verif.Util.C47_array_partial` | propext, Quot.sound |
| `Verif.Util.C47_bytes` | propext, Quot.sound |
| `Verif.Util.C47_memory_refuted` | propext, Quot.sound |
| `Verif.Util.C47_first_refuted` | propext, Quot.sound |
| `Verif.Util.C47_behind` | propext, Quot.sound |
| `Verif.Util.C48_sound_partial` | propext, Classical.choice, Quot.sound |
| `Verif.Util.C48_matched_partial` | propext, Classical.choice, Quot.sound |
| `Verif.Util.C48_last_refuted` | propext, Classical.choice, Quot.sound |
| `Verif.Util.C48_ignored_refuted` | propext, Classical.choice, Quot.sound |
| `Verif.Util.C48_first_refuted` | propext, Quot.sound |
| `Verif.Util.C48_window_refuted` | propext, Quot.sound |
| `Verif.Util.C48_compared_partial` | propext, Classical.choice, Quot.sound |
| `Verif.Util.C48_defined_partial` | propext, Classical.choice, Quot.sound |
| `Verif.Util.C48_forward_partial` | propext, Classical.choice, Quot.sound |
| `Verif.Util.C48_reverse_refuted` | propext, Classical.choice, Quot.sound |
| `Verif.Util.C48_missed_refuted` | propext |
| `Verif.Ops.C49_once` | propext, Quot.sound |
| `Verif.Ops.C49_user` | propext, Quot.sound |
| `Verif.Ops.C49_library` | none |
| `Verif.Files.C50_roundtrip_partial` | propext, Classical.choice, Quot.sound |
| `Verif.Files.C50_nearest_refuted` | propext, Classical.choice, Quot.sound |
| `Verif.Util.C51_cover` | propext, Classical.choice, Quot.sound |
| `Verif.Util.C52_tiles_partial` | propext, Classical.choice, Quot.sound |
| `Verif.Util.C52_inside_refuted` | propext, Classical.choice, Quot.sound |
| `Verif.Util.C52_size_refuted` | propext, Quot.sound |
| `Verif.Scalar.C53_header` | propext, Classical.choice, Quot.sound |
| `Verif.Scalar.C53_reread` | propext, Classical.choice, Quot.sound |
| `Verif.Sort.C54_recorded_partial` | propext, Classical.choice, Quot.sound |
| `Verif.Sort.C54_recorded_refuted` | propext, Classical.choice, Quot.sound |
| `Verif.Sort.C54_wrapped_partial` | propext, Classical.choice, Quot.sound |
| `Verif.Sort.C55_headers_refuted` | propext, Quot.sound |
| `Verif.Sort.C55_records_partial` | propext, Classical.choice, Quot.sound |
| `Verif.Signal.C56_rectangular_partial` | propext, Classical.choice, Quot.sound |
| `Verif.Signal.C56_triangular_partial` | propext, Classical.choice, Quot.sound |
| `Verif.Signal.C56_zero_refuted` | propext, Quot.sound |
| `Verif.Signal.C56_single_refuted` | propext, Quot.sound |
| `Verif.Signal.C56_clipped` | propext, Quot.sound |
| `Verif.Signal.C57_linear` | propext, Classical.choice, Quot.sound |
| `Verif.Signal.C57_cosine` | propext, Classical.choice, Quot.sound |
| `Verif.Signal.C57_cosine_square` | propext, Classical.choice, Quot.sound |
| `Verif.Signal.C58_steady_partial` | propext, Classical.choice, Quot.sound |
| `Verif.Signal.C58_constant_refuted` | propext, Classical.choice, Quot.sound |
| `Verif.Util.C59_small` | propext, Quot.sound |
| `Verif.Util.C59_naive_partial` | propext, Classical.choice, Quot.sound |
| `Verif.Util.C59_blocks_partial` | propext, Classical.choice, Quot.sound |
| `Verif.Util.C59_pieces_refuted` | propext, Quot.sound |
| `Verif.Util.C59_standard_partial` | propext, Classical.choice, Quot.sound |
| `Verif.Util.C59_standard_pieces_refuted` | propext, Classical.choice, Quot.sound |
| `Verif.Util.C59_standard_small_refuted` | propext, Classical.choice, Quot.sound |
| `Verif.Util.C60_tiles_partial` | propext, Classical.choice, Quot.sound |
| `Verif.Util.C60_sizes_partial` | propext, Classical.choice, Quot.sound |
| `Verif.Util.C60_rounding_refuted` | propext, Quot.sound |
| `Verif.Util.C60_large_refuted` | propext, Classical.choice, Quot.sound |
| `Verif.Util.C60_weights_refuted` | propext, Quot.sound |
| `Verif.Util.C61_calls_partial` | propext, Classical.choice, Quot.sound |
| `Verif.Util.C61_limit_refuted` | none |
| `Verif.Util.C62_contiguous_partial` | propext, Classical.choice, Quot.sound |
| `Verif.Util.C62_scattered_refuted` | propext, Quot.sound |
| `Verif.Util.C63_calls_partial` | propext, Classical.choice, Quot.sound |
| `Verif.Util.C63_first_partial` | propext, Classical.choice, Quot.sound |
| `Verif.Util.C63_second_refuted` | propext, Classical.choice, Quot.sound |
| `Verif.Util.C64_output` | propext, Classical.choice, Quot.sound |
| `Verif.Util.C64_pairs` | propext, Classical.choice, Quot.sound |
| `Verif.Signal.C65_lowpass` | propext, Classical.choice, Quot.sound |
| `Verif.Signal.C65_highpass` | propext, Classical.choice, Quot.sound |
| `Verif.Signal.C65_bandpass` | propext, Classical.choice, Quot.sound |
| `Verif.Signal.C65_bandstop` | propext, Classical.choice, Quot.sound |
| `Verif.Signal.C65_corners` | propext, Classical.choice, Quot.sound |
| `Verif.Signal.C66_stable` | propext, Classical.choice, Quot.sound |
| `Verif.Signal.C66_zero` | propext, Classical.choice, Quot.sound |
| `Verif.Signal.C67_lowpass_partial` | propext, Classical.choice, Quot.sound |
| `Verif.Signal.C67_rate_refuted` | propext, Classical.choice, Quot.sound |
| `Verif.Signal.C67_highpass_refuted` | propext, Classical.choice, Quot.sound |
| `Verif.Signal.C67_band_refuted` | propext, Classical.choice, Quot.sound |
| `Verif.Signal.C67_bandpass_partial` | propext, Classical.choice, Quot.sound |
| `Verif.Signal.C67_bandstop_partial` | propext, Classical.choice, Quot.sound |
| `Verif.Signal.C67_bandpass_refuted` | propext, Classical.choice, Quot.sound |
| `Verif.Signal.C67_bandstop_refuted` | propext, Classical.choice, Quot.sound |
| `Verif.Signal.C68_gain_refuted` | propext, Classical.choice, Quot.sound |
| `Verif.Signal.C68_circle_partial` | propext, Classical.choice, Quot.sound |
| `Verif.Flow.C69_calls` | propext, Classical.choice, Quot.sound |
| `Verif.Flow.C69_memory` | propext, Quot.sound |
| `Verif.Ops.C70_world_partial` | propext, Quot.sound |
| `Verif.Ops.C70_hang_refuted` | propext, Quot.sound |
| `Verif.Ops.C70_split_refuted` | propext, Quot.sound |
| `Verif.Props.C71_samples_partial` | propext, Classical.choice, Quot.sound |
| `Verif.Props.C71_first_refuted` | propext, Quot.sound |
| `Verif.Props.C71_late_refuted` | propext, Classical.choice, Quot.sound |
| `Verif.Props.C71_bin_refuted` | propext, Classical.choice, Quot.sound |
| `Verif.Props.C72_reads_partial` | propext, Quot.sound |
| `Verif.Props.C72_rule_refuted` | propext, Quot.sound |
| `Verif.Props.C72_element_refuted` | propext |
| `Verif.Props.C72_check_refuted` | propext, Quot.sound |
| `Verif.Props.C72_traces_refuted` | propext, Quot.sound |
| `Verif.Props.C72_flush_refuted` | propext, Quot.sound |
| `Verif.Props.C73_text_partial` | propext, Classical.choice, Quot.sound |
| `Verif.Props.C73_zeros_refuted` | propext, Classical.choice, Quot.sound |
| `Verif.Props.C73_negative_refuted` | propext, Classical.choice, Quot.sound |
| `Verif.Props.C74_axes_partial` | propext, Classical.choice, Quot.sound |
| `Verif.Props.C74_mirror_partial` | propext, Classical.choice, Quot.sound |
| `Verif.Props.C74_zone_partial` | propext, Classical.choice, Quot.sound |
| `Verif.Props.C74_north_partial` | propext, Classical.choice, Quot.sound |
| `Verif.Props.C74_south_refuted` | propext, Classical.choice, Quot.sound |
| `Verif.Props.C74_foot_partial` | propext, Classical.choice, Quot.sound |
| `Verif.Props.C74_series_refuted` | propext, Classical.choice, Quot.sound |
| `Verif.Props.C74_east_partial` | propext, Classical.choice, Quot.sound |
| `Verif.Props.C74_lng_partial` | propext, Classical.choice, Quot.sound |
| `Verif.Props.C74_lat_partial` | propext, Classical.choice, Quot.sound |
| `Verif.Props.C74_signs_refuted` | propext, Classical.choice, Quot.sound |
| `Verif.Props.C75_utm_partial` | propext, Classical.choice, Quot.sound |
| `Verif.Props.C75_order_refuted` | propext, Classical.choice, Quot.sound |
| `Verif.Props.C75_message_refuted` | propext, Classical.choice, Quot.sound |
| `Verif.Props.C75_diagonal_refuted` | propext, Classical.choice, Quot.sound |
| `Verif.Util.C76_moves_partial` | propext, Classical.choice, Quot.sound |
| `Verif.Util.C76_messages` | propext, Classical.choice, Quot.sound |
| `Verif.Util.C76_far_refuted` | propext, Classical.choice, Quot.sound |
| `Verif.Extremes.C77_items_partial` | propext, Classical.choice, Quot.sound |
| `Verif.Extremes.C77_absent_refuted` | propext, Classical.choice, Quot.sound |
| `Verif.Extremes.C77_extremes_partial` | propext, Classical.choice, Quot.sound |
| `Verif.Extremes.C77_file_partial` | propext, Classical.choice, Quot.sound |
| `Verif.Extremes.C77_number_refuted` | propext, Classical.choice, Quot.sound |
| `Verif.Extremes.C77_empty_refuted` | propext, Classical.choice, Quot.sound |
| `Verif.Flow.C78_concatenate_partial` | propext, Classical.choice, Quot.sound |
| `Verif.Flow.C78_zero_refuted` | propext, Classical.choice, Quot.sound |
| `Verif.Flow.C78_ibm_refuted` | propext, Classical.choice, Quot.sound |
| `Verif.Flow.C79_verdict` | propext, Classical.choice, Quot.sound |
| `Verif.Flow.C79_sorted_partial` | propext, Classical.choice, Quot.sound |
| `Verif.Flow.C79_verify_partial` | propext, Classical.choice, Quot.sound |
| `Verif.Flow.C79_depth_refuted` | propext, Classical.choice, Quot.sound |
| `Verif.Flow.C79_verify_refuted` | propext, Classical.choice, Quot.sound |
| `Verif.CCopy.C80_copy_partial` | propext, Classical.choice, Quot.sound |
| `Verif.CCopy.C80_text_partial` | propext, Classical.choice, Quot.sound |
| `Verif.CCopy.C80_rounds_refuted` | propext, Classical.choice, Quot.sound |
| `Verif.CCopy.C80_memory_refuted` | propext, Classical.choice, Quot.sound |
| `Verif.CCopy.C80_interval_refuted` | propext, Classical.choice, Quot.sound |
| `Verif.CCopy.C80_flags_refuted` | propext, Classical.choice, Quot.sound |
| `Verif.CCopy.C80_main_partial` | propext, Classical.choice, Quot.sound |
| `Verif.CCopy.C80_header_refuted` | propext, Classical.choice, Quot.sound |
| `Verif.CCopy.C80_nul_refuted` | propext, Classical.choice, Quot.sound |
| `Verif.CCopy.C80_linear_refuted` | propext, Classical.choice, Quot.sound |
| `Verif.CCopy.C80_sources` | propext, Classical.choice, Quot.sound |
| `Verif.Sort.C81_distance_partial` | propext, Classical.choice, Quot.sound |
| `Verif.Sort.C81_distance_refuted` | propext, Classical.choice, Quot.sound |
| `Verif.Sort.C81_nearer_partial` | propext, Classical.choice, Quot.sound |
| `Verif.CCreate.C82_create_partial` | propext, Classical.choice, Quot.sound |
| `Verif.CCreate.C82_ccreate_partial` | propext, Classical.choice, Quot.sound |
| `Verif.CCreate.C82_maincc_partial` | propext, Classical.choice, Quot.sound |
| `Verif.CCreate.C82_main_refuted` | propext, Classical.choice, Quot.sound |
| `Verif.CCreate.C82_interval_refuted` | propext, Classical.choice, Quot.sound |
| `Verif.CCreate.C82_processes_refuted` | propext, Classical.choice, Quot.sound |
| `Verif.CCreate.C82_lines_refuted` | propext, Classical.choice, Quot.sound |
| `Verif.CCreate.C82_coords_refuted` | propext, Classical.choice, Quot.sound |
| `Verif.CCreate.C82_example1_refuted` | propext, Classical.choice, Quot.sound |
| `Verif.CSwap.C83_swap_partial` | propext, Classical.choice, Quot.sound |
| `Verif.CSwap.C83_rounds` | propext, Classical.choice, Quot.sound |
| `Verif.CSwap.C83_twice_partial` | propext, Classical.choice, Quot.sound |
| `Verif.CSwap.C83_samples_refuted` | propext, Classical.choice, Quot.sound |
| `Verif.CSwap.C83_header_refuted` | propext, Classical.choice, Quot.sound |
| `Verif.CSwap.C83_interval_refuted` | propext, Classical.choice, Quot.sound |
| `Verif.CTurn.C84_square_partial` | propext, Classical.choice, Quot.sound |
| `Verif.CTurn.C84_shape_refuted` | propext, Classical.choice, Quot.sound |
| `Verif.CTurn.C84_overread_refuted` | propext, Classical.choice, Quot.sound |
| `Verif.CTurn.C84_long_refuted` | propext, Classical.choice, Quot.sound |
| `Verif.CTurn.C84_interval_refuted` | propext, Classical.choice, Quot.sound |
| `Verif.CTurn.C84_processes_refuted` | propext, Classical.choice, Quot.sound |
| `Verif.Life.C85_endings` | propext, Classical.choice, Quot.sound |
| `Verif.Life.C85_lost_refuted` | propext, Classical.choice, Quot.sound |
| `Verif.Life.C85_again_partial` | propext, Classical.choice, Quot.sound |
| `Verif.Life.C85_outputs_partial` | propext, Classical.choice, Quot.sound |
| `Verif.Life.C85_once_partial` | propext, Classical.choice, Quot.sound |
| `Verif.Life.C85_gather_partial` | propext, Classical.choice, Quot.sound |
| `Verif.Life.C85_text_refuted` | propext, Classical.choice, Quot.sound |
| `Verif.Life.C85_groups_refuted` | propext, Classical.choice, Quot.sound |
| `Verif.Life.C85_overwritten_refuted` | propext, Classical.choice, Quot.sound |
| `Verif.Life.C85_second_refuted` | propext, Classical.choice, Quot.sound |
| `Verif.Life.C85_kept_refuted` | propext, Classical.choice, Quot.sound |
| `Verif.RadonTool.C86_inline_partial` | propext, Classical.choice, Quot.sound |
| `Verif.RadonTool.C86_crossline_partial` | propext, Classical.choice, Quot.sound |
| `Verif.RadonTool.C86_grid_refuted` | propext, Classical.choice, Quot.sound |
| `Verif.RadonTool.C86_order_refuted` | propext, Classical.choice, Quot.sound |
| `Verif.FourDOut.C87_output_partial` | propext, Classical.choice, Quot.sound |
| `Verif.FourDOut.C87_zero_refuted` | propext, Classical.choice, Quot.sound |
| `Verif.FourDOut.C87_pairs_partial` | propext, Classical.choice, Quot.sound |
| `Verif.FourDOut.C87_fourdbin_partial` | propext, Classical.choice, Quot.sound |
| `Verif.FourDOut.C87_criterion` | propext, Classical.choice, Quot.sound |
| `Verif.FourDOut.C88_coords_partial` | propext, Classical.choice, Quot.sound |
| `Verif.FourDOut.C88_few_refuted` | propext, Classical.choice, Quot.sound |
| `Verif.FourDOut.C88_stuck_refuted` | propext, Classical.choice, Quot.sound |
| `Verif.FourDOut.C88_binning_partial` | propext, Classical.choice, Quot.sound |
| `Verif.FourDOut.C88_ends_partial` | propext, Classical.choice, Quot.sound |
| `Verif.FourDOut.C88_single_refuted` | propext, Classical.choice, Quot.sound |
| `Verif.Gen.C89_contiguous_partial` | propext, Classical.choice, Quot.sound |
| `Verif.Gen.C89_scattered_partial` | propext, Classical.choice, Quot.sound |
| `Verif.Gen.C89_scattered_refuted` | propext, Classical.choice, Quot.sound |
| `Verif.Gen.C89_lines_refuted` | propext, Classical.choice, Quot.sound |
| `Verif.Gen.C89_memory_refuted` | propext, Classical.choice, Quot.sound |
| `Verif.Flow.C90_operations_partial` | propext, Classical.choice, Quot.sound |
| `Verif.Flow.C90_ibm_refuted` | propext, Classical.choice, Quot.sound |
| `Verif.Flow.C90_dead_refuted` | propext, Classical.choice, Quot.sound |
| `Verif.Flow.C90_example_refuted` | propext, Classical.choice, Quot.sound |
| `Verif.Flow.C91_operations_partial` | propext, Classical.choice, Quot.sound |
| `Verif.Flow.C91_sort_partial` | propext, Classical.choice, Quot.sound |
| `Verif.Gen.C91_filemake_partial` | propext, Classical.choice, Quot.sound |
| `Verif.Gen.C91_scattered_refuted` | propext, Classical.choice, Quot.sound |
| `Verif.FourDOut.C91_binning_refuted` | propext, Classical.choice, Quot.sound |
| `Verif.Flow.C92_queue_partial` | propext, Classical.choice, Quot.sound |
| `Verif.Flow.C92_ibm_refuted` | propext, Classical.choice, Quot.sound |
| `Verif.Flow.C92_late_refuted` | propext, Classical.choice, Quot.sound |
| `Verif.Flow.C92_ignored_refuted` | propext, Classical.choice, Quot.sound |
| `Verif.Util.C93_copies_partial` | propext, Classical.choice, Quot.sound |
| `Verif.Util.C93_stale_refuted` | propext, Classical.choice, Quot.sound |
| `Verif.Util.C93_trailing_refuted` | propext, Classical.choice, Quot.sound |
| `Verif.Util.C93_default_refuted` | propext, Classical.choice, Quot.sound |
| `Verif.Util.C93_version_refuted` | propext |
| `Verif.Signal.C94_amplitude` | propext, Classical.choice, Quot.sound |
| `Verif.Signal.C94_linear` | propext, Classical.choice, Quot.sound |
| `Verif.Signal.C94_cosine` | propext, Classical.choice, Quot.sound |
| `Verif.Signal.C94_cosine_square` | propext, Classical.choice, Quot.sound |
| `Verif.Signal.C94_cosine_end` | propext, Classical.choice, Quot.sound |
| `Verif.Signal.C94_zero_refuted` | propext, Classical.choice, Quot.sound |
| `Verif.Signal.C95_gain_partial` | propext, Classical.choice, Quot.sound |
| `Verif.Signal.C95_agc_partial` | propext, Classical.choice, Quot.sound |
| `Verif.Signal.C95_quiet_refuted` | propext, Classical.choice, Quot.sound |
| `Verif.Signal.C95_loud_refuted` | propext, Classical.choice, Quot.sound |
| `Verif.Life.C96_files_partial` | propext, Classical.choice, Quot.sound |
| `Verif.Life.C96_ignored_refuted` | propext, Classical.choice, Quot.sound |
| `Verif.FourDSingle.C97_criterion_partial` | propext, Classical.choice, Quot.sound |
| `Verif.FourDSingle.C97_finite` | propext, Classical.choice, Quot.sound |
| `Verif.FourDSingle.C97_binning_partial` | propext, Classical.choice, Quot.sound |
| `Verif.FourDSingle.C97_zero_refuted` | propext, Classical.choice, Quot.sound |
| `Verif.FourDSingle.C97_partner_refuted` | propext, Classical.choice, Quot.sound |
| `Verif.KmlTool.C98_lines_partial` | propext, Classical.choice, Quot.sound |
| `Verif.KmlTool.C98_processes` | propext, Classical.choice, Quot.sound |
| `Verif.KmlTool.C98_markup_refuted` | propext, Classical.choice, Quot.sound |
| `Verif.KmlTool.C98_empty_refuted` | propext, Classical.choice, Quot.sound |
| `Verif.KmlTool.C98_degrees_refuted` | propext, Classical.choice, Quot.sound |
| `Verif.KmlTool.C98_dropped_refuted` | propext, Classical.choice, Quot.sound |
| `Verif.KmlTool.C98_nothing_refuted` | propext, Classical.choice, Quot.sound |
| `Verif.KmlTool.C98_unnamed_refuted` | propext, Classical.choice, Quot.sound |
| `Verif.KmlTool.C98_zone_refuted` | propext, Classical.choice, Quot.sound |
| `Verif.Signal.C99_nan_refuted` | propext, Classical.choice, Quot.sound |
| `Verif.Signal.C99_unstable_refuted` | propext, Classical.choice, Quot.sound |
| `Verif.Signal.C99_difference_partial` | propext, Classical.choice, Quot.sound |
| `Verif.Signal.C99_output_partial` | propext, Classical.choice, Quot.sound |
| `Verif.ConcatTool.C100_interval` | propext, Classical.choice, Quot.sound |
| `Verif.ConcatTool.C100_files_partial` | propext, Classical.choice, Quot.sound |
| `Verif.ConcatTool.C100_processes` | propext, Classical.choice, Quot.sound |
| `Verif.ConcatTool.C100_declined` | propext, Classical.choice, Quot.sound |
| `Verif.ConcatTool.C100_alone_refuted` | propext, Classical.choice, Quot.sound |
| `Verif.ConcatTool.C100_input_refuted` | propext, Classical.choice, Quot.sound |
| `Verif.ConcatTool.C100_ending_refuted` | propext, Classical.choice, Quot.sound |
| `Verif.ConcatTool.C100_shell_refuted` | propext, Classical.choice, Quot.sound |
| `Verif.ConcatTool.C100_options` | propext, Classical.choice, Quot.sound |
| `Verif.Options.C101_options` | propext |
| `Verif.Options.C101_letters` | propext |
| `Verif.Options.C101_number` | propext, Classical.choice, Quot.sound |
| `Verif.SortMain.C101_sort_options` | propext, Classical.choice, Quot.sound |
| `Verif.SortMain.C101_verify_options` | propext, Classical.choice, Quot.sound |
| `Verif.SortMain.C101_sort_partial` | propext, Classical.choice, Quot.sound |
| `Verif.SortMain.C101_type_refuted` | propext, Classical.choice, Quot.sound |
| `Verif.SortMain.C101_text_refuted` | propext, Classical.choice, Quot.sound |
| `Verif.SortMain.C101_missing_refuted` | propext, Classical.choice, Quot.sound |
| `Verif.SortMain.C101_verdict` | propext, Classical.choice, Quot.sound |
| `Verif.SortMain.C101_boundary_refuted` | propext, Classical.choice, Quot.sound |
| `Verif.SortMain.C101_ending_refuted` | propext, Classical.choice, Quot.sound |
| `Verif.Extremes.C102_extremes_partial` | propext, Classical.choice, Quot.sound |
| `Verif.Extremes.C102_negative_refuted` | propext, Classical.choice, Quot.sound |
| `Verif.Extremes.C102_empty_refuted` | propext, Classical.choice, Quot.sound |
| `Verif.Extremes.C102_share_refuted` | propext, Classical.choice, Quot.sound |
| `Verif.Extremes.C102_item_refuted` | propext, Classical.choice, Quot.sound |
| `Verif.Signal.C103_triangular_partial` | propext, Classical.choice, Quot.sound |
| `Verif.Signal.C103_one_refuted` | propext, Classical.choice, Quot.sound |
| `Verif.Signal.C103_agc_partial` | propext, Classical.choice, Quot.sound |
| `Verif.Signal.C103_nan_refuted` | propext, Classical.choice, Quot.sound |
| `Verif.Signal.C103_mean_partial` | propext, Classical.choice, Quot.sound |
| `Verif.Signal.C103_cancel_refuted` | propext, Classical.choice, Quot.sound |
| `Verif.Signal.C103_overflow_refuted` | propext, Classical.choice, Quot.sound |
| `Verif.Signal.C103_median_partial` | propext, Classical.choice, Quot.sound |
| `Verif.Signal.C103_pair_refuted` | propext, Classical.choice, Quot.sound |
| `Verif.Signal.C103_start_refuted` | propext, Classical.choice, Quot.sound |
| `Verif.RadonMain.C104_files_partial` | propext, Classical.choice, Quot.sound |
| `Verif.RadonMain.C104_interval_refuted` | propext, Classical.choice, Quot.sound |
| `Verif.RadonMain.C104_time_refuted` | propext, Classical.choice, Quot.sound |
| `Verif.RadonMain.C104_between_refuted` | propext, Classical.choice, Quot.sound |
| `Verif.RadonMain.C104_name_refuted` | propext, Classical.choice, Quot.sound |
| `Verif.RadonMain.C104_clash_refuted` | propext, Classical.choice, Quot.sound |
| `Verif.RadonMain.C104_ending_refuted` | propext, Classical.choice, Quot.sound |
| `Verif.RadonMain.C104_joined_partial` | propext, Classical.choice, Quot.sound |
| `Verif.RadonMain.C104_options` | propext, Classical.choice, Quot.sound |
| `Verif.Release.C105_same` | propext, Classical.choice, Quot.sound |
| `Verif.Release.C105_window` | propext, Classical.choice, Quot.sound |
| `Verif.Release.C105_wide_refuted` | propext, Classical.choice, Quot.sound |
| `Verif.Release.C105_muted_refuted` | propext, Classical.choice, Quot.sound |
| `Verif.Release.C105_quiet_refuted` | propext, Classical.choice, Quot.sound |
| `Verif.Release.C105_taper` | propext, Classical.choice, Quot.sound |
| `Verif.Release.C105_taper_refuted` | propext, Classical.choice, Quot.sound |
| `Verif.Release.C105_zero_refuted` | propext, Classical.choice, Quot.sound |
| `Verif.Release.C105_filter_refuted` | propext, Classical.choice, Quot.sound |
| `Verif.Release.C106_same` | propext, Quot.sound |
| `Verif.Release.C106_array` | propext, Quot.sound |
| `Verif.Release.C106_end_refuted` | propext, Quot.sound |
| `Verif.Release.C106_inside_refuted` | propext, Classical.choice, Quot.sound |
| `Verif.Release.C106_large_refuted` | propext, Classical.choice, Quot.sound |
| `Verif.Release.C106_corner_refuted` | propext |
| `Verif.Release.C106_programs` | propext, Classical.choice, Quot.sound |
| `Verif.Release.C106_concat_refuted` | propext, Classical.choice, Quot.sound |
| `Verif.Release.C106_sort_refuted` | propext, Classical.choice, Quot.sound |
| `Verif.Release.C106_verify_refuted` | propext, Classical.choice, Quot.sound |
| `Verif.FourDMain.C107_options` | propext, Classical.choice, Quot.sound |
| `Verif.FourDMain.C107_number` | propext, Classical.choice, Quot.sound |
| `Verif.FourDMain.C107_limit` | propext, Classical.choice, Quot.sound |
| `Verif.FourDMain.C107_limit_refuted` | propext, Classical.choice, Quot.sound |
| `Verif.FourDMain.C107_nonumber` | propext, Classical.choice, Quot.sound |
| `Verif.FourDMain.C107_files_partial` | propext, Classical.choice, Quot.sound |
| `Verif.FourDMain.C107_ends_partial` | propext, Classical.choice, Quot.sound |
| `Verif.FourDMain.C107_missing` | propext, Classical.choice, Quot.sound |
| `Verif.FourDMain.C107_input_refuted` | propext, Classical.choice, Quot.sound |
| `Verif.FourDMain.C107_twice_refuted` | propext, Classical.choice, Quot.sound |
| `Verif.FourDMain.C107_tmp_refuted` | propext, Classical.choice, Quot.sound |
| `Verif.FourDMain.C107_record_partial` | propext, Classical.choice, Quot.sound |
| `Verif.FourDMain.C107_record_refuted` | propext, Classical.choice, Quot.sound |
| `Verif.FourDMain.C107_over_refuted` | propext, Classical.choice, Quot.sound |
| `Verif.ExampleMain.C108_example_last` | propext, Classical.choice, Quot.sound |
| `Verif.MinMaxMain.C108_options` | propext, Quot.sound |
| `Verif.MinMaxMain.C108_status` | propext, Classical.choice, Quot.sound |
| `Verif.MinMaxMain.C108_files_partial` | propext, Classical.choice, Quot.sound |
| `Verif.MinMaxMain.C108_interval_refuted` | propext, Classical.choice, Quot.sound |
| `Verif.MinMaxMain.C108_missing_refuted` | propext, Classical.choice, Quot.sound |
| `Verif.MinMaxMain.C108_empty_refuted` | propext, Classical.choice, Quot.sound |
| `Verif.MinMaxMain.C108_input_refuted` | propext, Classical.choice, Quot.sound |
| `Verif.MinMaxMain.C108_example_partial` | propext, Classical.choice, Quot.sound |
| `Verif.MinMaxMain.C108_letter_refuted` | propext, Classical.choice, Quot.sound |
| `Verif.MakeMain.C109_filemake_options` | propext, Classical.choice, Quot.sound |
| `Verif.MakeMain.C109_interval` | propext, Classical.choice, Quot.sound |
| `Verif.MakeMain.C109_filemake_status` | propext, Classical.choice, Quot.sound |
| `Verif.MakeMain.C109_filemake_partial` | propext, Classical.choice, Quot.sound |
| `Verif.MakeMain.C109_ignored_refuted` | propext, Classical.choice, Quot.sound |
| `Verif.MakeMain.C109_release_refuted` | propext, Classical.choice, Quot.sound |
| `Verif.MakeMain.C109_makerep_options` | propext, Classical.choice, Quot.sound |
| `Verif.MakeMain.C109_makerep_status` | propext, Classical.choice, Quot.sound |
| `Verif.MakeMain.C109_makerep_partial` | propext, Classical.choice, Quot.sound |
| `Verif.MakeMain.C109_version_refuted` | propext, Classical.choice, Quot.sound |
| `Verif.MakeMain.C109_zero_refuted` | propext, Classical.choice, Quot.sound |
| `Verif.MakeMain.C109_inplace_refuted` | propext, Classical.choice, Quot.sound |
| `Verif.Signal.C110_bins_partial` | propext, Classical.choice, Quot.sound |
| `Verif.Signal.C110_tone_partial` | propext, Classical.choice, Quot.sound |
| `Verif.Signal.C110_constant_partial` | propext, Classical.choice, Quot.sound |
| `Verif.Signal.C110_linear_partial` | propext, Classical.choice, Quot.sound |
| `Verif.Signal.C110_plan_refuted` | propext, Classical.choice, Quot.sound |
| `Verif.Signal.C110_first_refuted` | propext, Classical.choice, Quot.sound |
| `Verif.Signal.C110_phase_refuted` | propext, Classical.choice, Quot.sound |
| `Verif.Signal.C110_traces_partial` | propext, Classical.choice, Quot.sound |
| `Verif.Signal.C110_only_partial` | propext, Classical.choice, Quot.sound |
| `Verif.Flow.C111_files_partial` | propext, Classical.choice, Quot.sound |
| `Verif.Flow.C111_lost_refuted` | propext, Classical.choice, Quot.sound |
| `Verif.Assess.C112_assess_partial` | propext, Classical.choice, Quot.sound |
| `Verif.Assess.C112_assess_status` | propext, Classical.choice, Quot.sound |
| `Verif.Assess.C112_rest_refuted` | propext, Classical.choice, Quot.sound |
| `Verif.Assess.C112_short_refuted` | propext, Classical.choice, Quot.sound |
| `Verif.Assess.C112_negative_refuted` | propext, Classical.choice, Quot.sound |
| `Verif.Assess.C112_division_refuted` | propext, Classical.choice, Quot.sound |
| `Verif.Assess.C112_cropen_partial` | propext, Classical.choice, Quot.sound |
| `Verif.Assess.C112_once_refuted` | propext, Classical.choice, Quot.sound |
| `Verif.Assess.C112_unique_refuted` | propext, Classical.choice, Quot.sound |
| `Verif.Assess.C112_missing_refuted` | propext, Classical.choice, Quot.sound |
| `Verif.Assess.C112_cropen_status` | propext, Classical.choice, Quot.sound |
| `Verif.TraceTool.C113_options` | propext, Classical.choice, Quot.sound |
| `Verif.TraceTool.C113_shown_partial` | propext, Classical.choice, Quot.sound |
| `Verif.TraceTool.C113_line_refuted` | propext, Classical.choice, Quot.sound |
| `Verif.TraceTool.C113_last_refuted` | propext, Classical.choice, Quot.sound |
| `Verif.TraceTool.C113_missing_refuted` | propext, Classical.choice, Quot.sound |
| `Verif.TraceTool.C113_beyond_refuted` | propext, Classical.choice, Quot.sound |
| `Verif.TraceTool.C113_minus_refuted` | propext, Classical.choice, Quot.sound |
| `Verif.ExampleMain.C114_modprm_partial` | propext, Classical.choice, Quot.sound |
| `Verif.ExampleMain.C114_turn_partial` | propext, Classical.choice, Quot.sound |
| `Verif.ExampleMain.C114_make_partial` | propext, Classical.choice, Quot.sound |
| `Verif.ExampleMain.C114_missing` | propext, Classical.choice, Quot.sound |
| `Verif.ExampleMain.C114_letter_refuted` | propext, Classical.choice, Quot.sound |
| `Verif.ExampleMain.C114_value_refuted` | propext, Classical.choice, Quot.sound |
| `Verif.ExampleMain.C114_same_refuted` | propext, Classical.choice, Quot.sound |
| `Verif.CopyMain.C115_copy_partial` | propext, Classical.choice, Quot.sound |
| `Verif.CopyMain.C115_missing` | propext, Classical.choice, Quot.sound |
| `Verif.CopyMain.C115_limit` | propext, Classical.choice, Quot.sound |
| `Verif.CopyMain.C115_flag_refuted` | propext, Classical.choice, Quot.sound |
| `Verif.CopyMain.C115_small_refuted` | propext, Classical.choice, Quot.sound |
| `Verif.CopyMain.C115_same_refuted` | propext, Classical.choice, Quot.sound |
| `Verif.KmlMain.C116_files_partial` | propext, Classical.choice, Quot.sound |
| `Verif.KmlMain.C116_help` | propext, Classical.choice, Quot.sound |
| `Verif.KmlMain.C116_missing` | propext, Classical.choice, Quot.sound |
| `Verif.KmlMain.C116_zone` | propext, Classical.choice, Quot.sound |
| `Verif.KmlMain.C116_unknown_refuted` | propext, Classical.choice, Quot.sound |
| `Verif.KmlMain.C116_same_refuted` | propext, Classical.choice, Quot.sound |
| `Verif.CLayout.C117_layout_partial` | propext, Classical.choice, Quot.sound |
| `Verif.CLayout.C117_rest_refuted` | propext, Classical.choice, Quot.sound |
| `Verif.CLayout.C117_wide_refuted` | propext, Classical.choice, Quot.sound |
| `Verif.CLayout.C117_short_refuted` | propext, Classical.choice, Quot.sound |
| `Verif.CLayout.C117_set_refuted` | propext, Classical.choice, Quot.sound |
| `Verif.CLayout.C117_number_refuted` | propext, Classical.choice, Quot.sound |
