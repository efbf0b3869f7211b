# Formal model of PIGO in Lean 4 — design

Source modelled: `/repo/include/pigo.hpp`, `/repo/include/pigo/*.hpp`, `/repo/include/pigo/impl/*.hpp`
(GT-TDAlab/PIGO, pinned commit).  All paths below are relative to `/repo/include/pigo` unless stated.
The code is read as text only; nothing is built or run.

## 1. Trusted base

* Lean 4.33.0's kernel.  Theorems may depend on `propext`, `Classical.choice`, `Quot.sound` only
  (checked with `#print axioms` / vcheck).  No own axioms, no `native_decide`, no `bv_decide`.
* The reading of the C++ code that the model embodies.  Each definition cites file and lines.
* Modelling assumptions (each is also stated where it is used):
  * **Threads.**  An OpenMP parallel region is a team of `T ≥ 1` threads; `T` is the same in every region
    of one call (`omp_set_dynamic(0)`).  Shared memory is sequentially consistent at the granularity of
    single array-element stores and atomic updates; a region is *any interleaving* of the threads' action
    lists (`Interleave`), a barrier ends one interleaving and starts the next.  For race-free phases this is
    justified by DRF-SC; for racy phases (found bugs) the model exhibits some of the behaviours.
    Iterations of `omp for` may be given to threads in any way (any list of lists whose concatenation is a
    permutation of the iteration space), except in `write`, where the code itself relies on the two loops
    having the same contiguous (static) assignment.
  * **Memory.**  `malloc`ed memory has arbitrary content: allocation takes a `junk` oracle over which theorems
    quantify.  An out-of-range element store/load is the distinct outcome `Fault.oob` (UB).
  * **mmap.**  A mapped file of `size` bytes is followed by `pad` readable zero bytes, `pad` being what is left
    of the last page; the next byte is unmapped (`Fault.oob`).
  * **Integers.**  `Label`/`Ordinal` are unsigned with a width parameter; wrap-around is modelled where values
    enter the types (`read_int`, `max+1`, `m_ =`).  `size_t` arithmetic (`tid*size`) is unbounded; `Model/Wide`
    (C93) has the binary formats and the splits in 64 bits, and compares.  Positions are unbounded naturals:
    forming a pointer outside of the mapping (`d + s.size()`, `operator+`) is not a fault, dereferencing it is.
    Signed integers are modelled for weights, printing, and (C98) labels and ordinals of text files (lists of entries, Matrix Market, .graph, tensors), DiGraph, Matrix, neighbors, new_csr_without_dups and max_labels.
  * **Endianness.** Little endian (x86-64/aarch64) for the binary formats.
  * **Floating point.**  `read_fp` is modelled over an abstract arithmetic: its value theorem (C66) is for exact
    rationals, and C76 instantiates it with IEEE binary64.  In `stbsp_to_chars` (`Model/Stb`, C67) the
    double-double step producing the decimal significand is a parameter; `Model/StbFp` models that step itself
    (tables, the `stbsp__ddmulthi`/`ddrenorm` macros, `stbsp_raise_to_power10`) over rationals with an explicit
    rounding after every operation, and C75 is about the composition.  Assumptions: every `double` operation is
    binary64 rounded to nearest (any tie breaking, so round-to-even is one instance), no contraction to fused
    multiply-add, no excess precision; `std::pow(10, k)` exact for `k <= 22` (needed for k = 6 only).
* `Tests/*` (no claims of their own): the project's tests of its reader, COO, CSR and Tensor, with its own data files (`Tests/Data`),
  evaluated in the model or derived from the general theorems for every number of threads and schedule. They support the
  reading of the code: what the authors check of the program holds of the model.
* In most of the models memory suffices, system calls other than the `mmap` of an empty file succeed, and an
  exception reaches the caller.  `Model/FileRes` (C90) lets every system call of `File` fail, `Model/Fail` (C91, C92)
  lets allocations and the creation of the output file fail and ends the process where an exception leaves an
  OpenMP region; both are proved equal to the other models where nothing fails.
* Not modelled: the OpenMP runtime, performance, `O_DIRECT`, strict aliasing of `*(T*)fp` (its alignment is C94), `std::to_string` fallbacks for
  non-arithmetic types, the copy in `release/pigo.hpp` (the script that makes it is C100), the prose of the docs.

## 2. Model layout (`lean/Verif`)

| module | models |
|---|---|
| `Tests/*` | the project's own tests as checks of the model |
| `Base/*` | faults, interleavings and the commutation theorem, block distribution, nondeterministic results |
| `Model/Reader` | `FileReader` (pigo.hpp 51–264, impl/pigo.impl.hpp 306–511) on a mapped file, index based |
| `Model/FindOffsets` | `FileReader::find_offsets` |
| `Model/FileRes`, `Model/Fail` | `File` with failing system calls; loaders and writers with failing allocations and OpenMP regions |
| `Model/Align`, `Model/Sizes` | alignment of header accesses; setters and size functions |
| `Model/Wide`, `Spec/Wide` | binary loaders and savers with sizes modulo 2^64; headers of binary files |
| `Model/Ascii` | `write_size`, `write_ascii` for integers, `read_sign` |
| `Model/Fp`, `Model/FpDouble` | `read_fp` over an abstract arithmetic; its instance for IEEE doubles |
| `Model/Stb`, `Model/StbFp` | `stbsp_to_chars`: integer part; double-double part |
| `Model/Coo` | `read_wgt_`, `read_coord_entry_`, `read_el_`, `read_mm_` |
| `Model/Csr`, `Model/CsrOps` | `convert_coo_`, `convert_csr_`; `sort`, `new_csr_without_dups`, copies |
| `Model/Binary` | `save` and `read_bin_` of COO, CSR, Tensor, Graph; `parallel_read/write` |
| `Model/Dispatch` | `guess_file_type`, `File` open/seek errors, dispatch by file type |
| `Model/Write` | the ASCII writers of COO and Tensor |
| `Model/Tensor` | `Tensor::read_el_`, `max_labels` |
| `Model/Graph` | `BaseGraph`, `Graph`, `DiGraph`, `Matrix` |
| `Model/GraphFile` | `CSR::read_graph_` |
| `Model/Life`, `Model/LifeCsr` | storage life cycle of COO/Tensor, CSR, DiGraph and Matrix objects |
| `Model/Examples` | `main` of `docs/examples/*.cpp` |
| `Model/FileObj` | `File` objects: move, destruction, unmapping |
| `Spec/*` | small independent specifications (lines, integers of a line, rows of a matrix, file layouts, doubles) |
| `Lemmas/*` | proofs |
| `Props/*` | the property theorems, each with a concrete instance meeting its hypotheses |

Simplifications that are visible in the definitions' comments as well: products of ordinals narrower than `int` are exact (`inOrd`, `twice`): a product of 16-bit ordinals of 2^31 or more, which overflows `int`, is not modelled; `n_+1` is computed in the label type (or `int` for narrower
ones) and wraps there, in `convert_coo_`, `new_csr_without_dups`, `read_graph_` and `neighbor_end`;
the life-cycle models take `order*m` unbounded and `malloc` never fails; constructors that throw half-way are
not part of the life-cycle histories.

Technique: the executable model is index based and monadic (`Except Fault`), close to the C++ text.  A bridge
shows that on a readable buffer each reader operation equals a function on the remaining byte list; the format
theorems are then inductions over lines.  Parallel phases are lists of store actions per thread; the
commutation theorem reduces every interleaving of conflict-free threads to their concatenation.

## 3. Plan per property

(`N` = the code violates the property; the negation is proved with a witness and the largest true part as `_partial`.)

* C01–C06 reader primitives: bridge lemmas + list induction.  C02/C03: induction on the number of digits.
* C07 `N` (an occurrence at offset 0 is lost): model of both passes, exact result proved for all T, negation by witness.
* C08–C16 edge lists: lines induction; region = consecutive lines; interleavings by commutation.
* C17 `N` (dropped line writes its weight to the next slot, possibly past the array).
* C18 `N` (last entry is left uninitialised without trailing newline).
* C19 `N` (one byte past the mapping is read if the size is a multiple of the page size).
* C20 width boundary of `read_el_`.
* C21, C22 Matrix Market (C22 violated for the largest label, whose successor wraps); C23 `N` (nnz check after filtering; with `symmetric` any weight kind loads, but in a file that is not square the mirrored columns can lie outside of `ncols()`). Weights may stand among other text (`Spec.entryInS`, `entryInF`, `Lemmas/FreeText`: the labels are the first two integers, the weight the first number after them): C16, C21, C22, C81, C85.
* C24–C26 conversion COO→CSR: invariant over every interleaving of capture/store steps.
* C27, C28, C30 CSR→COO; C29 `N` (diagonal doubled), C31 `N` (nrows/ncols indeterminate), C68 `N` (dangling weights copy).
* C32–C36 sort and duplicate removal.
* C37–C42 binary layouts, C43 `N`.  C44 chunk arithmetic + interleavings.  C45 case analysis on magics.
* C46–C49 ASCII writers: offsets by prefix sums, then composition with the readers.  C50 `N`.
* C51–C53 tensors.  C54, C56, C57 graph and matrix facades.  C55 `N` for nrows/ncols.
* C58–C62 `.graph`; C59, C60 `N`, C61 `N` in presence of comments with digits.
* C63 life cycle invariant over histories; C64, C65 `N`.
* C66 value of `read_fp`: induction over the digits, over exact rationals.  C67 shape of the printed number:
  induction over the digit loops of `stbsp_to_chars`, for every answer of the floating point step.
* C69 open/seek.  C70 copies; violated for Tensors whose ordinal type has 8 or 16 bits and cannot count their coordinates (the loop of the copy never ends).
* C71, C72 `N` remaining `.graph` facts (declared counts; comments in the body, non-termination). Quiet comments (`Spec/GraphComments`): both passes
  of `read_graph_` are shown to do the same on a file and on the same file with blanks for the comments (`Lemmas/GraphBlank*`).
* C73 no leaks of COO/Tensor: the same invariant as C63 with a converse.  C74 DiGraph/Matrix construction: execution
  of the storage operations of `read_`/`from_coo_`.
* C75 accuracy of printed doubles: error analysis of the double-double multiplication with the constants of the four
  tables (each verified against the exact power of ten), every finite exponent; exactness for multiples of 1/64 and integers.
* C76 printing and reading back doubles: C75 composed with `read_fp` over IEEE binary64.
* C77 `N` CSR from an edge list file: C08 composed with C24; the wrap of `n_+1` at the largest label.
* C78–C80 `N` example programs (`Model/Examples`): composition of C08/C12–C15, C24, C34 or C32, C27, C46; binary search by induction.
* C81 files across classes (`Props/CrossFile`): composition of the loader theorems (C08/C16, C21, C37, C38, C28) with C24 and C54/C56; dimensions of a Matrix from a saved CSR violated (C31).
* C82 arbitrary text (`Lemmas/Robust`, `Props/Robust`): both passes over any bytes not ending in a digit find the same entries (induction over the remaining bytes), so every allocated entry is stored; then C24/C54/C56. The same for `.mtx` files: the header scanner on arbitrary bytes, then the checks. Violated for a file ending in a digit (C18) and for the largest label of the type, where CSR(fn) writes outside of its arrays.
* C83 arbitrary `.graph` text (`Lemmas/GraphAny`–`GraphAny5`, `Props/GraphAny`): `move_to_next_int_or_nl` as a function `nextL` on the remaining bytes, which is a proper suffix unless the text ends with a comment sign; a relation `Walk` for what both passes visit, hence bounds on every store; with no comment sign directly after a digit both passes visit the same tokens and the stores are those of a list of rows, whatever the interleaving. Violations: the hang (for every file ending with a comment sign), the race, the page size.
* C84 exceptions (`Model/Throw`, `Spec/Throw`, `Lemmas/Throw*`, `Props/Throw`): the loaders again over a monad of outcomes paired with the blocks still allocated; forgetting the blocks gives the loaders of the other properties (`C84_same_outcomes`, proved for all of them); a small Hoare logic for what is left after success and after an exception. Violated with raw pointers (the default storage) for rejected `.graph` files, for unimplemented flags on a CSR file loaded as a COO and for DiGraph files with a bad second half. Not tracked: empty (`malloc(0)`) blocks, working arrays local to one function, failing allocations.
* C85 data races (`Spec/Race`, `Model/Race`, `Lemmas/Race*`, `Props/Race`): every function with a parallel region again, with the list of memory accesses of each step (array name in the source, index, read/write/atomic); `Spec.Race` says two threads of a region make conflicting accesses in some interleaving. Forgetting the accesses gives back the functions of the other properties (`C85_same_…`). The lists of accesses are not taken on trust: `drf` also requires `Spec.Accounted`, that the shared state of a region consists of its memory locations, that a step changes only locations it is said to write, and that its effect depends only on those it is said to read (`Lemmas/RaceFoot`); the exceptions are regions whose only shared store is `array[tid] = …` at the end of a pass (`D.touch`). Race freedom per region from disjoint index intervals of the threads (prefix sums of pass 1), per-iteration indices, or the captured positions of the scatter (an invariant over interleavings). Violated: weights of removed lines (C17), bits of `std::vector<bool> have_zeros` in the `.graph` loader, a comment sign glued to a number in a `.graph` file (C83), CSRs with decreasing offsets. Not in the accesses: reads of memory that no thread of the region writes, thread-private variables, OpenMP reductions, and `std::sort` beyond the range it is given.
* C86 `N` tensors out of arbitrary or cut text (`Lemmas/TensorAny`, `TensorTail`, `TensorCut`, `TensorTorn`, `Props/TensorText`): what both passes read as functions of the remaining bytes (`takeInts`, `tScan`); the parts of the threads of a file with a text behind its last newline; an entry that is begun but not completed is stored and not counted, so it overflows the array (last entry) or races with the next thread. With weights of every kind (`Lemmas/TensorSafe`, `Props/TensorWeighted`): any bytes, no read outside. The weight of a complete last line without newline is read as before a newline, for every kind of weight (`Lemmas/LastWeight`: a text and the same text with a newline behind it give the same number).
* C87 every operation has an outcome (`Props/Total`): structural, over the nondeterminism monad; a fault and a hang (`fuel`) count as
  outcomes.
* C88 `N` weighted edge lists out of arbitrary or cut text (`Lemmas/Weighted*`, `Spec/Weighted`, `Props/WeightedText`): the counting pass and the setting pass of `read_coord_entry_` (no flags, unsigned weights) as scans of the remaining bytes; pass 1 counts every line with two numbers, pass 2 stores the weight before it checks that there are bytes left, so a number alone at the end stores one weight past the array and a last entry that ends with the file keeps uninitialised labels. With flags and the other kinds of weights (`Lemmas/WeightedFlags*`, `Props/WeightedFlags`): every read stays inside of the file, the stores are fixed before the first of them is made, so that all schedules end alike. Files cut within an entry with a floating point weight: `Lemmas/WeightedCutAny`, `Spec/WeightedCut`, `Props/WeightedCutFp` (the same scans for any kind of weight whose reader is total); with a signed weight, if the numbers in the file fit the type (`Lemmas/SintAny`, `Props/WeightedCutInt`).
* C89 interrupted saves (`Model/Crash`, `Spec/Crash`, `Lemmas/Crash*`, `Props/Crash`): every `save` and `write` again as a pair of its outcomes and the set of contents the file has at some moment (after any number of the stores of any interleaving); the erasure to the functions of `Model/Binary` and `Model/Write` is proved. By composition of segments (`Obs.Seg`) every moment is `Interrupted`; loading of torn files by slices of the mapped bytes. `C89_*_violated`: old contents lost, headers without contents load silently, blank files load as edge lists without entries. Trusted: stores to a `MAP_SHARED` mapping made before the end of the process are in the file (a stop of the whole machine is not modelled, but `Torn` allows any subset of the bytes). `C89_every_prefix` (`Lemmas/CrashReach`): each prefix of the new file does occur. Unfinished DiGraph files (`Props/CrashGraph`): every state is a cut in a header, or a complete header with untouched bytes behind the arrays being written; loading gives `Error`, or two graphs of which the unfinished one is no larger than that saved or has no edges. Type found out automatically (`Props/CrashAuto`): a cut name of the format is rejected from its 4th byte on, before that the file is a list without entries.
* C90 descriptors and mappings (`Model/FileRes`, `Props/FileRes`): `File` again with the descriptors and mappings of the process as state, each system call may fail or exhaust a limit; exact account after every constructor and every history of uses. Violated: the constructor throws without `fclose`, so each failed open loses a descriptor until opening is no longer possible.
* C91 failures reach the caller (`Model/Fail`, `Lemmas/Fail`, `Props/Fail`): the loaders and writers over a monad that can also end the process; a parallel region turns an exception of its body into that end when compiled with OpenMP. A simulation (`Tracks`) shows that the loaders then end exactly as those of C84, because no region of a loader throws. Violated by `write`, which constructs the `File` inside the region: an empty object or a file that cannot be created ends the process.
* C92 memory (`Props/Memory`): the same loaders with failing allocations; soundness by the same simulation, no end of the process without OpenMP or for binary files, nothing left with managed storage. Violated: text loaders allocate inside the region (process ends); with raw pointers, and in `CSR::read_` and `convert_coo_` with any storage, arrays are left. Saved binary DiGraphs (`Props/MemoryGraph`): nothing ends the process, nothing is left with managed storage; violated with raw pointers.
* C93 64-bit sizes (`Model/Wide`, `Props/Wide`): the binary loaders and savers and the splits of the text readers with sizes modulo 2^64; the same outcomes as in unbounded arithmetic when the sizes are below 2^63 (every storage), or for any header with managed storage up to an exception (COO, CSR). Violated: raw pointers (`malloc(sizeof*n)` wraps) and, with every storage, tensors (`order*m` wraps in the ordinal type).
* C94 alignment (`Model/Align`, `Props/Align`): the header accesses `*(T*)fp` with the C++ condition on the address. Sound with respect to the loads without it; the same for one-byte types and for tensors with weights (16 bytes precede the fields). Violated: every load and save of COO, CSR (labels of 2, 4, 8 bytes) and of tensors without weights. DiGraph files (`Props/AlignGraph`): exact criterion by the alignment of both headers; violated for labels of 2, 4, 8 bytes. One-byte labels: `Props/AlignExact` (COO aligned for all ordinals, CSR for ordinals of 1 or 2 bytes, violated for 4 or 8), for files and saves.
* C95 sizes (`Model/Sizes`, `Props/Sizes`): `set_n`, `set_nrows`, `set_ncols` and the CSR built after them, through C24/C25; size functions of DiGraph and Matrix, which convert to the ordinal type. Violated: `set_n` at most some label (undefined), ordinals narrower than the number of vertices or rows (truncated).
* C96 tutorial program (`Model/Programs`, `Spec/Programs`, `Props/Programs`): `readVec`/`writeVec` over the modelled `read`, `parallel_read`, `parallel_write`; exact outcome for every file content. Violated: a truncated file is not noticed (zeros within the mapping, a read outside of it beyond).
* C97 README program (same files): the set of its outputs on an edge list is characterised exactly by the interleavings of the last loop of `convert_coo_` (`convertAt`, `convertCoo_out` in `Lemmas/CsrConvert`). Proved for one thread and up to the order otherwise; violated: with two threads the order of the file is not kept (`toy.el` can print 5 9 4). `operator<<` of `ostream` is trusted to print decimal.
* C98 signed label and ordinal types (`Model/Signed`, `Lemmas/Signed`, `Lemmas/SignedText`, `Props/Signed`): the text loaders, `convert_coo_` and find_edge.cpp again with `wrapS` (overflow is a fault) in place of `wrapU`; simulation: every outcome is an overflow or one of the unsigned model; no overflow if labels + 1 (CSR: + 2) and counts fit. Violated: a label the type can hold but whose successor it cannot overflows in every execution (`max_row+1`, `n_+1`, `col_max+1`). `Model/SignedFiles`, `Spec/Small`, `Lemmas/SignedFiles`, `Lemmas/SignedSmall*`, `Props/SignedFiles`: the same simulation for .graph files (CSR, and COO through `convert_csr_`), tensors and `max_labels`; for arbitrary bytes in which every string of digits denotes a small number (`Spec.SignedFit`) the signed loaders are equal to the unsigned ones (`Agree`: equal plans with a bound, induction on the digits, the positions and the threads). `Model/SignedGraphs`, `Props/SignedGraphs`: DiGraph, Matrix, neighbors, degree, new_csr_without_dups in the same way. Binary loading and the remaining operations with signed types are not modelled.
* C99 cleaning tutorial (`cleanWith` in `Model/Programs`, `Spec/Cleaner`, `Props/Cleaner`): the program of C78 for every combination of the flags, against the set `Spec.Cleaned`; the run shown in the tutorial and its directed variant for every thread count. Violated: a graph whose cleaned version is empty gives an error instead of an empty file.
* C100 single-header release (`Model/Release`, `Spec/Release`, `Lemmas/Release`, `Props/Release`): generate_release.py line by line over texts as lists of characters, with an abstract file system; the specification is the text with own includes expanded (`expand`), its namespace lines (`inside`) and the lines compiled under given macros (`active`). Induction on the nesting and the lines. Violated: a file included from two places is reported as a loop; conditional includes (`#ifdef _OPENMP`, omp.h) become unconditional.
* C101 programs over the API (`Model/Session`, `Spec/Session`, `Lemmas/Session*`, `Props/Session`): programs are typed sequences of operations, each with its threads, run by chaining the modelled functions; the specification is a relation on abstract graphs (`Net`, `Step`, `Does`) and when an object holds a graph (`Is`). One lemma per operation from the theorems about it, then induction on the program with the bounds (`Ready`) as invariant; independence of threads and schedules from `Does` being a function up to the order of the edges. `Spec/SessionLoad`, `Props/SessionLoad`: the same with the first object loaded from an edge list with or without weights, a Matrix Market file or a `.graph` file. `Spec/SessionSort`, `Props/SessionSort`: after a final sort the rows are ordered, and a graph has only one sorted CSR, hence the same arrays for all threads and schedules. `Model/SessionRetype`, `Spec/SessionRetype`, `Props/SessionRetype`: programs in parts (`Long`, indexed by the types at its ends), with the conversions of C102 between the parts; induction on the parts, with the number of vertices and the peak number of edges as the bounds. `Model/SessionTensor`, `Spec/SessionTensor`, `Props/SessionTensor`: programs over tensors, each operation having the given tensor as its only outcome.
* C102 conversions between template types (`Model/Retype`, `Spec/Retype`, `Lemmas/Retype*`, `Props/Retype*`): the conversions again with the narrowing of every assigned value explicit; `convertCooTo` and `convertCsrTo` are shown to be the conversions of equal types on the source cast to the new types, `withoutDupsTo` is related to `withoutDups` step by step. Violated: nothing is reported: labels and counts are silently truncated (edges move to other vertices or get lost), duplicates are removed with stores outside of the arrays when there are 2^nlw rows or more, and a weighted result from an unweighted CSR reads weights that do not exist.
* C103 copies and storage types (`Model/Alias`, `Spec/Alias`, `Lemmas/Alias*`, `Props/Alias`): a heap of blocks with owner counts, slots that are raw pointers, `shared_ptr`s or `vector`s, histories over objects of all classes. Invariant: the counts are the numbers of references and exactly the referenced blocks are allocated; where no block is shared (vectors; COOs and Tensors), objects are plain data (`vrun`). Families of objects that may share are specified syntactically. Violated: CSR, DiGraph and Matrix have no copy operations of their own, so that with raw pointers or `shared_ptr`s the copy and the original are one.
* C104 infinities and NaNs in text (`Lemmas/FpAny`, `Lemmas/WeightedStored`, `Lemmas/Special*`, `Spec/Special`, `Props/Special`): `read_fp` as a function on any text (`fpL`), the loader's two passes over lines whose weights are literals, `-word` or `word`; pass 1 counts every line, pass 2 takes the first label of the next line for the weight of an `Inf`/`NaN` line. Exact outcome in every execution (`C104_exact`); kept if all such weights have a minus sign (`C104_signed`); violated otherwise. Tensors (`Props/SpecialTensor`): concrete tensors of two entries, written and loaded: an entry vanishes, or is stored out of bounds.
* C105 loops over neighbors and storage types (`Model/EdgeIter`, `Spec/EdgeIter`, `Lemmas/EdgeIter`, `Props/EdgeIter`): the heap of C103; iterators are copies of the storage variable made through by-value parameters. The loop is proved by induction over the positions with an invariant for the body (so that bodies may loop themselves); programs that mix operations and loops keep the invariant of C103. Violated: with `vector`s assignments reach a copy only; with raw pointers a kept iterator dangles after `free()`.
* C106 several objects in one file (`Model/Container`, `Spec/Container`, `Props/Container`): a record is a CSR with template parameters of its own, an unsigned value, a string or a block of memory; `put`/`get` call the modelled `CSR::save(File&)`, `write`, `parallel_write` and their readers. Proved by induction over the records: what is written so far is a prefix of the file and the position is its length; what is still to be read starts at the position. Fails for a string ending at the end of the file (`C106_string_at_end_violated`): `at_str` wants one more byte. Alignment of the values is left to C94.
* C107 using graphs loaded from `.graph` files (`Spec/Loose`, `Lemmas/Loose`, `Props/GraphUse`): the arrays may hold more than `n` rows. A simulation carries every successful execution on the first `n` rows to one on the longer arrays (loads succeed with the same values, stores stay inside, the extra elements are untouched), so the theorems on valid CSR objects apply. Fails for 1-based files loaded as COO, DiGraph or Matrix (`_violated`): the entries of the last vertex are not copied, the memory there is read uninitialised, and label `n` indexes past the degree array.
* C43 exact (`Spec/Cut`, `Props/Cut`): the end of the file according to its header decides between `All` (loaded as the mapped bytes say) and `Outside` (every execution is out of bounds); also gives what a COO without entries can leave after an interrupted save. `Props/CutGraph`: DiGraph files, by reading the second half in the file without the first (`ShiftTo`).

No listed property is left out as inexpressible; each is modelled at least in part.
