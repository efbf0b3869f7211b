NOTES={
'C88':'Any bytes, flags and kind of weights (unsigned, signed, floating point), also loaded as Matrix Market: no read outside, termination, one size in every schedule, or a store outside of the arrays in every schedule. What is stored: no flags, unsigned weights (C88_cut_entry_rest) floating point weights with any arithmetic (C88_float_cut_entry_rest) and signed weights in files whose numbers fit the type (C88_signed_cut_entry_rest): of a file cut anywhere within its last entry every complete entry is stored in place, in every execution, and the sizes are theirs. Violated: a number alone at the end (cut file) stores outside of w_ with any number of threads; an entry cut before or right after its weight has uninitialised labels (impl/coo.impl.hpp 299-316 stores w_ before the good() check and returns before the labels); a file without weights yields half of the entries and uninitialised labels for the rest.',
'C87':'std::sort needs a strict weak order of the weights (C87_operations); everything else without hypotheses besides at least one thread.',
'C86':'Any bytes: no read outside, termination, consistent sizes or a store outside of c_ in every execution (unweighted); determinism with one thread; lone number at the end ignored (every format); complete last line without newline loaded (weights of every kind: C86_last_line, C86_weighted_last_line, C86_signed_last_line, C86_float_last_line). Violated: last line without newline, or with too few numbers, overflows c_ in every execution with any thread count (impl/tensor.impl.hpp 79-95: coordinates are stored before the entry is known to be complete); a short line inside the file makes two threads write the same places. With weights of every kind and any bytes: no read outside, every execution ends and all end alike; a last line without its weight is stored behind the arrays (violated).',
'C85':'The accesses of each region are proved complete (Spec.Accounted). Proved for every function with a parallel region: unconditionally for save, binary loads, copies, max_labels, find_offsets; for any bytes for unweighted text; for well-formed weighted text, tensors, writers; for any COO with m() in range; for CSRs with non-decreasing offsets. Races proved: weights of removed lines, the bits of have_zeros in 0-based .graph files, glued comments in .graph files, decreasing offsets.',
'C84':'Proved for managed storage and every file; for raw pointers (the default) proved for every file except: a rejected .graph file, a CSR file loaded as a COO with flags not implemented for it, a DiGraph file whose second half is rejected; for these the leak is proved for every such load (violated theorems). Blocks of zero elements are not counted; local working arrays and failing allocations are not tracked.',
'C78':'A graph whose cleaned graph has no edges makes the program fail instead of writing an empty file (violated theorem, a consequence of C50); everything else is proved.',
'C79':'A file without edges makes the program fail instead of writing an empty file (violated theorem, a consequence of C50); everything else is proved.',
'C80':'A negative src is not rejected: offsets is read out of bounds (violated theorem); everything else is proved. std::binary_search is modelled as the usual halving loop. The signed types of the program are treated in C98.',
'C43':'Exact: a file with the right magic and sizes is loaded as its bytes say if the end its header gives lies inside of the mapping, otherwise every execution reads outside of it (C43_*_exact). So the property is violated: truncated binary files are loaded with zeros or other data or read outside of the mapping; only a cut inside the magic is not taken for a binary file. DiGraph: exact for both halves; a saved DiGraph cut at the end of its first graph loads without an error with a second graph that has no edges.',
'C50':'Writing an empty COO throws instead of creating an empty file (violated theorem); every non-empty COO is written.',
'C77':'For label types of 32 bits and more the largest possible label loads as a COO, but n()+1 wraps to 0 and building the CSR writes outside of the offsets (violated theorems); proved for all other files.',
'C22':'Violated for the largest label of the type: its successor wraps to 0 and passes the dimension check (C22_largest_label_violated); proved for all other labels, for a missing banner and for a wrong count.',
'C83':'Violated for files that end with a comment sign (no execution ends), for a comment sign directly after a digit (the two passes disagree: a data race on the offsets, two executions give different CSRs, one with decreasing offsets) and for files whose size is a multiple of the page size. Proved for all other byte strings: C83_any_text needs only that the last byte is not a comment sign; C83_same_result that no digit is directly followed by one and that the file ends with a newline.',
'C82':'Violated for files that end in a digit (uninitialised last entry, CSR(fn) may write outside of its arrays) and for an edge from the largest label of the type (every execution of CSR(fn) writes outside). Proved for all other byte strings, as an edge list and as a Matrix Market file (size not a multiple of the page size, see C19).',
'C81':'A Matrix loaded from a saved CSR has unset nrows()/ncols() (violated theorem for every CSR), a COO likewise (C31); everything else is proved.',
'C02':'Proved for every value except the smallest of a signed type, for which the violation is proved.',
'C04':'Proved for all listed movements; move_to_next_signed_int (not listed) and count_spaces_to_eol over a reader cut short with smaller_end can leave the reader (violated theorems).',
'C07':'The code loses an occurrence at offset 0; everything else is proved for all thread counts.',
'C23':'The code rejects every consistent file from which a flag drops an entry; loading is proved when nothing is dropped, and with symmetric (any weights). With symmetric a file that is not square is loaded with columns outside of ncols().',
'C10':'Holds for every flag combination except symmetric without upper triangle, where nrows() ignores mirrored entries (violated theorem); there the exact values are proved.',
'C17':'The code violates the claim when an entry is dropped; proved for files from which the flags drop nothing, plus two counterexamples.',
'C18':'The code violates the claim for an unterminated data line; proved when the unterminated text holds no integer.',
'C19':'Proved for every byte sequence when the size is not a multiple of the page size; otherwise every execution reads past the mapping.',
'C29':'The code stores every diagonal entry twice when symmetric is set (violated theorem); proved for matrices without diagonal entries.',
'C31':'convert_csr_ leaves nrows()/ncols() unset (violated theorem); n() and m() are proved.',
'C68':'With vector weight storage the COO keeps a pointer into a destroyed vector (violated theorem); proved for the other storages.',
'C51':'The code finds one coordinate too many for weights with exponents, carriage returns, trailing tabs and an unterminated first line (violated theorems, one of them storing outside of its array); proved for plainly written first lines.',
'C55':'transpose leaves nrows() and ncols() as they were (violated theorems); swapping of the entries and the involution are proved.',
'C59':'For 1-based files n() is the declared count while the rows are numbered from 1, so the last row is at n(); violated for every such file, the loaded rows are proved exactly.',
'C60':'0-based files with an empty first row are rejected, 1-based ones are loaded with all rows shifted (both for every such file); empty rows after the first non-empty one are proved kept.',
'C61':'Proved for files without comments after the header; a comment with digits makes the result depend on the thread count.',
'C62':'Proved except for 1-based files with exactly one row missing, which are accepted (violated for every such file).',
'C64':'CSR::free is not guarded and copies share storage: freeing twice, freeing a copy or a default-constructed CSR is a bad free in every history (violated theorems); histories that free each CSR at most once and make no copies are proved safe and leak-free.',
'C65':'The move constructor leaves the source owning the mapping and loses cursor and name; move assignment keeps the old cursor (violated, for every history); unmapping exactly once is proved for all histories without move constructions.',
'C66':'In exact arithmetic, as stated; the rounding of the single operations is a parameter of the model.',
'C67':'The integer part of the conversion for every answer of the floating point part (a parameter); the range of the answers asked for is proved for every double.',
'C75':'In binary64 without contraction to fused operations; any rounding to a nearest double at every operation.',
'C76':'In binary64 without contraction, std::pow exact up to 10^22 and within one unit in the last place otherwise; signed zeros are not distinguished, overflow is excluded by the hypotheses.',
'C71':'Violated for every file: 0-based throws, 1-based silently loses the last row and leaves endpoints uninitialised.',
'C72':'Violated: comment lines become rows, a comment glued to an integer drops rows, a final comment is rejected, a final comment sign makes loading hang (no number of iterations suffices). Proved: comments without digits, not directly after a digit, at most one comment line in a row and none after the last newline can be replaced by blanks without changing the outcome, so such files load like comment-free ones (C58, C61), e.g. the messy triangle of the project tests.',
'C89':'Proved: the contents at every moment, that every prefix of the new file does occur, and that what is left loads with an error or with sizes no larger than those saved (COO and Tensor with at least one entry), also for DiGraph files, and with the type found out automatically (then also: an object without entries). Violated: what is left of a COO without entries can be read outside of the mapping; an unfinished DiGraph loads silently, without its out-edges or with wrong ones; the old contents are lost at once; a file whose header is complete loads silently with zero labels or offsets; a blank file loads as an edge list without entries.',
}
STATUS={}

NOTES['C90']='Proved: the exact descriptors and mappings after every constructor and every history. Violated: the constructor throws without closing its FILE*, so every failed open of an existing file, e.g. an empty one, loses a descriptor, and after as many as the limit no file can be opened.'
NOTES['C91']='Proved for all loads and saves, with and without OpenMP, and for writing nonempty objects to files that can be created. Violated: write() constructs its File inside an OpenMP region, so with OpenMP writing an empty COO or tensor, or writing to a file that cannot be created, ends the process.'
NOTES['C92']='Proved: soundness, no end of the process without OpenMP or for binary files, nothing left with managed storage for COO, Tensor, CSR not read through a COO and saved DiGraphs. Violated: with OpenMP every text load can end the process; with raw pointers a binary COO load leaves x; CSR from COO leaves arrays with every storage; a saved DiGraph with raw pointers leaves the first graph when memory for the second is missing.'

NOTES['C93']='Proved: for sizes below the limits every outcome is that of unbounded arithmetic (loads with any storage, saves, text splits); with vectors and shared pointers any COO/CSR header gives that or an exception. Violated: a 33-byte COO file with raw pointers and a 31-byte tensor file with every storage load without error into objects whose arrays are shorter than stated.'
NOTES['C94']='Proved: for COO with one-byte labels, CSR with one-byte labels and ordinals of 1 or 2 bytes, tensors with weights or one-byte ordinals, all header accesses are aligned, loads and saves are as in the unchecked model. Violated: the first field of COO and CSR files is at position 13, that of tensors without weights at 15, so every load and save with larger types has a misaligned access (undefined in C++, tolerated by x86). For DiGraph files and saves: exact, by the alignment of both headers; violated for all saved DiGraphs with labels of 2, 4 or 8 bytes and no weights or weights of even size.'
NOTES['C95']='Proved: set_n above all labels, set_nrows/set_ncols, size functions when the ordinal type is as wide as the label type, sizes of CSR(n,m,nrows,ncols). Violated: set_n(k) with k at most a label makes the conversion undefined instead of an exception; with a narrower ordinal type n()/nrows() of DiGraph and Matrix are truncated.'

NOTES['C96']='Proved: data of a complete file, write/read round trip, the outcome for every file content. Violated: a header larger than the data is not rejected: missing elements are zeros, or the program reads outside of the mapping.'
NOTES['C97']='Proved: n, m and the neighbours with multiplicity; their order with one thread. Violated: with two or more threads the order of the file is not kept, so the output shown in the README is one of several.'
NOTES['C98']='Proved: refinement of the unsigned model for arbitrary text (edge lists, Matrix Market, .graph files, tensors; into COO, CSR, DiGraph, Matrix, Tensor), max_labels and new_csr_without_dups; neighbors, degree and new_csr_without_dups as with unsigned types if the sizes fit; no overflow and the same result for well-formed edge lists and Matrix Market files when labels + 1 (CSR: + 2) and counts fit, and for any file of these formats, well-formed or not, without large numbers (Spec.SignedFit); find_edge with its int64_t types. Violated: an edge list or .graph file with the largest label the signed type can hold overflows in every execution. Not modelled with signed types: binary files, the remaining operations.'
NOTES['C99']='Proved for all eight combinations of the flags and for the file of the tutorial. Violated: if no edge is left the program ends with an error instead of writing an empty file.'
NOTES['C100']='Proved for files written the way the script expects (Spec.Neat, Spec.MainNeat): same code, same system headers, termination, exact condition for success. Violated: diamonds are rejected; conditional includes become unconditional (omp.h is included without OpenMP, as in release/pigo.hpp line 46).'

NOTES['C101']='Every sequence of operations on COO, CSR, DiGraph and Matrix objects without weights, with unsigned, signed and (as far as their text is read back) floating point weights; with weights of any type for programs that write no text. The programs may start from an edge list, a Matrix Market or a .graph file loaded into any class. Programs that sort at their end leave the same arrays in every execution (C101_same_arrays). Programs in parts, each with its own label, ordinal, weight and storage types, with a converting constructor or new_csr_without_dups between two parts (C101_retyped). For tensors: every program of copies, save/load and write/load gives back the same tensor, also from a text file on and with max_labels at the end. The deletion of objects is not an operation of these programs (see C63, C64, C73, C103).'

NOTES['C102']='Proved: the same graph when sizes and labels fit, for COO to CSR/DiGraph/Matrix, CSR to COO, new_csr_without_dups, and there and back; exactly what is left otherwise (C102_truncated, C102_outside). Violated: a graph that does not fit is not reported.'

NOTES['C103']='Proved: value semantics for vector storage (all classes) and for COO/Tensor with shared_ptr storage; exact lifetimes for both; objects of different families never affect each other. COO/Tensor with raw pointers: C63, C70. Violated: copies of CSR, DiGraph and Matrix objects share the arrays with raw pointers and shared_ptr.'
NOTES['C104']='Exact outcome proved for all mixes, thread counts and schedules. Negative infinities and NaNs with a sign become 0 and all entries are kept; a positive infinity or an unsigned NaN makes the next entry (or its own) disappear and leaves uninitialised labels: C104_lost_violated. Tensors: the same loses entries (C104_tensor_lost_violated) and, in the last entry, stores its coordinates behind the array (C104_tensor_bounds_violated), and does so for a minus infinity in any place (C104_tensor_signed_violated).'
NOTES['C105']='Proved: reading and nested loops for all storage types, memory left as found; assignments reach exactly the row with raw pointers and shared_ptr; programs mixing operations and loops are safe and do not leak (not raw pointers); kept iterators stay valid (not raw pointers). Violated: vector storage loses assignments (C105_vector_violated); raw iterators dangle after free() (C105_dangling_violated).'
NOTES['C48']='Every printer (none, unsigned, signed, floating point text). Outside of the property: a weighted tensor of order 0 with entries always makes the writer store beyond the file (C48_order_zero_overrun).'
NOTES['C106']='Proved for every list of records: the layout, reading in order, reading after seek, existence of an outcome. Fails for a string that ends at the end of the file: reading it throws Error although it is there (C106_string_at_end_violated); hence the hypothesis TextInside of the other theorems. Writing past the reserved size is not covered.'

NOTES['C70']='Proved for every COO, and for every Tensor whose number of coordinates fits the ordinal type. Violated: a Tensor with 8- or 16-bit ordinals and more coordinates than they count can be loaded, but its copy constructor never ends.'

NOTES['C16']='Unsigned, signed and floating point weights, as words or among other text; flags that drop entries are C17.'
NOTES['C107']='Proved for every CSR with at least n rows in its arrays (C107_neighbors, C107_sort, C107_without_dups, C107_save, C107_to_coo), that every file without glued comments gives such a CSR (C107_loaded), and that COO(fn) and DiGraph(fn) are right for 0-based files with nothing after the n-th line. Fails for 1-based files: COO(fn) has, instead of the edges of the last vertex, whatever the allocated memory held (C107_to_coo_violated, C107_one_based_as_coo_violated), and DiGraph(fn), Matrix(fn) access memory outside of their arrays in every execution (C107_one_based_as_digraph_violated).'
