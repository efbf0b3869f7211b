{"id": "C01", "title": "read_int parses the next decimal integer", "statement": "FileReader::read_int<T>, T unsigned with w bits, skips to the first maximal run of ASCII digits in [d,end), returns the number written by that run modulo 2^w, and leaves the cursor on the first byte after the run; if there is no digit it returns 0 and leaves the cursor at end. It dereferences no byte outside [d,end).", "quantifier": "every buffer, every cursor/end inside it, every width w", "why_tests_cant": "needs every byte string, every digit-run length and every width; overflow wrap-around included", "anchors": [{"file": "include/pigo/impl/pigo.impl.hpp", "symbol": "FileReader::read_int"}]}
{"id": "C02", "title": "write_ascii prints the canonical decimal in exactly write_size bytes", "statement": "For an integral value, write_ascii writes exactly write_size(value) bytes starting at the position, advances the position by that amount, changes no other byte, and the bytes are '-' (only for negatives) followed by the decimal digits with no leading zero.", "quantifier": "every unsigned value and every signed value except the most negative one of its type", "why_tests_cant": "infinitely many values / all digit counts", "anchors": [{"file": "include/pigo/impl/pigo.impl.hpp", "symbol": "write_ascii"}, {"file": "include/pigo/impl/pigo.impl.hpp", "symbol": "write_size"}, {"file": "include/pigo/impl/pigo.impl.hpp", "symbol": "detail::get_positive"}, {"file": "include/pigo/impl/pigo.impl.hpp", "symbol": "detail::write_neg_ascii"}]}
{"id": "C03", "title": "Printed integers read back unchanged", "statement": "Reading (read_int for unsigned, sign + read_int as done for signed weights) the bytes produced by write_ascii, whatever non-digit byte follows, returns the original value and stops right after it.", "quantifier": "every value that fits its type, every following context", "why_tests_cant": "round trip over an unbounded domain", "anchors": [{"file": "include/pigo/impl/pigo.impl.hpp", "symbol": "write_ascii"}, {"file": "include/pigo/impl/pigo.impl.hpp", "symbol": "FileReader::read_int"}, {"file": "include/pigo.hpp", "symbol": "FileReader::read_sign"}, {"file": "include/pigo/impl/coo.impl.hpp", "symbol": "detail::read_wgt_i_"}]}
{"id": "C04", "title": "Cursor movements never go backwards and never leave the buffer", "statement": "Every FileReader movement (skip_comments, move_to_eol, move_to_non_int, move_to_first_int, move_to_next_int, move_to_fp, move_to_non_fp, move_to, operator+, operator+=, read_int) started at a cursor in [begin,end] ends at a cursor that is at least the start and at most end.  smaller_end never enlarges the buffer.  count_spaces_to_eol over a reader that reaches the end of the file succeeds on any text and ends on the first newline (or the end); peek returns the byte under the cursor and 0 at the end.", "quantifier": "every buffer content and every cursor", "why_tests_cant": "requires all byte strings, including comments cut off by end-of-buffer", "anchors": [{"file": "include/pigo/impl/pigo.impl.hpp", "symbol": "FileReader::skip_comments"}, {"file": "include/pigo/impl/pigo.impl.hpp", "symbol": "FileReader::move_to_first_int"}, {"file": "include/pigo/impl/pigo.impl.hpp", "symbol": "FileReader::move_to_next_int"}, {"file": "include/pigo/impl/pigo.impl.hpp", "symbol": "FileReader::move_to_eol"}, {"file": "include/pigo.hpp", "symbol": "FileReader::move_to"}, {"file": "include/pigo.hpp", "symbol": "FileReader::operator+"}, {"file": "include/pigo/impl/pigo.impl.hpp", "symbol": "FileReader::count_spaces_to_eol"}, {"file": "include/pigo.hpp", "symbol": "FileReader::peek"}]}
{"id": "C05", "title": "Moving to an integer skips comments exactly", "statement": "move_to_first_int stops on the first digit that is not inside a comment (a comment runs from '%' or '#' to the end of its line), or at end when there is none; move_to_next_int does the same after leaving the current digit run.", "quantifier": "every buffer and cursor not inside a comment", "why_tests_cant": "arbitrary interleavings of digits, comments, blank lines", "anchors": [{"file": "include/pigo/impl/pigo.impl.hpp", "symbol": "FileReader::move_to_first_int"}, {"file": "include/pigo/impl/pigo.impl.hpp", "symbol": "FileReader::move_to_next_int"}, {"file": "include/pigo/impl/pigo.impl.hpp", "symbol": "FileReader::skip_comments"}]}
{"id": "C06", "title": "at_end_of_line recognises exactly trailing blanks", "statement": "at_end_of_line returns true iff every byte from the cursor up to the next newline (or end) is a space or carriage return; the cursor does not move.", "quantifier": "every buffer and cursor", "why_tests_cant": "all byte strings", "anchors": [{"file": "include/pigo/impl/pigo.impl.hpp", "symbol": "FileReader::at_end_of_line"}]}
{"id": "C07", "title": "find_offsets returns every offset of the character, for any thread count", "statement": "FileReader::find_offsets(c) returns exactly the increasing list of offsets (relative to the reader) at which the byte c occurs, for any number of OpenMP threads and any schedule.", "quantifier": "every file, character, thread count >= 1", "why_tests_cant": "two-pass parallel partition; boundary errors depend on size mod threads and occurrence positions", "anchors": [{"file": "include/pigo/impl/pigo.impl.hpp", "symbol": "FileReader::find_offsets"}, {"file": "include/pigo.hpp", "symbol": "FileReader::move_to"}, {"file": "include/pigo.hpp", "symbol": "FileReader::smaller_end"}]}
{"id": "C08", "title": "Edge list: every data line becomes one entry, in file order", "statement": "Loading an unweighted COO (no flags) from an EDGE_LIST yields one entry per data line, in file order, with x and y the first and second integers on that line; m() is the number of data lines. True for every number of threads and every interleaving of their writes.", "quantifier": "every newline-terminated file whose non-comment lines hold zero or at least two integers; every thread count; every interleaving", "why_tests_cant": "the file is split at byte offsets; errors depend on where split points fall in lines/comments", "anchors": [{"file": "include/pigo/impl/coo.impl.hpp", "symbol": "COO::read_el_"}, {"file": "include/pigo/impl/coo.impl.hpp", "symbol": "detail::read_coord_entry_i_"}, {"file": "include/pigo/impl/pigo.impl.hpp", "symbol": "FileReader::move_to_next_int"}, {"file": "include/pigo/impl/pigo.impl.hpp", "symbol": "FileReader::move_to_eol"}]}
{"id": "C09", "title": "Edge list: result does not depend on the number of threads", "statement": "Loading the same edge list with any two thread counts gives identical x, y, w, m, n, nrows, ncols.", "quantifier": "every well formed file, every pair of thread counts, every interleaving", "why_tests_cant": "tests run with one thread count and one schedule", "anchors": [{"file": "include/pigo/impl/coo.impl.hpp", "symbol": "COO::read_el_"}]}
{"id": "C10", "title": "Edge list: label counts bound all labels", "statement": "After loading an edge list, nrows() is one more than the largest x, ncols() one more than the largest y (1 if there are no entries), n() is their maximum, and every stored label is below n().", "quantifier": "every well formed file whose labels fit the label type with room for the +1; every thread count", "why_tests_cant": "reduction over threads, empty thread regions", "anchors": [{"file": "include/pigo/impl/coo.impl.hpp", "symbol": "COO::read_el_"}, {"file": "include/pigo/coo.hpp", "symbol": "COO::n"}, {"file": "include/pigo/coo.hpp", "symbol": "COO::nrows"}, {"file": "include/pigo/coo.hpp", "symbol": "COO::ncols"}]}
{"id": "C11", "title": "Edge list: comments and blank lines are irrelevant", "statement": "Inserting or deleting comment lines, blank lines, trailing comments or extra columns in an unweighted edge list does not change the loaded COO.", "quantifier": "every pair of well formed files with the same sequence of (x,y) data lines, every pair of thread counts", "why_tests_cant": "moves every split point; digits inside comments", "anchors": [{"file": "include/pigo/impl/coo.impl.hpp", "symbol": "COO::read_el_"}, {"file": "include/pigo/impl/pigo.impl.hpp", "symbol": "FileReader::skip_comments"}]}
{"id": "C12", "title": "remove_self_loops keeps exactly the non-loops", "statement": "With remove_self_loops the loaded COO is the file's entry list with all x==y entries removed, order kept (unweighted).", "quantifier": "every well formed file, thread count, interleaving", "why_tests_cant": "count and fill passes must agree in every region including regions ending in loops", "anchors": [{"file": "include/pigo/impl/coo.impl.hpp", "symbol": "detail::read_coord_entry_i_"}]}
{"id": "C13", "title": "keep_upper_triangle_only keeps exactly x<=y", "statement": "Without symmetric, keep_upper_triangle_only yields exactly the entries with x<=y in file order (unweighted).", "quantifier": "every well formed file, thread count, interleaving", "why_tests_cant": "as above", "anchors": [{"file": "include/pigo/impl/coo.impl.hpp", "symbol": "detail::read_coord_entry_i_"}]}
{"id": "C14", "title": "symmetric makes the COO symmetric without doubling the diagonal", "statement": "With symmetric (no upper triangle) each file entry (x,y), x!=y yields (x,y) and (y,x), each loop yields one entry; hence (a,b) and (b,a) have equal multiplicity, and weights are mirrored.", "quantifier": "every well formed file, thread count, interleaving", "why_tests_cant": "multiset symmetry over all inputs", "anchors": [{"file": "include/pigo/impl/coo.impl.hpp", "symbol": "detail::read_coord_entry_i_"}]}
{"id": "C15", "title": "symmetric + upper triangle = symmetrize then cut", "statement": "With both flags the result has one entry (min,max) per file entry, i.e. the multiset obtained by symmetrizing and then keeping x<=y.", "quantifier": "every well formed file, thread count, interleaving", "why_tests_cant": "multiset identity over all inputs", "anchors": [{"file": "include/pigo/impl/coo.impl.hpp", "symbol": "detail::read_coord_entry_i_"}, {"file": "include/pigo/coo.hpp", "symbol": "COO"}]}
{"id": "C16", "title": "Weights stay with their entry", "statement": "Loading a weighted edge list gives entry i the weight written on the i-th data line, for unsigned integer, signed integer and floating point weight types (flags off or symmetric).", "quantifier": "every well formed weighted file, thread count, interleaving", "why_tests_cant": "alignment of three arrays across thread regions", "anchors": [{"file": "include/pigo/impl/coo.impl.hpp", "symbol": "detail::read_wgt_i_"}, {"file": "include/pigo/impl/coo.impl.hpp", "symbol": "detail::read_coord_entry_i_"}]}
{"id": "C17", "title": "Weights stay with their entry under filtering flags", "statement": "Loading a weighted edge list with remove_self_loops or keep_upper_triangle_only gives every kept entry its own weight and writes only inside the allocated arrays.", "quantifier": "every well formed weighted file, thread count, interleaving", "why_tests_cant": "dropped lines at region ends touch another thread's slot or one past the array", "anchors": [{"file": "include/pigo/impl/coo.impl.hpp", "symbol": "detail::read_coord_entry_i_"}, {"file": "include/pigo/impl/coo.impl.hpp", "symbol": "detail::read_wgt_i_"}]}
{"id": "C18", "title": "A final line without newline is loaded like any other", "statement": "Loading an edge list whose last data line is not newline-terminated gives the same COO as the newline-terminated file.", "quantifier": "every file", "why_tests_cant": "tests only use newline-terminated files", "anchors": [{"file": "include/pigo/impl/coo.impl.hpp", "symbol": "detail::read_coord_entry_i_"}, {"file": "include/pigo/impl/coo.impl.hpp", "symbol": "COO::read_el_"}]}
{"id": "C19", "title": "ASCII loading never reads outside the mapped file", "statement": "Loading any edge list dereferences only bytes of the file mapping (the file's pages).", "quantifier": "every file size and content, every thread count", "why_tests_cant": "depends on size modulo the page size", "anchors": [{"file": "include/pigo/impl/pigo.impl.hpp", "symbol": "FileReader::move_to_first_int"}, {"file": "include/pigo/impl/coo.impl.hpp", "symbol": "COO::read_el_"}, {"file": "include/pigo/impl/pigo.impl.hpp", "symbol": "File::File"}]}
{"id": "C20", "title": "Labels must leave room for the count", "statement": "If every label in the file is at most 2^w-2 the loaded labels and counts are exact; at 2^w-1 the counts wrap to 0 and larger labels alias.", "quantifier": "every width, every file", "why_tests_cant": "boundary of the integer type", "anchors": [{"file": "include/pigo/impl/coo.impl.hpp", "symbol": "COO::read_el_"}, {"file": "include/pigo/impl/pigo.impl.hpp", "symbol": "FileReader::read_int"}]}
{"id": "C21", "title": "Matrix Market: header and body agree", "statement": "Loading a coordinate Matrix Market file whose entries match its header gives exactly the listed entries in order, m() = nnz, nrows() = R+1, ncols() = C+1, n() = max of both.", "quantifier": "every well formed file, thread count, interleaving", "why_tests_cant": "composition of header parse and parallel body parse", "anchors": [{"file": "include/pigo/impl/coo.impl.hpp", "symbol": "COO::read_mm_"}]}
{"id": "C22", "title": "Matrix Market: contradicting headers are rejected", "statement": "A Matrix Market file without the coordinate banner, with an entry outside the declared rows/columns, or (no flags) with a number of entries other than declared makes construction throw.", "quantifier": "every file of this kind, every thread count", "why_tests_cant": "all header/body combinations", "anchors": [{"file": "include/pigo/impl/coo.impl.hpp", "symbol": "COO::read_mm_"}]}
{"id": "C23", "title": "Matrix Market can be loaded with filtering flags", "statement": "A consistent Matrix Market file can be loaded with remove_self_loops or keep_upper_triangle_only and gives the filtered entries.", "quantifier": "every consistent file", "why_tests_cant": "depends on presence of filtered entries", "anchors": [{"file": "include/pigo/impl/coo.impl.hpp", "symbol": "COO::read_mm_"}]}
{"id": "C24", "title": "COO to CSR gives a valid CSR", "statement": "Converting a COO (labels below n) gives offsets with offsets[0]=0, non-decreasing, offsets[n]=m, and offsets[v+1]-offsets[v] = number of entries with x==v.", "quantifier": "every COO, every thread count, every assignment of iterations to threads, every interleaving of the atomic updates", "why_tests_cant": "all schedules", "anchors": [{"file": "include/pigo/impl/csr.impl.hpp", "symbol": "CSR::convert_coo_"}]}
{"id": "C25", "title": "COO to CSR preserves the rows", "statement": "Row v of the converted CSR is a permutation of the y (and weights paired with them) of the entries with x==v; every endpoint slot is written exactly once, in bounds.", "quantifier": "every COO, thread count, iteration assignment, interleaving", "why_tests_cant": "racy scatter guarded only by an atomic capture", "anchors": [{"file": "include/pigo/impl/csr.impl.hpp", "symbol": "CSR::convert_coo_"}]}
{"id": "C26", "title": "Sequential COO to CSR is stable", "statement": "With one thread, row v lists its endpoints in the order of the COO entries (as the README example prints).", "quantifier": "every COO", "why_tests_cant": "all inputs", "anchors": [{"file": "include/pigo/impl/csr.impl.hpp", "symbol": "CSR::convert_coo_"}, {"file": "README.md", "symbol": "Quick Start Guide"}]}
{"id": "C27", "title": "CSR to COO lists the rows", "statement": "Converting a CSR (no flags) to a COO gives m entries, the i-th being (row of i, endpoint i, weight i); n is kept.", "quantifier": "every valid CSR, thread count, schedule", "why_tests_cant": "dynamic schedule, every row structure", "anchors": [{"file": "include/pigo/impl/coo.impl.hpp", "symbol": "COO::convert_csr_"}]}
{"id": "C28", "title": "CSR to symmetric COO", "statement": "With symmetric the COO from a CSR holds, for each CSR entry, the entry and its mirror (with the same weight); with symmetric+upper triangle it holds the (min,max) entry; other flag combinations throw NotYetImplemented.", "quantifier": "every valid CSR, schedule", "why_tests_cant": "all inputs", "anchors": [{"file": "include/pigo/impl/coo.impl.hpp", "symbol": "COO::convert_csr_"}]}
{"id": "C29", "title": "CSR to symmetric COO does not double the diagonal", "statement": "Symmetrizing a CSR into a COO introduces no extra diagonal entries (as symmetrizing on load).", "quantifier": "every CSR with a self loop", "why_tests_cant": "depends on presence of loops; documented in CHANGELOG 0.5", "anchors": [{"file": "include/pigo/impl/coo.impl.hpp", "symbol": "COO::convert_csr_"}, {"file": "CHANGELOG.md", "symbol": "0.5"}]}
{"id": "C30", "title": "COO/CSR round trips", "statement": "CSR->COO->CSR (sequential) returns the same offsets, endpoints and weights; COO->CSR->COO returns a permutation of the entries, sorted by x, for every schedule.", "quantifier": "every valid CSR / every COO", "why_tests_cant": "composition over all inputs", "anchors": [{"file": "include/pigo/impl/coo.impl.hpp", "symbol": "COO::convert_csr_"}, {"file": "include/pigo/impl/csr.impl.hpp", "symbol": "CSR::convert_coo_"}]}
{"id": "C31", "title": "COO from CSR has defined dimensions", "statement": "A COO constructed from a CSR (or loaded from .graph / binary CSR) reports the CSR's nrows and ncols.", "quantifier": "every CSR", "why_tests_cant": "value is indeterminate, so any test may pass by luck", "anchors": [{"file": "include/pigo/impl/coo.impl.hpp", "symbol": "COO::convert_csr_"}, {"file": "include/pigo/coo.hpp", "symbol": "COO::nrows"}]}
{"id": "C32", "title": "sort orders every row and keeps the matrix", "statement": "CSR::sort leaves offsets, n, m unchanged; every row becomes non-decreasing and is a permutation of itself.", "quantifier": "every valid CSR, every schedule of the row loop", "why_tests_cant": "all inputs and schedules", "anchors": [{"file": "include/pigo/impl/csr.impl.hpp", "symbol": "CSR::sort"}]}
{"id": "C33", "title": "Weighted sort keeps label/weight pairs", "statement": "Weighted CSR::sort permutes (endpoint,weight) pairs together, ordered by endpoint then weight.", "quantifier": "every valid weighted CSR with totally ordered weights", "why_tests_cant": "all inputs", "anchors": [{"file": "include/pigo/impl/csr.impl.hpp", "symbol": "CSR::sort"}]}
{"id": "C34", "title": "new_csr_without_dups returns the set of entries", "statement": "The returned CSR has the same n, nrows, ncols; each row is strictly increasing and holds exactly the distinct endpoints of the original row; it is a valid CSR with m the number of distinct entries; the original is sorted as a side effect.", "quantifier": "every valid CSR, thread count, schedule", "why_tests_cant": "prefix sums over thread regions, all row structures", "anchors": [{"file": "include/pigo/impl/csr.impl.hpp", "symbol": "CSR::new_csr_without_dups"}]}
{"id": "C35", "title": "Weighted duplicate removal keeps the smallest weight", "statement": "For a weighted CSR each surviving entry carries the smallest weight among its duplicates.", "quantifier": "every valid weighted CSR with totally ordered weights", "why_tests_cant": "all inputs", "anchors": [{"file": "include/pigo/impl/csr.impl.hpp", "symbol": "CSR::new_csr_without_dups"}, {"file": "include/pigo/impl/csr.impl.hpp", "symbol": "CSR::sort"}]}
{"id": "C36", "title": "Duplicate removal is idempotent", "statement": "Applying new_csr_without_dups to its own result changes nothing.", "quantifier": "every valid CSR", "why_tests_cant": "all inputs", "anchors": [{"file": "include/pigo/impl/csr.impl.hpp", "symbol": "CSR::new_csr_without_dups"}]}
{"id": "C37", "title": "COO binary round trip", "statement": "save followed by load with the same template parameters returns the same x, y, w, n, nrows, ncols, m.", "quantifier": "every COO whose values fit their types, every thread counts for save and load", "why_tests_cant": "byte-level layout for all sizes", "anchors": [{"file": "include/pigo/impl/coo.impl.hpp", "symbol": "COO::save"}, {"file": "include/pigo/impl/coo.impl.hpp", "symbol": "COO::read_bin_"}]}
{"id": "C38", "title": "CSR binary round trip", "statement": "save followed by load returns the same offsets, endpoints, weights, n, m, nrows, ncols.", "quantifier": "every CSR whose values fit their types (and n + 1 fits in the label type when that has 4 bytes or more: otherwise the offsets are not saved), every thread counts", "why_tests_cant": "byte-level layout for all sizes", "anchors": [{"file": "include/pigo/impl/csr.impl.hpp", "symbol": "CSR::save"}, {"file": "include/pigo/impl/csr.impl.hpp", "symbol": "CSR::read_bin_"}]}
{"id": "C39", "title": "DiGraph binary round trip", "statement": "save followed by load returns the same in and out graphs.", "quantifier": "every DiGraph, every thread counts", "why_tests_cant": "two CSRs in one file located only by cursor position", "anchors": [{"file": "include/pigo/impl/graph.impl.hpp", "symbol": "DiGraph::save"}, {"file": "include/pigo/impl/graph.impl.hpp", "symbol": "DiGraph::read_"}]}
{"id": "C40", "title": "Tensor binary round trip", "statement": "save followed by load returns the same order, m, coordinates and weights.", "quantifier": "every Tensor whose values fit their types, every thread counts", "why_tests_cant": "byte-level layout for all sizes", "anchors": [{"file": "include/pigo/impl/tensor.impl.hpp", "symbol": "Tensor::save"}, {"file": "include/pigo/impl/tensor.impl.hpp", "symbol": "Tensor::read_bin_"}]}
{"id": "C41", "title": "Saved files have exactly the computed size and are fully written", "statement": "The binary writers write every byte of the file they create and no byte beyond: the number of bytes written equals the size passed when the file is created.", "quantifier": "every COO, CSR, DiGraph, Tensor, every thread count", "why_tests_cant": "the mapping is pre-sized; an error is a silent hole or an out-of-bounds store", "anchors": [{"file": "include/pigo/impl/coo.impl.hpp", "symbol": "COO::save"}, {"file": "include/pigo/impl/csr.impl.hpp", "symbol": "CSR::save_size"}, {"file": "include/pigo/impl/csr.impl.hpp", "symbol": "CSR::save"}, {"file": "include/pigo/impl/graph.impl.hpp", "symbol": "DiGraph::save"}, {"file": "include/pigo/impl/tensor.impl.hpp", "symbol": "Tensor::save"}]}
{"id": "C42", "title": "Binary files of another type or width are rejected", "statement": "Loading a binary file whose magic is not the expected one, or whose recorded label/ordinal(/tensor weight) byte sizes differ from the reader's types, throws Error.", "quantifier": "every file content with such a header", "why_tests_cant": "all headers", "anchors": [{"file": "include/pigo/impl/coo.impl.hpp", "symbol": "COO::read_bin_"}, {"file": "include/pigo/impl/csr.impl.hpp", "symbol": "CSR::read_bin_"}, {"file": "include/pigo/impl/tensor.impl.hpp", "symbol": "Tensor::read_bin_"}, {"file": "include/pigo/impl/pigo.impl.hpp", "symbol": "File::read"}]}
{"id": "C43", "title": "Truncated binary files are rejected", "statement": "Loading a binary file that is shorter than its header promises throws Error instead of reading outside the file.", "quantifier": "every truncation of every file", "why_tests_cant": "crash point quantification", "anchors": [{"file": "include/pigo/impl/coo.impl.hpp", "symbol": "COO::read_bin_"}, {"file": "include/pigo/impl/csr.impl.hpp", "symbol": "CSR::read_bin_"}, {"file": "include/pigo/impl/pigo.impl.hpp", "symbol": "parallel_read"}, {"file": "include/pigo/impl/pigo.impl.hpp", "symbol": "read"}]}
{"id": "C44", "title": "Parallel block copies copy every byte exactly once", "statement": "parallel_write / parallel_read copy v_size bytes faithfully, advance the position by v_size, touch nothing else.", "quantifier": "every size, thread count, interleaving of the per-thread memcpys", "why_tests_cant": "chunk arithmetic for all size/thread pairs", "anchors": [{"file": "include/pigo/impl/pigo.impl.hpp", "symbol": "parallel_write"}, {"file": "include/pigo/impl/pigo.impl.hpp", "symbol": "parallel_read"}]}
{"id": "C45", "title": "File type detection", "statement": "guess_file_type recognises each PIGO binary by its magic whatever its name, rejects unknown PIGO magics, otherwise goes by the .mtx / .graph suffix, otherwise EDGE_LIST; files produced by save are recognised as their own type.", "quantifier": "every content, every name", "why_tests_cant": "prefix relations between magics, all names", "anchors": [{"file": "include/pigo/impl/pigo.impl.hpp", "symbol": "File::guess_file_type"}, {"file": "include/pigo/impl/pigo.impl.hpp", "symbol": "FileReader::at_str"}]}
{"id": "C46", "title": "COO::write produces one line per entry in order", "statement": "COO::write creates a file whose content is the concatenation, in entry order, of 'x y\\n' (or 'x y w\\n') lines, for any thread count; the file is exactly filled.", "quantifier": "every non-empty COO with integer values, every thread count with the loop iterations statically assigned, every interleaving", "why_tests_cant": "two-pass size computation and prefix sum", "anchors": [{"file": "include/pigo/impl/coo.impl.hpp", "symbol": "COO::write"}]}
{"id": "C47", "title": "COO ASCII round trip", "statement": "Reading back (as EDGE_LIST) the file produced by COO::write returns the same entries and weights.", "quantifier": "every non-empty COO with fitting labels and integer weights, any thread counts", "why_tests_cant": "composition of the parallel writer and the parallel reader", "anchors": [{"file": "include/pigo/impl/coo.impl.hpp", "symbol": "COO::write"}, {"file": "include/pigo/impl/coo.impl.hpp", "symbol": "COO::read_el_"}]}
{"id": "C48", "title": "Tensor::write produces one line per entry in order", "statement": "Tensor::write creates a file that is exactly the concatenation of the entry lines, for any thread count.", "quantifier": "every non-empty Tensor of order >= 1 with integer weights or none, every static assignment, every interleaving", "why_tests_cant": "two-pass size computation", "anchors": [{"file": "include/pigo/impl/tensor.impl.hpp", "symbol": "Tensor::write"}]}
{"id": "C49", "title": "Tensor ASCII round trip", "statement": "Reading back the file produced by Tensor::write returns the same order, entries and weights.", "quantifier": "every non-empty tensor of order >= 1 with fitting values", "why_tests_cant": "composition of writer, order detection and parallel reader", "anchors": [{"file": "include/pigo/impl/tensor.impl.hpp", "symbol": "Tensor::write"}, {"file": "include/pigo/impl/tensor.impl.hpp", "symbol": "Tensor::read_el_"}, {"file": "include/pigo/impl/pigo.impl.hpp", "symbol": "FileReader::count_spaces_to_eol"}]}
{"id": "C50", "title": "Writing an empty COO gives an empty file", "statement": "COO::write of a COO without entries creates an empty file.", "quantifier": "every empty COO", "why_tests_cant": "corner case; throws instead", "anchors": [{"file": "include/pigo/impl/coo.impl.hpp", "symbol": "COO::write"}, {"file": "include/pigo/impl/pigo.impl.hpp", "symbol": "File::File"}]}
{"id": "C51", "title": "Tensor order is detected from the first line", "statement": "When reading a text tensor the order is the number of integers on the first data line (minus one for the weight if weighted).", "quantifier": "every well formed tensor file", "why_tests_cant": "line endings, trailing blanks, weight notations", "anchors": [{"file": "include/pigo/impl/tensor.impl.hpp", "symbol": "Tensor::read_el_"}, {"file": "include/pigo/impl/pigo.impl.hpp", "symbol": "FileReader::count_spaces_to_eol"}]}
{"id": "C52", "title": "Tensor text loading", "statement": "Loading a text tensor gives, for each data line in order, its coordinates and weight, for any thread count.", "quantifier": "every well formed tensor file, thread count, interleaving", "why_tests_cant": "split points, as for edge lists", "anchors": [{"file": "include/pigo/impl/tensor.impl.hpp", "symbol": "Tensor::read_el_"}, {"file": "include/pigo/impl/tensor.impl.hpp", "symbol": "detail::read_tensor_entry_i_"}]}
{"id": "C53", "title": "max_labels is the per-dimension maximum", "statement": "Tensor::max_labels returns for each dimension the maximum coordinate (0 when there are no entries).", "quantifier": "every tensor, thread count, assignment of iterations", "why_tests_cant": "per-thread maxima merge", "anchors": [{"file": "include/pigo/impl/tensor.impl.hpp", "symbol": "Tensor::max_labels"}]}
{"id": "C54", "title": "DiGraph in-edges are the transposed out-edges", "statement": "For a DiGraph built from a COO, v is in out().neighbors(u) exactly as often as u is in in().neighbors(v); m and n agree.", "quantifier": "every COO, thread count, schedule", "why_tests_cant": "multiset identity across two independent racy conversions", "anchors": [{"file": "include/pigo/graph.hpp", "symbol": "DiGraph::from_coo_"}, {"file": "include/pigo/coo.hpp", "symbol": "COO::transpose"}]}
{"id": "C55", "title": "transpose swaps rows and columns", "statement": "transpose exchanges x and y of every entry and the row and column counts, twice is the identity.", "quantifier": "every COO", "why_tests_cant": "dimension bookkeeping for rectangular inputs", "anchors": [{"file": "include/pigo/coo.hpp", "symbol": "COO::transpose"}]}
{"id": "C56", "title": "Matrix CSR and CSC describe the same matrix", "statement": "For a Matrix built from a COO, entry (i,j) occurs in row i of csr() as often as i occurs in column j of csc().", "quantifier": "every COO, thread count, schedule", "why_tests_cant": "multiset identity", "anchors": [{"file": "include/pigo/matrix.hpp", "symbol": "Matrix::from_coo_"}]}
{"id": "C57", "title": "degree and neighbors agree with the CSR", "statement": "degree(v) is the number of vertices that iterating neighbors(v) yields, they are the endpoints of row v in order, and the degrees sum to m.", "quantifier": "every valid CSR and vertex", "why_tests_cant": "all graphs", "anchors": [{"file": "include/pigo/graph.hpp", "symbol": "BaseGraph"}, {"file": "include/pigo/impl/graph.impl.hpp", "symbol": "BaseGraph::neighbor_start"}, {"file": "include/pigo/impl/graph.impl.hpp", "symbol": "EdgeItT::operator*"}]}
{"id": "C58", "title": ".graph: zero-based adjacency files load exactly", "statement": "Loading a comment-free 0-based .graph file gives row i = the integers of body line i, m the number of integers, n the declared count, for any thread count.", "quantifier": "every well formed file with non-empty first row, thread count, interleaving", "why_tests_cant": "split points inside numbers, rows, blank rows", "anchors": [{"file": "include/pigo/impl/csr.impl.hpp", "symbol": "CSR::read_graph_"}, {"file": "include/pigo/impl/pigo.impl.hpp", "symbol": "FileReader::move_to_next_int_or_nl"}]}
{"id": "C59", "title": ".graph: one-based adjacency files expose every row", "statement": "Loading a 1-based .graph file exposes the adjacency of every vertex, including the last, below n().", "quantifier": "every 1-based file", "why_tests_cant": "off-by-one on the last row only", "anchors": [{"file": "include/pigo/impl/csr.impl.hpp", "symbol": "CSR::read_graph_"}]}
{"id": "C60", "title": ".graph: empty leading rows are kept", "statement": "A .graph file whose first vertex has no neighbours loads with an empty first row.", "quantifier": "every file with an empty first adjacency line", "why_tests_cant": "corner case", "anchors": [{"file": "include/pigo/impl/csr.impl.hpp", "symbol": "CSR::read_graph_"}]}
{"id": "C61", "title": ".graph: result independent of the number of threads", "statement": "Loading the same .graph file with different thread counts gives the same CSR.", "quantifier": "every file, every pair of thread counts", "why_tests_cant": "split points inside comments", "anchors": [{"file": "include/pigo/impl/csr.impl.hpp", "symbol": "CSR::read_graph_"}]}
{"id": "C62", "title": ".graph: header mismatches are rejected", "statement": "If the number of integers is neither the declared m nor 2m, or there are fewer rows than declared, construction throws.", "quantifier": "every well formed body with contradicting header", "why_tests_cant": "all headers", "anchors": [{"file": "include/pigo/impl/csr.impl.hpp", "symbol": "CSR::read_graph_"}]}
{"id": "C63", "title": "COO memory life cycle", "statement": "Any history of COO constructions, copies, copy-assignments (including self-assignment), transposes and frees (including repeated free) never frees storage twice, never uses freed storage, and copies never share storage.", "quantifier": "every finite history over any number of COO objects with raw pointer storage", "why_tests_cant": "history quantification", "anchors": [{"file": "include/pigo/coo.hpp", "symbol": "COO::free"}, {"file": "include/pigo/coo.hpp", "symbol": "COO::operator="}, {"file": "include/pigo/coo.hpp", "symbol": "COO::COO(const COO&)"}, {"file": "include/pigo/coo.hpp", "symbol": "COO::copy_"}]}
{"id": "C64", "title": "CSR free is safe to repeat", "statement": "Calling free twice on a CSR, or freeing a CSR and a copy of it, releases the storage once.", "quantifier": "every history with pointer storage", "why_tests_cant": "history quantification", "anchors": [{"file": "include/pigo/csr.hpp", "symbol": "CSR::free"}]}
{"id": "C65", "title": "A moved File owns the mapping alone", "statement": "After move-constructing or move-assigning a File, the mapping is unmapped exactly once and the new object keeps position and name.", "quantifier": "every history of File constructions, moves and destructions", "why_tests_cant": "history quantification", "anchors": [{"file": "include/pigo.hpp", "symbol": "File::File(File&&)"}, {"file": "include/pigo/impl/pigo.impl.hpp", "symbol": "File::operator="}]}
{"id": "C66", "title": "Decimal floating point weights are read with their exact value (before rounding)", "statement": "read_fp on [sign]digits[.digits][(e|E)[sign]digits] computes, over exact arithmetic, the number the literal denotes and stops right after it.", "quantifier": "every such literal and following context", "why_tests_cant": "all literals", "anchors": [{"file": "include/pigo/impl/pigo.impl.hpp", "symbol": "FileReader::read_fp"}]}
{"id": "C67", "title": "Floating point values are printed with six decimals", "statement": "The text printed for a finite weight is an optional '-', at least one digit, '.', and exactly six digits, whose value is the decimal significand rounded half-up to six decimals; the count returned equals the bytes stored (plus a terminating NUL).", "quantifier": "every decimal significand/exponent delivered by the double-to-decimal step", "why_tests_cant": "all magnitudes", "anchors": [{"file": "include/pigo/impl/stb.impl.hpp", "symbol": "stbsp_to_chars"}, {"file": "include/pigo/impl/stb.impl.hpp", "symbol": "stbsp__real_to_str"}]}
{"id": "C68", "title": "Converting a weighted CSR to a COO works for every storage type", "statement": "COO(csr) copies the CSR's weights whatever the weight storage (pointer, shared_ptr, vector).", "quantifier": "every weighted CSR and storage kind", "why_tests_cant": "lifetime error is silent", "anchors": [{"file": "include/pigo/impl/coo.impl.hpp", "symbol": "COO::convert_csr_"}]}
{"id": "C69", "title": "Opening and seeking errors", "statement": "Opening for writing with size 0, opening for reading with a size, reading an empty file and seeking at or past the end throw; otherwise the file is mapped with the cursor at 0.", "quantifier": "every size/mode/position", "why_tests_cant": "all sizes", "anchors": [{"file": "include/pigo/impl/pigo.impl.hpp", "symbol": "File::File"}, {"file": "include/pigo/impl/pigo.impl.hpp", "symbol": "File::seek"}]}
{"id": "C70", "title": "Copies and assignments reproduce the COO", "statement": "The copy of a COO/Tensor has the same fields and entries; transposing or editing the copy does not change the original.", "quantifier": "every COO/Tensor", "why_tests_cant": "all contents", "anchors": [{"file": "include/pigo/coo.hpp", "symbol": "COO::copy_"}, {"file": "include/pigo/tensor.hpp", "symbol": "Tensor::copy_"}]}
{"id": "C71", "title": ".graph: the last row does not need a newline", "statement": "A .graph file whose last adjacency line is not ended by a newline loads the same graph as with the newline.", "quantifier": "every file, thread count, interleaving, content of uninitialised memory", "why_tests_cant": "depends on the numbering base and on uninitialised memory", "anchors": [{"file": "include/pigo/impl/csr.impl.hpp", "symbol": "CSR::read_graph_"}, {"file": "include/pigo/impl/pigo.impl.hpp", "symbol": "FileReader::move_to_next_int_or_nl"}]}
{"id": "C72", "title": ".graph: comments in the body are ignored and loading terminates", "statement": "Comments after the header of a .graph file (own line, end of line, end of file) do not change the loaded graph, and loading ends.", "quantifier": "every file with comments", "why_tests_cant": "all placements of comments; non-termination", "anchors": [{"file": "include/pigo/impl/csr.impl.hpp", "symbol": "CSR::read_graph_"}, {"file": "include/pigo/impl/pigo.impl.hpp", "symbol": "FileReader::move_to_next_int_or_nl"}]}
{"id": "C73", "title": "free and assignment release the storage of COO and Tensor", "statement": "If a program calls free() on every COO/Tensor before the end of its lifetime, then at any time all allocated storage with elements belongs to an existing object with entries; once all objects are freed no storage with elements is left.", "quantifier": "every finite history of constructions, copies, assignments, transposes, edits, frees and destructions", "why_tests_cant": "history quantification", "anchors": [{"file": "include/pigo/coo.hpp", "symbol": "COO::free"}, {"file": "include/pigo/coo.hpp", "symbol": "COO::operator="}, {"file": "include/pigo/tensor.hpp", "symbol": "Tensor::free"}]}
{"id": "C74", "title": "Building a DiGraph or Matrix from a file leaves no temporary storage", "statement": "Loading a DiGraph or Matrix from a file with entries leaves exactly the storage of its two CSRs allocated (the temporary COO and its transposed copy are released), and free() then releases exactly that storage; nothing is freed twice or used after being freed.", "quantifier": "every loaded COO, every heap, weighted or not", "why_tests_cant": "all sizes and heaps", "anchors": [{"file": "include/pigo/graph.hpp", "symbol": "DiGraph::from_coo_"}, {"file": "include/pigo/matrix.hpp", "symbol": "Matrix::from_coo_"}, {"file": "include/pigo/impl/graph.impl.hpp", "symbol": "DiGraph::read_"}, {"file": "include/pigo/csr.hpp", "symbol": "CSR::free"}]}
{"id": "C75", "title": "Printed floating point weights are accurate and exact where six decimals can be", "statement": "Writing a finite double with the ASCII writers prints its sign and a decimal number with six decimals which differs from the value by at most half a unit of the sixth decimal plus 1e-16 plus 2 parts in 1e17 of the value; values below 1e11 that are multiples of 1/64 and integers below 1e17 are printed exactly. The arithmetic is IEEE binary64 with any faithful choice of a nearest double at every operation.", "quantifier": "every finite double, every rounding to nearest (any tie breaking)", "why_tests_cant": "2^64 values and the error bounds of four tables of constants", "anchors": [{"file": "include/pigo/impl/stb.impl.hpp", "symbol": "stbsp_raise_to_power10"}, {"file": "include/pigo/impl/stb.impl.hpp", "symbol": "stbsp_real_to_str"}, {"file": "include/pigo/impl/stb.impl.hpp", "symbol": "stbsp_to_chars"}, {"file": "include/pigo/impl/pigo.impl.hpp", "symbol": "write_ascii"}]}
{"id": "C76", "title": "Doubles written as text are read back", "statement": "Reading the printed text of a finite double gives a value within half a unit of the sixth decimal plus a few units in the last place; multiples of 1/64 below 1e11 and integers up to 2^53 are read back exactly; below 1e9 printing the value read gives the same text again. This carries over to COO files written and loaded with any number of threads. Decimal literals in general are read with a relative error of at most 2^-50.", "quantifier": "every finite double (up to 2^53; 2^1000 with a weaker bound), every rounding to nearest, all files, thread counts and interleavings", "why_tests_cant": "all doubles and all literals; rounding errors of every digit step", "anchors": [{"file": "include/pigo/impl/pigo.impl.hpp", "symbol": "FileReader::read_fp"}, {"file": "include/pigo/impl/pigo.impl.hpp", "symbol": "write_ascii"}, {"file": "include/pigo/impl/coo.impl.hpp", "symbol": "COO::write"}]}
{"id": "C77", "title": "An edge list that loads as a COO loads as a CSR", "statement": "CSR(filename) on a text edge list gives a graph with n() = largest label + 1, m() = number of edges, valid offsets, and in the row of v each u as often as the line `v u` occurs in the file; every file that loads as a COO with the same label type also loads as a CSR.", "quantifier": "every plain edge file, label and ordinal width, thread count and interleaving", "why_tests_cant": "all files and schedules; the failing case needs the largest representable label", "anchors": [{"file": "include/pigo/impl/csr.impl.hpp", "symbol": "CSR::read_"}, {"file": "include/pigo/impl/csr.impl.hpp", "symbol": "CSR::convert_coo_"}, {"file": "include/pigo/impl/csr.impl.hpp", "symbol": "CSR::allocate_"}]}
{"id": "C78", "title": "clean_graph writes the simple undirected graph", "statement": "The example program clean_graph reads an edge list and writes the edges a b with a < b of the undirected graph without self loops, each once and in ascending order; the bytes do not depend on the number of threads, and cleaning the output again gives the same bytes.", "quantifier": "every plain edge file, thread count and interleaving", "why_tests_cant": "all graphs and all interleavings of five parallel phases", "anchors": [{"file": "docs/examples/clean_graph.cpp", "symbol": "main"}, {"file": "include/pigo/impl/csr.impl.hpp", "symbol": "CSR::new_csr_without_dups"}]}
{"id": "C79", "title": "symmetrize writes a symmetric, ordered edge list", "statement": "The example program symmetrize writes, in ascending order, each line a b (a != b) as often as the input has a b and b a together, and each self loop as often as the input has it; the output is symmetric and does not depend on the number of threads.", "quantifier": "every plain edge file, thread count and interleaving", "why_tests_cant": "all graphs and all interleavings", "anchors": [{"file": "docs/examples/symmetrize.cpp", "symbol": "main"}, {"file": "include/pigo/impl/csr.impl.hpp", "symbol": "CSR::sort"}]}
{"id": "C80", "title": "find_edge answers membership", "statement": "The example program find_edge with vertices src, dst of the graph exits with 0 if the file has the edge src dst and with 2 otherwise; vertices outside of the graph are rejected with an error.", "quantifier": "every plain edge file, every pair of numbers, thread count and interleaving", "why_tests_cant": "all graphs and vertex pairs; parallel loading and sorting", "anchors": [{"file": "docs/examples/find_edge.cpp", "symbol": "main"}, {"file": "include/pigo/graph.hpp", "symbol": "BaseGraph::neighbor_start"}]}
{"id": "C81", "title": "Files of any kind load into any class", "statement": "With the file type guessed, an edge list (with any kind of weights), a Matrix Market file, a saved COO and a saved CSR load as a COO, a CSR, a DiGraph or a Matrix with exactly the entries of the file: rows of the CSR, of the first graph of the DiGraph and of the Matrix's CSR hold the entries, the second graph and the CSC hold them transposed; n(), m(), nrows() and ncols() are those of the file. The flags of a COO apply to a saved CSR as well, or the constructor throws. A saved DiGraph or Tensor loaded as a COO, CSR or Matrix throws.", "quantifier": "every well-formed file and file name, saved object, weight kind, flag combination, thread counts and interleavings of saving and loading", "why_tests_cant": "all files, objects and interleavings across four formats and four classes", "anchors": [{"file": "include/pigo/impl/coo.impl.hpp", "symbol": "COO::read_"}, {"file": "include/pigo/impl/csr.impl.hpp", "symbol": "CSR::read_"}, {"file": "include/pigo/impl/graph.impl.hpp", "symbol": "DiGraph::read_"}, {"file": "include/pigo/matrix.hpp", "symbol": "Matrix::Matrix"}, {"file": "include/pigo/impl/pigo.impl.hpp", "symbol": "File::guess_file_type"}]}
{"id": "C82", "title": "Arbitrary text loaded as an edge list or Matrix Market file", "statement": "Loading any bytes whatsoever as an unweighted edge list, with any flags, gives for a given number of threads always the same COO: no entry is left uninitialised, the arrays have m() elements, m() is at most the number of bytes and every label is below n(). A CSR, DiGraph or Matrix constructed from the same file is valid, holds exactly the entries of that COO and is built without access outside of an array. Loaded as a Matrix Market file, every execution throws, or all give the same COO with these properties.", "quantifier": "every byte string (well-formed or not), flag combination, label width, thread count, interleaving and content of uninitialised memory", "why_tests_cant": "all byte strings, all interleavings, and results that depend on uninitialised memory", "anchors": [{"file": "include/pigo/impl/coo.impl.hpp", "symbol": "COO::read_el_"}, {"file": "include/pigo/impl/coo.impl.hpp", "symbol": "COO::read_coord_entry_"}, {"file": "include/pigo/impl/csr.impl.hpp", "symbol": "CSR::convert_coo_"}, {"file": "include/pigo/impl/pigo.impl.hpp", "symbol": "FileReader::read_int"}]}
{"id": "C83", "title": "Arbitrary text loaded as a .graph file", "statement": "Loading any bytes whatsoever as a .graph file ends, without access outside of the mapped file or of an array: it throws, or gives a CSR whose arrays have the sizes m() and nrows()+1, with n() at most nrows() and every offset at most m(). For a given number of threads the outcome is always the same, and a CSR that is returned has valid (non-decreasing) offsets, every endpoint initialised.", "quantifier": "every byte string (well-formed or not), label and ordinal width, thread count, interleaving and content of uninitialised memory", "why_tests_cant": "all byte strings, all interleavings, and non-termination", "anchors": [{"file": "include/pigo/impl/csr.impl.hpp", "symbol": "CSR::read_graph_"}, {"file": "include/pigo/impl/pigo.impl.hpp", "symbol": "FileReader::move_to_next_int_or_nl"}]}
{"id": "C84", "title": "A constructor that throws leaves nothing allocated", "statement": "When constructing a COO, CSR, DiGraph, Matrix or Tensor from a file throws, every array that was allocated for it has been released. When it succeeds, exactly the arrays of the new object are allocated: those of intermediate COOs, CSRs and copies have been released.", "quantifier": "every byte string and file name, file type (given or guessed), flags, storage (raw pointer, vector, shared_ptr), weight kind, thread count, interleaving and content of uninitialised memory", "why_tests_cant": "every file that can be rejected, at every point where an exception can be thrown, with every storage", "anchors": [{"file": "include/pigo/impl/coo.impl.hpp", "symbol": "COO::read_"}, {"file": "include/pigo/impl/coo.impl.hpp", "symbol": "COO::read_mm_"}, {"file": "include/pigo/impl/coo.impl.hpp", "symbol": "COO::convert_csr_"}, {"file": "include/pigo/impl/csr.impl.hpp", "symbol": "CSR::read_"}, {"file": "include/pigo/impl/csr.impl.hpp", "symbol": "CSR::read_graph_"}, {"file": "include/pigo/impl/graph.impl.hpp", "symbol": "DiGraph::read_"}, {"file": "include/pigo/matrix.hpp", "symbol": "Matrix::Matrix"}, {"file": "include/pigo/impl/tensor.impl.hpp", "symbol": "Tensor::read_"}]}
{"id": "C85", "title": "Parallel regions have no data races", "statement": "While an object is loaded, converted, copied, sorted, deduplicated, saved or written by several threads, no two threads access the same memory location in the same parallel region between barriers, one of them writing, unless both accesses are atomic: not the arrays of the objects, the shared counters of the passes, nor the mapped output file.", "quantifier": "every input (bytes of the file, arrays of the object), flags, storage, weight kind, thread count, assignment of iterations to threads, interleaving and content of uninitialised memory", "why_tests_cant": "a race shows only in some schedules, and a race detector only sees the schedules and inputs it is run on", "anchors": [{"file": "include/pigo/impl/pigo.impl.hpp", "symbol": "parallel_write"}, {"file": "include/pigo/impl/pigo.impl.hpp", "symbol": "parallel_read"}, {"file": "include/pigo/impl/pigo.impl.hpp", "symbol": "FileReader::find_offsets"}, {"file": "include/pigo/impl/coo.impl.hpp", "symbol": "COO::read_el_"}, {"file": "include/pigo/impl/coo.impl.hpp", "symbol": "COO::convert_csr_"}, {"file": "include/pigo/impl/coo.impl.hpp", "symbol": "COO::write"}, {"file": "include/pigo/impl/csr.impl.hpp", "symbol": "CSR::convert_coo_"}, {"file": "include/pigo/impl/csr.impl.hpp", "symbol": "CSR::read_graph_"}, {"file": "include/pigo/impl/csr.impl.hpp", "symbol": "CSR::sort"}, {"file": "include/pigo/impl/csr.impl.hpp", "symbol": "CSR::new_csr_without_dups"}, {"file": "include/pigo/impl/tensor.impl.hpp", "symbol": "Tensor::read_el_"}, {"file": "include/pigo/impl/tensor.impl.hpp", "symbol": "Tensor::write"}, {"file": "include/pigo/impl/tensor.impl.hpp", "symbol": "Tensor::max_labels"}]}
{"id": "C86", "title": "Tensors out of arbitrary or cut text", "statement": "Loading a tensor from any text file reads nothing outside of the file, ends, and returns a tensor whose order, number of entries and arrays agree, without touching memory outside of its arrays; a file that was cut short, or whose last line lacks its newline, gives the entries of its complete lines whatever the number of threads.", "quantifier": "every file content, thread count, interleaving of the stores and content of uninitialised memory", "why_tests_cant": "the stores past the end of the array depend on where the file is cut, on the split of the file between the threads and on the schedule", "anchors": [{"file": "include/pigo/impl/tensor.impl.hpp", "symbol": "Tensor::read_el_"}, {"file": "include/pigo/impl/tensor.impl.hpp", "symbol": "Tensor::read_coord_entry_"}, {"file": "include/pigo/impl/pigo.impl.hpp", "symbol": "FileReader::read_int"}, {"file": "include/pigo/impl/pigo.impl.hpp", "symbol": "FileReader::count_spaces_to_eol"}]}
{"id": "C87", "title": "Every operation has an outcome", "statement": "For every input file (any bytes, name, requested type and flags), every object and every number of threads at least one, each operation of the API (loading, saving, writing, converting, copying, sorting, removing duplicates, max_labels, find_offsets) and each example program has at least one execution, which ends in a result, an exception, or a fault (a store or load outside of an array, signed overflow, or a hang); so no statement of the other properties about every execution is empty.", "quantifier": "all files, objects, type parameters, flags and thread counts >= 1", "why_tests_cant": "it ranges over all inputs and objects, including ones no test constructs; and it is what makes the claims about all schedules non-empty", "anchors": [{"file": "include/pigo/impl/coo.impl.hpp", "symbol": "COO::read_"}, {"file": "include/pigo/impl/csr.impl.hpp", "symbol": "CSR::read_"}, {"file": "include/pigo/impl/graph.impl.hpp", "symbol": "DiGraph::read_"}, {"file": "include/pigo/impl/tensor.impl.hpp", "symbol": "Tensor::read_"}, {"file": "include/pigo/impl/csr.impl.hpp", "symbol": "CSR::new_csr_without_dups"}, {"file": "include/pigo/impl/pigo.impl.hpp", "symbol": "find_offsets"}]}
{"id": "C88", "title": "Weighted edge lists out of arbitrary or cut text", "statement": "Loading a COO with weights from any text file reads nothing outside of the file, ends, and returns arrays of one size without touching memory outside of them; a file that was cut short, whose last line lacks its newline, or that has no weights, gives the entries of its complete lines and never entries made of uninitialised memory.", "quantifier": "every file content, thread count, interleaving of the stores and content of uninitialised memory", "why_tests_cant": "the store past the end of the array and the entries of uninitialised memory depend on where the file is cut, on the split of the file between the threads and on what the allocator returns", "anchors": [{"file": "include/pigo/impl/coo.impl.hpp", "symbol": "COO::read_el_"}, {"file": "include/pigo/impl/coo.impl.hpp", "symbol": "COO::read_coord_entry_"}, {"file": "include/pigo/impl/coo.impl.hpp", "symbol": "COO::read_wgt_"}, {"file": "include/pigo/impl/pigo.impl.hpp", "symbol": "FileReader::read_int"}]}
{"id": "C89", "title": "Interrupted saves", "statement": "If the process ends at any point of save() or write() over an existing file, the file afterwards has its old contents, is empty, or has its final size with the parts of the format written in order up to some point; loading what is left either throws Error or gives an object no larger than the one saved, without reading outside of the file, and what is loaded is the old object or the new one.", "quantifier": "every object, old file content, thread count, interleaving of the stores and point at which the process ends", "why_tests_cant": "a crash can come between any two stores of any interleaving of the writing threads; no test can stop at each of them", "anchors": [{"file": "include/pigo/impl/pigo.impl.hpp", "symbol": "File::File"}, {"file": "include/pigo/impl/pigo.impl.hpp", "symbol": "File::parallel_write"}, {"file": "include/pigo/impl/coo.impl.hpp", "symbol": "COO::save"}, {"file": "include/pigo/impl/csr.impl.hpp", "symbol": "CSR::save"}, {"file": "include/pigo/impl/graph.impl.hpp", "symbol": "DiGraph::save"}, {"file": "include/pigo/impl/tensor.impl.hpp", "symbol": "Tensor::save"}, {"file": "include/pigo/impl/coo.impl.hpp", "symbol": "COO::write"}, {"file": "include/pigo/impl/tensor.impl.hpp", "symbol": "Tensor::write"}]}
{"id": "C90", "title": "Failed opens release descriptors and mappings", "statement": "Constructing a File either gives a File that holds exactly one mapping and no file descriptor, or throws Error and holds nothing; after any sequence of constructions and destructions, successful or not, the process has the descriptors and mappings of the Files that are alive and no others, so that a program can go on opening files as long as its live Files permit.", "quantifier": "every file name, mode, size, state of the file system, failing system call, limit on descriptors, and history of constructions and destructions", "why_tests_cant": "a leaked descriptor is seen only after as many failures as the limit of the process allows, and each system call of the constructor has to fail at each point of a history", "anchors": [{"file": "include/pigo/impl/pigo.impl.hpp", "symbol": "File::File"}, {"file": "include/pigo/impl/pigo.impl.hpp", "symbol": "File::~File"}]}
{"id": "C91", "title": "Failures reach the caller as exceptions", "statement": "When a load, save or write fails, because of the contents of the file, the flags or a file that cannot be created, the caller gets the exception and the program goes on; the process is never ended, with or without OpenMP.", "quantifier": "every file content, object, type parameters, flags, number of threads, schedule, and build with or without OpenMP", "why_tests_cant": "an exception that leaves a parallel region ends the process; that none is thrown there for any input is a statement about all inputs and schedules", "anchors": [{"file": "include/pigo/impl/coo.impl.hpp", "symbol": "COO::write"}, {"file": "include/pigo/impl/tensor.impl.hpp", "symbol": "Tensor::write"}, {"file": "include/pigo/impl/coo.impl.hpp", "symbol": "COO::read_el_"}, {"file": "include/pigo/impl/csr.impl.hpp", "symbol": "CSR::read_graph_"}, {"file": "include/pigo/impl/tensor.impl.hpp", "symbol": "Tensor::read_el_"}, {"file": "include/pigo/impl/pigo.impl.hpp", "symbol": "File::File"}]}
{"id": "C92", "title": "Memory that runs out", "statement": "When memory runs out at any allocation of a load, the load throws and leaves nothing allocated, or returns the object it returns with enough memory; it never returns another object and never ends the process.", "quantifier": "every file, type and storage parameters, number of threads, schedule, and every allocation that may fail", "why_tests_cant": "every single allocation has to fail in turn, in each format and with each storage type, in builds with and without OpenMP", "anchors": [{"file": "include/pigo.hpp", "symbol": "allocate_mem_"}, {"file": "include/pigo/impl/coo.impl.hpp", "symbol": "COO::read_el_"}, {"file": "include/pigo/impl/coo.impl.hpp", "symbol": "COO::read_bin_"}, {"file": "include/pigo/impl/csr.impl.hpp", "symbol": "CSR::read_"}, {"file": "include/pigo/impl/csr.impl.hpp", "symbol": "CSR::convert_coo_"}, {"file": "include/pigo/impl/csr.impl.hpp", "symbol": "CSR::read_graph_"}, {"file": "include/pigo/impl/tensor.impl.hpp", "symbol": "Tensor::read_el_"}]}
{"id": "C93", "title": "Sizes beyond 64 bits", "statement": "A binary load never returns an object whose arrays are shorter than its entry count states, whatever counts the header of the file has: sizes that do not fit in size_t, or in the ordinal type, are rejected. Loads and saves whose sizes fit are not affected by the 64-bit arithmetic.", "quantifier": "every file content, label, ordinal and weight size, storage, number of threads and schedule", "why_tests_cant": "the products that wrap around are reached only by counts near 2^62, of which tests can try a few values, and the result for every size below the limit is a statement about all of them", "anchors": [{"file": "include/pigo.hpp", "symbol": "allocate_mem_"}, {"file": "include/pigo/impl/coo.impl.hpp", "symbol": "COO::read_bin_"}, {"file": "include/pigo/impl/csr.impl.hpp", "symbol": "CSR::read_bin_"}, {"file": "include/pigo/impl/tensor.impl.hpp", "symbol": "Tensor::allocate_"}, {"file": "include/pigo/impl/tensor.impl.hpp", "symbol": "Tensor::read_bin_"}, {"file": "include/pigo/impl/coo.impl.hpp", "symbol": "COO::save"}, {"file": "include/pigo/impl/csr.impl.hpp", "symbol": "CSR::save_size"}]}
{"id": "C94", "title": "Alignment of binary headers", "statement": "Loading and saving binary files accesses every header field at an address that is a multiple of its size, so that the accesses are defined in C++ on every machine.", "quantifier": "every file, object, label, ordinal and weight type, thread count and schedule", "why_tests_cant": "x86 tolerates misaligned accesses, so no test there can notice; whether all fields are aligned depends on the sizes of all template parameters", "anchors": [{"file": "include/pigo/impl/pigo.impl.hpp", "symbol": "read"}, {"file": "include/pigo/impl/pigo.impl.hpp", "symbol": "write"}, {"file": "include/pigo/impl/coo.impl.hpp", "symbol": "COO::read_bin_"}, {"file": "include/pigo/impl/csr.impl.hpp", "symbol": "CSR::read_bin_"}, {"file": "include/pigo/impl/tensor.impl.hpp", "symbol": "Tensor::read_bin_"}, {"file": "include/pigo/impl/tensor.impl.hpp", "symbol": "Tensor::save"}]}
{"id": "C95", "title": "Sizes set by the user and sizes reported", "statement": "After set_n(k) the CSR built from the COO has k rows, of which those without entries are empty, or the conversion reports that a label does not fit; n(), m(), nrows() and ncols() of a DiGraph or Matrix are those of the COO it was built from.", "quantifier": "every COO, new size, label and ordinal type, thread count and schedule", "why_tests_cant": "depends on the relation between all labels, the new size and the widths of two template types", "anchors": [{"file": "include/pigo/coo.hpp", "symbol": "COO::set_n"}, {"file": "include/pigo/graph.hpp", "symbol": "DiGraph::n"}, {"file": "include/pigo/matrix.hpp", "symbol": "Matrix::nrows"}, {"file": "include/pigo/csr.hpp", "symbol": "CSR::CSR"}, {"file": "include/pigo/impl/csr.impl.hpp", "symbol": "CSR::convert_coo_"}]}
{"id": "C96", "title": "The tutorial program reads a binary vector", "statement": "The program of the tutorial on binary files, run on a file `<size:uint64_t><data>...`, passes on exactly the data of the file whatever the number of threads; a vector written with WFile, write and parallel_write is read back unchanged; a file shorter than its header announces is rejected.", "quantifier": "every vector, element type, file content, file length, thread counts of writer and reader, and schedule", "why_tests_cant": "the parallel copy splits the bytes by the number of threads, not by element, and truncated files only misbehave depending on how much of the last page is mapped", "anchors": [{"file": "docs/tutorials/read_binary.rst", "symbol": "main"}, {"file": "include/pigo/impl/pigo.impl.hpp", "symbol": "parallel_read"}, {"file": "include/pigo/impl/pigo.impl.hpp", "symbol": "parallel_write"}, {"file": "include/pigo/impl/pigo.impl.hpp", "symbol": "read"}]}
{"id": "C97", "title": "The README program", "statement": "The example program of the README, run on an edge list, prints the largest label plus one, the number of edges, and the second vertices of the lines starting with vertex 0, in the order of the file (as shown for toy.el).", "quantifier": "every edge list file, thread count and schedule", "why_tests_cant": "the order of a row depends on which thread takes which edge first; runs on small files with a fast first thread always show the order of the file", "anchors": [{"file": "README.md", "symbol": "main"}, {"file": "include/pigo/graph.hpp", "symbol": "BaseGraph::neighbors"}, {"file": "include/pigo/impl/csr.impl.hpp", "symbol": "CSR::convert_coo_"}]}
{"id": "C98", "title": "Signed label and ordinal types", "statement": "With signed label and ordinal types that can hold the numbers and the number of entries of the file, COO(fn), CSR(fn), DiGraph(fn), Matrix(fn) and Tensor(fn) on a text file (edge list, Matrix Market, .graph, tensor), max_labels(), neighbors(v), degree(v) and new_csr_without_dups() give the same result as with unsigned types, without overflow, even if the file is malformed; if something does not fit, nothing but an overflow distinguishes the two. find_edge.cpp, which uses int64_t, answers as documented.", "quantifier": "every text file, signed type width, weight type, combination of flags, thread count and schedule", "why_tests_cant": "signed overflow is undefined behaviour that shows only for labels next to the limit of the type, in whichever of the many sums comes first", "anchors": [{"file": "include/pigo/impl/coo.impl.hpp", "symbol": "COO::read_el_"}, {"file": "include/pigo/impl/coo.impl.hpp", "symbol": "COO::read_mm_"}, {"file": "include/pigo/impl/pigo.impl.hpp", "symbol": "read_int"}, {"file": "include/pigo/impl/csr.impl.hpp", "symbol": "CSR::convert_coo_"}, {"file": "docs/examples/find_edge.cpp", "symbol": "main"}, {"file": "include/pigo/impl/csr.impl.hpp", "symbol": "CSR::read_graph_"}, {"file": "include/pigo/impl/coo.impl.hpp", "symbol": "COO::convert_csr_"}, {"file": "include/pigo/impl/tensor.impl.hpp", "symbol": "Tensor::read_el_"}, {"file": "include/pigo/impl/tensor.impl.hpp", "symbol": "Tensor::max_labels"}]}
{"id": "C99", "title": "The graph cleaning tutorial", "statement": "The cleaning program of the tutorial writes each edge of the cleaned graph exactly once, in ascending order, and nothing else, for every choice of the three template flags: symmetrized or not, upper triangle or not, with or without self loops. With the first two flags off it removes self loops and multi-edges of a directed graph and keeps all directions; messy.el of the tutorial gives the output shown there.", "quantifier": "every edge list file, combination of flags, label and ordinal size, thread count and schedule", "why_tests_cant": "eight flag combinations times every multigraph, thread count and interleaving of read, conversion, duplicate removal and parallel write", "anchors": [{"file": "docs/tutorials/simple_graph_cleaner.rst", "symbol": "main"}, {"file": "include/pigo/impl/csr.impl.hpp", "symbol": "CSR::new_csr_without_dups"}, {"file": "include/pigo/impl/coo.impl.hpp", "symbol": "COO::read_coord_entry_"}, {"file": "include/pigo/impl/coo.impl.hpp", "symbol": "COO::write"}]}
{"id": "C100", "title": "The single-header release", "statement": "generate_release.py, run on a library whose own files include each other as a tree, writes a header that declares, inside namespace pigo, exactly the lines the compiler meets in include/pigo.hpp with all the files it includes, in the same order, and includes exactly the system headers those files include, under the same conditions. It ends for every set of files; a header is written whenever all files exist and there is no loop.", "quantifier": "every set of files, include structure and position of the include lines", "why_tests_cant": "one run shows one library; a diamond, a missing final newline or a conditional include shows only in the library it occurs in", "anchors": [{"file": "generate_release.py", "symbol": "get_code"}, {"file": "generate_release.py", "symbol": "create_single"}, {"file": "generate_release.py", "symbol": "write_includes"}, {"file": "release/pigo.hpp", "symbol": "#include <omp.h>"}]}
{"id": "C101", "title": "Programs over the API compose", "statement": "Whatever sequence of operations a program runs on COO, CSR, DiGraph and Matrix objects \u2014 copy, transpose, conversions with and without symmetrization, sort, removal of duplicates, the in/out graphs and CSR/CSC of a graph or matrix, save to binary and load as any class, write as text and load as any class \u2014 every operation succeeds and the final object holds exactly the graph (vertices, multiset of edges, weights) that results from applying the operations one after the other to the graph at the start, provided sizes fit the types at every point, text is not written of an empty graph and weighted CSRs are not converted into std::vector COOs. The graph at the end does not depend on the numbers of threads, the schedules or the order of the edges.", "quantifier": "every sequence of operations of any length, every graph, label, ordinal and weight type, storage type, number of threads per operation and schedule", "why_tests_cant": "the number of sequences is infinite, and an object left in a subtly invalid state by one operation shows only in some later operation", "anchors": [{"file": "include/pigo/coo.hpp", "symbol": "COO"}, {"file": "include/pigo/csr.hpp", "symbol": "CSR"}, {"file": "include/pigo/graph.hpp", "symbol": "DiGraph"}, {"file": "include/pigo/matrix.hpp", "symbol": "Matrix"}, {"file": "include/pigo/impl/csr.impl.hpp", "symbol": "new_csr_without_dups"}, {"file": "include/pigo/impl/coo.impl.hpp", "symbol": "write"}]}
{"id": "C102", "title": "Conversions between objects of different label, ordinal and weight types", "statement": "Building a CSR, DiGraph or Matrix from a COO, a COO from a CSR, or a CSR without duplicates from a CSR, where the label, ordinal and weight types of the result differ from those of the source, gives the same graph (vertices, rows, columns, edges with their multiplicities) with every weight converted, whenever the sizes and labels are values of the new types; converting to wider types and back gives the original. A graph that the new types cannot hold is reported as an error, and no memory outside of the arrays is used.", "quantifier": "every graph, every width of the label and ordinal types of source and result, every weight type and weight conversion, with and without weights on either side, every storage type, number of threads and schedule", "why_tests_cant": "the loss of values happens only for graphs larger than the narrower type, and the tests use the same types on both sides or graphs of a few vertices", "anchors": [{"file": "include/pigo/impl/csr.impl.hpp", "symbol": "convert_coo_"}, {"file": "include/pigo/impl/coo.impl.hpp", "symbol": "convert_csr_"}, {"file": "include/pigo/impl/csr.impl.hpp", "symbol": "new_csr_without_dups"}, {"file": "include/pigo/graph.hpp", "symbol": "from_coo_"}, {"file": "include/pigo/matrix.hpp", "symbol": "from_coo_"}, {"file": "include/pigo.hpp", "symbol": "get_value_"}]}
{"id": "C103", "title": "Copies are independent and memory is released with the last owner, for every storage type", "statement": "A copy of a COO, Tensor, CSR, Graph, DiGraph or Matrix equals the original, and sorting, transposing, editing, freeing or destroying one of them afterwards does not change the other; with std::vector and std::shared_ptr storage every array is released exactly when the last object or variable that refers to it is gone, without calls of free(), and is never used after that.", "quantifier": "every history of constructions, default constructions, copies, assignments (also self-assignments), transposes, frees, stores, destructions and variables taken from objects, over any number of objects of all classes, for raw pointer, shared_ptr and vector storage", "why_tests_cant": "histories are unbounded, and sharing shows only if one of two copies is changed after copying", "anchors": [{"file": "include/pigo/csr.hpp", "symbol": "CSR"}, {"file": "include/pigo/coo.hpp", "symbol": "COO::operator="}, {"file": "include/pigo/tensor.hpp", "symbol": "Tensor::operator="}, {"file": "include/pigo/graph.hpp", "symbol": "DiGraph"}, {"file": "include/pigo/matrix.hpp", "symbol": "Matrix"}, {"file": "include/pigo.hpp", "symbol": "allocate_mem_"}, {"file": "include/pigo.hpp", "symbol": "free_mem_"}]}
{"id": "C104", "title": "Infinite and NaN weights survive a round trip through text", "statement": "Writing a COO or a tensor with floating point weights as text and loading the file as an edge list or tensor keeps every entry, also if weights are infinite or NaN; what an infinite or NaN weight is loaded as does not affect other entries.", "quantifier": "every list of entries, every mix of finite, infinite and NaN weights (finite ones up to 2^53 in absolute value), every number of writing and loading threads, every schedule and content of uninitialised memory", "why_tests_cant": "what is lost depends on where the splits between threads fall and on what the memory held; tests use finite weights", "anchors": [{"file": "include/pigo/impl/stb.impl.hpp", "symbol": "stbsp__real_to_str"}, {"file": "include/pigo/impl/coo.impl.hpp", "symbol": "write"}, {"file": "include/pigo/impl/coo.impl.hpp", "symbol": "read_wgt_"}, {"file": "include/pigo/impl/pigo.impl.hpp", "symbol": "FileReader::read_fp"}, {"file": "include/pigo/impl/pigo.impl.hpp", "symbol": "FileReader::move_to_fp"}, {"file": "include/pigo/impl/tensor.impl.hpp", "symbol": "Tensor::read_coord_entry_"}]}
{"id": "C105", "title": "Loops over the neighbors of a vertex see and modify the graph, whatever its storage type", "statement": "A loop `for (auto& u : g.neighbors(v))` visits the row of v in order; assignments to u change the graph's endpoints of that row and nothing else; the loop leaves no memory allocated and releases none of the graph's; loops may be nested; an iterator that is kept stays usable while the graph is freed, assigned to or destroyed.", "quantifier": "every graph, vertex, storage type (raw pointer, shared_ptr, vector), function applied to the elements, and every history of constructions, copies, assignments, frees, destructions and loops before and after", "why_tests_cant": "the iterators hold the storage by value, so what an assignment reaches and what is released depends on the storage type and on everything else that refers to the arrays", "anchors": [{"file": "include/pigo/graph.hpp", "symbol": "EdgeIt"}, {"file": "include/pigo/graph.hpp", "symbol": "EdgeItT"}, {"file": "include/pigo/graph.hpp", "symbol": "BaseGraph::neighbors"}, {"file": "include/pigo/impl/graph.impl.hpp", "symbol": "EdgeItT::operator*"}, {"file": "include/pigo.hpp", "symbol": "get_value_"}]}
{"id": "C106", "title": "A file laid out by the user with several objects is read back, in order or by position", "statement": "When a program opens a file with at least the sum of the sizes it needs (save_size() for graphs, sizeof for values, the length of strings and blocks), writes values, strings, blocks of memory and CSRs of any template parameters one after the other with File::write, File::parallel_write and CSR::save(File&), the file is the concatenation of the records; reading with File::read, File::parallel_read and CSR(File&, type) in the same order gives the same objects, each read ending where the next record starts; after seek to the sum of the sizes of the records before it, any record can be read on its own.", "quantifier": "every list of records (any number, order, template parameters and contents that fit their types), every file size that holds them, numbers of threads and interleavings when writing and when reading, file name, given or detected type of the graphs", "why_tests_cant": "the position after each record must be right for every record and every sequence, and the parallel copies start at positions that depend on everything written before", "anchors": [{"file": "include/pigo/csr.hpp", "symbol": "CSR::save(File&)"}, {"file": "include/pigo/csr.hpp", "symbol": "CSR::save_size"}, {"file": "include/pigo/csr.hpp", "symbol": "CSR(File&, FileType)"}, {"file": "include/pigo/impl/pigo.impl.hpp", "symbol": "File::read"}, {"file": "include/pigo/impl/pigo.impl.hpp", "symbol": "File::write"}, {"file": "include/pigo/impl/pigo.impl.hpp", "symbol": "File::parallel_write"}, {"file": "include/pigo/impl/pigo.impl.hpp", "symbol": "File::parallel_read"}, {"file": "include/pigo/impl/pigo.impl.hpp", "symbol": "File::seek"}]}
{"id": "C107", "title": "Graphs loaded from .graph files can be sorted, deduplicated, iterated, saved and loaded into the other classes", "statement": "A CSR loaded from a .graph file can be used like any other: neighbors(v) and degree(v) give row v for v < n(); sort() sorts each row and changes nothing else; new_csr_without_dups() gives the rows sorted and without duplicates; save() and loading the file gives the same rows; COO(csr) and COO(fn), DiGraph(fn) and Matrix(fn) on the .graph file have the edges of the file, and only those, with the flags applied.", "quantifier": "every CSR whose arrays hold at least n rows (in particular all loaded from .graph files, 0-based and 1-based, with further lines after the n-th), every .graph file without glued comments, every number of threads, schedule and content of uninitialised memory", "why_tests_cant": "the arrays loaded from 1-based files or files with more lines than vertices hold more than n() rows; what happens to the surplus depends on uninitialised memory and on the schedule, and a test reading one file sees only one outcome", "anchors": [{"file": "include/pigo/impl/csr.impl.hpp", "symbol": "CSR::read_graph_"}, {"file": "include/pigo/impl/csr.impl.hpp", "symbol": "CSR::sort"}, {"file": "include/pigo/impl/csr.impl.hpp", "symbol": "CSR::new_csr_without_dups"}, {"file": "include/pigo/impl/csr.impl.hpp", "symbol": "CSR::save"}, {"file": "include/pigo/impl/coo.impl.hpp", "symbol": "COO::convert_csr_"}, {"file": "include/pigo/impl/coo.impl.hpp", "symbol": "COO::read_"}, {"file": "include/pigo/impl/graph.impl.hpp", "symbol": "DiGraph::read_"}, {"file": "include/pigo/matrix.hpp", "symbol": "Matrix::from_coo_"}]}
