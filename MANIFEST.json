{
 "claims": [
  {
   "property": "C01",
   "status": "proved",
   "theorems": [
    "Pigo.C01_read_int",
    "Pigo.C01_no_outside"
   ],
   "note": ""
  },
  {
   "property": "C02",
   "status": "partial",
   "theorems": [
    "Pigo.C02_write_unsigned",
    "Pigo.C02_write_signed",
    "Pigo.C02_smallest_violated"
   ],
   "note": "Proved for every value except the smallest of a signed type, for which the violation is proved."
  },
  {
   "property": "C03",
   "status": "proved",
   "theorems": [
    "Pigo.C03_unsigned",
    "Pigo.C03_signed"
   ],
   "note": ""
  },
  {
   "property": "C04",
   "status": "partial",
   "theorems": [
    "Pigo.C04_cursor_stays",
    "Pigo.C04_signed_violated",
    "Pigo.C04_smaller_end",
    "Pigo.C04_count_spaces",
    "Pigo.C04_count_spaces_violated",
    "Pigo.C04_peek",
    "Pigo.C04_at_zero"
   ],
   "note": "Proved for all listed movements; move_to_next_signed_int (not listed) and count_spaces_to_eol over a reader cut short with smaller_end can leave the reader (violated theorems)."
  },
  {
   "property": "C05",
   "status": "proved",
   "theorems": [
    "Pigo.C05_move_to_first_int",
    "Pigo.C05_move_to_next_int"
   ],
   "note": ""
  },
  {
   "property": "C06",
   "status": "proved",
   "theorems": [
    "Pigo.C06_at_end_of_line"
   ],
   "note": ""
  },
  {
   "property": "C07",
   "status": "partial",
   "theorems": [
    "Pigo.C07_find_offsets_partial",
    "Pigo.C07_offset_zero_violated"
   ],
   "note": "The code loses an occurrence at offset 0; everything else is proved for all thread counts."
  },
  {
   "property": "C08",
   "status": "proved",
   "theorems": [
    "Pigo.C08_edge_list_entries"
   ],
   "note": ""
  },
  {
   "property": "C09",
   "status": "proved",
   "theorems": [
    "Pigo.C09_thread_independent",
    "Pigo.C09_thread_independent_weighted"
   ],
   "note": ""
  },
  {
   "property": "C10",
   "status": "partial",
   "theorems": [
    "Pigo.C10_dimensions",
    "Pigo.C10_dimensions_symmetric",
    "Pigo.C10_symmetric_rows_violated"
   ],
   "note": "Holds for every flag combination except symmetric without upper triangle, where nrows() ignores mirrored entries (violated theorem); there the exact values are proved."
  },
  {
   "property": "C11",
   "status": "proved",
   "theorems": [
    "Pigo.C11_comments_irrelevant"
   ],
   "note": ""
  },
  {
   "property": "C12",
   "status": "proved",
   "theorems": [
    "Pigo.C12_remove_self_loops"
   ],
   "note": ""
  },
  {
   "property": "C13",
   "status": "proved",
   "theorems": [
    "Pigo.C13_upper_triangle"
   ],
   "note": ""
  },
  {
   "property": "C14",
   "status": "proved",
   "theorems": [
    "Pigo.C14_symmetric",
    "Pigo.C14_symmetric_unsigned",
    "Pigo.C14_symmetric_signed",
    "Pigo.C14_symmetric_float"
   ],
   "note": ""
  },
  {
   "property": "C15",
   "status": "proved",
   "theorems": [
    "Pigo.C15_symmetric_upper"
   ],
   "note": ""
  },
  {
   "property": "C16",
   "status": "proved",
   "theorems": [
    "Pigo.C16_weights_unsigned",
    "Pigo.C16_weights_signed",
    "Pigo.C16_weights_float",
    "Pigo.C16_weights_signed_free_text",
    "Pigo.C16_weights_float_free_text"
   ],
   "note": "Unsigned, signed and floating point weights, as words or among other text; flags that drop entries are C17."
  },
  {
   "property": "C17",
   "status": "partial",
   "theorems": [
    "Pigo.C17_weights_filtered_partial",
    "Pigo.C17_weights_filtered_violated",
    "Pigo.C17_wrong_weight"
   ],
   "note": "The code violates the claim when an entry is dropped; proved for files from which the flags drop nothing, plus two counterexamples."
  },
  {
   "property": "C18",
   "status": "partial",
   "theorems": [
    "Pigo.C18_final_newline_partial",
    "Pigo.C18_final_newline_violated",
    "Pigo.C18_final_line_dropped"
   ],
   "note": "The code violates the claim for an unterminated data line; proved when the unterminated text holds no integer."
  },
  {
   "property": "C19",
   "status": "partial",
   "theorems": [
    "Pigo.C19_memory_safe",
    "Pigo.C19_page_multiple_violated",
    "Pigo.C19_weighted_malformed_violated"
   ],
   "note": "Proved for every byte sequence when the size is not a multiple of the page size; otherwise every execution reads past the mapping."
  },
  {
   "property": "C20",
   "status": "proved",
   "theorems": [
    "Pigo.C20_labels_alias",
    "Pigo.C20_labels_exact",
    "Pigo.C20_count_wraps"
   ],
   "note": ""
  },
  {
   "property": "C21",
   "status": "proved",
   "theorems": [
    "Pigo.C21_matrix_market"
   ],
   "note": ""
  },
  {
   "property": "C22",
   "status": "partial",
   "theorems": [
    "Pigo.C22_no_banner",
    "Pigo.C22_entry_outside",
    "Pigo.C22_largest_label_violated",
    "Pigo.C22_wrong_count"
   ],
   "note": "Violated for the largest label of the type: its successor wraps to 0 and passes the dimension check (C22_largest_label_violated); proved for all other labels, for a missing banner and for a wrong count."
  },
  {
   "property": "C23",
   "status": "partial",
   "theorems": [
    "Pigo.C23_symmetric_weighted_partial",
    "Pigo.C23_symmetric_columns_violated",
    "Pigo.C23_filters_partial",
    "Pigo.C23_filters_violated",
    "Pigo.C23_symmetric_partial"
   ],
   "note": "The code rejects every consistent file from which a flag drops an entry; loading is proved when nothing is dropped, and with symmetric (any weights). With symmetric a file that is not square is loaded with columns outside of ncols()."
  },
  {
   "property": "C24",
   "status": "proved",
   "theorems": [
    "Pigo.C24_valid_csr"
   ],
   "note": ""
  },
  {
   "property": "C25",
   "status": "proved",
   "theorems": [
    "Pigo.C25_rows",
    "Pigo.C25_rows_weighted"
   ],
   "note": ""
  },
  {
   "property": "C26",
   "status": "proved",
   "theorems": [
    "Pigo.C26_sequential_stable"
   ],
   "note": ""
  },
  {
   "property": "C27",
   "status": "proved",
   "theorems": [
    "Pigo.C27_csr_to_coo"
   ],
   "note": ""
  },
  {
   "property": "C28",
   "status": "proved",
   "theorems": [
    "Pigo.C28_symmetric",
    "Pigo.C28_symmetric_weighted",
    "Pigo.C28_not_yet_implemented"
   ],
   "note": ""
  },
  {
   "property": "C29",
   "status": "partial",
   "theorems": [
    "Pigo.C29_diagonal_violated",
    "Pigo.C29_no_diagonal_partial"
   ],
   "note": "The code stores every diagonal entry twice when symmetric is set (violated theorem); proved for matrices without diagonal entries."
  },
  {
   "property": "C30",
   "status": "proved",
   "theorems": [
    "Pigo.C30_csr_coo_csr",
    "Pigo.C30_coo_csr_coo"
   ],
   "note": ""
  },
  {
   "property": "C31",
   "status": "partial",
   "theorems": [
    "Pigo.C31_dimensions_violated",
    "Pigo.C31_sizes_partial"
   ],
   "note": "convert_csr_ leaves nrows()/ncols() unset (violated theorem); n() and m() are proved."
  },
  {
   "property": "C32",
   "status": "proved",
   "theorems": [
    "Pigo.C32_sort"
   ],
   "note": ""
  },
  {
   "property": "C33",
   "status": "proved",
   "theorems": [
    "Pigo.C33_sort_weighted"
   ],
   "note": ""
  },
  {
   "property": "C34",
   "status": "proved",
   "theorems": [
    "Pigo.C34_without_dups",
    "Pigo.C34_entry_set"
   ],
   "note": ""
  },
  {
   "property": "C35",
   "status": "proved",
   "theorems": [
    "Pigo.C35_smallest_weight"
   ],
   "note": ""
  },
  {
   "property": "C36",
   "status": "proved",
   "theorems": [
    "Pigo.C36_idempotent"
   ],
   "note": ""
  },
  {
   "property": "C37",
   "status": "proved",
   "theorems": [
    "Pigo.C37_coo_roundtrip",
    "Pigo.C37_saves_run"
   ],
   "note": ""
  },
  {
   "property": "C38",
   "status": "proved",
   "theorems": [
    "Pigo.C38_csr_roundtrip",
    "Pigo.C38_largest_n"
   ],
   "note": ""
  },
  {
   "property": "C39",
   "status": "proved",
   "theorems": [
    "Pigo.C39_digraph_roundtrip"
   ],
   "note": ""
  },
  {
   "property": "C40",
   "status": "proved",
   "theorems": [
    "Pigo.C40_tensor_roundtrip"
   ],
   "note": ""
  },
  {
   "property": "C41",
   "status": "proved",
   "theorems": [
    "Pigo.C41_coo",
    "Pigo.C41_csr",
    "Pigo.C41_tensor",
    "Pigo.C41_digraph"
   ],
   "note": ""
  },
  {
   "property": "C42",
   "status": "proved",
   "theorems": [
    "Pigo.C42_magic",
    "Pigo.C42_sizes",
    "Pigo.C42_weight_size"
   ],
   "note": ""
  },
  {
   "property": "C43",
   "status": "partial",
   "theorems": [
    "Pigo.C43_truncation_violated",
    "Pigo.C43_loads_other_data_violated",
    "Pigo.C43_inside_magic_partial",
    "Pigo.C43_coo_exact",
    "Pigo.C43_csr_exact",
    "Pigo.C43_tensor_exact",
    "Pigo.C43_cut_violated",
    "Pigo.C43_digraph_exact",
    "Pigo.C43_digraph_half_violated"
   ],
   "note": "Exact: a file with the right magic and sizes is loaded as its bytes say if the end its header gives lies inside of the mapping, otherwise every execution reads outside of it (C43_*_exact). So the property is violated: truncated binary files are loaded with zeros or other data or read outside of the mapping; only a cut inside the magic is not taken for a binary file. DiGraph: exact for both halves; a saved DiGraph cut at the end of its first graph loads without an error with a second graph that has no edges."
  },
  {
   "property": "C44",
   "status": "proved",
   "theorems": [
    "Pigo.C44_parallel_write",
    "Pigo.C44_parallel_read"
   ],
   "note": ""
  },
  {
   "property": "C45",
   "status": "proved",
   "theorems": [
    "Pigo.C45_magic",
    "Pigo.C45_unknown_magic",
    "Pigo.C45_by_name",
    "Pigo.C45_saved"
   ],
   "note": ""
  },
  {
   "property": "C46",
   "status": "proved",
   "theorems": [
    "Pigo.C46_coo_write",
    "Pigo.C46_any_assignment",
    "Pigo.C46_write_runs",
    "Pigo.C46_needs_same_assignment"
   ],
   "note": ""
  },
  {
   "property": "C47",
   "status": "proved",
   "theorems": [
    "Pigo.C47_unweighted",
    "Pigo.C47_unsigned",
    "Pigo.C47_signed",
    "Pigo.C47_float"
   ],
   "note": ""
  },
  {
   "property": "C48",
   "status": "proved",
   "theorems": [
    "Pigo.C48_tensor_write",
    "Pigo.C48_order_zero",
    "Pigo.C48_order_zero_overrun"
   ],
   "note": "Every printer (none, unsigned, signed, floating point text). Outside of the property: a weighted tensor of order 0 with entries always makes the writer store beyond the file (C48_order_zero_overrun)."
  },
  {
   "property": "C49",
   "status": "proved",
   "theorems": [
    "Pigo.C49_unweighted",
    "Pigo.C49_weighted",
    "Pigo.C49_unsigned",
    "Pigo.C49_signed",
    "Pigo.C49_float"
   ],
   "note": ""
  },
  {
   "property": "C50",
   "status": "partial",
   "theorems": [
    "Pigo.C50_write_empty_violated",
    "Pigo.C50_nonempty_partial"
   ],
   "note": "Writing an empty COO throws instead of creating an empty file (violated theorem); every non-empty COO is written."
  },
  {
   "property": "C51",
   "status": "partial",
   "theorems": [
    "Pigo.C51_order_partial",
    "Pigo.C51_order_violated",
    "Pigo.C51_loads_violated",
    "Pigo.C51_oob_violated"
   ],
   "note": "The code finds one coordinate too many for weights with exponents, carriage returns, trailing tabs and an unterminated first line (violated theorems, one of them storing outside of its array); proved for plainly written first lines."
  },
  {
   "property": "C52",
   "status": "proved",
   "theorems": [
    "Pigo.C52_tensor_load",
    "Pigo.C52_runs"
   ],
   "note": ""
  },
  {
   "property": "C53",
   "status": "proved",
   "theorems": [
    "Pigo.C53_max_labels",
    "Pigo.C53_runs"
   ],
   "note": ""
  },
  {
   "property": "C54",
   "status": "proved",
   "theorems": [
    "Pigo.C54_digraph",
    "Pigo.C54_digraph_weights",
    "Pigo.C54_digraph_file"
   ],
   "note": ""
  },
  {
   "property": "C55",
   "status": "partial",
   "theorems": [
    "Pigo.C55_transpose_partial",
    "Pigo.C55_dims_violated",
    "Pigo.C55_csc_dims_violated"
   ],
   "note": "transpose leaves nrows() and ncols() as they were (violated theorems); swapping of the entries and the involution are proved."
  },
  {
   "property": "C56",
   "status": "proved",
   "theorems": [
    "Pigo.C56_matrix",
    "Pigo.C56_matrix_weights"
   ],
   "note": ""
  },
  {
   "property": "C57",
   "status": "proved",
   "theorems": [
    "Pigo.C57_neighbors",
    "Pigo.C57_rows_partition",
    "Pigo.C57_degree_sum"
   ],
   "note": ""
  },
  {
   "property": "C58",
   "status": "proved",
   "theorems": [
    "Pigo.C58_zero_based",
    "Pigo.C58_extra_lines",
    "Pigo.C58_constructor",
    "Pigo.C58_weighted_rejected",
    "Pigo.C58_detected"
   ],
   "note": ""
  },
  {
   "property": "C59",
   "status": "partial",
   "theorems": [
    "Pigo.C59_last_row_violated",
    "Pigo.C59_one_based_partial"
   ],
   "note": "For 1-based files n() is the declared count while the rows are numbered from 1, so the last row is at n(); violated for every such file, the loaded rows are proved exactly."
  },
  {
   "property": "C60",
   "status": "partial",
   "theorems": [
    "Pigo.C60_empty_first_row_throws_violated",
    "Pigo.C60_empty_first_row_shifts_violated",
    "Pigo.C60_inner_empty_rows_partial"
   ],
   "note": "0-based files with an empty first row are rejected, 1-based ones are loaded with all rows shifted (both for every such file); empty rows after the first non-empty one are proved kept."
  },
  {
   "property": "C61",
   "status": "partial",
   "theorems": [
    "Pigo.C61_thread_independent_partial",
    "Pigo.C61_digits_in_comment_violated"
   ],
   "note": "Proved for files without comments after the header; a comment with digits makes the result depend on the thread count."
  },
  {
   "property": "C62",
   "status": "partial",
   "theorems": [
    "Pigo.C62_edge_count",
    "Pigo.C62_missing_rows_zero_based",
    "Pigo.C62_one_row_missing_violated",
    "Pigo.C62_missing_rows_one_based_partial"
   ],
   "note": "Proved except for 1-based files with exactly one row missing, which are accepted (violated for every such file)."
  },
  {
   "property": "C63",
   "status": "proved",
   "theorems": [
    "Pigo.Life.C63_coo_history",
    "Pigo.Life.C63_tensor_history",
    "Pigo.Life.C63_shape",
    "Pigo.Life.C63_freed"
   ],
   "note": ""
  },
  {
   "property": "C64",
   "status": "partial",
   "theorems": [
    "Pigo.LifeCsr.C64_free_twice_violated",
    "Pigo.LifeCsr.C64_free_copy_violated",
    "Pigo.LifeCsr.C64_default",
    "Pigo.LifeCsr.C64_free_default_violated",
    "Pigo.LifeCsr.C64_free_once_partial",
    "Pigo.LifeCsr.C64_pair_twice_violated"
   ],
   "note": "CSR::free is not guarded and copies share storage: freeing twice, freeing a copy or a default-constructed CSR is a bad free in every history (violated theorems); histories that free each CSR at most once and make no copies are proved safe and leak-free."
  },
  {
   "property": "C65",
   "status": "partial",
   "theorems": [
    "Pigo.Files.C65_move_ctor_violated",
    "Pigo.Files.C65_move_ctor_loses_violated",
    "Pigo.Files.C65_move_assign_cursor_violated",
    "Pigo.Files.C65_move_assign_partial",
    "Pigo.Files.C65_move_assign_data_partial",
    "Pigo.Files.C65_cursor_inside"
   ],
   "note": "The move constructor leaves the source owning the mapping and loses cursor and name; move assignment keeps the old cursor (violated, for every history); unmapping exactly once is proved for all histories without move constructions."
  },
  {
   "property": "C66",
   "status": "proved",
   "theorems": [
    "Pigo.C66_read_fp_exact",
    "Pigo.C66_edge_list_weights"
   ],
   "note": "In exact arithmetic, as stated; the rounding of the single operations is a parameter of the model."
  },
  {
   "property": "C67",
   "status": "proved",
   "theorems": [
    "Pigo.Stb.C67_six_decimals",
    "Pigo.Stb.C67_zero",
    "Pigo.Stb.C67_special",
    "Pigo.Stb.C67_accuracy",
    "Pigo.Stb.C67_length",
    "Pigo.Stb.C67_shape"
   ],
   "note": "The integer part of the conversion for every answer of the floating point part (a parameter); the range of the answers asked for is proved for every double."
  },
  {
   "property": "C68",
   "status": "partial",
   "theorems": [
    "Pigo.C68_vector_weights_violated",
    "Pigo.C68_other_storage_partial"
   ],
   "note": "With vector weight storage the COO keeps a pointer into a destroyed vector (violated theorem); proved for the other storages."
  },
  {
   "property": "C69",
   "status": "proved",
   "theorems": [
    "Pigo.Files.C69_write_size_zero",
    "Pigo.Files.C69_read_with_size",
    "Pigo.Files.C69_read_empty",
    "Pigo.Files.C69_read_ok",
    "Pigo.Files.C69_write_ok",
    "Pigo.Files.C69_open_sound",
    "Pigo.Files.C69_seek"
   ],
   "note": ""
  },
  {
   "property": "C70",
   "status": "partial",
   "theorems": [
    "Pigo.C70_copy_coo",
    "Pigo.C70_copy_tensor",
    "Pigo.Life.C70_coo_independent",
    "Pigo.Life.C70_tensor_independent",
    "Pigo.Life.C70_others_unchanged",
    "Pigo.Life.C70_copy_equal",
    "Pigo.Session.C70_narrow_copy_violated"
   ],
   "note": "Proved for every COO, and for every Tensor whose number of coordinates fits the ordinal type. Violated: a Tensor with 8- or 16-bit ordinals and more coordinates than they count can be loaded, but its copy constructor never ends."
  },
  {
   "property": "C71",
   "status": "partial",
   "theorems": [
    "Pigo.C71_zero_based_throws_violated",
    "Pigo.C71_one_based_violated"
   ],
   "note": "Violated for every file: 0-based throws, 1-based silently loses the last row and leaves endpoints uninitialised."
  },
  {
   "property": "C72",
   "status": "partial",
   "theorems": [
    "Pigo.C72_quiet_comments_ignored_partial",
    "Pigo.C72_quiet_zero_based_partial",
    "Pigo.C72_quiet_one_based_partial",
    "Pigo.C72_quiet_rejected_partial",
    "Pigo.C72_comment_line_violated",
    "Pigo.C72_glued_comment_violated",
    "Pigo.C72_last_comment_violated",
    "Pigo.C72_hang_violated",
    "Pigo.C72_hang_any_bound"
   ],
   "note": "Violated: comment lines become rows, a comment glued to an integer drops rows, a final comment is rejected, a final comment sign makes loading hang (no number of iterations suffices). Proved: comments without digits, not directly after a digit, at most one comment line in a row and none after the last newline can be replaced by blanks without changing the outcome, so such files load like comment-free ones (C58, C61), e.g. the messy triangle of the project tests."
  },
  {
   "property": "C73",
   "status": "proved",
   "theorems": [
    "Pigo.Life.C73_coo_no_leak",
    "Pigo.Life.C73_tensor_no_leak",
    "Pigo.Life.C73_all_freed",
    "Pigo.Life.C73_empty_blocks_kept"
   ],
   "note": ""
  },
  {
   "property": "C74",
   "status": "proved",
   "theorems": [
    "Pigo.LifeCsr.C74_pair_storage",
    "Pigo.LifeCsr.C74_pair_storage_any"
   ],
   "note": ""
  },
  {
   "property": "C75",
   "status": "proved",
   "theorems": [
    "Pigo.Stb.C75_accuracy",
    "Pigo.Stb.C75_exact_fractions",
    "Pigo.Stb.C75_exact_integers"
   ],
   "note": "In binary64 without contraction to fused operations; any rounding to a nearest double at every operation."
  },
  {
   "property": "C76",
   "status": "proved",
   "theorems": [
    "Pigo.C76_read_accuracy",
    "Pigo.C76_round_trip_exact",
    "Pigo.C76_round_trip_accuracy",
    "Pigo.C76_round_trip_large",
    "Pigo.C76_print_stable",
    "Pigo.C76_file_accuracy",
    "Pigo.C76_file_exact"
   ],
   "note": "In binary64 without contraction, std::pow exact up to 10^22 and within one unit in the last place otherwise; signed zeros are not distinguished, overflow is excluded by the hypotheses."
  },
  {
   "property": "C77",
   "status": "partial",
   "theorems": [
    "Pigo.C77_csr_file_partial",
    "Pigo.C77_largest_n_violated",
    "Pigo.C77_largest_label_violated"
   ],
   "note": "For label types of 32 bits and more the largest possible label loads as a COO, but n()+1 wraps to 0 and building the CSR writes outside of the offsets (violated theorems); proved for all other files."
  },
  {
   "property": "C78",
   "status": "partial",
   "theorems": [
    "Pigo.C78_clean_graph_partial",
    "Pigo.C78_thread_independent",
    "Pigo.C78_idempotent",
    "Pigo.C78_only_loops_violated"
   ],
   "note": "A graph whose cleaned graph has no edges makes the program fail instead of writing an empty file (violated theorem, a consequence of C50); everything else is proved."
  },
  {
   "property": "C79",
   "status": "partial",
   "theorems": [
    "Pigo.C79_symmetrize_partial",
    "Pigo.C79_thread_independent",
    "Pigo.C79_symmetric",
    "Pigo.C79_no_edges_violated"
   ],
   "note": "A file without edges makes the program fail instead of writing an empty file (violated theorem, a consequence of C50); everything else is proved."
  },
  {
   "property": "C80",
   "status": "partial",
   "theorems": [
    "Pigo.C80_find_edge",
    "Pigo.C80_improper",
    "Pigo.C80_negative_target",
    "Pigo.C80_negative_violated"
   ],
   "note": "A negative src is not rejected: offsets is read out of bounds (violated theorem); everything else is proved. std::binary_search is modelled as the usual halving loop. The signed types of the program are treated in C98."
  },
  {
   "property": "C81",
   "status": "partial",
   "theorems": [
    "Pigo.C81_text_file",
    "Pigo.C81_matrix_market",
    "Pigo.C81_saved_coo",
    "Pigo.C81_saved_csr_as_coo",
    "Pigo.C81_saved_csr_flags",
    "Pigo.C81_saved_csr_as_digraph",
    "Pigo.C81_saved_csr_as_matrix_partial",
    "Pigo.C81_saved_csr_matrix_dims_violated",
    "Pigo.C81_other_kinds"
   ],
   "note": "A Matrix loaded from a saved CSR has unset nrows()/ncols() (violated theorem for every CSR), a COO likewise (C31); everything else is proved."
  },
  {
   "property": "C82",
   "status": "partial",
   "theorems": [
    "Pigo.C82_any_text",
    "Pigo.C82_any_matrix_market",
    "Pigo.C82_any_text_classes",
    "Pigo.C82_any_mtx_classes",
    "Pigo.C82_label_outside_oob",
    "Pigo.C82_unterminated_violated",
    "Pigo.C82_largest_label_violated",
    "Pigo.C82_threads_matter"
   ],
   "note": "Violated for files that end in a digit (uninitialised last entry, CSR(fn) may write outside of its arrays) and for an edge from the largest label of the type (every execution of CSR(fn) writes outside). Proved for all other byte strings, as an edge list and as a Matrix Market file (size not a multiple of the page size, see C19)."
  },
  {
   "property": "C83",
   "status": "partial",
   "theorems": [
    "Pigo.C83_any_text",
    "Pigo.C83_same_result",
    "Pigo.C83_race_violated",
    "Pigo.C83_page_multiple_violated",
    "Pigo.C83_hang_any_bound",
    "Pigo.C83_comment_end_violated"
   ],
   "note": "Violated for files that end with a comment sign (no execution ends), for a comment sign directly after a digit (the two passes disagree: a data race on the offsets, two executions give different CSRs, one with decreasing offsets) and for files whose size is a multiple of the page size. Proved for all other byte strings: C83_any_text needs only that the last byte is not a comment sign; C83_same_result that no digit is directly followed by one and that the file ends with a newline."
  },
  {
   "property": "C84",
   "status": "partial",
   "theorems": [
    "Pigo.C84_same_outcomes",
    "Pigo.C84_coo",
    "Pigo.C84_csr",
    "Pigo.C84_digraph",
    "Pigo.C84_matrix",
    "Pigo.C84_tensor",
    "Pigo.C84_graph_violated",
    "Pigo.C84_coo_from_csr_violated",
    "Pigo.C84_digraph_violated"
   ],
   "note": "Proved for managed storage and every file; for raw pointers (the default) proved for every file except: a rejected .graph file, a CSR file loaded as a COO with flags not implemented for it, a DiGraph file whose second half is rejected; for these the leak is proved for every such load (violated theorems). Blocks of zero elements are not counted; local working arrays and failing allocations are not tracked."
  },
  {
   "property": "C85",
   "status": "partial",
   "theorems": [
    "Pigo.C85_same_loaders",
    "Pigo.C85_same_operations",
    "Pigo.C85_same_savers",
    "Pigo.C85_save",
    "Pigo.C85_binary_files",
    "Pigo.C85_copies",
    "Pigo.C85_from_coo",
    "Pigo.C85_csr_ops",
    "Pigo.C85_without_dups",
    "Pigo.C85_any_text",
    "Pigo.C85_weighted_edge_list",
    "Pigo.C85_weighted_matrix_market",
    "Pigo.C85_tensor_file",
    "Pigo.C85_graph_file",
    "Pigo.C85_any_graph_text_partial",
    "Pigo.C85_write_coo",
    "Pigo.C85_write_tensor",
    "Pigo.C85_removed_weight_violated",
    "Pigo.C85_have_zeros_violated",
    "Pigo.C85_glued_comment_violated",
    "Pigo.C85_decreasing_offsets_violated"
   ],
   "note": "The accesses of each region are proved complete (Spec.Accounted). Proved for every function with a parallel region: unconditionally for save, binary loads, copies, max_labels, find_offsets; for any bytes for unweighted text; for well-formed weighted text, tensors, writers; for any COO with m() in range; for CSRs with non-decreasing offsets. Races proved: weights of removed lines, the bits of have_zeros in 0-based .graph files, glued comments in .graph files, decreasing offsets."
  },
  {
   "property": "C86",
   "status": "partial",
   "theorems": [
    "Pigo.C86_last_line",
    "Pigo.C86_signed_last_line",
    "Pigo.C86_float_last_line",
    "Pigo.C86_any_text_partial",
    "Pigo.C86_lone_number",
    "Pigo.C86_weighted_last_line",
    "Pigo.C86_unterminated_violated",
    "Pigo.C86_short_last_line_violated",
    "Pigo.C86_torn_entry_violated",
    "Pigo.C86_any_weights_partial",
    "Pigo.C86_weight_missing_violated"
   ],
   "note": "Any bytes: no read outside, termination, consistent sizes or a store outside of c_ in every execution (unweighted); determinism with one thread; lone number at the end ignored (every format); complete last line without newline loaded (weights of every kind: C86_last_line, C86_weighted_last_line, C86_signed_last_line, C86_float_last_line). Violated: last line without newline, or with too few numbers, overflows c_ in every execution with any thread count (impl/tensor.impl.hpp 79-95: coordinates are stored before the entry is known to be complete); a short line inside the file makes two threads write the same places. With weights of every kind and any bytes: no read outside, every execution ends and all end alike; a last line without its weight is stored behind the arrays (violated)."
  },
  {
   "property": "C87",
   "status": "proved",
   "theorems": [
    "Pigo.C87_load",
    "Pigo.C87_store",
    "Pigo.C87_operations",
    "Pigo.C87_find_offsets",
    "Pigo.C87_programs"
   ],
   "note": "std::sort needs a strict weak order of the weights (C87_operations); everything else without hypotheses besides at least one thread."
  },
  {
   "property": "C88",
   "status": "partial",
   "theorems": [
    "Pigo.C88_float_cut_entry_rest",
    "Pigo.C88_float_cut_entry_violated",
    "Pigo.C88_float_lone_number_violated",
    "Pigo.C88_signed_cut_entry_rest",
    "Pigo.C88_signed_cut_entry_violated",
    "Pigo.C88_signed_lone_number_violated",
    "Pigo.C88_flags_partial",
    "Pigo.C88_matrix_market_partial",
    "Pigo.C88_lone_number_flags_violated",
    "Pigo.C88_any_text_partial",
    "Pigo.C88_number_of_entries",
    "Pigo.C88_lone_number_violated",
    "Pigo.C88_cut_entry_violated",
    "Pigo.C88_cut_entry_rest",
    "Pigo.C88_no_weights_violated"
   ],
   "note": "Any bytes, flags and kind of weights (unsigned, signed, floating point), also loaded as Matrix Market: no read outside, termination, one size in every schedule, or a store outside of the arrays in every schedule. What is stored: no flags, unsigned weights (C88_cut_entry_rest) floating point weights with any arithmetic (C88_float_cut_entry_rest) and signed weights in files whose numbers fit the type (C88_signed_cut_entry_rest): of a file cut anywhere within its last entry every complete entry is stored in place, in every execution, and the sizes are theirs. Violated: a number alone at the end (cut file) stores outside of w_ with any number of threads; an entry cut before or right after its weight has uninitialised labels (impl/coo.impl.hpp 299-316 stores w_ before the good() check and returns before the labels); a file without weights yields half of the entries and uninitialised labels for the rest."
  },
  {
   "property": "C89",
   "status": "partial",
   "theorems": [
    "Pigo.C89_contents",
    "Pigo.C89_every_prefix",
    "Pigo.C89_coo_load",
    "Pigo.C89_csr_load",
    "Pigo.C89_tensor_load",
    "Pigo.C89_old_contents_violated",
    "Pigo.C89_coo_silent_violated",
    "Pigo.C89_csr_silent_violated",
    "Pigo.C89_tensor_silent_violated",
    "Pigo.C89_blank_violated",
    "Pigo.C89_digraph_silent_violated",
    "Pigo.C89_coo_write",
    "Pigo.C89_tensor_write",
    "Pigo.C89_text_load",
    "Pigo.C89_coo_load_auto",
    "Pigo.C89_csr_load_auto",
    "Pigo.C89_tensor_load_auto",
    "Pigo.C89_digraph_load",
    "Pigo.C89_digraph_half_violated",
    "Pigo.C89_empty_coo_violated"
   ],
   "note": "Proved: the contents at every moment, that every prefix of the new file does occur, and that what is left loads with an error or with sizes no larger than those saved (COO and Tensor with at least one entry), also for DiGraph files, and with the type found out automatically (then also: an object without entries). Violated: what is left of a COO without entries can be read outside of the mapping; an unfinished DiGraph loads silently, without its out-edges or with wrong ones; the old contents are lost at once; a file whose header is complete loads silently with zero labels or offsets; a blank file loads as an edge list without entries."
  },
  {
   "property": "C90",
   "status": "partial",
   "theorems": [
    "Pigo.Files.C90_same",
    "Pigo.Files.C90_exact",
    "Pigo.Files.C90_released",
    "Pigo.Files.C90_history",
    "Pigo.Files.C90_fine",
    "Pigo.Files.C90_empty_violated",
    "Pigo.Files.C90_exhausted_violated"
   ],
   "note": "Proved: the exact descriptors and mappings after every constructor and every history. Violated: the constructor throws without closing its FILE*, so every failed open of an existing file, e.g. an empty one, loses a descriptor, and after as many as the limit no file can be opened."
  },
  {
   "property": "C91",
   "status": "partial",
   "theorems": [
    "Pigo.C91_load",
    "Pigo.C91_save",
    "Pigo.C91_write_serial",
    "Pigo.C91_write_ok",
    "Pigo.C91_write_tensor_ok",
    "Pigo.C91_write_empty_violated",
    "Pigo.C91_write_tensor_empty_violated",
    "Pigo.C91_write_uncreatable_violated",
    "Pigo.C91_write_tensor_uncreatable_violated"
   ],
   "note": "Proved for all loads and saves, with and without OpenMP, and for writing nonempty objects to files that can be created. Violated: write() constructs its File inside an OpenMP region, so with OpenMP writing an empty COO or tensor, or writing to a file that cannot be created, ends the process."
  },
  {
   "property": "C92",
   "status": "partial",
   "theorems": [
    "Pigo.C92_sound",
    "Pigo.C92_serial",
    "Pigo.C92_binary",
    "Pigo.C92_managed",
    "Pigo.C92_text_violated",
    "Pigo.C92_graph_violated",
    "Pigo.C92_tensor_violated",
    "Pigo.C92_raw_violated",
    "Pigo.C92_csr_violated",
    "Pigo.C92_saved_digraph",
    "Pigo.C92_digraph_violated"
   ],
   "note": "Proved: soundness, no end of the process without OpenMP or for binary files, nothing left with managed storage for COO, Tensor, CSR not read through a COO and saved DiGraphs. Violated: with OpenMP every text load can end the process; with raw pointers a binary COO load leaves x; CSR from COO leaves arrays with every storage; a saved DiGraph with raw pointers leaves the first graph when memory for the second is missing."
  },
  {
   "property": "C93",
   "status": "partial",
   "theorems": [
    "Pigo.C93_coo_managed",
    "Pigo.C93_csr_managed",
    "Pigo.C93_coo",
    "Pigo.C93_csr",
    "Pigo.C93_tensor",
    "Pigo.C93_coo_violated",
    "Pigo.C93_csr_violated",
    "Pigo.C93_tensor_violated",
    "Pigo.C93_save_coo",
    "Pigo.C93_save_csr",
    "Pigo.C93_save_tensor",
    "Pigo.C93_text",
    "Pigo.C93_split"
   ],
   "note": "Proved: for sizes below the limits every outcome is that of unbounded arithmetic (loads with any storage, saves, text splits); with vectors and shared pointers any COO/CSR header gives that or an exception. Violated: a 33-byte COO file with raw pointers and a 31-byte tensor file with every storage load without error into objects whose arrays are shorter than stated."
  },
  {
   "property": "C94",
   "status": "partial",
   "theorems": [
    "Pigo.C94_load_sound",
    "Pigo.C94_bytes",
    "Pigo.C94_tensor_weighted",
    "Pigo.C94_coo_violated",
    "Pigo.C94_csr_violated",
    "Pigo.C94_tensor_violated",
    "Pigo.C94_save_coo_violated",
    "Pigo.C94_save_csr_violated",
    "Pigo.C94_save_tensor_weighted",
    "Pigo.C94_save_tensor_violated",
    "Pigo.C94_coo_bytes",
    "Pigo.C94_csr_bytes",
    "Pigo.C94_csr_bytes_violated",
    "Pigo.C94_tensor_bytes",
    "Pigo.C94_save_coo_bytes",
    "Pigo.C94_save_csr_bytes",
    "Pigo.C94_save_csr_bytes_violated",
    "Pigo.C94_save_tensor_bytes",
    "Pigo.C94_digraph_sound",
    "Pigo.C94_digraph_exact",
    "Pigo.C94_digraph_violated",
    "Pigo.C94_save_digraph_exact",
    "Pigo.C94_save_digraph_violated"
   ],
   "note": "Proved: for COO with one-byte labels, CSR with one-byte labels and ordinals of 1 or 2 bytes, tensors with weights or one-byte ordinals, all header accesses are aligned, loads and saves are as in the unchecked model. Violated: the first field of COO and CSR files is at position 13, that of tensors without weights at 15, so every load and save with larger types has a misaligned access (undefined in C++, tolerated by x86). For DiGraph files and saves: exact, by the alignment of both headers; violated for all saved DiGraphs with labels of 2, 4 or 8 bytes and no weights or weights of even size."
  },
  {
   "property": "C95",
   "status": "partial",
   "theorems": [
    "Pigo.C95_set_n",
    "Pigo.C95_set_rows_cols",
    "Pigo.C95_set_n_violated",
    "Pigo.C95_digraph",
    "Pigo.C95_digraph_violated",
    "Pigo.C95_matrix",
    "Pigo.C95_matrix_violated",
    "Pigo.C95_new_csr"
   ],
   "note": "Proved: set_n above all labels, set_nrows/set_ncols, size functions when the ordinal type is as wide as the label type, sizes of CSR(n,m,nrows,ncols). Violated: set_n(k) with k at most a label makes the conversion undefined instead of an exception; with a narrower ordinal type n()/nrows() of DiGraph and Matrix are truncated."
  },
  {
   "property": "C96",
   "status": "partial",
   "theorems": [
    "Pigo.C96_outcome",
    "Pigo.C96_read_vector",
    "Pigo.C96_roundtrip",
    "Pigo.C96_truncated_violated"
   ],
   "note": "Proved: data of a complete file, write/read round trip, the outcome for every file content. Violated: a header larger than the data is not rejected: missing elements are zeros, or the program reads outside of the mapping."
  },
  {
   "property": "C97",
   "status": "partial",
   "theorems": [
    "Pigo.C97_readme_partial",
    "Pigo.C97_order_violated"
   ],
   "note": "Proved: n, m and the neighbours with multiplicity; their order with one thread. Violated: with two or more threads the order of the file is not kept, so the output shown in the README is one of several."
  },
  {
   "property": "C98",
   "status": "partial",
   "theorems": [
    "Pigo.C98_refines_coo",
    "Pigo.C98_refines_csr",
    "Pigo.C98_edge_list",
    "Pigo.C98_overflow_violated",
    "Pigo.C98_matrix_market",
    "Pigo.C98_csr_file",
    "Pigo.C98_find_edge",
    "Pigo.C98_find_edge_negative_violated",
    "Pigo.C98_csr_overflow_violated",
    "Pigo.C98_refines_csr_graph",
    "Pigo.C98_refines_coo_graph",
    "Pigo.C98_refines_tensor",
    "Pigo.C98_refines_max_labels",
    "Pigo.C98_coo_text_same",
    "Pigo.C98_csr_text_same",
    "Pigo.C98_csr_graph_same",
    "Pigo.C98_coo_graph_same",
    "Pigo.C98_graph_overflow_violated",
    "Pigo.C98_tensor_load",
    "Pigo.C98_max_labels",
    "Pigo.C98_refines_digraph",
    "Pigo.C98_refines_matrix",
    "Pigo.C98_refines_from_coo",
    "Pigo.C98_refines_without_dups",
    "Pigo.C98_digraph_same",
    "Pigo.C98_matrix_same",
    "Pigo.C98_from_coo_same",
    "Pigo.C98_without_dups_same",
    "Pigo.C98_without_dups",
    "Pigo.C98_neighbors"
   ],
   "note": "Proved: refinement of the unsigned model for arbitrary text (edge lists, Matrix Market, .graph files, tensors; into COO, CSR, DiGraph, Matrix, Tensor), max_labels and new_csr_without_dups; neighbors, degree and new_csr_without_dups as with unsigned types if the sizes fit; no overflow and the same result for well-formed edge lists and Matrix Market files when labels + 1 (CSR: + 2) and counts fit, and for any file of these formats, well-formed or not, without large numbers (Spec.SignedFit); find_edge with its int64_t types. Violated: an edge list or .graph file with the largest label the signed type can hold overflows in every execution. Not modelled with signed types: binary files, the remaining operations."
  },
  {
   "property": "C99",
   "status": "partial",
   "theorems": [
    "Pigo.C99_clean_partial",
    "Pigo.C99_example",
    "Pigo.C99_thread_independent",
    "Pigo.C99_directed_partial",
    "Pigo.C99_empty_violated",
    "Pigo.C99_tutorial",
    "Pigo.C99_tutorial_directed"
   ],
   "note": "Proved for all eight combinations of the flags and for the file of the tutorial. Violated: if no edge is left the program ends with an error instead of writing an empty file."
  },
  {
   "property": "C100",
   "status": "partial",
   "theorems": [
    "Pigo.Release.C100_text",
    "Pigo.Release.C100_same_code",
    "Pigo.Release.C100_same_includes",
    "Pigo.Release.C100_written_iff",
    "Pigo.Release.C100_included_twice_violated",
    "Pigo.Release.C100_terminates",
    "Pigo.Release.C100_unconditional_violated",
    "Pigo.Release.C100_lines",
    "Pigo.Release.C100_kinds",
    "Pigo.Release.C100_paths_root",
    "Pigo.Release.C100_paths",
    "Pigo.Release.C100_openmp_violated"
   ],
   "note": "Proved for files written the way the script expects (Spec.Neat, Spec.MainNeat): same code, same system headers, termination, exact condition for success. Violated: diamonds are rejected; conditional includes become unconditional (omp.h is included without OpenMP, as in release/pigo.hpp line 46)."
  },
  {
   "property": "C101",
   "status": "proved",
   "theorems": [
    "Pigo.Session.C101_unweighted",
    "Pigo.Session.C101_unsigned",
    "Pigo.Session.C101_signed",
    "Pigo.Session.C101_float",
    "Pigo.Session.C101_binary",
    "Pigo.Session.C101_runs",
    "Pigo.Session.C101_same_result",
    "Pigo.Session.C101_from_file",
    "Pigo.Session.C101_write_needs_edges",
    "Pigo.Session.C101_example",
    "Pigo.Session.C101_from_text",
    "Pigo.Session.C101_from_matrix_market",
    "Pigo.Session.C101_from_graph_file",
    "Pigo.Session.C101_retyped",
    "Pigo.Session.C101_retyped_runs",
    "Pigo.Session.C101_sorted",
    "Pigo.Session.C101_sorted_unique",
    "Pigo.Session.C101_same_arrays",
    "Pigo.Session.C101_tensor",
    "Pigo.Session.C101_tensor_runs",
    "Pigo.Session.C101_tensor_file",
    "Pigo.Session.C101_tensor_example"
   ],
   "note": "Every sequence of operations on COO, CSR, DiGraph and Matrix objects without weights, with unsigned, signed and (as far as their text is read back) floating point weights; with weights of any type for programs that write no text. The programs may start from an edge list, a Matrix Market or a .graph file loaded into any class. Programs that sort at their end leave the same arrays in every execution (C101_same_arrays). Programs in parts, each with its own label, ordinal, weight and storage types, with a converting constructor or new_csr_without_dups between two parts (C101_retyped). For tensors: every program of copies, save/load and write/load gives back the same tensor, also from a text file on and with max_labels at the end. The deletion of objects is not an operation of these programs (see C63, C64, C73, C103)."
  },
  {
   "property": "C102",
   "status": "partial",
   "theorems": [
    "Pigo.C102_coo_to_csr",
    "Pigo.C102_truncated",
    "Pigo.C102_outside",
    "Pigo.C102_wrong_vertex_violated",
    "Pigo.C102_lost_entries_violated",
    "Pigo.C102_digraph",
    "Pigo.C102_matrix",
    "Pigo.C102_csr_to_coo",
    "Pigo.C102_csr_to_coo_weighted",
    "Pigo.C102_there_and_back",
    "Pigo.C102_without_dups",
    "Pigo.C102_smallest_weight",
    "Pigo.C102_too_many_rows_violated",
    "Pigo.C102_no_weights_violated"
   ],
   "note": "Proved: the same graph when sizes and labels fit, for COO to CSR/DiGraph/Matrix, CSR to COO, new_csr_without_dups, and there and back; exactly what is left otherwise (C102_truncated, C102_outside). Violated: a graph that does not fit is not reported."
  },
  {
   "property": "C103",
   "status": "partial",
   "theorems": [
    "Pigo.Alias.C103_vector_values",
    "Pigo.Alias.C103_shared_coo_values",
    "Pigo.Alias.C103_shared_lifetime",
    "Pigo.Alias.C103_shape",
    "Pigo.Alias.C103_nothing_left",
    "Pigo.Alias.C103_families_apart",
    "Pigo.Alias.C103_others_unchanged",
    "Pigo.Alias.C103_other_family_unchanged",
    "Pigo.Alias.C103_copies_are_one_violated",
    "Pigo.Alias.C103_edit_of_copy_violated"
   ],
   "note": "Proved: value semantics for vector storage (all classes) and for COO/Tensor with shared_ptr storage; exact lifetimes for both; objects of different families never affect each other. COO/Tensor with raw pointers: C63, C70. Violated: copies of CSR, DiGraph and Matrix objects share the arrays with raw pointers and shared_ptr."
  },
  {
   "property": "C104",
   "status": "partial",
   "theorems": [
    "Pigo.C104_exact",
    "Pigo.C104_signed",
    "Pigo.C104_one_thread",
    "Pigo.C104_lost_violated",
    "Pigo.C104_tensor_lost_violated",
    "Pigo.C104_tensor_bounds_violated",
    "Pigo.C104_tensor_signed_violated"
   ],
   "note": "Exact outcome proved for all mixes, thread counts and schedules. Negative infinities and NaNs with a sign become 0 and all entries are kept; a positive infinity or an unsigned NaN makes the next entry (or its own) disappear and leaves uninitialised labels: C104_lost_violated. Tensors: the same loses entries (C104_tensor_lost_violated) and, in the last entry, stores its coordinates behind the array (C104_tensor_bounds_violated), and does so for a minus infinity in any place (C104_tensor_signed_violated)."
  },
  {
   "property": "C105",
   "status": "partial",
   "theorems": [
    "Pigo.Alias.C105_read",
    "Pigo.Alias.C105_write",
    "Pigo.Alias.C105_vector_violated",
    "Pigo.Alias.C105_two_hop",
    "Pigo.Alias.C105_programs",
    "Pigo.Alias.C105_effect",
    "Pigo.Alias.C105_kept",
    "Pigo.Alias.C105_dangling_violated"
   ],
   "note": "Proved: reading and nested loops for all storage types, memory left as found; assignments reach exactly the row with raw pointers and shared_ptr; programs mixing operations and loops are safe and do not leak (not raw pointers); kept iterators stay valid (not raw pointers). Violated: vector storage loses assignments (C105_vector_violated); raw iterators dangle after free() (C105_dangling_violated)."
  },
  {
   "property": "C106",
   "status": "partial",
   "theorems": [
    "Pigo.Box.C106_layout",
    "Pigo.Box.C106_layout_room",
    "Pigo.Box.C106_sequence",
    "Pigo.Box.C106_random_access",
    "Pigo.Box.C106_total",
    "Pigo.Box.C106_string_at_end_violated"
   ],
   "note": "Proved for every list of records: the layout, reading in order, reading after seek, existence of an outcome. Fails for a string that ends at the end of the file: reading it throws Error although it is there (C106_string_at_end_violated); hence the hypothesis TextInside of the other theorems. Writing past the reserved size is not covered."
  },
  {
   "property": "C107",
   "status": "partial",
   "theorems": [
    "Pigo.C107_neighbors",
    "Pigo.C107_sort",
    "Pigo.C107_without_dups",
    "Pigo.C107_to_coo",
    "Pigo.C107_to_coo_violated",
    "Pigo.C107_save",
    "Pigo.C107_loaded",
    "Pigo.C107_zero_based_as_coo",
    "Pigo.C107_one_based_as_coo_violated",
    "Pigo.C107_zero_based_as_digraph",
    "Pigo.C107_one_based_as_digraph_violated"
   ],
   "note": "Proved for every CSR with at least n rows in its arrays (C107_neighbors, C107_sort, C107_without_dups, C107_save, C107_to_coo), that every file without glued comments gives such a CSR (C107_loaded), and that COO(fn) and DiGraph(fn) are right for 0-based files with nothing after the n-th line. Fails for 1-based files: COO(fn) has, instead of the edges of the last vertex, whatever the allocated memory held (C107_to_coo_violated, C107_one_based_as_coo_violated), and DiGraph(fn), Matrix(fn) access memory outside of their arrays in every execution (C107_one_based_as_digraph_violated)."
  }
 ]
}