{
 "claims": [
  {
   "property": "C01",
   "status": "proved",
   "theorems": [
    "Cniic.C01_bit_writer_faithful",
    "Cniic.C01_padding_is_ambiguous",
    "Cniic.C01_lsb_writer_loses_bits",
    "Cniic.C01_lsb_unaligned_byte_panics"
   ],
   "note": "Proved for MSB-first, the order the codecs use, for every device fault schedule. The LSB-first order is shown to lose bits."
  },
  {
   "property": "C02",
   "status": "proved",
   "theorems": [
    "Cniic.C02_bit_array_keeps_bits"
   ],
   "note": ""
  },
  {
   "property": "C03",
   "status": "proved",
   "theorems": [
    "Cniic.C03_split_join",
    "Cniic.C03_join_split"
   ],
   "note": ""
  },
  {
   "property": "C04",
   "status": "proved",
   "theorems": [
    "Cniic.C04_serialize",
    "Cniic.C04_round_trip",
    "Cniic.C04_round_trip_stream",
    "Cniic.C04_canonical",
    "Cniic.C04_colour_takes_11_bytes"
   ],
   "note": "All types of ser.rs, as a closed universe of type codes, over lists and over arbitrary byte iterators."
  },
  {
   "property": "C05",
   "status": "proved",
   "theorems": [
    "Cniic.C05_truncation"
   ],
   "note": ""
  },
  {
   "property": "C06",
   "status": "proved",
   "theorems": [
    "Cniic.C06_char",
    "Cniic.C06_char_round_trip"
   ],
   "note": ""
  },
  {
   "property": "C07",
   "status": "proved",
   "theorems": [
    "Cniic.C07_ser_stream",
    "Cniic.C07_deser_stream",
    "Cniic.C07_stream_round_trip",
    "Cniic.C07_ser_stream_bad_char"
   ],
   "note": "The source iterator of SerStream is represented by its list of items."
  },
  {
   "property": "C08",
   "status": "proved",
   "theorems": [
    "Cniic.C08_huffman_round_trip",
    "Cniic.C08_empty_input_panics"
   ],
   "note": "For every symbol type with a lawful serializer, every heap tie-breaking, every hash order, every device that accepts the bytes. Empty input is shown to panic."
  },
  {
   "property": "C09",
   "status": "proved",
   "theorems": [
    "Cniic.C09_past_the_end",
    "Cniic.C09_single_symbol"
   ],
   "note": ""
  },
  {
   "property": "C10",
   "status": "proved",
   "theorems": [
    "Cniic.C10_complete_prefix_code"
   ],
   "note": ""
  },
  {
   "property": "C11",
   "status": "proved",
   "theorems": [
    "Cniic.C11_optimal"
   ],
   "note": "Optimal among all prefix codes."
  },
  {
   "property": "C12",
   "status": "proved",
   "theorems": [
    "Cniic.C12_output_size"
   ],
   "note": ""
  },
  {
   "property": "C13",
   "status": "proved",
   "theorems": [
    "Cniic.C13_enumeration",
    "Cniic.C13_paths_lead_to_leaves",
    "Cniic.C13_paths_distinct"
   ],
   "note": ""
  },
  {
   "property": "C14",
   "status": "proved",
   "theorems": [
    "Cniic.C14_damaged_trees",
    "Cniic.C14_truncated_tree"
   ],
   "note": "Stack exhaustion on very deep trees is not modelled."
  },
  {
   "property": "C15",
   "status": "proved",
   "theorems": [
    "Cniic.C15_zip_dict_round_trip"
   ],
   "note": ""
  },
  {
   "property": "C16",
   "status": "proved",
   "theorems": [
    "Cniic.C16_longest_known_sequence"
   ],
   "note": ""
  },
  {
   "property": "C17",
   "status": "proved",
   "theorems": [
    "Cniic.C17_symbol_format",
    "Cniic.C17_symbol_numbers"
   ],
   "note": ""
  },
  {
   "property": "C18",
   "status": "proved",
   "theorems": [
    "Cniic.C18_output_size"
   ],
   "note": ""
  },
  {
   "property": "C19",
   "status": "proved",
   "theorems": [
    "Cniic.C19_trie_is_a_map"
   ],
   "note": ""
  },
  {
   "property": "C20",
   "status": "proved",
   "theorems": [
    "Cniic.C20_damaged_input",
    "Cniic.C20_odd_symbols_panic"
   ],
   "note": "Exact description of the decoder on every byte string."
  },
  {
   "property": "C21",
   "status": "proved",
   "theorems": [
    "Cniic.C21_zip_back_round_trip",
    "Cniic.C21_any_window",
    "Cniic.C21_policy_independent"
   ],
   "note": "Round trip whenever encoding completes, for window 65535 and for any window size; output independent of the read-ahead capacities."
  },
  {
   "property": "C22",
   "status": "proved",
   "theorems": [
    "Cniic.C22_completes_iff",
    "Cniic.C22_short_inputs",
    "Cniic.C22_fails_on_constant_inputs"
   ],
   "note": "Exact characterization; positive for <= 32767 bytes; refuted for constant inputs of >= 65536 bytes."
  },
  {
   "property": "C23",
   "status": "proved",
   "theorems": [
    "Cniic.C23_expansion"
   ],
   "note": ""
  },
  {
   "property": "C24",
   "status": "proved",
   "theorems": [
    "Cniic.C24_history_window",
    "Cniic.C24_distances"
   ],
   "note": "Any element type and capacity."
  },
  {
   "property": "C25",
   "status": "proved",
   "theorems": [
    "Cniic.C25_index_exact"
   ],
   "note": "Any capacity, including the clean-ups."
  },
  {
   "property": "C26",
   "status": "proved",
   "theorems": [
    "Cniic.C26_longest_match"
   ],
   "note": "Also: among the longest matches the farthest back is chosen, and literals appear only where no match of 6 bytes exists (Factor)."
  },
  {
   "property": "C27",
   "status": "proved",
   "theorems": [
    "Cniic.C27_symbol_format",
    "Cniic.C27_flag_and_length",
    "Cniic.C27_too_long_panics"
   ],
   "note": ""
  },
  {
   "property": "C28",
   "status": "proved",
   "theorems": [
    "Cniic.C28_hufman_lossless",
    "Cniic.C28_empty_image_panics"
   ],
   "note": "The image crate is represented by dimensions and pixels in row order."
  },
  {
   "property": "C29",
   "status": "proved",
   "theorems": [
    "Cniic.C29_delta_lossless",
    "Cniic.C29_differences_fit",
    "Cniic.C29_modes_agree"
   ],
   "note": "With and without overflow checks; the traversal is any one that visits each pixel once."
  },
  {
   "property": "C30",
   "status": "proved",
   "theorems": [
    "Cniic.C30_hilbert_rle_lossless"
   ],
   "note": ""
  },
  {
   "property": "C31",
   "status": "proved",
   "theorems": [
    "Cniic.C31_hilbert_zip_lossless"
   ],
   "note": ""
  },
  {
   "property": "C32",
   "status": "proved",
   "theorems": [
    "Cniic.C32_zip_dict_lossless"
   ],
   "note": ""
  },
  {
   "property": "C33",
   "status": "proved",
   "theorems": [
    "Cniic.C33_zip_back_lossless",
    "Cniic.C33_small_images"
   ],
   "note": ""
  },
  {
   "property": "C34",
   "status": "proved",
   "theorems": [
    "Cniic.C34_runs",
    "Cniic.C34_unique"
   ],
   "note": "For any type of values; the runs are unique."
  },
  {
   "property": "C35",
   "status": "proved",
   "theorems": [
    "Cniic.C35_runs",
    "Cniic.C35_counts",
    "Cniic.C35_codec"
   ],
   "note": "for every arithmetic that satisfies FloatOps.Lawful; Ieee.lawful shows that rounding to nearest even does"
  },
  {
   "property": "C36",
   "status": "proved",
   "theorems": [
    "Cniic.C36_joins_within",
    "Cniic.C36_rejected",
    "Cniic.C36_special",
    "Cniic.C36_refuted"
   ],
   "note": "both directions up to explicit rounding error; C36_refuted refutes the expectation about decoded pixels"
  },
  {
   "property": "C37",
   "status": "proved",
   "theorems": [
    "Cniic.C37_hufman",
    "Cniic.C37_zip_dict",
    "Cniic.C37_zip_back",
    "Cniic.C37_hilbert_rle",
    "Cniic.C37_hilbert_zip",
    "Cniic.C37_delta",
    "Cniic.C37_refuted"
   ],
   "note": "Positive for hufman, zip(dict), zip(back); exact behaviour, with a counterexample, for hilbert and delta."
  },
  {
   "property": "C38",
   "status": "proved",
   "theorems": [
    "Cniic.C38_error_codecs",
    "Cniic.C38_huffman_codecs"
   ],
   "note": "for images on which encoding completes on a device that does not fail"
  },
  {
   "property": "C39",
   "status": "proved",
   "theorems": [
    "Cniic.C39_delta_empty",
    "Cniic.C39_lossless_flag",
    "Cniic.C39_completes"
   ],
   "note": ""
  },
  {
   "property": "C40",
   "status": "proved",
   "theorems": [
    "Cniic.C40_calls",
    "Cniic.C40_unique",
    "Cniic.C40_non_ascii"
   ],
   "note": "accepts exactly the grammar on shallow ASCII text; never accepts non-ASCII text"
  },
  {
   "property": "C41",
   "status": "proved",
   "theorems": [
    "Cniic.C41_panics",
    "Cniic.C41_refuted"
   ],
   "note": "exact panic condition for shallow ASCII strings; C41_refuted is the non-ASCII counterexample"
  },
  {
   "property": "C42",
   "status": "proved",
   "theorems": [
    "Cniic.C42_first",
    "Cniic.C42_all_failed",
    "Cniic.C42_order",
    "Cniic.C42_cluster",
    "Cniic.C42_voronoi",
    "Cniic.C42_voronoi_plain",
    "Cniic.C42_selects",
    "Cniic.C42_mentions",
    "Cniic.C42_non_ascii",
    "Cniic.C42_bad_number",
    "Cniic.C42_usage"
   ],
   "note": "regexes are modelled by a small backtracking matcher; f64::from_str is a parameter"
  },
  {
   "property": "C43",
   "status": "proved",
   "theorems": [
    "Cniic.C43_points"
   ],
   "note": ""
  },
  {
   "property": "C44",
   "status": "proved",
   "theorems": [
    "Cniic.C44_centroids"
   ],
   "note": "an empty cluster has the mean of a single input point as its centroid"
  },
  {
   "property": "C45",
   "status": "proved",
   "theorems": [
    "Cniic.C45_assign",
    "Cniic.C45_full",
    "Cniic.C45_metric",
    "Cniic.C45_cluster_colors",
    "Cniic.C45_voronoi",
    "Cniic.C45_wraps"
   ],
   "note": "generic in the measure; C45_cluster_colors and C45_voronoi are the two codecs (voronoi up to 65536 x 65536, beyond which C45_wraps shows the distance wrapping)"
  },
  {
   "property": "C46",
   "status": "proved",
   "theorems": [
    "Cniic.C46_rounds",
    "Cniic.C46_lists",
    "Cniic.C46_grows"
   ],
   "note": ""
  },
  {
   "property": "C47",
   "status": "proved",
   "theorems": [
    "Cniic.C47_cluster_colors",
    "Cniic.C47_colors"
   ],
   "note": "images in which no colour occurs 2^32 times or more; C83 is the general case"
  },
  {
   "property": "C48",
   "status": "proved",
   "theorems": [
    "Cniic.C48_release",
    "Cniic.C48_nearest",
    "Cniic.C48_limit",
    "Cniic.C48_checked",
    "Cniic.C48_encoded",
    "Cniic.C48_round_trip"
   ],
   "note": "C48_limit: the bound 46341 is sharp; C48_checked: the exact condition for the panic, which includes squared distances of 2^32 and more; C48_encoded for pictures whose sums of coordinates stay below 2^64"
  },
  {
   "property": "C49",
   "status": "proved",
   "theorems": [
    "Cniic.C49_cluster_colors",
    "Cniic.C49_voronoi",
    "Cniic.C49_panics",
    "Cniic.C49_accepts"
   ],
   "note": ""
  },
  {
   "property": "C50",
   "status": "proved",
   "theorems": [
    "Cniic.C50_report",
    "Cniic.C50_complete",
    "Cniic.C50_progress",
    "Cniic.C50_ends"
   ],
   "note": "workers modelled as a transition system with an exclusive lock; a failing record write leaves no trace in the file"
  },
  {
   "property": "C51",
   "status": "proved",
   "theorems": [
    "Cniic.C51_zero_iff_equal",
    "Cniic.C51_empty"
   ],
   "note": "floats satisfy FloatOps.Lawful"
  },
  {
   "property": "C52",
   "status": "proved",
   "theorems": [
    "Cniic.C52_linearize",
    "Cniic.C52_linearize_large",
    "Cniic.C52_linearize_large_overflow",
    "Cniic.C52_linearize_small",
    "Cniic.C52_linearize_small_thin"
   ],
   "note": "The traversal of zhang_hilbert is a parameter assumed to visit each cell of a square once."
  },
  {
   "property": "C53",
   "status": "proved",
   "theorems": [
    "Cniic.C53_damaged_input"
   ],
   "note": ""
  },
  {
   "property": "C54",
   "status": "proved",
   "theorems": [
    "Cniic.C54_zip_back_uniform_images"
   ],
   "note": ""
  },
  {
   "property": "C55",
   "status": "proved",
   "theorems": [
    "Cniic.C55_error_bound"
   ],
   "note": ""
  },
  {
   "property": "C56",
   "status": "proved",
   "theorems": [
    "Cniic.C56_lossless"
   ],
   "note": ""
  },
  {
   "property": "C57",
   "status": "proved",
   "theorems": [
    "Cniic.C57_overflow"
   ],
   "note": ""
  },
  {
   "property": "C58",
   "status": "proved",
   "theorems": [
    "Cniic.C58_fixpoint",
    "Cniic.C58_refuted",
    "Cniic.C58_cluster_colors",
    "Cniic.C58_voronoi"
   ],
   "note": "C58_cluster_colors and C58_voronoi are the two codecs; C58_refuted is the counterexample for the first iteration"
  },
  {
   "property": "C59",
   "status": "proved",
   "theorems": [
    "Cniic.C59_cluster_colors",
    "Cniic.C59_voronoi",
    "Cniic.C59_panics",
    "Cniic.C59_active"
   ],
   "note": "cluster-colors on images in which no colour occurs 2^32 times or more (the rest is C83), voronoi without overflow checks (see C61) on every image"
  },
  {
   "property": "C60",
   "status": "proved",
   "theorems": [
    "Cniic.C60_watermark"
   ],
   "note": ""
  },
  {
   "property": "C61",
   "status": "proved",
   "theorems": [
    "Cniic.C61_checked_panics"
   ],
   "note": ""
  },
  {
   "property": "C62",
   "status": "proved",
   "theorems": [
    "Cniic.C62_truncated"
   ],
   "note": "for images that fit in the address space"
  },
  {
   "property": "C63",
   "status": "proved",
   "theorems": [
    "Cniic.C63_outcome",
    "Cniic.C63_cluster_colors",
    "Cniic.C63_voronoi"
   ],
   "note": "voronoi with the concrete IEEE 754 model; cluster-colors with any lawful floats"
  },
  {
   "property": "C64",
   "status": "proved",
   "theorems": [
    "Cniic.C64_lossless_measured"
   ],
   "note": "floats satisfy FloatOps.Lawful"
  },
  {
   "property": "C65",
   "status": "proved",
   "theorems": [
    "Cniic.C65_ratio",
    "Cniic.C65_overflow",
    "Cniic.C65_wraps"
   ],
   "note": "floats satisfy FloatOps.Lawful"
  },
  {
   "property": "C66",
   "status": "proved",
   "theorems": [
    "Cniic.C66_saved",
    "Cniic.C66_mismatch"
   ],
   "note": ""
  },
  {
   "property": "C67",
   "status": "proved",
   "theorems": [
    "Cniic.C67_mean_squared_error"
   ],
   "note": "floats satisfy FloatOps.Lawful"
  },
  {
   "property": "C68",
   "status": "proved",
   "theorems": [
    "Cniic.C68_export",
    "Cniic.C68_benchmark",
    "Cniic.C68_otherwise",
    "Cniic.C68_message_lost"
   ],
   "note": "arguments that are not valid Unicode (a panic of env::args) are outside"
  },
  {
   "property": "C69",
   "status": "proved",
   "theorems": [
    "Cniic.C69_paths_distinct",
    "Cniic.C69_other_files",
    "Cniic.C69_files",
    "Cniic.C69_completes",
    "Cniic.C69_stops",
    "Cniic.C69_columns",
    "Cniic.C69_mislabelled"
   ],
   "note": "the traversal crate visits each cell once; a file is its list of records, creation fails or succeeds, writing of records does not fail"
  },
  {
   "property": "C70",
   "status": "proved",
   "theorems": [
    "Cniic.C70_path",
    "Cniic.C70_determined",
    "Cniic.C70_collision",
    "Cniic.C70_overwrites"
   ],
   "note": "paths as strings, Unix conventions"
  },
  {
   "property": "C71",
   "status": "proved",
   "theorems": [
    "Cniic.C71_names_distinct",
    "Cniic.C71_report_path",
    "Cniic.C71_name_as_argument"
   ],
   "note": "the rendering of f64 is a parameter that is injective and writes numbers with digits, minus, dot or as inf, NaN (ShowsF64)"
  },
  {
   "property": "C72",
   "status": "proved",
   "theorems": [
    "Cniic.C72_allowance",
    "Cniic.C72_too_many_colors",
    "Cniic.C72_exactly"
   ],
   "note": "floats satisfy FloatOps.Lawful and powi(2) is exact on whole numbers up to 255 (SquaresExact, true of rounding to nearest)"
  },
  {
   "property": "C73",
   "status": "proved",
   "theorems": [
    "Cniic.C73_alpha",
    "Cniic.C73_opaque"
   ],
   "note": "no hypotheses"
  },
  {
   "property": "C74",
   "status": "proved",
   "theorems": [
    "Cniic.C74_accepted",
    "Cniic.C74_written",
    "Cniic.C74_incomplete"
   ],
   "note": "traversal visits each cell once, image addressable, hash orders are permutations, sort sorts, floats lawful; the second part has no hypotheses"
  },
  {
   "property": "C75",
   "status": "proved",
   "theorems": [
    "Cniic.C75_size",
    "Cniic.C75_hilbert_rle",
    "Cniic.C75_hilbert_zip",
    "Cniic.C75_zip_dict",
    "Cniic.C75_zip_back",
    "Cniic.C75_zip_back_total",
    "Cniic.C75_tree",
    "Cniic.C75_tree_diff",
    "Cniic.C75_tree_none",
    "Cniic.C75_hufman",
    "Cniic.C75_cluster_colors",
    "Cniic.C75_delta",
    "Cniic.C75_voronoi",
    "Cniic.C75_voronoi_no_centroids",
    "Cniic.C75_well_formed"
   ],
   "note": "traversal visits each cell once; code trees are found by an existential (shown unique), zip streams by the relations of C18/C23"
  },
  {
   "property": "C76",
   "status": "proved",
   "theorems": [
    "Cniic.C76_delta_checks"
   ],
   "note": "traversal visits each cell once"
  },
  {
   "property": "C77",
   "status": "proved",
   "theorems": [
    "Cniic.C77_hufman",
    "Cniic.C77_delta",
    "Cniic.C77_cluster_colors",
    "Cniic.C77_voronoi",
    "Cniic.C77_hilbert_rle",
    "Cniic.C77_hilbert_rle_fewest",
    "Cniic.C77_hilbert_zip",
    "Cniic.C77_zip_dict",
    "Cniic.C77_zip_back",
    "Cniic.C77_deterministic",
    "Cniic.C77_same_size",
    "Cniic.C77_files_differ"
   ],
   "note": "Exact sizes for hufman, delta, cluster-colors (relative to the decoded picture), voronoi; bounds for the others; exact runs are the shortest; C77_deterministic and C77_same_size; C77_files_differ shows that the bytes themselves may differ."
  },
  {
   "property": "C78",
   "status": "proved",
   "theorems": [
    "Cniic.C78_lossless",
    "Cniic.C78_lossless_file",
    "Cniic.C78_injective",
    "Cniic.C78_not_longer",
    "Cniic.C78_settles",
    "Cniic.C78_refuted"
   ],
   "note": "C78_lossless, C78_lossless_file, C78_injective for the lossless codecs; C78_not_longer and C78_settles for hilbert(rle); C78_refuted shows that the second generation can differ."
  },
  {
   "property": "C79",
   "status": "proved",
   "theorems": [
    "Cniic.C79_cluster_colors",
    "Cniic.C79_again",
    "Cniic.C79_one_color",
    "Cniic.C79_voronoi",
    "Cniic.C79_voronoi_limit",
    "Cniic.C79_one_voronoi",
    "Cniic.C79_again_panics"
   ],
   "note": "C79_cluster_colors, C79_again with the witness C79_again_panics, C79_one_color, C79_voronoi with the sharp limit C79_voronoi_limit, C79_one_voronoi."
  },
  {
   "property": "C80",
   "status": "proved",
   "theorems": [
    "Cniic.C80_ends",
    "Cniic.C80_one_tint",
    "Cniic.C80_grey",
    "Cniic.C80_two_channels"
   ],
   "note": "C80_ends in general, C80_one_tint and C80_grey for cluster-colors, C80_two_channels for the refutation with two channels."
  },
  {
   "property": "C81",
   "status": "proved",
   "theorems": [
    "Cniic.C81_rows",
    "Cniic.C81_report",
    "Cniic.C81_files",
    "Cniic.C81_inputs",
    "Cniic.C81_alone",
    "Cniic.C81_lossless",
    "Cniic.C81_final",
    "Cniic.C81_deterministic",
    "Cniic.C81_progress",
    "Cniic.C81_same_stem",
    "Cniic.C81_overlap"
   ],
   "note": "C81_alone, C81_rows, C81_report, C81_files, C81_inputs, C81_lossless, C81_final, C81_deterministic, C81_progress; C81_same_stem and C81_overlap show that the conditions are needed."
  },
  {
   "property": "C82",
   "status": "proved",
   "theorems": [
    "Cniic.C82_cluster_colors",
    "Cniic.C82_rle",
    "Cniic.C82_more_colors",
    "Cniic.C82_voronoi",
    "Cniic.C82_larger_allowance"
   ],
   "note": "C82_cluster_colors and C82_rle for the bounds; C82_voronoi, C82_more_colors and C82_larger_allowance for what does not hold."
  },
  {
   "property": "C83",
   "status": "proved",
   "theorems": [
    "Cniic.C83_any_size",
    "Cniic.C83_panics",
    "Cniic.C83_one_color",
    "Cniic.C83_white",
    "Cniic.C83_halves"
   ],
   "note": "C83_any_size and C83_panics in general, C83_one_color decides cluster-colors(1); C83_white and C83_halves are the two pictures."
  },
  {
   "property": "C84",
   "status": "proved",
   "theorems": [
    "Cniic.C84_code_length",
    "Cniic.C84_files",
    "Cniic.C84_enough",
    "Cniic.C84_any_file",
    "Cniic.C84_crafted",
    "Cniic.C84_reached",
    "Cniic.C84_needed"
   ],
   "note": "C84_code_length in general, C84_files and C84_enough for files of all codecs, C84_reached and C84_needed for the lower bound, C84_any_file and C84_crafted for arbitrary files."
  },
  {
   "property": "C85",
   "status": "proved",
   "theorems": [
    "Cniic.C85_refused",
    "Cniic.C85_export",
    "Cniic.C85_exit",
    "Cniic.C85_panic",
    "Cniic.C85_files",
    "Cniic.C85_report",
    "Cniic.C85_report_panic",
    "Cniic.C85_nothing_opened",
    "Cniic.C85_lossless",
    "Cniic.C85_ends"
   ],
   "note": "C85_refused, C85_export, C85_exit, C85_panic, C85_files, C85_report, C85_report_panic, C85_nothing_opened, C85_lossless and C85_ends. C85_exit, C85_panic, C85_report, C85_report_panic and C85_ends assume that no picture is saved in the place of an image (C81)."
  },
  {
   "property": "C86",
   "status": "proved",
   "theorems": [
    "Cniic.C86_counts",
    "Cniic.C86_encode",
    "Cniic.C86_no_effect",
    "Cniic.C86_panics",
    "Cniic.C86_panics_written",
    "Cniic.C86_codecs"
   ],
   "note": "printing itself and memory limits are not modelled; the usize counters are unbounded"
  },
  {
   "property": "C87",
   "status": "proved",
   "theorems": [
    "Cniic.C87_same",
    "Cniic.C87_ends_alike",
    "Cniic.C87_debug_ends",
    "Cniic.C87_encoders",
    "Cniic.C87_cluster_colors_ends",
    "Cniic.C87_circling"
   ],
   "note": "counted versions of the functions of kmeans.rs equal the uncounted ones below the bound; beyond it the loop panics"
  },
  {
   "property": "C88",
   "status": "proved",
   "theorems": [
    "Cniic.C88_drop",
    "Cniic.C88_depth",
    "Cniic.C88_encoder"
   ],
   "note": "the loop equals the depth-first enumeration of the nodes used for C86; nodes correspond to the proper prefixes of the keys"
  },
  {
   "property": "C89",
   "status": "proved",
   "theorems": [
    "Cniic.C89_any_size",
    "Cniic.C89_voronoi_checked",
    "Cniic.C89_zip_dict",
    "Cniic.C89_zip_dict_reached",
    "Cniic.C89_zip_back",
    "Cniic.C89_zip_back_reached"
   ],
   "note": "from the descriptions of C75: the size is believed before the data are read, each pair of dictionary symbols at most doubles the longest sequence, a copy has at most 32767 bytes; explicit files reach the bounds up to constants"
  },
  {
   "property": "C90",
   "status": "proved",
   "theorems": [
    "Cniic.C90_prefix",
    "Cniic.C90_average",
    "Cniic.C90_all",
    "Cniic.C90_incompressible",
    "Cniic.C90_archive"
   ],
   "note": "from C39 and C74 (what follows a file is ignored); Kraft's inequality for words of bytes, proved by splitting on the first byte, and Bernoulli's inequality"
  },
  {
   "property": "C91",
   "status": "proved",
   "theorems": [
    "Cniic.C91_codes",
    "Cniic.C91_hufman",
    "Cniic.C91_delta",
    "Cniic.C91_cluster_colors",
    "Cniic.C91_gap"
   ],
   "note": "C77 gives the size in terms of the least number of bits of a prefix code; that number is compared with the entropy: Gibbs's inequality (log x <= x - 1) and Kraft's inequality below, the lengths ceil(log2(n/count)), which satisfy Kraft's inequality, above"
  },
  {
   "property": "C92",
   "status": "proved",
   "theorems": [
    "Cniic.C92_measured",
    "Cniic.C92_builds",
    "Cniic.C92_report",
    "Cniic.C92_lossy"
   ],
   "note": "two encoders agree on sizes (C77) and both decoders return the pixels (C39), so the rows agree; lifted to the program with C85; the counterexamples are evaluated by the kernel with IEEE arithmetic"
  },
  {
   "property": "C93",
   "status": "proved",
   "theorems": [
    "Cniic.C93_encode",
    "Cniic.C93_decode",
    "Cniic.C93_parse",
    "Cniic.C93_row",
    "Cniic.C93_program",
    "Cniic.C93_counters",
    "Cniic.C93_strict"
   ],
   "note": "Relation `panic or equal` between the two builds carried through every function that takes `chk` (Proofs/Checks, Proofs/ChecksCount)."
  },
  {
   "property": "C94",
   "status": "proved",
   "theorems": [
    "Cniic.C94_hufman",
    "Cniic.C94_hilbert_rle",
    "Cniic.C94_delta",
    "Cniic.C94_channels",
    "Cniic.C94_order",
    "Cniic.C94_colors",
    "Cniic.C94_channels_matter"
   ],
   "note": "Symmetries of the file sizes; the refutations are evaluated by the kernel on concrete pictures."
  },
  {
   "property": "C95",
   "status": "proved",
   "theorems": [
    "Cniic.C95_fixed",
    "Cniic.C95_cluster",
    "Cniic.C95_approx",
    "Cniic.C95_target",
    "Cniic.C95_voronoi",
    "Cniic.C95_mixed_up",
    "Cniic.C95_shown",
    "Cniic.C95_not_shown"
   ],
   "note": "Reads the recipes of the Makefile against the names of the reports; the wrong copy in the rule for voronoi is a defect of the Makefile."
  },
  {
   "property": "C96",
   "status": "proved",
   "theorems": [
    "Cniic.C96_parameters",
    "Cniic.C96_size",
    "Cniic.C96_refused",
    "Cniic.C96_black",
    "Cniic.C96_ramp",
    "Cniic.C96_voronoi",
    "Cniic.C96_zip_dict_reads",
    "Cniic.C96_zip_dict_file",
    "Cniic.C96_zip_dict_hilbert",
    "Cniic.C96_undetected"
   ],
   "note": "Files read by another codec."
  },
  {
   "property": "C97",
   "status": "proved",
   "theorems": [
    "Cniic.C97_pass",
    "Cniic.C97_colors",
    "Cniic.C97_pixels",
    "Cniic.C97_few",
    "Cniic.C97_differs"
   ],
   "note": "The variant without the test is written down in Spec/Shortcut.lean. The general part assumes what is proved for colours and pixels: within half the distance of the nearest neighbour no centroid within the cutoff is computed nearer. For pixels the distances are rounded twice and ties are only possible when the point is exactly in the middle, where both computed distances agree."
  },
  {
   "property": "C98",
   "status": "proved",
   "theorems": [
    "Cniic.C98_connected",
    "Cniic.C98_five",
    "Cniic.C98_start",
    "Cniic.C98_kept",
    "Cniic.C98_stays",
    "Cniic.C98_apart"
   ],
   "note": "Connected means that every division of the clusters into two non-empty sides is crossed by some list (edges in either direction). The five is for the lower bound being the square root rounded down, which the model takes from outside. The counter of grown lists is the one of Model/KmeansCount.lean with overflow checks."
  },
  {
   "property": "C99",
   "status": "proved",
   "theorems": [
    "Cniic.C99_result",
    "Cniic.C99_numbers",
    "Cniic.C99_relations",
    "Cniic.C99_counters",
    "Cniic.C99_last",
    "Cniic.C99_one"
   ],
   "note": "The counters are u64 in the source and natural numbers in the model; C99_counters bounds them. Only the numbers are modelled, not the text around them."
  },
  {
   "property": "C100",
   "status": "proved",
   "theorems": [
    "Cniic.C100_periodic",
    "Cniic.C100_pairs",
    "Cniic.C100_at_least",
    "Cniic.C100_zip_dict",
    "Cniic.C100_one_colour",
    "Cniic.C100_hilbert_zip",
    "Cniic.C100_hilbert_one_colour"
   ],
   "note": "An upper bound, not the exact size: measured sizes are much smaller."
  },
  {
   "property": "C101",
   "status": "proved",
   "theorems": [
    "Cniic.C101_runs",
    "Cniic.C101_found",
    "Cniic.C101_missed",
    "Cniic.C101_doubled"
   ],
   "note": "The doubling is deliberate in the source (\"We always try to double the current explicit size\"); the claim says what it costs."
  },
  {
   "property": "C102",
   "status": "proved",
   "theorems": [
    "Cniic.C102_never_larger",
    "Cniic.C102_everything",
    "Cniic.C102_not_monotone",
    "Cniic.C102_teeth_exist"
   ],
   "note": "The expectation `larger allowance, smaller file` is refuted; what holds is that every non-negative allowance is at least as good as exact runs."
  },
  {
   "property": "C103",
   "status": "proved",
   "theorems": [
    "Cniic.C103_printed",
    "Cniic.C103_lengths",
    "Cniic.C103_panic",
    "Cniic.C103_places",
    "Cniic.C103_text",
    "Cniic.C103_text_sizes"
   ],
   "note": "Printing itself is assumed to succeed; a closed standard output makes `println!` panic."
  },
  {
   "property": "C104",
   "status": "proved",
   "theorems": [
    "Cniic.C104_index",
    "Cniic.C104_memory",
    "Cniic.C104_program",
    "Cniic.C104_filter",
    "Cniic.C104_stale"
   ],
   "note": "The expectation written in the source comment (no filter needed for the newer map) is refuted; the exact states in which the filter matters are given. The bytes read ahead and the current literal run are not counted."
  },
  {
   "property": "C105",
   "status": "proved",
   "theorems": [
    "Cniic.C105_arrays",
    "Cniic.C105_mask",
    "Cniic.C105_lsb",
    "Cniic.C105_lsb_lost"
   ],
   "note": "The natural expectation that pad_and_flush completes the last byte in the writer's bit order is refuted for the least significant bit first (not used by the program outside of tests)."
  },
  {
   "property": "C106",
   "status": "proved",
   "theorems": [
    "Cniic.C106_exact",
    "Cniic.C106_written",
    "Cniic.C106_codecs",
    "Cniic.C106_crafted"
   ],
   "note": "The expectation that decoding a dictionary stream needs a bounded stack is refuted for streams not written by the encoder (C106_crafted). It is assumed that self.next() is compiled to a call, not to a loop."
  },
  {
   "property": "C107",
   "status": "proved",
   "theorems": [
    "Cniic.C107_hufman",
    "Cniic.C107_cluster_colors",
    "Cniic.C107_hilbert_rle",
    "Cniic.C107_hilbert_rle_recolor",
    "Cniic.C107_left_out",
    "Cniic.C107_merged"
   ],
   "note": "For pictures without pixels hufman panics (C28), so the files compared exist only for pictures with pixels."
  },
  {
   "property": "C108",
   "status": "proved",
   "theorems": [
    "Cniic.C108_hufman_colors",
    "Cniic.C108_hufman_form",
    "Cniic.C108_rle_colors",
    "Cniic.C108_rle_form",
    "Cniic.C108_voronoi_colors",
    "Cniic.C108_hufman_rows",
    "Cniic.C108_voronoi_crop",
    "Cniic.C108_smaller",
    "Cniic.C108_unnoticed"
   ],
   "note": "Refutes that a wrong size is noticed (C108_smaller, C108_unnoticed). Sizes above the true one are covered by C75."
  },
  {
   "property": "C109",
   "status": "proved",
   "theorems": [
    "Cniic.C109_back_joined",
    "Cniic.C109_back_rest",
    "Cniic.C109_back_pieces",
    "Cniic.C109_back_pictures",
    "Cniic.C109_dict_rest",
    "Cniic.C109_dict_three",
    "Cniic.C109_dict_twice",
    "Cniic.C109_dict_refuted"
   ],
   "note": "Refuted for zip-dict (C109_dict_twice, C109_dict_refuted)."
  },
  {
   "property": "C110",
   "status": "proved",
   "theorems": [
    "Cniic.C110_stack_error",
    "Cniic.C110_assertion",
    "Cniic.C110_then_try",
    "Cniic.C110_merged"
   ],
   "note": ""
  },
  {
   "property": "C111",
   "status": "proved",
   "theorems": [
    "Cniic.C111_dict",
    "Cniic.C111_back",
    "Cniic.C111_back_refuted",
    "Cniic.C111_rle",
    "Cniic.C111_approx",
    "Cniic.C111_approx_far",
    "Cniic.C111_approx_refuted",
    "Cniic.C111_zip",
    "Cniic.C111_differences",
    "Cniic.C111_delta",
    "Cniic.C111_traversal"
   ],
   "note": "Refuted for the examples of zip-back, hilbert-zip and, with greys, hilbert-rle-approx (C111_back_refuted, C111_zip, C111_approx_refuted). C111_dict, C111_rle, C111_approx, C111_differences are about the one example."
  },
  {
   "property": "C112",
   "status": "proved",
   "theorems": [
    "Cniic.C112_pays",
    "Cniic.C112_between_runs",
    "Cniic.C112_elsewhere",
    "Cniic.C112_refuted"
   ],
   "note": "The comment at MIN_REP is refuted in general (C112_elsewhere, C112_refuted)."
  },
  {
   "property": "C113",
   "status": "proved",
   "theorems": [
    "Cniic.C113_hufman_before",
    "Cniic.C113_delta_before",
    "Cniic.C113_rle_before",
    "Cniic.C113_hilbert_zip_before",
    "Cniic.C113_zip_dict_before",
    "Cniic.C113_zip_back_before",
    "Cniic.C113_rle",
    "Cniic.C113_rle_color",
    "Cniic.C113_delta_shift",
    "Cniic.C113_hufman_one",
    "Cniic.C113_voronoi",
    "Cniic.C113_spreads"
   ],
   "note": "hufman and delta theorems speak of files whose bits are read the same before and after; the loss of synchronization is shown by a witness only."
  },
  {
   "property": "C114",
   "status": "proved",
   "theorems": [
    "Cniic.C114_picture",
    "Cniic.C114_decoded",
    "Cniic.C114_assign",
    "Cniic.C114_update",
    "Cniic.C114_pass",
    "Cniic.C114_tight",
    "Cniic.C114_worse"
   ],
   "note": "A picture has no colour with 2^32 or more pixels (see C83), and where pictures are decoded or made it is addressable. Rounding of square roots is monotone as in IEEE 754."
  },
  {
   "property": "C115",
   "status": "proved",
   "theorems": [
    "Cniic.C115_one_tree",
    "Cniic.C115_reading",
    "Cniic.C115_decoding",
    "Cniic.C115_files",
    "Cniic.C115_encoding",
    "Cniic.C115_aborts",
    "Cniic.C115_accepted"
   ],
   "note": "Counts calls for nodes, not bytes of stack frames; the destructor is the one that the compiler generates for an enum with two boxes."
  },
  {
   "property": "C116",
   "status": "proved",
   "theorems": [
    "Cniic.C116_monotone",
    "Cniic.C116_share",
    "Cniic.C116_frequent",
    "Cniic.C116_two_fifths",
    "Cniic.C116_rare",
    "Cniic.C116_even",
    "Cniic.C116_files"
   ],
   "note": "Code lengths are those of the bit arrays in the table. The example shows that the Fibonacci bound is attained for a code of two bits."
  },
  {
   "property": "C117",
   "status": "proved",
   "theorems": [
    "Cniic.C117_history",
    "Cniic.C117_prints",
    "Cniic.C117_lines",
    "Cniic.C117_nan",
    "Cniic.C117_useful"
   ],
   "note": "Numbers before bytesize and format! turn them into text. A debug build with 2^31 or more nodes panics (C86). The console is assumed to take what is printed. Examples show that 130 bytes can print two lines."
  },
  {
   "property": "C118",
   "status": "proved",
   "theorems": [
    "Cniic.C118_same",
    "Cniic.C118_calls",
    "Cniic.C118_second",
    "Cniic.C118_unknown",
    "Cniic.C118_ok_iff"
   ],
   "note": "Iterators are represented by the items they produce. The doc comment 'exactly twice' is refuted for empty input and for a writer that fails during the tree."
  },
  {
   "property": "C119",
   "status": "proved",
   "theorems": [
    "Cniic.C119_bound",
    "Cniic.C119_background",
    "Cniic.C119_two",
    "Cniic.C119_three",
    "Cniic.C119_hufman",
    "Cniic.C119_hufman_two",
    "Cniic.C119_hufman_three",
    "Cniic.C119_delta"
   ],
   "note": "The bound of two fifths for a 1-bit code is C116; four equally frequent items show that the exact form does not hold for any item."
  },
  {
   "property": "C120",
   "status": "proved",
   "theorems": [
    "Cniic.C120_one",
    "Cniic.C120_open",
    "Cniic.C120_no_stdout",
    "Cniic.C120_no_stderr",
    "Cniic.C120_no_stderr_saved",
    "Cniic.C120_lossless",
    "Cniic.C120_silent",
    "Cniic.C120_loud",
    "Cniic.C120_sizes",
    "Cniic.C120_decoding",
    "Cniic.C120_report",
    "Cniic.C120_lock",
    "Cniic.C120_progress",
    "Cniic.C120_no_stdout_report",
    "Cniic.C120_complaint"
   ],
   "note": "Which prints fail is arbitrary per image; the texts are not modelled. That a missing standard error loses the rows of lossy images is a finding."
  },
  {
   "property": "C121",
   "status": "proved",
   "theorems": [
    "Cniic.C121_few",
    "Cniic.C121_share",
    "Cniic.C121_hufman",
    "Cniic.C121_delta",
    "Cniic.C121_rle"
   ],
   "note": "Follows from the prefix property (C90) by Kraft's inequality, and from the sizes in C77."
  },
  {
   "property": "C122",
   "status": "proved",
   "theorems": [
    "Cniic.C122_resync",
    "Cniic.C122_same",
    "Cniic.C122_decodes",
    "Cniic.C122_even"
   ],
   "note": "Uses the meaning of arbitrary hufman files (C75) and the code lengths (C116)."
  },
  {
   "property": "C123",
   "status": "proved",
   "theorems": [
    "Cniic.C123_zip_dict",
    "Cniic.C123_zip_dict_half",
    "Cniic.C123_zip_back",
    "Cniic.C123_dict",
    "Cniic.C123_back",
    "Cniic.C123_hilbert_zip",
    "Cniic.C123_rle",
    "Cniic.C123_hufman"
   ],
   "note": "The counterpart of C113 for encoding."
  },
  {
   "property": "C124",
   "status": "proved",
   "theorems": [
    "Cniic.C124_rle",
    "Cniic.C124_bits",
    "Cniic.C124_hufman",
    "Cniic.C124_hufman_large",
    "Cniic.C124_delta",
    "Cniic.C124_jump"
   ],
   "note": "The bound of 24 bytes is reached (example)."
  },
  {
   "property": "C125",
   "status": "proved",
   "theorems": [
    "Cniic.C125_bits",
    "Cniic.C125_hufman",
    "Cniic.C125_hufman_copies",
    "Cniic.C125_rle"
   ],
   "note": ""
  },
  {
   "property": "C126",
   "status": "proved",
   "theorems": [
    "Cniic.C126_same",
    "Cniic.C126_left",
    "Cniic.C126_several",
    "Cniic.C126_no_prefix",
    "Cniic.C126_others"
   ],
   "note": ""
  },
  {
   "property": "C127",
   "status": "proved",
   "theorems": [
    "Cniic.C127_enough",
    "Cniic.C127_ignored",
    "Cniic.C127_prefix_free",
    "Cniic.C127_place",
    "Cniic.C127_painted"
   ],
   "note": ""
  },
  {
   "property": "C128",
   "status": "proved",
   "theorems": [
    "Cniic.C128_wide",
    "Cniic.C128_same",
    "Cniic.C128_written",
    "Cniic.C128_colours",
    "Cniic.C128_more",
    "Cniic.C128_only",
    "Cniic.C128_zip"
   ],
   "note": ""
  },
  {
   "property": "C129",
   "status": "proved",
   "theorems": [
    "Cniic.C129_pixels",
    "Cniic.C129_panic",
    "Cniic.C129_points",
    "Cniic.C129_same",
    "Cniic.C129_zero",
    "Cniic.C129_hufman",
    "Cniic.C129_error",
    "Cniic.C129_drawn",
    "Cniic.C129_reduced"
   ],
   "note": "The iterator is that of the crate image, whose source is not in the repository; it is written down in Model/View.lean as we know it."
  }
 ]
}