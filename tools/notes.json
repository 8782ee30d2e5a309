{
 "C01": [
  "proved",
  "Proved for MSB-first, the order the codecs use, for every device fault schedule. The LSB-first order is shown to lose bits."
 ],
 "C02": [
  "proved",
  ""
 ],
 "C03": [
  "proved",
  ""
 ],
 "C04": [
  "proved",
  "All types of ser.rs, as a closed universe of type codes, over lists and over arbitrary byte iterators."
 ],
 "C05": [
  "proved",
  ""
 ],
 "C06": [
  "proved",
  ""
 ],
 "C07": [
  "proved",
  "The source iterator of SerStream is represented by its list of items."
 ],
 "C08": [
  "proved",
  "For every symbol type with a lawful serializer, every heap tie-breaking, every hash order, every device that accepts the bytes. Empty input is shown to panic."
 ],
 "C09": [
  "proved",
  ""
 ],
 "C10": [
  "proved",
  ""
 ],
 "C11": [
  "proved",
  "Optimal among all prefix codes."
 ],
 "C12": [
  "proved",
  ""
 ],
 "C13": [
  "proved",
  ""
 ],
 "C14": [
  "proved",
  "Stack exhaustion on very deep trees is not modelled."
 ],
 "C15": [
  "proved",
  ""
 ],
 "C16": [
  "proved",
  ""
 ],
 "C17": [
  "proved",
  ""
 ],
 "C18": [
  "proved",
  ""
 ],
 "C19": [
  "proved",
  ""
 ],
 "C20": [
  "proved",
  "Exact description of the decoder on every byte string."
 ],
 "C21": [
  "proved",
  "Round trip whenever encoding completes, for window 65535 and for any window size; output independent of the read-ahead capacities."
 ],
 "C22": [
  "proved",
  "Exact characterization; positive for <= 32767 bytes; refuted for constant inputs of >= 65536 bytes."
 ],
 "C23": [
  "proved",
  ""
 ],
 "C24": [
  "proved",
  "Any element type and capacity."
 ],
 "C25": [
  "proved",
  "Any capacity, including the clean-ups."
 ],
 "C26": [
  "proved",
  "Also: among the longest matches the farthest back is chosen, and literals appear only where no match of 6 bytes exists (Factor)."
 ],
 "C27": [
  "proved",
  ""
 ],
 "C53": [
  "proved",
  ""
 ],
 "C28": [
  "proved",
  "The image crate is represented by dimensions and pixels in row order."
 ],
 "C29": [
  "proved",
  "With and without overflow checks; the traversal is any one that visits each pixel once."
 ],
 "C30": [
  "proved",
  ""
 ],
 "C31": [
  "proved",
  ""
 ],
 "C32": [
  "proved",
  ""
 ],
 "C33": [
  "proved",
  ""
 ],
 "C34": [
  "proved",
  "For any type of values; the runs are unique."
 ],
 "C37": [
  "proved",
  "Positive for hufman, zip(dict), zip(back); exact behaviour, with a counterexample, for hilbert and delta."
 ],
 "C52": [
  "proved",
  "The traversal of zhang_hilbert is a parameter assumed to visit each cell of a square once."
 ],
 "C54": [
  "proved",
  ""
 ],
 "C35": [
  "proved",
  "for every arithmetic that satisfies FloatOps.Lawful; Ieee.lawful shows that rounding to nearest even does"
 ],
 "C36": [
  "proved",
  "both directions up to explicit rounding error; C36_refuted refutes the expectation about decoded pixels"
 ],
 "C55": [
  "proved",
  ""
 ],
 "C56": [
  "proved",
  ""
 ],
 "C40": [
  "proved",
  "accepts exactly the grammar on shallow ASCII text; never accepts non-ASCII text"
 ],
 "C41": [
  "proved",
  "exact panic condition for shallow ASCII strings; C41_refuted is the non-ASCII counterexample"
 ],
 "C42": [
  "proved",
  "regexes are modelled by a small backtracking matcher; f64::from_str is a parameter"
 ],
 "C57": [
  "proved",
  ""
 ],
 "C43": [
  "proved",
  ""
 ],
 "C44": [
  "proved",
  "an empty cluster has the mean of a single input point as its centroid"
 ],
 "C45": [
  "proved",
  "generic in the measure; C45_cluster_colors and C45_voronoi are the two codecs (voronoi up to 65536 x 65536, beyond which C45_wraps shows the distance wrapping)"
 ],
 "C46": [
  "proved",
  ""
 ],
 "C49": [
  "proved",
  ""
 ],
 "C58": [
  "proved",
  "C58_cluster_colors and C58_voronoi are the two codecs; C58_refuted is the counterexample for the first iteration"
 ],
 "C59": [
  "proved",
  "cluster-colors on images in which no colour occurs 2^32 times or more (the rest is C83), voronoi without overflow checks (see C61) on every image"
 ],
 "C47": [
  "proved",
  "images in which no colour occurs 2^32 times or more; C83 is the general case"
 ],
 "C48": [
  "proved",
  "C48_limit: the bound 46341 is sharp; C48_checked: the exact condition for the panic, which includes squared distances of 2^32 and more; C48_encoded for pictures whose sums of coordinates stay below 2^64"
 ],
 "C60": [
  "proved",
  ""
 ],
 "C61": [
  "proved",
  ""
 ],
 "C62": [
  "proved",
  "for images that fit in the address space"
 ],
 "C63": [
  "proved",
  "voronoi with the concrete IEEE 754 model; cluster-colors with any lawful floats"
 ],
 "C38": [
  "proved",
  "for images on which encoding completes on a device that does not fail"
 ],
 "C39": [
  "proved",
  ""
 ],
 "C50": [
  "proved",
  "workers modelled as a transition system with an exclusive lock; a failing record write leaves no trace in the file"
 ],
 "C51": [
  "proved",
  "floats satisfy FloatOps.Lawful"
 ],
 "C64": [
  "proved",
  "floats satisfy FloatOps.Lawful"
 ],
 "C65": [
  "proved",
  "floats satisfy FloatOps.Lawful"
 ],
 "C66": [
  "proved",
  ""
 ],
 "C67": [
  "proved",
  "floats satisfy FloatOps.Lawful"
 ],
 "C68": [
  "proved",
  "arguments that are not valid Unicode (a panic of env::args) are outside"
 ],
 "C69": [
  "proved",
  "the traversal crate visits each cell once; a file is its list of records, creation fails or succeeds, writing of records does not fail"
 ],
 "C70": [
  "proved",
  "paths as strings, Unix conventions"
 ],
 "C71": [
  "proved",
  "the rendering of f64 is a parameter that is injective and writes numbers with digits, minus, dot or as inf, NaN (ShowsF64)"
 ],
 "C72": [
  "proved",
  "floats satisfy FloatOps.Lawful and powi(2) is exact on whole numbers up to 255 (SquaresExact, true of rounding to nearest)"
 ],
 "C73": [
  "proved",
  "no hypotheses"
 ],
 "C74": [
  "proved",
  "traversal visits each cell once, image addressable, hash orders are permutations, sort sorts, floats lawful; the second part has no hypotheses"
 ],
 "C75": [
  "proved",
  "traversal visits each cell once; code trees are found by an existential (shown unique), zip streams by the relations of C18/C23"
 ],
 "C76": [
  "proved",
  "traversal visits each cell once"
 ],
 "C77": [
  "proved",
  "Exact sizes for hufman, delta, cluster-colors (relative to the decoded picture), voronoi; bounds for the others; exact runs are the shortest; C77_deterministic and C77_same_size; C77_files_differ shows that the bytes themselves may differ."
 ],
 "C78": [
  "proved",
  "C78_lossless, C78_lossless_file, C78_injective for the lossless codecs; C78_not_longer and C78_settles for hilbert(rle); C78_refuted shows that the second generation can differ."
 ],
 "C79": [
  "proved",
  "C79_cluster_colors, C79_again with the witness C79_again_panics, C79_one_color, C79_voronoi with the sharp limit C79_voronoi_limit, C79_one_voronoi."
 ],
 "C80": [
  "proved",
  "C80_ends in general, C80_one_tint and C80_grey for cluster-colors, C80_two_channels for the refutation with two channels."
 ],
 "C81": [
  "proved",
  "C81_alone, C81_rows, C81_report, C81_files, C81_inputs, C81_lossless, C81_final, C81_deterministic, C81_progress; C81_same_stem and C81_overlap show that the conditions are needed."
 ],
 "C82": [
  "proved",
  "C82_cluster_colors and C82_rle for the bounds; C82_voronoi, C82_more_colors and C82_larger_allowance for what does not hold."
 ],
 "C83": [
  "proved",
  "C83_any_size and C83_panics in general, C83_one_color decides cluster-colors(1); C83_white and C83_halves are the two pictures."
 ],
 "C84": [
  "proved",
  "C84_code_length in general, C84_files and C84_enough for files of all codecs, C84_reached and C84_needed for the lower bound, C84_any_file and C84_crafted for arbitrary files."
 ],
 "C85": [
  "proved",
  "C85_refused, C85_export, C85_exit, C85_panic, C85_files, C85_report, C85_report_panic, C85_nothing_opened, C85_lossless and C85_ends. C85_exit, C85_panic, C85_report, C85_report_panic and C85_ends assume that no picture is saved in the place of an image (C81)."
 ],
 "C86": [
  "proved",
  "printing itself and memory limits are not modelled; the usize counters are unbounded"
 ],
 "C87": [
  "proved",
  "counted versions of the functions of kmeans.rs equal the uncounted ones below the bound; beyond it the loop panics"
 ],
 "C88": [
  "proved",
  "the loop equals the depth-first enumeration of the nodes used for C86; nodes correspond to the proper prefixes of the keys"
 ],
 "C89": [
  "proved",
  "from the descriptions of C75: the size is believed before the data are read, each pair of dictionary symbols at most doubles the longest sequence, a copy has at most 32767 bytes; explicit files reach the bounds up to constants"
 ],
 "C90": [
  "proved",
  "from C39 and C74 (what follows a file is ignored); Kraft's inequality for words of bytes, proved by splitting on the first byte, and Bernoulli's inequality"
 ],
 "C91": [
  "proved",
  "C77 gives the size in terms of the least number of bits of a prefix code; that number is compared with the entropy: Gibbs's inequality (log x <= x - 1) and Kraft's inequality below, the lengths ceil(log2(n/count)), which satisfy Kraft's inequality, above"
 ],
 "C92": [
  "proved",
  "two encoders agree on sizes (C77) and both decoders return the pixels (C39), so the rows agree; lifted to the program with C85; the counterexamples are evaluated by the kernel with IEEE arithmetic"
 ],
 "C93": [
  "proved",
  "Relation `panic or equal` between the two builds carried through every function that takes `chk` (Proofs/Checks, Proofs/ChecksCount)."
 ],
 "C94": [
  "proved",
  "Symmetries of the file sizes; the refutations are evaluated by the kernel on concrete pictures."
 ],
 "C95": [
  "proved",
  "Reads the recipes of the Makefile against the names of the reports; the wrong copy in the rule for voronoi is a defect of the Makefile."
 ],
 "C96": [
  "proved",
  "Files read by another codec."
 ],
 "C97": [
  "proved",
  "The variant without the test is written down in Spec/Shortcut.lean. The general part assumes what is proved for colours and pixels: within half the distance of the nearest neighbour no centroid within the cutoff is computed nearer. For pixels the distances are rounded twice and ties are only possible when the point is exactly in the middle, where both computed distances agree."
 ],
 "C98": [
  "proved",
  "Connected means that every division of the clusters into two non-empty sides is crossed by some list (edges in either direction). The five is for the lower bound being the square root rounded down, which the model takes from outside. The counter of grown lists is the one of Model/KmeansCount.lean with overflow checks."
 ],
 "C99": [
  "proved",
  "The counters are u64 in the source and natural numbers in the model; C99_counters bounds them. Only the numbers are modelled, not the text around them."
 ],
 "C100": [
  "proved",
  "An upper bound, not the exact size: measured sizes are much smaller."
 ],
 "C101": [
  "proved",
  "The doubling is deliberate in the source (\"We always try to double the current explicit size\"); the claim says what it costs."
 ],
 "C102": [
  "proved",
  "The expectation `larger allowance, smaller file` is refuted; what holds is that every non-negative allowance is at least as good as exact runs."
 ],
 "C103": [
  "proved",
  "Printing itself is assumed to succeed; a closed standard output makes `println!` panic."
 ],
 "C104": [
  "proved",
  "The expectation written in the source comment (no filter needed for the newer map) is refuted; the exact states in which the filter matters are given. The bytes read ahead and the current literal run are not counted."
 ],
 "C105": [
  "proved",
  "The natural expectation that pad_and_flush completes the last byte in the writer's bit order is refuted for the least significant bit first (not used by the program outside of tests)."
 ],
 "C106": [
  "proved",
  "The expectation that decoding a dictionary stream needs a bounded stack is refuted for streams not written by the encoder (C106_crafted). It is assumed that self.next() is compiled to a call, not to a loop."
 ],
 "C107": [
  "proved",
  "For pictures without pixels hufman panics (C28), so the files compared exist only for pictures with pixels."
 ],
 "C108": [
  "proved",
  "Refutes that a wrong size is noticed (C108_smaller, C108_unnoticed). Sizes above the true one are covered by C75."
 ],
 "C109": [
  "proved",
  "Refuted for zip-dict (C109_dict_twice, C109_dict_refuted)."
 ],
 "C110": [
  "proved",
  ""
 ],
 "C111": [
  "proved",
  "Refuted for the examples of zip-back, hilbert-zip and, with greys, hilbert-rle-approx (C111_back_refuted, C111_zip, C111_approx_refuted). C111_dict, C111_rle, C111_approx, C111_differences are about the one example."
 ],
 "C112": [
  "proved",
  "The comment at MIN_REP is refuted in general (C112_elsewhere, C112_refuted)."
 ],
 "C113": [
  "proved",
  "hufman and delta theorems speak of files whose bits are read the same before and after; the loss of synchronization is shown by a witness only."
 ],
 "C114": [
  "proved",
  "A picture has no colour with 2^32 or more pixels (see C83), and where pictures are decoded or made it is addressable. Rounding of square roots is monotone as in IEEE 754."
 ],
 "C115": [
  "proved",
  "Counts calls for nodes, not bytes of stack frames; the destructor is the one that the compiler generates for an enum with two boxes."
 ],
 "C116": [
  "proved",
  "Code lengths are those of the bit arrays in the table. The example shows that the Fibonacci bound is attained for a code of two bits."
 ],
 "C117": [
  "proved",
  "Numbers before bytesize and format! turn them into text. A debug build with 2^31 or more nodes panics (C86). The console is assumed to take what is printed. Examples show that 130 bytes can print two lines."
 ],
 "C118": [
  "proved",
  "Iterators are represented by the items they produce. The doc comment 'exactly twice' is refuted for empty input and for a writer that fails during the tree."
 ],
 "C119": [
  "proved",
  "The bound of two fifths for a 1-bit code is C116; four equally frequent items show that the exact form does not hold for any item."
 ],
 "C120": [
  "proved",
  "Which prints fail is arbitrary per image; the texts are not modelled. That a missing standard error loses the rows of lossy images is a finding."
 ],
 "C121": [
  "proved",
  "Follows from the prefix property (C90) by Kraft's inequality, and from the sizes in C77."
 ],
 "C122": [
  "proved",
  "Uses the meaning of arbitrary hufman files (C75) and the code lengths (C116)."
 ],
 "C123": [
  "proved",
  "The counterpart of C113 for encoding."
 ],
 "C124": [
  "proved",
  "The bound of 24 bytes is reached (example)."
 ],
 "C125": [
  "proved",
  ""
 ],
 "C126": [
  "proved",
  ""
 ],
 "C127": [
  "proved",
  ""
 ],
 "C128": [
  "proved",
  ""
 ],
 "C129": [
  "proved",
  "The iterator is that of the crate image, whose source is not in the repository; it is written down in Model/View.lean as we know it."
 ]
}