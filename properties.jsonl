{"id": "C01", "title": "Bit writer is faithful", "statement": "With MSB-first order, after any sequence of single-bit writes, whole-byte writes and bit-array writes followed by the final pad-and-flush, reading the output back bit by bit gives exactly the bits that were written, in order, followed by fewer than 8 zero bits; nothing is lost, duplicated or reordered whatever the alignment at which each write happens.", "quantifier": "every finite sequence of write operations, every bit and byte value, every alignment", "why_tests_cant": "The number of operation sequences and alignments is unbounded; the unit tests try two hand-picked sequences.", "anchors": ["src/bit.rs:IoBitWriter::write", "src/bit.rs:IoBitWriter::write_byte", "src/bit.rs:WriteBit::write_arr", "src/bit.rs:IoBitWriter::pad_and_flush", "src/bit.rs:bit_reader"]}
{"id": "C02", "title": "Bit arrays keep their bits", "statement": "Packing any list of bits into a bit array keeps its length, and writing that array at any alignment of an MSB-first writer emits exactly these bits in order.", "quantifier": "every bit list of every length, every writer state", "why_tests_cant": "Lengths are unbounded and the packed form mixes full bytes with a partial byte, so a boundary bug can hide at any length modulo 8.", "anchors": ["src/bit.rs:BitArray::from_slice", "src/bit.rs:BitArray::len", "src/bit.rs:WriteBit::write_arr"]}
{"id": "C03", "title": "Byte/bit conversions are inverse", "statement": "Splitting a byte into its 8 bits and re-assembling gives the same byte, and assembling 8 bits and splitting gives the same bits, in both bit orders; the assembly rejects any slice whose length is not 8.", "quantifier": "all 256 bytes, all bit lists of any length, both bit orders", "why_tests_cant": "Tests check a few bytes in each direction.", "anchors": ["src/bit.rs:byte_from_slice", "src/bit.rs:bit_array", "src/bit.rs:nth", "src/bit.rs:push_bit"]}
{"id": "C04", "title": "Serialized values decode back and are self-delimiting", "statement": "For every serializable type (u8, u16, i16, u32, u64, usize, char, pairs, slices/Vec, arrays, RGB colours), deserializing the bytes of a value followed by any other bytes yields that value and leaves exactly the other bytes unread.", "quantifier": "every value of every type, every trailing byte sequence", "why_tests_cant": "Round trip must hold for all values and all continuations of the stream.", "anchors": ["src/ser.rs:Serialize", "src/ser.rs:Deserialize", "src/codec/clusterc.rs:ColorPos::serialize", "src/codec/hilbertc.rs:SignedColor"]}
{"id": "C05", "title": "Truncated values are never accepted", "statement": "Deserializing any strict prefix of the serialized form of a value fails (returns None) for every type; no value is made up from missing bytes.", "quantifier": "every value of every type, every cut point", "why_tests_cant": "Requires all cut points of all values.", "anchors": ["src/ser.rs:Deserialize"]}
{"id": "C06", "title": "Characters outside Latin-1 are refused, not mangled", "statement": "Serializing a char succeeds exactly when its code point is at most 255; otherwise an error is returned and no byte is written.", "quantifier": "every Unicode scalar value", "why_tests_cant": "1.1 million code points; tests use three ASCII letters.", "anchors": ["src/ser.rs:impl Serialize for char"]}
{"id": "C07", "title": "Streaming serialization equals one-shot serialization", "statement": "Pulling bytes one at a time out of a value stream gives exactly the concatenation of the serialized values and then ends forever; decoding values lazily from those bytes returns the same values in order and then ends.", "quantifier": "every finite sequence of values, every number of pulls", "why_tests_cant": "The state (pending bytes) evolves across arbitrarily many pulls.", "anchors": ["src/ser.rs:SerStream", "src/ser.rs:deser_stream"]}
{"id": "C08", "title": "Huffman round trip", "statement": "For every non-empty sequence of symbols, decoding the Huffman encoding gives the symbols back, in order, as the first symbols of the decoded stream, whatever the iteration order of the frequency hash map and however the priority queue breaks ties.", "quantifier": "every non-empty symbol sequence, every hash-map iteration order, every heap tie-breaking", "why_tests_cant": "Hash order is randomised per run and tie-breaking depends on it; tests see one order on one 12-letter string.", "anchors": ["src/huf.rs:encode_all", "src/huf.rs:decode_all", "src/huf.rs:build", "src/utils.rs:count_freqs"]}
{"id": "C09", "title": "Huffman decoding past the end", "statement": "After the encoded symbols the decoded stream contains only symbols spelled by the fewer than 8 zero padding bits when the input has at least two distinct symbols (hence at most 7 of them), and repeats the symbol forever when it has just one; the stream does not mark the end of the data, so the caller must know the count.", "quantifier": "every non-empty symbol sequence, every tie-breaking, any number of extra pulls", "why_tests_cant": "Depends on payload length modulo 8 and on the code of the all-zero path.", "anchors": ["src/huf.rs:DecStream", "src/huf.rs:BinTrie::lookup", "src/bit.rs:IoBitWriter::pad_and_flush"]}
{"id": "C10", "title": "Huffman codes form a complete prefix code", "statement": "Every symbol of the input gets exactly one code, no code is a prefix of another symbol's code, no symbol outside the input gets a code, and the codes leave no gap (their Kraft sum is exactly 1).", "quantifier": "every non-empty symbol sequence, every hash order and tie-breaking", "why_tests_cant": "Unbounded alphabets and tree shapes.", "anchors": ["src/huf.rs:build", "src/huf.rs:Enc::from", "src/huf.rs:BinTrieIter"]}
{"id": "C11", "title": "Huffman payload is optimal", "statement": "The number of payload bits is no larger than what any prefix code for the same symbols would need on the same input.", "quantifier": "every symbol sequence with at least two distinct symbols, every tie-breaking, every competing prefix code", "why_tests_cant": "Quantifies over all prefix codes; a test can only compare with a few.", "anchors": ["src/huf.rs:build"]}
{"id": "C12", "title": "Huffman output size", "statement": "The encoded size is the size of the serialized tree (one tag byte per node plus the serialized leaves; 2n-1 nodes for n distinct symbols) plus the payload bit count rounded up to whole bytes.", "quantifier": "every non-empty symbol sequence, every tie-breaking", "why_tests_cant": "Exact size for all inputs.", "anchors": ["src/huf.rs:encode_all", "src/huf.rs:BinTrie::serialize"]}
{"id": "C13", "title": "Tree enumeration visits every leaf once, in order", "statement": "Iterating a code tree yields every leaf exactly once, left to right, each with the bit path that the decoder follows to reach it, and the iterator never panics.", "quantifier": "every binary tree of any shape and depth", "why_tests_cant": "The explicit-stack traversal must be right for all shapes; tests use trees of one and three nodes.", "anchors": ["src/huf.rs:BinTrieIter"]}
{"id": "C14", "title": "Damaged Huffman trees are handled without panic", "statement": "Deserializing a code tree from arbitrary bytes always terminates with either a tree or None, consumes at least one byte when it succeeds, and re-serializing a decoded tree gives back exactly the bytes consumed.", "quantifier": "every byte sequence", "why_tests_cant": "All possible corrupt inputs.", "anchors": ["src/huf.rs:impl Deserialize for BinTrie", "src/ser.rs"]}
{"id": "C15", "title": "zip-dict round trip", "statement": "For every byte sequence, dictionary-decoding the dictionary-encoded bytes yields the original bytes and then ends; neither side panics, including after the 65535-entry dictionary is full.", "quantifier": "every byte sequence of any length", "why_tests_cant": "Encoder and decoder build their dictionaries independently and must stay in step for unboundedly many steps and past dictionary exhaustion (over 65k entries), which tests never reach.", "anchors": ["src/zip/dict.rs:zip_dict_encode", "src/zip/dict.rs:zip_dict_decode"]}
{"id": "C16", "title": "zip-dict emits the longest known sequence", "statement": "Each emitted symbol stands for a non-empty prefix of the remaining input, and no longer prefix of the remaining input is in the dictionary at that moment.", "quantifier": "every input, every position in the encoding", "why_tests_cant": "Greedy optimality over all reachable dictionaries.", "anchors": ["src/zip/dict.rs:DictEncoder::find_symbol"]}
{"id": "C17", "title": "zip-dict symbols are well formed", "statement": "Output is a whole number of symbol pairs; a single byte always has the symbol equal to its value; dictionary entries are numbered consecutively from 256 and never use the reserved end marker 65535; the marker appears at most once, as the very last symbol.", "quantifier": "every input of any length", "why_tests_cant": "Must hold at and after dictionary exhaustion.", "anchors": ["src/zip/dict.rs:Abbrev", "src/zip/dict.rs:DictEncoder::next_pair"]}
{"id": "C18", "title": "zip-dict output size bound", "statement": "The encoded size is a multiple of 4 bytes and at most 2 bytes per input byte (plus 2 bytes when the number of symbols is odd); the empty input encodes to nothing.", "quantifier": "every input", "why_tests_cant": "Worst case over all inputs.", "anchors": ["src/zip/dict.rs:zip_dict_encode"]}
{"id": "C19", "title": "The sequence trie is a map", "statement": "After any sequence of insertions of non-empty byte strings, looking up a byte string by descending byte by byte returns the value most recently inserted for exactly that string, and the insertion reports the previous value; the switch from the compact to the full node representation is not observable.", "quantifier": "every insertion history, every key, any fan-out from 0 to 256", "why_tests_cant": "Unbounded histories; the representation switch happens per node after 64 children.", "anchors": ["src/zip/dict.rs:TrieMap::insert", "src/zip/dict.rs:Content", "src/zip/dict.rs:Descent::down"]}
{"id": "C20", "title": "zip-dict decoding of damaged input", "statement": "On arbitrary bytes the decoder either yields bytes, ends, or panics; it always terminates. It panics on an unknown symbol or on an odd number of symbols, so it is not safe on untrusted input.", "quantifier": "every byte sequence", "why_tests_cant": "All corrupt inputs.", "anchors": ["src/zip/dict.rs:DictDecoder::next"]}
{"id": "C21", "title": "zip-back round trip", "statement": "For every byte sequence on which the lookback encoder completes, the lookback decoder yields the original bytes and then ends, without panic, including after the history window has wrapped around any number of times.", "quantifier": "every byte sequence of any length, any read-ahead buffer growth policy", "why_tests_cant": "Encoder window, index and read-ahead state interact over unbounded histories; tests use at most 16 bytes, the window is 65535.", "anchors": ["src/zip/back.rs:zip_back_encode", "src/zip/back.rs:zip_back_decode"]}
{"id": "C22", "title": "zip-back: which inputs can be encoded", "statement": "One would expect the lookback encoder to complete on every byte sequence. It does not: it panics exactly when the factorization of the input has a literal run or copy longer than 32767 bytes, which never happens for inputs of at most 32767 bytes, and always happens for constant inputs of 65536 bytes or more.", "quantifier": "every byte sequence", "why_tests_cant": "The failing inputs are large (32768 bytes or more); no test is close.", "anchors": ["src/zip/back.rs:Symbol::compress_len", "src/zip/back.rs:Encoder::next_symbols"]}
{"id": "C23", "title": "zip-back never expands by more than two bytes", "statement": "Whenever encoding completes, the output is at most two bytes longer than the input plus nothing else: every emitted copy of at least 6 bytes pays for itself and for the literal run before it.", "quantifier": "every byte sequence on which the encoder completes", "why_tests_cant": "The doc comment on the minimum repetition argues this informally; it is a claim about all inputs.", "anchors": ["src/zip/back.rs:MIN_REP", "src/zip/back.rs:Encoder::next_symbols"]}
{"id": "C24", "title": "zip-back history window", "statement": "The history holds exactly the last min(n, capacity) bytes written, reading from any retained absolute position yields the bytes from there to the newest in order, and the 'bytes back' number written by the encoder is mapped by the decoder to the same position.", "quantifier": "every write history, every capacity, every retained position", "why_tests_cant": "Wrap-around arithmetic for any number of wraps.", "anchors": ["src/zip/back.rs:RingBuffer"]}
{"id": "C25", "title": "zip-back index finds every earlier occurrence", "statement": "For any 6-byte key, the positions reported by the index are exactly the positions in the retained window at which these 6 bytes occur, each once, after any number of writes and wrap-around clean-ups; in particular the wholesale clearing of the old half never drops a live position.", "quantifier": "every write history, every key", "why_tests_cant": "The clean-up only happens every 65535 bytes; correctness depends on all histories.", "anchors": ["src/zip/back.rs:Index", "src/zip/back.rs:IndexedHistory"]}
{"id": "C26", "title": "zip-back copies the longest match", "statement": "Each copy emitted is a longest match, among all windows starting in the retained history (not overlapping the unread input), of the input that follows; its length is at least 6 and its distance between its length and 65535.", "quantifier": "every input, every step of the encoding", "why_tests_cant": "Maximality over all window positions at every step.", "anchors": ["src/zip/back.rs:Encoder::next_repetition", "src/zip/back.rs:Encoder::buffered_repetition"]}
{"id": "C27", "title": "zip-back symbol format", "statement": "A literal run or copy whose length fits in 15 bits and whose distance fits in 16 bits is serialized to 2+length or 4 bytes and read back unchanged; the literal/copy flag never corrupts the length.", "quantifier": "every length up to 32767, every distance up to 65535, every payload", "why_tests_cant": "All field values and flag combinations.", "anchors": ["src/zip/back.rs:Symbol::compress_len", "src/zip/back.rs:Symbol::decompress_len", "src/zip/back.rs:Symbol::serialize", "src/zip/back.rs:Symbol::deserialize"]}
{"id": "C28", "title": "hufman codec is lossless", "statement": "For every image with at least one pixel, decoding the encoded bytes returns an image with the same dimensions and the same RGB value at every pixel. Encoding an image without pixels panics.", "quantifier": "every image size and content, every hash order", "why_tests_cant": "All images.", "anchors": ["src/codec/hufc.rs:Hufman::encode", "src/codec/hufc.rs:Hufman::decode"]}
{"id": "C29", "title": "delta codec is lossless", "statement": "For every image with at least one pixel, decoding the encoded bytes returns the same dimensions and RGB values; colour differences always fit their 16-bit representation and reconstruction never panics.", "quantifier": "every image, every traversal that visits each pixel once", "why_tests_cant": "All images; decoding is driven by the traversal and must not read past the data.", "anchors": ["src/codec/hilbertc.rs:Delta", "src/codec/hilbertc.rs:DiffStream", "src/codec/hilbertc.rs:FromDiff"]}
{"id": "C30", "title": "hilbert(rle) codec is lossless", "statement": "With zero allowance, decoding the encoded bytes returns the same dimensions and RGB values for every image.", "quantifier": "every image (including empty ones), every traversal that visits each pixel once", "why_tests_cant": "All images and run lengths, including runs around the 255 limit.", "anchors": ["src/codec/hilbertc.rs:Hilbert", "src/codec/hilbertc.rs:AbstractRle", "src/codec/hilbertc.rs:RleDecoder"]}
{"id": "C31", "title": "hilbert(zip) codec is lossless", "statement": "Decoding the encoded bytes returns the same dimensions and RGB values for every image.", "quantifier": "every image, every traversal that visits each pixel once", "why_tests_cant": "All images.", "anchors": ["src/codec/hilbertc.rs:Hilbert"]}
{"id": "C32", "title": "zip(dict) codec is lossless", "statement": "Decoding the encoded bytes returns the same dimensions and RGB values for every image. (Images with no columns and at least two rows: the iterator of the image crate panics there, see C129.)", "quantifier": "every image", "why_tests_cant": "All images.", "anchors": ["src/codec/zipc.rs:Zip"]}
{"id": "C33", "title": "zip(back) codec is lossless when it completes", "statement": "Whenever encoding completes, decoding returns the same dimensions and RGB values. Encoding completes on every image of up to 2978 pixels. (Except images with no columns and at least two rows, see C129.)", "quantifier": "every image on which the encoder completes", "why_tests_cant": "All images.", "anchors": ["src/codec/zipc.rs:Zip"]}
{"id": "C34", "title": "Run-length encoding is exact and maximal", "statement": "The runs produced have counts between 1 and 255, expand to exactly the input sequence, and two neighbouring runs have different values unless the first one has the maximal count.", "quantifier": "every sequence of values", "why_tests_cant": "Run structure around the 255 limit over all inputs.", "anchors": ["src/codec/hilbertc.rs:rle_exact", "src/codec/hilbertc.rs:AbstractRle::next"]}
{"id": "C35", "title": "Approximate RLE keeps the pixel count and averages each run", "statement": "For every allowance, the approximate runs have counts between 1 and 255 that add up to the number of pixels, each run's colour is the per-channel mean of its pixels rounded to nearest, and the internal range assertion never fires.", "quantifier": "every pixel sequence, every allowance value", "why_tests_cant": "Floating-point averages over all sequences.", "anchors": ["src/codec/hilbertc.rs:rle_approx", "src/codec/hilbertc.rs:Approx", "src/codec/hilbertc.rs:RunningAvg"]}
{"id": "C36", "title": "Approximate RLE error bound", "statement": "Each pixel added to a run is within the allowance of the exact mean of the pixels before it in that run, and each pixel that is not added is farther away; both up to the rounding of f64 (a relative and absolute error of 2^-40). An infinite allowance accepts everything; a negative or NaN one nothing. (A user may expect every decoded pixel to be within the allowance of the original: that is false, because the average drifts.)", "quantifier": "every pixel sequence, every allowance", "why_tests_cant": "Drift accumulates over up to 254 acceptances.", "anchors": ["src/codec/hilbertc.rs:Approx::accept"]}
{"id": "C37", "title": "Decoding truncated files", "statement": "A strict prefix of a valid file is never decoded into an image by the hufman and zip codecs. The hilbert and delta codecs reject it only if the dimensions are incomplete; otherwise they either panic (cut inside a run, inside a pair of symbols after its first one, or inside the code tree) or return an image of the right size in which the pixels not covered by the prefix, at least one, are black.", "quantifier": "every image, every cut point", "why_tests_cant": "All cut points of all encodings.", "anchors": ["src/codec/hufc.rs", "src/codec/zipc.rs", "src/codec/hilbertc.rs"]}
{"id": "C38", "title": "Write failures leave a clean prefix and are never reported as success", "statement": "If some call on the output device fails, encoding does not report success, makes no further call, and the bytes that reached the device are a prefix of the full encoding. The hilbert, zip and voronoi codecs return the failure as an I/O error. The codecs based on Huffman coding (hufman, delta, cluster-colors) return an error if the failure is in the image size, the code table, the last incomplete byte or the final flush; a failure in one of the full bytes of the payload is a panic.", "quantifier": "every codec, every image on which encoding completes, every failing call and number of bytes it still accepts", "why_tests_cant": "All crash points.", "anchors": ["src/huf.rs:encode_all", "src/codec/*.rs:encode", "src/zip/*.rs"]}
{"id": "C39", "title": "Lossless flag is truthful", "statement": "Every codec that reports itself lossless reproduces the size and the RGB pixels of every image on which encoding completes. On images with at least one pixel all of them except zip(back) complete.", "quantifier": "every codec configuration, every image", "why_tests_cant": "All configurations and images.", "anchors": ["src/codec.rs:Codec::is_lossless"]}
{"id": "C40", "title": "Function-call syntax round trip", "statement": "For ASCII input the call parser accepts exactly the strings name(arg1,...,argn) where the name is non-empty and has no parenthesis or comma and the arguments are non-empty, balanced and without top-level comma, and returns exactly these pieces.", "quantifier": "every ASCII string with fewer than 65536 nested parentheses", "why_tests_cant": "Infinite language with nesting.", "anchors": ["src/prs.rs:fun_call"]}
{"id": "C41", "title": "Codec strings are parsed without panic", "statement": "Parsing an ASCII codec argument returns a codec or an error, except that hilbert(rle()) and Hilbert(rle()) panic. For other strings this is false: a non-ASCII letter before a parenthesis panics.", "quantifier": "every ASCII string with at most 65535 open parentheses", "why_tests_cant": "All strings.", "anchors": ["src/prs.rs:fun_call", "src/codec/hilbertc.rs:CompressionMethod::from_str", "src/codec.rs:AnyCodec::from_str"]}
{"id": "C42", "title": "Codec selection", "statement": "Each documented codec string selects its codec with its parameters, alternatives are tried in order and the first that accepts wins, and when all fail every failure is reported in order. The form reduce-colors(n) shown in the usage message is rejected, and the clustering codecs accept their pattern anywhere inside a longer string. The leftmost part of that form decides: if its number is too large or has digits of another script, the codec is not selected even if a good part follows.", "quantifier": "every codec string, every parameter value", "why_tests_cant": "All parameter values and all surrounding strings.", "anchors": ["src/codec.rs", "src/prs.rs:ParseAlternatives", "src/main.rs:usage", "src/codec/clusterc.rs:from_str"]}
{"id": "C43", "title": "Clustering keeps the points", "statement": "Whenever clustering returns, it returns exactly the requested number of clusters and the points in all clusters together are exactly the input points, none lost or duplicated.", "quantifier": "every point list, every cluster count, every random choice, any number of iterations", "why_tests_cant": "Iteration count unbounded and random choices involved.", "anchors": ["src/kmeans.rs:cluster", "src/kmeans.rs:assign_points", "src/kmeans.rs:init_assignment"]}
{"id": "C44", "title": "Returned centroids are the means of the returned clusters", "statement": "Whenever clustering returns, the centroid of each non-empty cluster is the mean of the points in it, and the centroid of an empty one is one of the points.", "quantifier": "every run of the clustering", "why_tests_cant": "Unbounded iterations and random choices.", "anchors": ["src/kmeans.rs:update_centroids", "src/kmeans.rs:compute_centroids"]}
{"id": "C45", "title": "Neighbour pruning never picks a worse centroid", "statement": "When a centroid's neighbour list holds all other centroids, each point is assigned to a centroid at minimal distance; with a shortened list, to the best among its current centroid and the listed ones, and never to one farther than its current centroid.", "quantifier": "every metric, every point and centroid set, every list length", "why_tests_cant": "Relies on the triangle inequality for all configurations.", "anchors": ["src/kmeans.rs:assign_points", "src/kmeans.rs:NeighbouringCentroids"]}
{"id": "C46", "title": "Neighbour lists stay well formed", "statement": "Recomputing neighbours finishes after at most two rounds per centroid; each list holds distinct other centroids sorted by distance with the true current distances, never the centroid itself, at most k-1 entries, and at least as many as the lower bound (the square root of k) says, or all.", "quantifier": "every history of resizes and watermarks, every cluster count", "why_tests_cant": "Sizes adapt dynamically over unboundedly many iterations.", "anchors": ["src/kmeans.rs:compute_neighbours", "src/kmeans.rs:NeighbouringCentroids::resize"]}
{"id": "C47", "title": "cluster-colors output", "statement": "Whenever the encoder completes (no colour occurring 2^32 times or more, see C83), decoding gives an image of the same size with at most n distinct colours in which equal input colours stay equal and each output colour is the count-weighted floor mean of the input colours mapped to it; every pixel colour has a cluster, so the lookup never fails.", "quantifier": "every image, every n, every hash order and random choice", "why_tests_cant": "All images and runs.", "anchors": ["src/codec/clusterc.rs:ClusterColors"]}
{"id": "C48", "title": "voronoi decoding", "statement": "Decoding gives each pixel the colour of the first centroid at minimal squared distance in the (release-mode) wrapping arithmetic, which is the true nearest centroid when both dimensions are at most 46341; with overflow checks on, decoding panics as soon as some pixel is right of or below a centroid.", "quantifier": "every encoded stream, every image size, both arithmetic modes", "why_tests_cant": "Wrap-around arithmetic over all coordinates.", "anchors": ["src/codec/clusterc.rs:VoronoiCluster::decode", "src/codec/clusterc.rs:VoronoiCluster::encode"]}
{"id": "C49", "title": "Cluster count preconditions", "statement": "Clustering requires at least one cluster and at least as many points as clusters: it panics otherwise, so cluster-colors(n) fails on every image with fewer than n distinct colours and voronoi(n) on every image with fewer than n pixels.", "quantifier": "every point list and cluster count", "why_tests_cant": "All combinations.", "anchors": ["src/kmeans.rs:init_assignment"]}
{"id": "C50", "title": "Report file is well formed under every schedule", "statement": "Whatever the order in which the parallel workers proceed, the CSV report is at any time empty or one header followed by exactly one row per image that has returned success, even if writing some records fails. Without write failures the final report is empty if no image succeeded and otherwise one header followed by the rows of the images that succeeded. The workers never block each other for ever: some step is possible until all images are done, and every schedule ends.", "quantifier": "every number of images, every success pattern, every interleaving", "why_tests_cant": "All interleavings.", "anchors": ["src/bench.rs:measure_all"]}
{"id": "C51", "title": "Zero error means equal pixels", "statement": "For two images with the same dimensions, at least one pixel and fewer than 2^32 pixels the reported error is zero exactly when all RGB pixels are equal, so the lossless check flags every mismatch. For an image without pixels the error is NaN, which counts as a mismatch.", "quantifier": "every pair of images", "why_tests_cant": "All image pairs; floating-point sums.", "anchors": ["src/bench.rs:compute_error", "src/geom.rs:dist"]}
{"id": "C52", "title": "Square linearizations", "statement": "linearize_large visits every pixel of the image exactly once; linearize_small stays inside the image and its side is the largest power of two strictly below the smaller dimension (so not the largest inscribed square when the dimension is a power of two, contrary to its documentation).", "quantifier": "every image size up to 2^31, every traversal that visits each cell of a square once", "why_tests_cant": "All sizes.", "anchors": ["src/hilbert.rs:linearize_small", "src/hilbert.rs:linearize_large"]}
{"id": "C53", "title": "zip-back on arbitrary bytes", "statement": "Given any bytes at all, the lookback decoder produces exactly what the symbols before the first irregularity stand for and then either ends or panics: it panics on an incomplete literal run and on a copy from outside the retained history; it ends on fewer than two bytes, on a copy without its distance, and on a symbol that stands for nothing (whatever follows it).", "quantifier": "every byte sequence", "why_tests_cant": "Damaged files are arbitrary byte sequences; tests only decode encoder output.", "anchors": ["src/zip/back.rs:Decoder", "src/zip/back.rs:Symbol::deserialize"]}
{"id": "C54", "title": "zip(back) cannot encode large uniform images", "statement": "Encoding any image of a single colour with at least 8937 pixels (e.g. 100 by 90) with the zip(back) codec panics.", "quantifier": "every colour, every image size from 8937 pixels on, every read-ahead buffer policy", "why_tests_cant": "The limit is hit only by highly repetitive inputs beyond a size threshold; the claim ranges over all of them.", "anchors": ["src/codec/zipc.rs:Zip::encode", "src/zip/back.rs:Symbol::serialize"]}
{"id": "C55", "title": "Error bound of decoded approximate runs", "statement": "For every finite positive allowance d, every pixel of the image decoded from a hilbert(rle(d)) file is at Euclidean RGB distance at most 5.13 d + 0.87 from the original pixel.", "quantifier": "every image, every finite positive allowance", "why_tests_cant": "The bound concerns the worst drift over up to 254 acceptances plus rounding.", "anchors": ["src/codec/hilbertc.rs:Hilbert::encode", "src/codec/hilbertc.rs:Hilbert::decode", "src/codec/hilbertc.rs:Approx"]}
{"id": "C56", "title": "Allowances that accept nothing", "statement": "hilbert(rle(d)) with d negative, negative infinity or NaN is lossless: every run is a single pixel and the file has 8 + 12 w h bytes.", "quantifier": "every image, every such allowance", "why_tests_cant": "All images.", "anchors": ["src/codec/hilbertc.rs:Hilbert::encode", "src/codec/hilbertc.rs:Approx::accept"]}
{"id": "C57", "title": "Parenthesis counter overflow", "statement": "65536 opening parentheses after a name overflow the 16-bit counter of the call parser: with overflow checks it panics whatever follows; without them the text counts as a complete call without arguments although nothing is closed.", "quantifier": "every name, every continuation, both arithmetic modes", "why_tests_cant": "Every name and continuation; needs a 64 KiB argument.", "anchors": ["src/prs.rs:fun_call"]}
{"id": "C58", "title": "The returned clustering is a fixpoint unless it came from the first iteration", "statement": "Whenever clustering returns, either it returned after its very first iteration, or no point is nearer to another listed non-empty cluster's returned centroid than to its own. After the first iteration the returned assignment may contradict the returned centroids.", "quantifier": "every point type and measure justifying the pruning, every run, every random choice", "why_tests_cant": "Unbounded iterations and random choices; the exception needs a special input.", "anchors": ["src/kmeans.rs:cluster", "src/kmeans.rs:assign_points"]}
{"id": "C59", "title": "Clustering panics only on bad counts or too few active clusters", "statement": "With total distances and means, clustering panics only if the number of clusters is zero or exceeds the number of points, or if the final check for enough active clusters fails; no index, unwrap or sorting panic is reachable. (Overflow of the counters of iterations and grown lists in debug builds is C87.)", "quantifier": "every run of the clustering", "why_tests_cant": "Absence of panics over all runs and random choices.", "anchors": ["src/kmeans.rs:cluster", "src/kmeans.rs:assign_points", "src/kmeans.rs:compute_neighbours"]}
{"id": "C60", "title": "The watermark of a cluster is set by its last point", "statement": "While points are reassigned, each cluster's watermark ends up as the number of neighbours looked at for the last point that was processed in that cluster, not the largest number over its points.", "quantifier": "every clustering state, every number of clusters and points", "why_tests_cant": "The value only steers later choices; no test observes it for all states.", "anchors": ["src/kmeans.rs:assign_points", "src/kmeans.rs:IterAndRecord::drop"]}
{"id": "C61", "title": "Voronoi encoding panics in debug builds", "statement": "Compiled with overflow checks, the voronoi encoder panics on every image of more than one pixel, for every number of clusters and all random choices, before any byte is written.", "quantifier": "every image of more than one pixel, every cluster count, every random choice", "why_tests_cant": "All images and random choices.", "anchors": ["src/codec/clusterc.rs:ColorPos::dist", "src/codec/clusterc.rs:VoronoiCluster::encode"]}
{"id": "C62", "title": "Truncated voronoi files are rejected", "statement": "Decoding any proper prefix of a voronoi file returns an error: it neither panics nor returns an image.", "quantifier": "every file, every cut", "why_tests_cant": "All files and cuts.", "anchors": ["src/codec/clusterc.rs:VoronoiCluster::decode", "src/codec/clusterc.rs:ColorPos::deserialize"]}
{"id": "C63", "title": "Clustering need not end", "statement": "A run of k-means clustering either ends with a result or goes on for ever. The latter happens: encoding a certain image of 7 by 3 pixels with cluster-colors(2) does not end, for every iteration order of the hash map, all random numbers, every order of equal distances, in release builds (in debug builds it does not end within 2^31 - 1 iterations, and then the counter of iterations overflows, C87); encoding a certain image of 2 by 3 pixels with voronoi(2) in a release build does not end.", "quantifier": "every hash order, every random choice, every number of granted iterations", "why_tests_cant": "A test can only give up waiting.", "anchors": ["src/kmeans.rs:cluster", "src/codec/clusterc.rs:ColorCount::mean", "src/codec/clusterc.rs:ColorPos::mean"]}
{"id": "C64", "title": "Lossless codecs pass their own benchmark", "statement": "Benchmarking a codec that reports itself lossless never reports a mismatch: for every image with at least one and fewer than 2^32/24 pixels on which encoding completes, the report row has error exactly zero, the size of the encoded data, and no picture is saved.", "quantifier": "every lossless codec, every image", "why_tests_cant": "All images; passes through the whole pipeline including floating-point sums.", "anchors": ["src/bench.rs:measure_all", "src/codec.rs:Codec::is_lossless"]}
{"id": "C65", "title": "The reported compression ratio divides bytes by bits", "statement": "The compression ratio in the report is 100 times the compressed size in bytes over the raw size in bits (24 per pixel), up to a relative error of 2^-51, so one eighth of the percentage. On images with 2^32/24 pixels or more the raw size overflows: debug builds panic after encoding; release builds take it modulo 2^32, and if the number of pixels is a multiple of 2^29 the ratio is infinite.", "quantifier": "every codec, every image", "why_tests_cant": "All image sizes; overflow needs huge images.", "anchors": ["src/bench.rs:measure_all"]}
{"id": "C66", "title": "Saved pictures in the benchmark", "statement": "In the benchmark the decoded picture is saved exactly when the error of the row is not zero, rows with an error other than zero only occur for lossy codecs, and a mismatch is reported only for a lossless codec after the decoded picture has been saved.", "quantifier": "every codec, every image, every success or failure of saving", "why_tests_cant": "All codecs and images.", "anchors": ["src/bench.rs:measure_all"]}
{"id": "C67", "title": "The reported error is the mean squared error", "statement": "For two images of the same size with at least one and fewer than 2^32 pixels, the reported error differs from the exact mean squared RGB distance by at most 2^-20 of it.", "quantifier": "every pair of images", "why_tests_cant": "Accumulated rounding over up to 2^32 additions.", "anchors": ["src/bench.rs:compute_error", "src/geom.rs:dist"]}
{"id": "C68", "title": "Command line dispatch", "statement": "The traversals of the images are exported exactly if the first argument is --special=hilbert; a codec is benchmarked exactly if the first argument is --codec= followed by text that selects this codec; in both cases the images are the remaining arguments in order. Otherwise the program panics before any work, with a message about the codec if the first argument starts with --codec=, else with the usage message, so that the message about an unknown special command never appears.", "quantifier": "every list of arguments", "why_tests_cant": "All argument lists.", "anchors": ["src/main.rs:main", "src/main.rs:try_special", "src/main.rs:try_bench"]}
{"id": "C69", "title": "Exported traversals", "statement": "A regular end of --special=hilbert leaves, for each image whose file stem does not occur again later in the list, three files (rect, small, large), each with the header and one record per pixel in the order of that traversal; no other files change; different traversals and different stems never share a file; an image that cannot be opened ends the export after the images before it. The column called blue holds the green values and the column called green the blue ones, so the columns are right exactly if green and blue agree in every pixel.", "quantifier": "every list of paths, all images, all outcomes of opening and creating files", "why_tests_cant": "All lists of images and all traversals.", "anchors": ["src/main.rs:try_special", "src/hilbert.rs:linearize_rect", "src/hilbert.rs:linearize_small", "src/hilbert.rs:linearize_large", "src/main.rs:under_output"]}
{"id": "C70", "title": "Paths of results", "statement": "A result for an image goes to output/<stem>.<extension> where stem is the file name of the image up to its last dot (leading dots aside), and computing the path panics exactly if the path has no file name. Two images get the same path exactly if their stems agree, whatever their directories and extensions. The decoded picture overwrites the image itself exactly if the image is a .png file directly in output.", "quantifier": "every path", "why_tests_cant": "All strings as paths.", "anchors": ["src/main.rs:under_output"]}
{"id": "C71", "title": "Names of codecs and reports", "statement": "Different codecs have different report files; a report is a file directly in output and is neither the place of a decoded picture nor that of an exported traversal. The name printed for a codec selects this codec again only for delta and Hufman; the names of all other codecs are rejected or select nothing.", "quantifier": "every codec with all parameters, every injective rendering of the allowance", "why_tests_cant": "All cluster counts and allowances.", "anchors": ["src/codec.rs:AnyCodec", "src/bench.rs:measure_all"]}
{"id": "C72", "title": "Which codecs give back every image", "statement": "The codecs that give back every image with at least one pixel are exactly those reporting themselves lossless except zip(back), together with hilbert(rle) with an allowance smaller than 1 or NaN, although the latter report themselves lossy. With an allowance of 1 or more two neighbouring pixels of different colour are merged. A clustering codec never gives back an image with more colours than clusters.", "quantifier": "every codec with all parameters, all images, all hash orders, random choices and heaps", "why_tests_cant": "All allowances and all images; the limit is exact.", "anchors": ["src/codec.rs:AnyCodec", "src/codec/hilbertc.rs:Approx", "src/codec/clusterc.rs"]}
{"id": "C73", "title": "The alpha channel is ignored", "statement": "Two images of the same size whose pixels differ at most in the alpha channel are encoded in the same way by every codec: same bytes, same calls on the writer, same outcome on a failing writer. So each codec writes for an image what it writes for the opaque image of the same colours.", "quantifier": "every codec, all images, all hash orders, heaps, random choices and traversals, all writers", "why_tests_cant": "A statement about pairs of images of every size and every codec.", "anchors": ["src/codec.rs:AnyCodec::encode", "src/hilbert.rs:linearize_rect", "src/codec/clusterc.rs", "src/codec/zipc.rs", "src/codec/hufc.rs", "src/codec/hilbertc.rs"]}
{"id": "C74", "title": "Bytes after the end of a file are ignored", "statement": "A file written by any codec is decoded in the same way when arbitrary bytes follow it. For cluster-colors, voronoi, hufman and zip this holds for every file that is decoded into an image, whoever wrote it; for hilbert and delta it does not, because these decoders accept incomplete files.", "quantifier": "every codec, all images, all accepted files, all sequences of further bytes", "why_tests_cant": "All files and all suffixes.", "anchors": ["src/codec.rs:AnyCodec::decode", "src/ser.rs:deser_stream", "src/zip/dict.rs:DictDecoder", "src/zip/back.rs:Decoder", "src/huf.rs:DecStream", "src/codec/hilbertc.rs:RleDecoder"]}
{"id": "C75", "title": "What each decoder makes of arbitrary bytes", "statement": "For every byte sequence whatsoever, the result of decoding it is determined as follows. All codecs: None if the size (8 bytes, decompressed for zip) is missing, a panic if 3*w*h >= 2^63. hilbert(rle): runs are read until the picture is full, pixels after the last run are black, bytes that are not a run or a run of length 0 panic if reached. hilbert(zip): likewise with colours in the decompressed stream; a panic of the decompressor panics only if reached. hufman, cluster-colors: None without a code tree and bits for w*h symbols, else these symbols row by row. delta: a panic without a code tree; differences are added up from black until the picture is full, a sum out of 0..255 panics, pixels after the last difference are black. zip: None or a panic, as the decompressor ends, when there are fewer than w*h colours. voronoi: None unless there are as many points as announced; then each pixel gets the colour of a nearest one (C48), and a panic if there are none. Whatever is decoded has a pixel for each position.", "quantifier": "every codec, every sequence of bytes", "why_tests_cant": "All byte sequences, most of which are not files of the codec.", "anchors": ["src/codec.rs:AnyCodec::decode", "src/codec/hilbertc.rs:decode_any", "src/codec/hilbertc.rs:RleDecoder", "src/codec/hilbertc.rs:Delta::decode", "src/codec/clusterc.rs:decode", "src/codec/hufc.rs:decode", "src/codec/zipc.rs:rebuild_image", "src/ser.rs:deser_stream"]}
{"id": "C76", "title": "Decoding delta does not depend on overflow checks", "statement": "The delta decoder gives the same result (image, None or panic) with and without arithmetic overflow checks, for every sequence of bytes: no i16 addition can overflow unnoticed, as a channel out of 0..255 stops it first and the overflowing sum is negative or too large when wrapped.", "quantifier": "every sequence of bytes", "why_tests_cant": "All byte sequences and two builds.", "anchors": ["src/codec/hilbertc.rs:Delta::decode", "src/codec/hilbertc.rs:FromDiff"]}
{"id": "C77", "title": "Sizes of files", "statement": "A hufman file of an image with k different colours has 7+13k bytes plus the fewest bits in which any prefix code spells the pixels, rounded up to bytes (at most the bits of a fixed-length code); delta files 7+8k for k different differences, cluster-colors(n) files like hufman with k at most n, voronoi(n) files exactly 16+19n bytes. hilbert(rle) files have 8+12r bytes with r runs, pixels/255 <= r <= pixels, and with zero allowance no other sequence of runs that spells the pixels is shorter. hilbert(zip), zip(dict) and zip(back) files have at most one symbol (2 bytes, in pairs) per serialized byte, respectively at most 2 bytes more than the serialized image. With the same traversal, lossless codecs without Huffman codes write the same bytes on every run; hufman and delta may write different bytes for the same image (hash order, heap), but always the same number of bytes.", "quantifier": "every image, every order of the hash maps, every heap, every capacity, every allowance", "why_tests_cant": "The minimum over all prefix codes and all run sequences and the independence of hash order cannot be sampled; a run of the program sees one order.", "anchors": ["src/codec/hufc.rs:Hufman::encode", "src/huf.rs:encode_all", "src/codec/hilbertc.rs:Delta::encode", "src/codec/hilbertc.rs:Hilbert::encode", "src/codec/clusterc.rs:Voronoi::encode", "src/codec/clusterc.rs:ClusterColors::encode", "src/codec/zipc.rs:Zip::encode"]}
{"id": "C78", "title": "Encoding decoded pictures again", "statement": "For a lossless codec the decoded picture encodes to the same file again, and a file comes from one picture only. For hilbert(rle(d)) with any allowance (also infinite, NaN, negative), encoding the decoded picture again never gives a longer file, and after at most (width*height)^2+1 generations of encoding and decoding the picture does not change any more. It may change in the second generation: with d = 9/4 the red shades 10 11 13 become 11 11 13 and then 12 12 12.", "quantifier": "every picture, every allowance, every number of generations, every lawful floating point arithmetic", "why_tests_cant": "The claims are about all pictures and unbounded sequences of generations; a test runs a few.", "anchors": ["src/codec/hilbertc.rs:Hilbert::encode", "src/codec/hilbertc.rs:Hilbert::decode", "src/codec/hilbertc.rs:Approx", "src/codec/hilbertc.rs:AbstractRle::next", "src/codec.rs:AnyCodec::is_lossless"]}
{"id": "C79", "title": "As many clusters as possible, and only one", "statement": "cluster-colors(n) on a non-empty picture with exactly n different colours always completes, decodes to the picture itself and writes the file that hufman would write. When a picture that went through cluster-colors(n) is encoded with cluster-colors(n) again, the encoder either panics (it has fewer than n colours left, which happens) or keeps every pixel. voronoi(w*h) in a release build completes and is lossless for sides up to 65536; in a row of 65537 pixels the first pixel gets the colour of the last one. cluster-colors(1) and voronoi(1) (release build) always complete and give every pixel the mean colour of the picture, rounded down (if no colour occurs 2^32 times or more, see C83; for voronoi if 255 times the number of pixels is below 2^64).", "quantifier": "every picture, every hash order, every sorting function, every sequence of random numbers, every lawful floating point arithmetic, every number of iterations from two on", "why_tests_cant": "Completion and exactness are claimed for all pictures, hash orders and random numbers; the limit for voronoi shows only on pictures with a side above 65536.", "anchors": ["src/codec/clusterc.rs:ClusterColors::encode", "src/codec/clusterc.rs:VoronoiCluster::encode", "src/codec/clusterc.rs:VoronoiCluster::decode", "src/kmeans.rs:cluster", "src/kmeans.rs:init_assignment", "src/kmeans.rs:check_enough_active_clusters"]}
{"id": "C80", "title": "Pictures on which clustering always ends", "statement": "Clustering ends whenever there is a measure that every point lowers by moving to a strictly nearer centroid and that the mean of a cluster does not raise, provided the random numbers hit every cluster again and again. For cluster-colors(n) this holds for every picture (in which no colour occurs 2^32 times or more) whose colours are shades of one tint, that is, the varying channels all differ from a fixed colour by the same amount; in particular for greyscale pictures: the encoder completes or panics, it never runs forever. Two freely varying channels are too many: a picture without blue with 18 pixels is given for which the encoder runs forever, in release builds, for an order of the hash map.", "quantifier": "every greyscale or one-tint picture, every number of clusters, every hash order, every sorting function, every fair sequence of random numbers, every lawful floating point arithmetic, both build profiles", "why_tests_cant": "Termination is a statement about all pictures and all random sequences; a finite number of runs that end says nothing about the others, and the neighbouring class with two channels does contain endless runs.", "anchors": ["src/kmeans.rs:cluster", "src/kmeans.rs:compute_centroids", "src/codec/clusterc.rs:ClusterColors::encode", "src/codec/clusterc.rs:ColorCount::mean"]}
{"id": "C81", "title": "The benchmark and its files", "statement": "If no decoded picture is saved in the place of an image that is to be measured, then in every schedule of the workers each image gives the outcome it gives alone, the images do not change, every other file is as before or holds the picture of an image that was worked on, and there is always a next step until all work has ended. If besides all pictures saved in the same file are equal, the final files do not depend on the schedule: each holds its picture, or is as before if there is none. Both conditions are needed: with two images of the same stem in different directories the picture left in output/ depends on the schedule, and with an image that lies in output/ under the name of another one's picture the errors in the report depend on it. A codec that reports itself lossless changes no file at all, for images with at least one and fewer than 2^32/24 pixels. Alone, an image is measured as it is and its picture goes to output/<stem>.png; if its path has no file name (ends in ..), the program panics instead of saving.", "quantifier": "every codec, every list of paths, every initial file system (including links), every interleaving of the workers, with and without failing writes to the report", "why_tests_cant": "The outcome depends on the interleaving of threads and on paths that lead to the same file; tests see one schedule each.", "anchors": ["src/bench.rs:measure_all", "src/main.rs:under_output", "src/main.rs:try_bench"]}
{"id": "C82", "title": "How good lossy pictures are on average", "statement": "Whenever cluster-colors(n) completes (no colour occurring 2^32 times or more), each channel of the decoded picture is on average darker than the original by less than one level and never brighter, and its squared error is less than that of any picture in a single colour plus 3 per pixel. hilbert(rle(d)) with any allowance (also infinite or NaN) changes each channel by at most half a level on average, and its squared error is at most that of any picture in a single colour plus 3/4 per pixel. For voronoi there is no such bound: two clusters can be more than twice as bad as one. Settings are not monotone: three colours can be worse than two, and a larger allowance can give a longer file with a smaller error.", "quantifier": "every picture, every number of clusters, every allowance, every hash order, every sorting function, every sequence of random numbers, every lawful floating point arithmetic, both build profiles, every traversal", "why_tests_cant": "The bounds hold for all pictures and all outcomes of the randomised clustering; examples of good results say nothing about the worst ones.", "anchors": ["src/codec/clusterc.rs:ClusterColors::encode", "src/codec/clusterc.rs:VoronoiCluster::encode", "src/codec/hilbertc.rs:Hilbert::encode", "src/codec/hilbertc.rs:RunningAvg", "src/kmeans.rs:cluster"]}
{"id": "C83", "title": "cluster-colors counts pixels modulo 2^32", "statement": "One would expect cluster-colors to weigh each colour with the number of its pixels. On huge pictures it does not: the count is cut to 32 bits. For pictures of any size, whenever the encoder completes, decoding gives each group of two or more colours their mean weighted with the counts modulo 2^32, rounded down, and the total weight is not zero; a colour alone in its group is kept. Besides the reasons of C59 the encoder can only panic if two different colours both occur a multiple of 2^32 times. No sum overflows. Both effects are real: cluster-colors(1) turns a black picture of 65536 x 65537 pixels with one white row all white, and panics on a picture of 65536 x 131072 pixels that is half black and half white.", "quantifier": "every picture, every number of clusters, every hash order, every sorting function, every sequence of random numbers, every lawful floating point arithmetic, both build profiles", "why_tests_cant": "The pictures have more than 2^32 pixels (at least 12 GiB of pixel data), and the claim is about all pictures and all random choices.", "anchors": ["src/codec/clusterc.rs:ClusterColors::encode", "src/codec/clusterc.rs:ColorCount::mean", "src/kmeans.rs:cluster"]}
{"id": "C84", "title": "How deep code trees are nested", "statement": "One would expect reading a Huffman tree to need little stack. For files written by the program it does: a code of k bits only arises if there are at least Fibonacci(k+2) items, so hufman, delta and cluster-colors files of pictures with up to 2^32 pixels are read with at most 46 nested calls, those of all pictures with at most 92. The bound is nearly reached: for each k up to 44 a picture with Fibonacci(k+3)-1 pixels is given whose file needs more than k nested calls. For other files there is no bound: a file of 8+d bytes (a size followed by d bytes of value 1) nests d calls deep, and so overflows any stack, although with enough stack hufman and cluster-colors refuse it. For every file and every limit, decoding either gives the same as without the limit or overflows.", "quantifier": "every picture, every codec, every heap and hash order, every file, every depth", "why_tests_cant": "Trees deep enough to matter need pictures with billions of pixels, and the claim is about all pictures and all files.", "anchors": ["src/huf.rs:BinTrie::deserialize", "src/huf.rs:BinTrie::serialize", "src/huf.rs:build", "src/huf.rs:decode_all", "src/codec/hufc.rs:Hufman::decode"]}
{"id": "C85", "title": "The program from command line to exit status", "statement": "One would expect a benchmark in which images fail to exit with an error. It exits with status 0 exactly if its report can be created and the work on no image panics: images that cannot be opened, encoded, decoded or saved, or that a lossless codec changes, do not show in the status (C85_exit); if no image can be opened the status is 0 and the report is empty, without a header. If the work on some image panics the program panics, and the report then holds the rows of some of the images that succeeded, each at most once. A command line that names no codec and is not --special=hilbert makes it panic before it touches a file. A benchmark writes only the report of its codec and pictures; --special=hilbert writes only traversals. With a lossless codec other than zip(back), and images with at least one and fewer than 2^32/24 pixels, the program exits with status 0, the report has exactly one row for each image, with error 0, and no other file changes. There is an exit whenever no clustering is endless.", "quantifier": "every command line, all files, every schedule of the workers, every codec", "why_tests_cant": "The claim is about all command lines, all files and all interleavings of the workers; failing images leave no trace in the exit status that a test script could notice.", "anchors": ["src/main.rs:main", "src/main.rs:try_special", "src/main.rs:try_bench", "src/bench.rs:measure_all", "src/bench.rs:csv_writer"]}
{"id": "C86", "title": "Statistics of the dictionary coder", "statement": "print_stats visits every node of the trie once. Its node counter is an i32: a debug build panics exactly if the trie has 2^31 or more nodes; otherwise (and always in a release build) the printed node count is the number of nodes modulo 2^32, the used children are one less than the nodes, and the used values are the number of distinct keys. zip_dict_encode prints the statistics after all output is written, so it behaves as without them except that success becomes a panic in that case. Inputs shorter than 2^31 bytes (pictures up to 195225785 pixels) never reach it; a single byte repeated 2^32-2 times or more does.", "quantifier": "every history of insertions; every input of the coder and every device, in debug and release builds", "why_tests_cant": "The panic needs gigabytes of input and hundreds of gigabytes of trie; the counts hold for tries of every shape.", "anchors": ["src/zip/dict.rs:TrieMap::print_stats", "src/zip/dict.rs:zip_dict_encode", "src/codec/zipc.rs:encode", "src/codec/hilbertc.rs:encode"]}
{"id": "C87", "title": "The counter of iterations makes every clustering of a debug build end", "statement": "kmeans.rs counts iterations, and the neighbour lists replaced in one pass, in i32. In release builds this has no effect on any result. In debug builds it has none on runs of fewer than 2^31 iterations (for cluster-colors with any number of clusters; in general with fewer than 2^31 clusters or more clusters than points): the list counter never overflows, as each list is replaced at most once in a pass, and a run that ends within fewer than 2^31 iterations ends with the same result. The 2^31st iteration panics; hence, if the random numbers hit every cluster again and again, every clustering of a debug build ends, with a panic or with the result of the release build. For the picture of C63 with cluster-colors(2) a release build never ends, and a debug build goes on for 2^31 - 1 iterations and panics in the next one.", "quantifier": "every point type, number of clusters and set of points; every picture for the encoders; both build profiles, every number of granted iterations, every sequence of random numbers", "why_tests_cant": "The overflow shows after 2^31 iterations of a clustering that does not converge; that nothing else changes is a statement about all runs.", "anchors": ["src/kmeans.rs:cluster", "src/kmeans.rs:compute_neighbours", "src/codec/clusterc.rs:ClusterColors::encode", "src/codec/clusterc.rs:VoronoiCluster::encode"]}
{"id": "C88", "title": "A trie is freed without nested calls, however deep it is", "statement": "Dropping a TrieMap takes every node out of its parent and drops it exactly once, with all of its values and none of its children, so no call of drop for a node leads to another. Without that, the calls would be nested as deep as the longest key is long; for the dictionary coder on n equal bytes with 2^(j+1) <= n + 2 (and j < 65279) that is at least 2^j calls, a constant fraction of the input.", "quantifier": "every sequence of insertions with non-empty keys; every byte, length and j below 65279 for the encoder", "why_tests_cant": "That no node is dropped twice or leaked, for every shape of trie with mixed partial and full nodes, is a statement about all histories; a leak is not observable in a test without instrumentation.", "anchors": ["src/zip/dict.rs:TrieMap::drop", "src/zip/dict.rs:handle_children"]}
{"id": "C89", "title": "How large a picture a short file can give", "statement": "For every size whose pixels take less than 2^63 bytes there is a file of at most 35 bytes that decodes to a picture of that size, for each of hufman, cluster-colors, delta, hilbert(rle), hilbert(zip) and, in release builds, voronoi. In debug builds a decoded voronoi picture with pixels has (w-1)^2 + (h-1)^2 < 2^32. A file of n bytes that zip(dict) decodes gives a picture with 10 + 11wh <= 2^(n/4+1), and 44 + 4m bytes suffice for any picture with wh <= 2^(m+1) + 1 black pixels, so 284 bytes suffice for every size. For zip(back) the expansion is linear: 4(8 + 11wh) <= 32767n, and 69 + 4k bytes suffice for black pictures with 11wh <= 45056 + 32767k.", "quantifier": "every file, codec parameter, build profile and picture size below 2^63 bytes; every traversal that visits each cell once", "why_tests_cant": "An upper bound over all files, most of which no encoder writes; the pictures reached do not fit in any memory.", "anchors": ["src/codec/hufc.rs:Hufman::decode", "src/codec/hilbertc.rs:Hilbert::decode", "src/codec/hilbertc.rs:Delta::decode", "src/codec/clusterc.rs:VoronoiCluster::decode", "src/codec/zipc.rs:Zip::decode", "src/zip/dict.rs:DictDecoder::next", "src/zip/back.rs:Decoder::next"]}
{"id": "C90", "title": "The files of a lossless codec form a prefix code", "statement": "For each codec that reports itself lossless: a file written for one picture, in any build and with any order of the hash maps, is not the beginning of a file written for a picture with other pixels or another size; files written one after the other can be split in one way only. Hence 256^k different pictures, whichever, take at least k bytes on average, all pictures of size w x h take 3wh bytes on average or more, and for every size and every lossless codec except zip(back), which may not finish, there is a picture whose file has at least 3wh bytes.", "quantifier": "every lossless codec, every pair and every list of pictures, every hash order, heap and build profile, one traversal that visits each cell once", "why_tests_cant": "There are 256^(3wh) pictures of a size; the average and the existence of an incompressible one are statements about all of them.", "anchors": ["src/codec.rs:AnyCodec::encode", "src/codec.rs:AnyCodec::decode", "src/codec.rs:AnyCodec::is_lossless"]}
{"id": "C91", "title": "Huffman files are within one bit per pixel of the entropy", "statement": "Let the information in a sequence be the sum over its items of log2(length / number of times the item occurs). For every picture with pixels, the hufman file has at least 7 + 13k + I/8 bytes and fewer than 7 + 13k + (I + wh)/8 + 1, where k is the number of colours, I the information in the pixels and wh their number; the same for delta with 8k, for the differences along the traversal; and for cluster-colors with the pixels of the decoded picture. With two colours or more the payload has at least one bit per pixel however little information there is: one pixel among n of another colour takes n + 1 bits, although its information is at most log2(n + 1) + 2.", "quantifier": "every picture, every lawful order of the hash maps and heap, every build; every sequence of items of any type", "why_tests_cant": "The bounds hold for every frequency distribution; tests would compare sizes for sampled pictures only.", "anchors": ["src/huf.rs:build", "src/huf.rs:encode_all", "src/codec/hufc.rs:Hufman::encode", "src/codec/hilbertc.rs:Delta::encode", "src/codec/clusterc.rs:ClusterColors::encode"]}
{"id": "C92", "title": "Reports of lossless codecs are reproducible; those of cluster-colors are not", "statement": "For a codec that reports itself lossless, the work on an image has the same outcome in every run of the same build: the same row (size, ratio, error), or the same failure or panic, and the same picture saved, whatever the order of the hash maps, the choice among equal nodes of the heap, the capacities of buffers and the random numbers; hence two runs of the same command exit alike and, on status 0, write reports with the same rows up to order. For images with at least one and fewer than 2^32/24 pixels (zip(back) apart) debug and release builds agree, too. For cluster-colors this is false: the order of a hash map alone changes the error, and with other random numbers the same command on the same picture of 13 colours with 5 clusters panics, or writes files of different sizes and errors.", "quantifier": "every lossless codec, every image, every pair of lawful setups with the same traversal and floating point numbers, every schedule of the workers", "why_tests_cant": "Hash orders and random numbers differ from run to run; a test sees a few of them and cannot conclude that a report never depends on them.", "anchors": ["src/bench.rs:measure_all", "src/main.rs:main", "src/codec.rs:AnyCodec::encode", "src/codec/clusterc.rs:ClusterColors::encode", "src/kmeans.rs:compute_centroids"]}
{"id": "C93", "title": "Overflow checks only turn results into panics", "statement": "Wherever a debug build does not panic, a release build does the same. For every codec and image the encoder of the release build writes what that of the debug build writes (or both do not end), for every file the decoders give the same picture or the same failure, every command line is read in the same way, and the work on an image gives the same row and the same saved picture, unless the debug build panics; a panic of a release build is also one of a debug build. This includes the i32 counters that only feed messages. Hence whatever a debug build of the program may do ending with status 0, a release build may do, too. The converse is false: voronoi gives a row in a release build where a debug build panics.", "quantifier": "every codec, image, file, command line, setup (hash orders, heap, scan, floats, random numbers) and schedule of the workers", "why_tests_cant": "Tests run in one build; that the other build behaves the same on all inputs on which the first does not panic is a relation between two programs over all inputs.", "anchors": ["src/kmeans.rs:cluster", "src/codec/clusterc.rs:VoronoiCluster::decode", "src/codec/hilbertc.rs:Delta::decode", "src/prs.rs:fun_call", "src/hilbert.rs:linearize_small", "src/bench.rs:compute_error", "src/main.rs:main"]}
{"id": "C94", "title": "What the size of a file does not depend on", "statement": "The length of a hufman file depends only on how often colours occur: if the pixels of one picture are those of another in any order, and in any shape, with the colours replaced by others such that different colours stay different, the two files are equally long. The length of a hilbert(rle) file with allowance 0 does not change when the colours are replaced such that different colours stay different. The length of a delta file does not change when the colours are replaced such that differences are replaced injectively and black stays black. In particular exchanging the channels of all pixels keeps the length of hufman, delta and hilbert(rle:0) files. None of this holds for the other lossless codecs: with delta, hilbert(rle:0), hilbert(zip), zip(dict) and zip(back), moving pixels may change the length; with delta, hilbert(zip), zip(dict) and zip(back), replacing colours may; and with hilbert(zip), zip(dict) and zip(back), exchanging red and green may.", "quantifier": "for all pairs of pictures related by a permutation of the pixels and an injective replacement of colours, all heaps, hash orders and float implementations (also different ones in the two runs); the negative parts for concrete pictures", "why_tests_cant": "There are more pictures, permutations and replacements of colours than can be tried, and hash orders differ from run to run.", "anchors": ["src/codec/hufc.rs:Hufman::encode", "src/codec/hilbertc.rs:Hilbert::encode", "src/codec/hilbertc.rs:Delta::encode", "src/huf.rs:build", "src/codec/zipc.rs:Zip::encode"]}
{"id": "C95", "title": "The Makefile and the reports", "statement": "The rules of the Makefile run the program and expect its report in a certain file. The rules for hufman, zip(dict), zip(back), hilbert(rle), hilbert(zip) and delta ask for a codec whose report has the expected name; the rules for cluster-colors and voronoi do so exactly for the stems that are numbers below 2^64 without leading zeros, and the rule for approximate runs exactly for the nonzero numbers written the way they are printed. All of these but the one for voronoi leave the report of their codec in their target and change no other report. One would expect the same of the rule for voronoi; but it leaves its target as it was and writes the report of voronoi over the backup of the cluster-colors report with the same number, from which that report is then restored. The diagrams show the report of every codec, in a series of its own for each kind of codec whatever the parameter, and show no traversals, pictures or backups.", "quantifier": "every stem, every list of images, all files, every schedule of the workers, every codec", "why_tests_cant": "There are more stems than can be tried; that a backup was overwritten shows only in the diagrams.", "anchors": ["Makefile", "scripts/cniic.py:diagram_csvs", "scripts/diagrams/error_vs_compression_plot.py", "src/bench.rs:csv_writer", "src/codec.rs:AnyCodec"]}
{"id": "C96", "title": "A file says nothing about its codec", "statement": "No file names the codec that wrote it, and decoding does not depend on the parameters of the codec (number of clusters, allowance): hufman reads what cluster-colors wrote, and so on. When a file of a non-empty picture is decoded with another codec: (1) if both begin with the size of the picture, then the result has the right size or there is none; (2) in the eleven pairs of formats listed in the specification the file is always refused, in the listed way (None or a panic); hilbert(rle) refuses the files of all other codecs that begin with the size, always by a panic; (3) hilbert(zip) reads files of hufman, cluster-colors, delta, and of voronoi with fewer than 65535 clusters except exactly three, as an all-black picture or panics; (4) hufman and cluster-colors refuse voronoi files with fewer than 768 clusters; (5) delta reads the hufman file of a picture in one colour, whatever the colour is, as a red ramp if the picture has at most 85 pixels, and panics otherwise; (6) zip(dict) panics on files of the other codecs if the width modulo 65536 is between 256 and 65534; (7) a zip(dict) file of a picture with width below 65536 and not a multiple of 256 is read by the codecs that begin with the size as an empty picture, of height 0, or not at all, and by hilbert always so. The lossless codecs do not detect the mix-up in general: there are hufman files that delta and hilbert(zip) accept with wrong pixels.", "quantifier": "all pictures that fit in memory, all lawful setups (hash orders, float operations, heaps, traversals visiting every pixel once), all files the codecs can write", "why_tests_cant": "The outcome depends on how the bytes of one format happen to look in another; only a proof over all pictures shows which pairs are always refused and which are read silently.", "anchors": ["src/codec.rs:AnyCodec::decode", "src/codec/hufc.rs:Hufman::decode", "src/codec/hilbertc.rs:Delta::decode", "src/codec/hilbertc.rs:Hilbert::decode", "src/codec/clusterc.rs:VoronoiCluster::decode", "src/codec/zipc.rs:Zip::decode"]}
{"id": "C97", "title": "A shortcut said to be superfluous", "statement": "A comment in assign_points says that the test of the certainty radius should be a duplicate of the test in the loop over the neighbours and could be removed. From every state that clustering goes through, for colours always, and for pixels in release builds on pictures of at most 65536 by 65536 pixels, one pass with and one without the test put every point into the same cluster, report a change alike and keep the same neighbour lists up to the recorded watermarks. With at most as many clusters as make the minimum list length all the others (two), the whole clustering is equal. In general it is not: the loop also records how many neighbours it looked at, and the lists are cut to twice that number. For a picture of twelve shades of red in four clusters the results differ, and without the test a colour ends up at a centroid that is not the nearest.", "quantifier": "all reachable states, all colours and pixels, all lawful floating point functions, sorting functions, random numbers; all pictures and fuel for few clusters; a witness for the difference", "why_tests_cant": "Tests compare single runs; whether removing a test of a computed radius can ever change an assignment depends on ties and rounding (points half way between two centroids) over all inputs.", "anchors": ["src/kmeans.rs:assign_points", "src/kmeans.rs:cluster", "src/codec/clusterc.rs:ClusterColors::encode", "src/codec/clusterc.rs:VoronoiCluster::encode"]}
{"id": "C98", "title": "The graph of neighbouring centroids", "statement": "A comment in kmeans.rs hopes, for correctness sake, that the graph of the neighbour lists is connected. At the start of clustering it is complete. In every state that clustering goes through every list has at least as many entries as the square root of the number of clusters says, or all; hence with at most five clusters the graph is always connected (more generally if n < 2 * (lower(n) + 1)). With six clusters it may fall apart: for a picture of eleven shades of red it does after two iterations, and a colour ends at a centroid although another one is nearer. Whenever no list crosses from one set of clusters to the rest, one pass leaves each side exactly its points; and as long as the program reports 'Grew 0 neighbour lists', the sides stay apart.", "quantifier": "all point types, distances, means, sorting functions and random numbers; all reachable states and all divisions of the clusters into two sides; a witness for six clusters", "why_tests_cant": "Connectivity has to hold in every state of every run; a test sees the graph of a few runs, and the loss of quality when it falls apart is not noticeable in a single output.", "anchors": ["src/kmeans.rs:NeighbouringCentroids::resize", "src/kmeans.rs:compute_neighbours", "src/kmeans.rs:assign_points", "src/kmeans.rs:cluster"]}
{"id": "C99", "title": "What a pass of the clustering prints", "statement": "assign_points counts along and prints. The counting never changes or prevents a result: with its counters the function returns, and panics, exactly as without. The numbers printed are: the points whose cluster changed and did not; the points within the certainty radius and those for which a neighbour beyond the cutoff was met, with their sum; the largest number of neighbours looked at for one point (the one beyond the cutoff counted), the least over the clusters of the largest such number, and the mean rounded down over the points not within the radius. At every pass of every run moved + stayed is the number of points; the pass reports a change exactly if moved > 0; the subtraction for the average never goes below zero as points within the radius stay; stopped early is at most the number of points; 1 <= average <= global max <= clusters - 1, and there is no average exactly if all points are within the radius. The sum of the tested neighbours is at most points * (clusters - 1). The last pass of a clustering that returns prints Moved: 0. With one cluster everything is within the radius.", "quantifier": "all point types, distances, means, sorting functions and random numbers; any state for the result and the numbers, all reachable states for the relations", "why_tests_cant": "The statistics are printed only, no test looks at them; that none of their operations (unwrap of a maximum, unsigned subtraction, division) can fail is a statement about every state.", "anchors": ["src/kmeans.rs:assign_points", "src/kmeans.rs:cluster"]}
{"id": "C100", "title": "zip(dict) writes repetitive pictures in a few kilobytes", "statement": "If the bytes given to zip_dict_encode are, after the first h bytes, fewer than 2^k bytes that repeat with period p, at most h + (p+1)p(p-2) + p + (4p+5+k)k/2 pairs of symbols of 4 bytes are written, provided that so many entries fit into the dictionary. So the size of the output grows at most with the square of the logarithm of the size of the input. In the other direction, an input of n bytes always takes at least 4 bytes for each doubling: n + 2 <= 2 * 2^(size / 4). Hence with zip(dict) every picture of one colour, whatever its size, becomes a file of at most 20740 bytes, and every picture whose colours repeat row by row after one, two or three pixels a file of at most 167172 bytes; likewise hilbert(zip) for colours along the curve (one colour: at most 20716 bytes). zip(back) cannot write the same pictures of one colour from 8937 pixels on (C54).", "quantifier": "all inputs, periods and lengths within the size of the dictionary; all pictures of every size up to 2^32 - 1 in each direction", "why_tests_cant": "The bound is about files for pictures of any size, including ones that no test could hold in memory; a test can only measure single files.", "anchors": ["src/zip/dict.rs:zip_dict_encode", "src/zip/dict.rs:DictEncoder::next_pair", "src/codec/zipc.rs:Zip::encode", "src/codec/hilbertc.rs:Hilbert::encode"]}
{"id": "C101", "title": "zip-back looks for repetitions only at powers of two", "statement": "After a copy (or at the beginning) zip_back_encode looks for a repetition after 0, 2, 4, 8, 16, ... bytes only, because the pending literal run is doubled each time. So every literal run that is followed by anything is followed by a copy and has a power of two of bytes, at most 16384. A repetition that begins d bytes after such a place is found if at the next power of two e >= d at least 6 bytes of it are left, and then a copy follows after at most e literal bytes; a repetition of d + 6 bytes is always found, after at most 2d literal bytes. But an input of up to 32767 bytes in which no repetition begins at a power of two is stored as it is: for any 2^j + 1 bytes (j <= 13) in which no six bytes in a row occur twice, written twice, the output is 2 bytes longer than the input, although the format allows 6 bytes more than half of it and the decoder reads that.", "quantifier": "all inputs; all read-ahead policies of the buffer", "why_tests_cant": "The unit tests use inputs of a few bytes whose repetitions begin at a power of two; that nothing in between is ever looked for is a statement about all inputs.", "anchors": ["src/zip/back.rs:Encoder::next_symbols", "src/zip/back.rs:Encoder::next_repetition", "src/zip/back.rs:zip_back_encode", "src/zip/back.rs:zip_back_decode"]}
{"id": "C102", "title": "The allowance of approximate runs and the size of the file", "statement": "In hilbert(rle(d)) with any d >= 0 (or plus infinity) the file is never larger than with exact runs (d = 0), nor than any other file of runs that spell the pixels. With d >= 442 or plus infinity there is one run for each 255 pixels begun. In between a larger allowance can cost more: for every m there are pictures (in every shape with 2 + 255 m pixels) whose file has m + 1 runs with d = 22 and 254 m + 1 runs with d = 24. (A negative allowance or NaN gives one run for each pixel, C56.)", "quantifier": "all pictures; all allowances; all m; all traversals that visit each cell once; every arithmetic that rounds as IEEE 754 requires", "why_tests_cant": "The expectation that accepting more pixels in a run gives fewer runs holds for most pictures and for the extreme allowances; it is refuted by a family of pictures whose ratio is 254, close to the largest possible.", "anchors": ["src/codec/hilbertc.rs:Hilbert::encode", "src/codec/hilbertc.rs:Approx::accept", "src/codec/hilbertc.rs:AbstractRle::next"]}
{"id": "C103", "title": "What zip-back prints", "statement": "While encoding, zip-back prints `?k` for each probe, `Buffered extra data from a to b` when a repetition covers the whole read-ahead buffer, `-n` for a literal run and `+n` for a copy. The printed trace is determined step by step by the input and the growth of the buffer. When encoding succeeds, the lengths after `-` and `+` add up to the length of the input; the file has 2 + n bytes for each `-n` and 4 for each `+n`; k, the number of places that are compared, is at most 65530; and apart from further `?k` and `Buffered` lines of the same probe and one literal run the next thing after `?k` is a copy if and only if k > 0. When encoding panics, the last thing printed is a length above 32767, the only such length printed. The text on the console determines the sequence of these notes, so inputs with the same text have the same length, and so have their files.", "quantifier": "all inputs; all capacities of the read-ahead buffer", "why_tests_cant": "The output depends on the contents of the window and of the read-ahead buffer at each step; the equivalence between a positive count and a copy holds only because a probe whose six bytes occur anywhere in the window always ends the literal run.", "anchors": ["src/zip/back.rs:Encoder::next_symbols", "src/zip/back.rs:Encoder::next_repetition", "src/zip/back.rs:IndexedHistory::subseqs_starting", "src/zip/back.rs:Symbol::serialize", "src/zip/back.rs:zip_back_encode"]}
{"id": "C104", "title": "What zip-back keeps in memory, and a filter said to be superfluous", "statement": "However long the input, at each point of encoding the index of zip-back keeps fewer than twice the window size of positions (at most 131069), in at most as many entries, at most five incomplete keys, and the history exactly its 65535 bytes. With window size N, after n bytes there have been floor((n-1)/N) clean-ups; the older map has exactly the positions between the last two of the marks q*N - 4, the newer map those from the last mark on. A comment at the lookup says that the filter for positions still in the history should not be needed for the newer map. It is: it removes something exactly if more than N bytes were written and at most four more bytes follow until the next clean-up (a key is entered five bytes after its position, so the positions just before a multiple of N land in the map of the next round); and for each such state there is a key for which the encoder would panic without the filter.", "quantifier": "all inputs, all window sizes from 6 on, all capacities of the read-ahead buffer, all points of encoding", "why_tests_cant": "With the real window the stale entries exist only in four out of 65535 states, and matter only if the six bytes of one of four positions are looked up right then.", "anchors": ["src/zip/back.rs:Index::update", "src/zip/back.rs:Index::start_indices_for", "src/zip/back.rs:Index::update_incomplete_keys", "src/zip/back.rs:IndexedHistory::write", "src/zip/back.rs:Encoder::next_symbols"]}
{"id": "C105", "title": "A mask that is not necessary, and bits in the other order", "statement": "A comment in write_byte says that the masking of the bits kept is not necessary. It is right: for every sequence of bits, bytes and bit arrays, in both bit orders, the writer without the mask followed by pad_and_flush has the same result and writes the same bytes, on every device, failing ones included. With the least significant bit first, n single bits followed by pad_and_flush give bytes whose bits (read least significant first) are the bits of the whole bytes unchanged; a last byte of k = n mod 8 > 0 bits is shifted the wrong way and reads as 8-k zeros followed by the first k of the last eight bits written (zeros where there are none). For k from 1 to 4 the reader so gets k zeros in place of the last k bits.", "quantifier": "all sequences of bits, bytes and bit arrays, both bit orders, all sinks; all lists of bits", "why_tests_cant": "Whether bits that were not masked out can reach the output depends on all later writes. There is no test of a writer in the other bit order.", "anchors": ["src/bit.rs:IoBitWriter::write_byte", "src/bit.rs:IoBitWriter::write", "src/bit.rs:IoBitWriter::pad_and_flush", "src/bit.rs:WriteBit::write_arr"]}
{"id": "C106", "title": "How deep the dictionary decoder calls itself", "statement": "DictDecoder::next calls itself after each pair of symbols. One would expect that this needs at most two nested calls. That is so for every stream written by zip_dict_encode (two calls are enough, and are needed unless the input is empty), and so for all files of zip-dict and hilbert-zip. For other streams the number is one more than the number of pairs up to the first one that means something (or to the end), maximised over the stream: with that much room the decoder does the same as without a limit, with less it overflows on the way. There is no bound: for every picture and every depth d there are files with d pairs of end markers in front, 4 bytes each, from which zip-dict and hilbert-zip decode the picture when the stack is large enough, and overflow the stack when it has room for d calls only.", "quantifier": "every byte stream, every input, every picture, every depth", "why_tests_cant": "No test decodes a stream that the encoder has not written; whether any file overflows the stack is a question about all files.", "anchors": ["src/zip/dict.rs:DictDecoder::next", "src/zip/dict.rs:zip_dict_decode", "src/codec/zipc.rs:Zip::decode", "src/codec/hilbertc.rs:Hilbert::decode"]}
{"id": "C107", "title": "Leaving out pixels and merging colours", "statement": "If a picture consists of some of the pixels of another one, in any order and any shape, with colours replaced in any way (also different colours by the same one), its hufman file is no larger than that of the other. Hence a cluster-colors(n) file is never larger than the hufman file of the same picture. A hilbert(rle:0) file does not become larger when pixels are left out along the traversal and colours are replaced in any way. One would expect the same of the other lossless codecs, but it is false: with delta, hilbert(zip), zip(dict) and zip(back), leaving out a pixel of a row, and replacing one colour of a picture by another colour of it, may give a larger file.", "quantifier": "for all pairs of pictures so related, all heaps, hash orders and float implementations (also different ones in the two runs), every n and every random choice; the negative parts for concrete pictures", "why_tests_cant": "There are more pictures, selections of pixels and replacements of colours than can be tried, and the clusters depend on random numbers and hash orders.", "anchors": ["src/codec/hufc.rs:Hufman::encode", "src/codec/clusterc.rs:ClusterColors::encode", "src/codec/hilbertc.rs:Hilbert::encode", "src/codec/hilbertc.rs:Delta::encode", "src/huf.rs:build", "src/codec/zipc.rs:Zip::encode"]}
{"id": "C108", "title": "Files edited without decoding them", "statement": "Colours stand in the clear in the files of hufman, cluster-colors, hilbert(rle) and voronoi: replacing them in the code tree, the runs or the centroids in any way (also different ones by the same) gives a file of the same length that is decoded to the picture with its colours so replaced (for hufman and cluster-colors this holds for all files, also damaged ones, and every file that is decoded to a picture has the form needed; for hilbert(rle) if the runs fill the picture, as in all files that are written). A smaller height in front of a hufman or cluster-colors file cuts the picture to its upper rows; a smaller width or height in a voronoi file cuts it to the part at the top left. One would expect a decoder to notice that the size does not fit the rest of the file; none of the codecs that write the size in front (all but zip) does: with any smaller width and height each file that is decoded to a picture is still decoded to a picture of that size. So in every such file with a width above zero there is one byte among the first four that can be set to zero without the decoder noticing.", "quantifier": "all files, all trees, runs, centroids and payloads, all replacements of colours, all smaller sizes, every traversal that visits each cell once, every build", "why_tests_cant": "The statement is about what decoders make of all files, most of which no encoder writes.", "anchors": ["src/codec/hufc.rs:Hufman::decode", "src/codec/clusterc.rs:ClusterColors::decode", "src/codec/clusterc.rs:VoronoiCluster::decode", "src/codec/hilbertc.rs:Hilbert::decode", "src/codec/hilbertc.rs:Delta::decode", "src/huf.rs:decode_all"]}
{"id": "C109", "title": "Joining compressed data", "statement": "Data compressed with zip-back in pieces can be joined: decoding the joined data gives the pieces one after the other, and anything that decodes to an end may follow compressed data. So all data can be stored in this format, also those on which the encoder panics: each piece of 32767 bytes can be encoded, which costs at most two bytes a piece; and for every picture there is a file that zip(back) decodes to it, of at most 8 + 11 w h bytes and two bytes per 32767, although the codec panics when it is to encode it (C54). With zip-dict this is not so: what follows compressed data is read with the dictionary learned from them. Up to three compressed bytes can be joined to any compressed data, but x y x y after any other data comes out as x y followed by the first two bytes of those data, and nothing is noticed.", "quantifier": "all byte sequences, all ways to cut them into pieces, all pictures, all read-ahead policies", "why_tests_cant": "All data and all ways to cut them; that a file exists for every picture is not something one can try.", "anchors": ["src/zip/back.rs:zip_back_encode", "src/zip/back.rs:zip_back_decode", "src/zip/dict.rs:zip_dict_encode", "src/zip/dict.rs:zip_dict_decode", "src/codec/zipc.rs:Zip::decode"]}
{"id": "C110", "title": "The only unsafe block", "statement": "The program has one unsafe block, the call of unwrap_err_unchecked in ParseAlternatives::stack_error. It is never undefined behaviour, in whatever state the function is called, because of the assertion in front of it; without that assertion a call after a success would be. The assertions never fail either: trying an alternative panics only if its parser is called and panics, and this happens only if no earlier alternative succeeded. With the separate functions, their assertions and undefined behaviour modelled, every sequence of alternatives has the same result as in the simpler model used for the other claims.", "quantifier": "all states, all result types, all sequences of alternatives", "why_tests_cant": "Undefined behaviour may go unnoticed in a test; all sequences of alternatives.", "anchors": ["src/prs.rs:ParseAlternatives::stack_error", "src/prs.rs:ParseAlternatives::into_success", "src/prs.rs:ParseAlternatives::then_try", "src/prs.rs:ParseAlternatives::end"]}
{"id": "C111", "title": "The worked examples of the README", "statement": "The examples for zip-dict and hilbert-rle and the differences of delta are right. The example for zip-back is not: data of fewer than 14 bytes are never compressed but written as they are after their length. The example for hilbert-rle-approx is right for pixels that differ in one channel only; when the values are greys the runs are the exact ones, because greys are at least the root of 3 apart; in general colours farther apart than the allowance give exact runs. The example for hilbert-zip is not what is written: the file of every non-empty picture has the symbols 3 0 0 0 257 257 after the size. In the example for delta the code shown is a prefix code and no prefix code needs fewer than its 36 bits; whichever code is chosen, the file of the picture has 52 bytes.", "quantifier": "all inputs of fewer than 14 bytes and all read-ahead policies (zip-back); all pictures (hilbert-zip); all sequences of colours farther apart than the allowance, every lawful floating point arithmetic (hilbert-rle-approx); all heaps and hash orders (delta)", "why_tests_cant": "That short data are never compressed, that all hilbert-zip files begin alike, and that no prefix code is shorter, are statements about all of them.", "anchors": ["src/zip/back.rs:zip_back_encode", "src/zip/dict.rs:zip_dict_encode", "src/codec/hilbertc.rs:Hilbert::encode", "src/codec/hilbertc.rs:Approx::accept", "src/codec/hilbertc.rs:Delta::encode"]}
{"id": "C112", "title": "The shortest copy worth writing", "statement": "A comment derives that copies of 6 bytes are the shortest that make zip-back output better. No copy that is written is a loss: for every input that can be encoded, writing any of the copies out as the bytes they stand for, and joining neighbouring literal runs, gives symbols for the same input that are not shorter, even if runs could be of any length. Between two literal runs a copy of fewer than 6 bytes would be a loss; but where no literal run follows 5 bytes are enough for a gain, and after another copy 3 bytes. So for all data that are 8 bytes, the same again, and the first 5 of them again, the output has 21 bytes although the decoder accepts 18 bytes for the same data.", "quantifier": "all inputs, all choices of copies to write out, all read-ahead policies; all data of the given form", "why_tests_cant": "All inputs and all subsets of their copies.", "anchors": ["src/zip/back.rs:MIN_REP", "src/zip/back.rs:zip_back_encode", "src/zip/back.rs:Encoder::next_symbols", "src/zip/back.rs:Symbol::serialize"]}
{"id": "C113", "title": "How far damage reaches", "statement": "Decoding two files that agree in the beginning: the pictures, if both decode, agree in the pixels that this beginning spells (hufman, cluster-colors: in reading order; delta, hilbert(rle), hilbert(zip): along the traversal; zip(dict), zip(back): one pixel for each 11 bytes after the size that the common beginning decompresses to). After the damage, the codecs differ. In a file that hilbert(rle) writes, changing any byte of any run to any other value has one of three effects: bytes 1 to 8 of the run, or a zero in byte 0, make the decoder panic; another value in byte 0 changes the length of this run only, so that everything after it moves along the traversal; bytes 9 to 11 change the colour of this run only, hence at most 255 pixels. With delta, if one difference is read instead of another and the rest as before, this shifts all later pixels by the same amount. With hufman, if one colour is read instead of another and the rest as before, this changes one pixel. With voronoi (release builds) replacing a centroid by any point changes only pixels that belonged to the old or belong to the new one. There is no such bound for the others: one byte of a zip(dict) file changes all pixels, and one byte of the bits of a hufman file most pixels, or makes it undecodable.", "quantifier": "all files, all positions of the damage, all values of the damaged bytes; explicit witnesses for the last sentence", "why_tests_cant": "All files and all damage to them.", "anchors": ["src/codec/hufc.rs:Hufman::decode", "src/codec/hilbertc.rs:Hilbert::decode", "src/codec/hilbertc.rs:Delta::decode", "src/codec/zipc.rs:Zip::decode", "src/codec/clusterc.rs:VoronoiCluster::decode"]}
{"id": "C114", "title": "The squared error during clustering", "statement": "In cluster-colors, the squared error of a clustering (each colour's squared distance from its centroid, as often as it occurs) is at any time the squared error of the picture in which every colour is replaced by the centroid of its cluster, and for the clustering that is returned it is that of the decoded picture. Assigning colours to centroids never raises it, and lowers it if anything is reported as changed. Computing new centroids can raise it, as means are rounded down, but for a picture of N pixels by at most 3 (N - 2), so a pass raises it by at most that, and by less if a colour moved. This bound is best possible: for every N from 2 to 2^32 - 1 there is a picture that the first pass makes worse by exactly 3 (N - 2). Clustering does not keep the best state: there is a picture in four shades of red, to be reduced to two colours, for which the error is 36 at the start, 5 after the first pass and 7 in the result.", "quantifier": "all pictures without 2^32 pixels of one colour, all numbers of clusters, hash orders, sorting functions, random numbers, both build profiles, all states that the loop reaches; explicit witnesses for the last two sentences", "why_tests_cant": "All pictures and all states; a test shows that some runs improve.", "anchors": ["src/kmeans.rs:assign_points", "src/kmeans.rs:compute_centroids", "src/kmeans.rs:cluster", "src/codec/clusterc.rs:ColorCount::mean", "src/codec/clusterc.rs:ClusterColors::encode"]}
{"id": "C115", "title": "Freeing a code tree takes no more stack than was used before", "statement": "The destructor of a Huffman tree calls itself for both children, so that freeing a tree nests as many calls as its height plus one, exactly as many as reading or writing it. When a file ends in the middle of a tree, the part that was read is freed while calls for the nodes above are still open, and even this never nests deeper than reading had already done. So for every file and every limit on nested calls, decoding with freeing taken into account gives the same as without, and the limits of C84 (46 nested calls for files of pictures with up to 2^32 pixels, 92 for all) cover it. An encoder that has room for d nested calls writes and frees the tree for fewer than Fibonacci(d+2) items without any difference, whatever the device does; with no more room than the height of the tree it is aborted on every device, even one that takes no byte. Files that decode can need any depth: for every d there is one of 13d+21 bytes that gives a picture of one pixel with room for d+1 nested calls and overflows with d.", "quantifier": "all trees, files, streams, limits, items and devices", "why_tests_cant": "All files and all limits; a stack overflow aborts the test.", "anchors": ["src/huf.rs:BinTrie", "src/huf.rs:BinTrie::deserialize", "src/huf.rs:decode_all", "src/huf.rs:encode_all", "src/codec/hufc.rs:Hufman::decode", "src/codec/hilbertc.rs:Delta::decode"]}
{"id": "C116", "title": "Which items get short codes", "statement": "In the code table that build makes for any sequence of N items (with any order of the hash map and any heap): an item that is more frequent never has a longer code; an item that occurs c times with a code of k bits satisfies c*Fibonacci(k+1)+Fibonacci(k) <= N, so that an item that makes up half of the sequence has at most 1 bit, a third at most 2 bits, a fifth at most 3, an eighth at most 4, and so on; the single most frequent item has at most 1 bit as soon as it makes up more than two fifths; with three or more different items, one that makes up less than a third has at least 2 bits; and if no item is as frequent as two others together, the codes of n different items all have k bits with 2^k < 2n and n < 2^(k+1). Consequently a hufman file of an image in which no colour covers a third of the pixels spends at least two bits on every pixel: it has at least 7+13*colours+ceil(pixels/4) bytes.", "quantifier": "all sequences of items, all orders of the hash map, all heaps, all images", "why_tests_cant": "Bounds for the codes of all sequences, whatever the ties between frequencies and whatever the heap does with them.", "anchors": ["src/huf.rs:build", "src/huf.rs:Enc", "src/huf.rs:encode_all", "src/codec/hufc.rs:Hufman::encode"]}
{"id": "C117", "title": "What zip-dict prints", "statement": "Whenever zip-dict encodes an input (on a device that takes everything), the number of lines \"Converting Content::Partial into Content::Full!\" printed is the number of sequences that at least 65 sequences of the final dictionary extend by exactly one byte, plus the number of sequences that at least 65 nodes of the final trie extend by exactly one byte; nothing else, such as the order in which sequences were learned, matters. At least one line is printed for every input, and exactly one for inputs of less than 130 bytes. In the statistics that follow, the child density and the value density are never below 65/256 (25.39%), except that the child density is 0/0 (printed as NaN) exactly for inputs of less than two bytes; \"Total size\" is the number of nodes times the size of a node, and \"Useful size\" is more than \"Total size\" for every input as long as a node takes less than 512 bytes, because the root is part of the total but only children are counted as useful, and 256 values of two bytes are always there.", "quantifier": "all inputs, debug and release builds, all sizes of a node; for the first part also all histories of insertions with nonempty keys and all value types", "why_tests_cant": "The format of a content depends on all insertions made so far; the claim is for every input of every length.", "anchors": ["src/zip/dict.rs:TrieMap::print_stats", "src/zip/dict.rs:Content::to_full", "src/zip/dict.rs:Content::upsert", "src/zip/dict.rs:TrieMap::insert", "src/zip/dict.rs:zip_dict_encode"]}
{"id": "C118", "title": "The Huffman coder reads its input twice", "statement": "The documentation of huf::encode_all says that new_iter is called exactly twice. It is called twice whenever its first result is not empty and the tree can be written; with an empty first result it is called once and encode_all panics without touching the writer, and if the writer fails while the tree is written it is called once and the error is returned. If the two calls give different sequences, encode_all returns normally, on a writer that takes everything, exactly if the first sequence is not empty and contains every item of the second; the output is then the tree made for the first sequence followed by the codes of the second and less than eight zero bits, and decode_all gives the second sequence back. If an item of the second sequence is missing in the first, encode_all panics on every writer, unless the writer fails before the tree is complete. If both calls give the same sequence, all this is what the other claims on encode_all say.", "quantifier": "all functions new_iter, all item types with a lawful serializer, all orders of the hash map, all heaps, all writers", "why_tests_cant": "The type F: Fn() -> I does not promise that two calls agree; the claim is for every pair of sequences and every moment at which the writer fails.", "anchors": ["src/huf.rs:encode_all", "src/huf.rs:Enc::encode", "src/huf.rs:decode_all", "src/utils.rs:count_freqs"]}
{"id": "C119", "title": "What a background costs", "statement": "If one item is more frequent than any other and makes up more than two fifths of the input, and there is another one, the Huffman payload is exactly one bit per item plus the fewest bits any prefix code needs for the other items alone; for any other item taken out this is an upper bound. For hufman: a picture with such a background colour takes 13 bytes plus one bit for each of its pixels (rounded up or down to bytes) more than a picture made of the other pixels, in whatever order and shape these are. Two colours take exactly 33 bytes plus one bit per pixel, however they are distributed; three colours take exactly 46 bytes plus one bit per pixel plus one bit for each pixel that does not have the most frequent colour. For delta: if one difference makes up more than two fifths, as zero does in flat pictures, the file has 7 + 8 bytes per different difference, and one bit per pixel plus the fewest bits for the other differences.", "quantifier": "all item lists, all images, all lawful setups (heap, hash order, scan order that visits every pixel once)", "why_tests_cant": "A test compares the size of a few pictures; the claim compares with the best of all prefix codes for the rest, for every arrangement and every tie the heap may break.", "anchors": ["src/huf.rs:build", "src/huf.rs:encode_all", "src/codec/hufc.rs:Hufman::encode"]}
{"id": "C120", "title": "The benchmark on a console that does not take everything", "statement": "println! and eprintln! panic when the standard output or error cannot be written (a pipe whose reader has gone, a full disk). Whichever prints fail, for whichever images and under whatever schedule, the report of the benchmark is empty or one header followed by one row for each image that ended well, and each row is the one that would be written on a working console: a failing print never yields a wrong row, never happens while the report is locked, and so never poisons the lock or blocks other images. If nothing can be printed on the standard output, no image is opened, no picture is saved and the report stays empty. If nothing can be printed on the standard error, exactly the images reproduced with error zero get a row; for an image that a lossy codec changes, the picture is saved but its row is missing and the run panics; measuring lossless codecs is not affected. An error that cannot be printed makes the run panic instead of end normally. Encoding needs the standard output for every codec but hufman and delta. If the sizes cannot be printed, an image that can be encoded ends in a panic without being decoded. What a failing Hufman decoder prints is never printed in the benchmark, as it does not fail on what has just been encoded.", "quantifier": "all codecs, images, schedules, numbers of images, all patterns of failing prints, with or without failing writes to the report", "why_tests_cant": "The moment at which a pipe breaks and the interleaving of the workers cannot be controlled in a test; the claim covers all of them.", "anchors": ["src/bench.rs:measure_all", "src/bench.rs:print_err", "src/codec/hufc.rs:Hufman::decode"]}
{"id": "C121", "title": "Which pictures have short files", "statement": "For each codec that reports itself lossless, at most 256^n different pictures, whatever their sizes and in whatever builds and hash orders they are written, have files of at most n bytes; of all pictures of one size, at most one out of 256^k has a file that is k bytes or more shorter than its pixels (3 bytes each). A hufman file is shorter than the pixels only if there are fewer different colours than 3/13 of the pixels, and surely is if there are at most 2^L colours and 13*2^L + 8 bytes plus L bits per pixel are no more than the pixels; the same for delta with 8 bytes per different difference, so fewer than 3/8 of the pixels. A hilbert(rle) file without allowance is shorter than the pixels if and only if the pixels along the curve can be split into runs of at most 255 equal ones such that 8 + 12 bytes per run are less than the pixels.", "quantifier": "all lossless codecs, all sets of pictures, all sizes, all lawful setups", "why_tests_cant": "Counting arguments range over all pictures of a size; a test sees a handful.", "anchors": ["src/codec.rs:Codec", "src/codec/hufc.rs:Hufman::encode", "src/codec/hilbertc.rs:Hilbert::encode", "src/codec/hilbertc.rs:Delta::encode"]}
{"id": "C122", "title": "Damaged bits", "statement": "Take two hufman files with the same size and code tree. If after reading m pixels of one and m' pixels of the other the same bits are left, then pixel m+i of the first picture is pixel m'+i of the second one for all i for which there are such pixels; with m = m' all pixels from there on are the same; and if the first file can be decoded and m <= m', the second one can be decoded, too. For a picture with 2^L different colours none of which is as frequent as two others together, the bits of the file can be replaced by any others of the same number: the file still decodes, to a picture of the same size in which at most as many pixels are wrong as there are wrong bits.", "quantifier": "all code trees, all payloads, all numbers of pixels, all such pictures, all lawful setups", "why_tests_cant": "Ranges over every way of damaging the bits.", "anchors": ["src/huf.rs:decode_all", "src/huf.rs:DecStream::next", "src/codec/hufc.rs:Hufman::decode", "src/codec/hufc.rs:Hufman::encode"]}
{"id": "C123", "title": "The beginning of a file", "statement": "Take two pictures of the same size that begin with the same pixels (row by row for zip, along the traversal for hilbert). hilbert(rle), with any allowance: as long as the runs of one file cover fewer pixels than are the same, the other file begins with the same runs. zip-dict, and with it zip(dict) and hilbert(zip): if the first m pairs of symbols stand for c bytes, every sequence known after them has at most D bytes and c + D is at most the number of common input bytes, then the first 4m bytes of both outputs are the same; in particular if 2c is at most that number. zip-back, and with it zip(back): if the first symbols stand for c bytes and c + min(c, window) is at most the number of common bytes, then the other output begins with the same symbols. hufman: if one picture has one colour only and the other one has that colour and another one, then the files differ at the byte after the size, however many pixels are the same.", "quantifier": "all inputs and pictures with a common beginning, all allowances, all lawful setups", "why_tests_cant": "Ranges over every pair of pictures with a common beginning and every possible continuation.", "anchors": ["src/codec/hilbertc.rs:Hilbert::encode", "src/codec/hilbertc.rs:AbstractRle::next", "src/zip/dict.rs:zip_dict_encode", "src/zip/dict.rs:DictEncoder::next_pair", "src/zip/back.rs:zip_back_encode", "src/zip/back.rs:Encoder::next_symbols", "src/codec/zipc.rs:Zip::encode", "src/codec/hufc.rs:Hufman::encode"]}
{"id": "C124", "title": "What changing a few pixels costs", "statement": "Take two pictures of the same size that differ in k pixels. hilbert(rle) with exact runs: the lengths of the two files differ by at most 24 k bytes. hufman: if every colour of the second picture occurs in the first one and there are fewer than fib(L+3) pixels, the second file is longer by at most (L k + 7) / 8 bytes (rounded down); L = 45 will do for up to 2^32 pixels. delta: likewise with (2 L k + 7) / 8 bytes, if every difference of the second picture occurs in the first one. But if a picture has n pixels of one colour and n of another one (33 + (2n+7)/8 bytes with hufman), changing a single pixel to a third colour makes the file 46 + (3n+7)/8 bytes long.", "quantifier": "all pairs of pictures of one size, all traversals that visit each pixel once, all lawful setups", "why_tests_cant": "Ranges over every pair of pictures and every way the codes may be rebuilt for the changed one; the bound for Huffman codes depends on the longest codeword that any picture of that size can have.", "anchors": ["src/codec/hilbertc.rs:Hilbert::encode", "src/codec/hilbertc.rs:AbstractRle::next", "src/codec/hilbertc.rs:Delta::encode", "src/codec/hufc.rs:Hufman::encode", "src/huf.rs:encode_all"]}
{"id": "C125", "title": "Cutting a picture into pieces", "statement": "A picture consists of the pixels of one piece followed by those of another one. hufman (row by row): if c colours occur in both pieces, the two files of the pieces together are at most 8 + 13 c bytes longer than the file of the whole; and the file of the whole with 7 + 13 c bytes more is at most as long as the two files with one bit for each pixel (rounded up). For k copies of one picture below each other, the table stays the same and the payload has exactly k times as many bits. hilbert(rle) with exact runs, if the traversal of the whole goes through one piece and then through the other: the two files are together 8 to 20 bytes longer. The four bounds are reached by examples.", "quantifier": "all pictures and pieces, all traversals that visit each pixel once, all lawful setups", "why_tests_cant": "Compares the optimal codes of three different multisets for every way to cut a picture.", "anchors": ["src/codec/hufc.rs:Hufman::encode", "src/huf.rs:encode_all", "src/codec/hilbertc.rs:Hilbert::encode", "src/codec/hilbertc.rs:AbstractRle::next"]}
{"id": "C126", "title": "Where decoding leaves the reader", "statement": "decode borrows its reader, and when a codec has decoded a file that it wrote, the reader stands exactly behind that file: no byte of what follows is taken and no byte of the file is left, for every codec and whatever follows. So pictures written one after the other to one stream, also by different codecs, are read back one after the other from it; and of two files that a codec writes, also in different runs, none is a proper beginning of the other. In a file from elsewhere, bytes that the picture does not need stay in the reader.", "quantifier": "every codec and parameter, all addressable pictures, all following bytes, all lists of files, all lawful setups", "why_tests_cant": "All files and all continuations; the position of the reader depends on the padding of the last byte of a code, on pairs of symbols and on the last run.", "anchors": ["src/codec.rs:Codec::decode", "src/codec.rs:AnyCodec::decode", "src/bit.rs:bit_reader", "src/huf.rs:DecStream::next", "src/codec/hilbertc.rs:RleDecoder::next", "src/zip/dict.rs:DictDecoder::next", "src/zip/back.rs:Decoder::next"]}
{"id": "C127", "title": "The bytes that decoding consumes", "statement": "For any bytes in the reader, also ones that no encoder writes: if a decoder succeeds, it has taken a beginning of the bytes, and that beginning alone is decoded to the same picture. What comes after it may be replaced by anything without changing the picture or the position of the reader; for delta and hilbert, whose decoders paint as many pixels as the file has, this needs that some bytes were left. So for the other codecs the byte strings that are decoded and consumed as a whole form a prefix-free set, and in every file that they decode there is one place such that every beginning up to or beyond the place is decoded to the same picture, with anything after it, and every shorter beginning is refused. Without it this is false: a hilbert file that is too short can be decoded to another picture, or panic, once further bytes follow.", "quantifier": "every codec and parameter, all byte strings, all continuations, all setups", "why_tests_cant": "All byte strings and all continuations; fuzzing meets few strings that are accepted at all.", "anchors": ["src/codec.rs:Codec::decode", "src/codec.rs:AnyCodec::decode", "src/ser.rs:Deserialize::deserialize", "src/bit.rs:bit_reader", "src/huf.rs:DecStream::next", "src/codec/hilbertc.rs:RleDecoder::next", "src/zip/dict.rs:DictDecoder::next", "src/zip/back.rs:Decoder::next"]}
{"id": "C128", "title": "Files on targets where usize is narrower", "statement": "Lengths are written as 64-bit numbers and read with `as usize`, which drops the high bits on targets with a narrower usize. Bytes that a 64-bit target decodes are decoded to the same picture, leaving the reader at the same position, on every target whose usize has at least 2 bits and can count the bytes; the exception is hilbert with zip. Files that an encoder on a 64-bit target has written are decoded to the same picture everywhere, for every codec including that one. A colour is read exactly from a length that is 3 modulo 2^w and three bytes, so on narrower targets each colour has many forms in a file: for every codec but delta there is a file that every target with 2 to 63 bits decodes to the same picture and a 64-bit target refuses, or, for hilbert with zip, decodes to another picture. Apart from the zip methods, bytes that a narrower target decodes become, by clearing some bits in front of the position of the reader, bytes that a 64-bit target decodes to the same picture and position. For the zip codec this is so for the decompressed bytes. With 64 bits the decoders are those of the other claims.", "quantifier": "every width of usize, every codec and parameter, all byte strings shorter than the width allows, all setups", "why_tests_cant": "Tests run on one target; the claim is about all widths and all files.", "anchors": ["src/ser.rs:impl Deserialize for usize", "src/ser.rs:Deserialize::deserialize", "src/codec/clusterc.rs:VoronoiCluster::decode", "src/codec/hilbertc.rs:RleDecoder::next", "src/codec/hilbertc.rs:Hilbert::decode", "src/codec/zipc.rs:Zip::decode", "src/codec/hufc.rs:Hufman::decode"]}
{"id": "C129", "title": "The iterators over the pixels, and pictures of width 0", "statement": "The iterator `pixels()` of the image crate, as modelled, yields each pixel of a picture exactly once, row by row, with its coordinates, whenever the picture has a column or at most one row; it panics at pictures with no columns and two rows or more. Hence for pictures of the first kind every codec writes what the claims about lists of pixels say, the Voronoi codec clusters exactly the points the iterator yields, and the error computed by the benchmark is the same. For a picture with no columns and two rows or more the hilbert codec, with any distance or zip, writes a file from which the picture comes back, while hufman, cluster-colors, voronoi, delta and both zip codecs panic, and so does the computation of the error. Of the lossless codecs this qualifies the claims about zip, which otherwise include empty pictures. The loops that draw pictures, `enumerate_pixels_mut` in the Voronoi decoder and `from_fn` in cluster-colors, give every pixel its own coordinates for pictures of every size and never panic by themselves.", "quantifier": "all pictures of any size including 0 in either direction, every codec and parameter, all setups", "why_tests_cant": "Tests use pictures that have pixels; the boundary is about degenerate sizes, and the order and coordinates are claimed for every size.", "anchors": ["src/codec/hufc.rs:Hufman::encode", "src/codec/zipc.rs:Zip::encode", "src/codec/clusterc.rs:ClusterColors::encode", "src/codec/clusterc.rs:VoronoiCluster::encode", "src/codec/hilbertc.rs:Hilbert::encode", "src/bench.rs:compute_error", "src/codec/clusterc.rs:VoronoiCluster::decode"]}
