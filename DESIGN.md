# Formal model of hkapp/cniic in Lean 4

## Layout

* `lean/Verif/Core/`   – calls, panics, writers with faults, byte readers, iterators.
* `lean/Verif/Model/`  – the model, one file per Rust module; each definition cites file and lines in `/repo`.
* `lean/Verif/Spec/`   – small specifications that do not mention the model (prefix codes, runs, windows, call syntax...).
* `lean/Verif/Proofs/` – helper lemmas.
* `lean/Verif/Props/`  – the property theorems `Cxx_*`, their non-vacuity examples, and negative results.

## How the code is modelled

* A function that mutates state and may fail is `Proc ε σ α := σ → Ret ε α × σ`, where `Ret` is `ok`, `err` (Rust `Err`/`None`)
  or `panic`. The `?` operator is monadic bind, `unwrap` turns `err` into `panic`. State changes made before a failure are kept.
* `io::Write` is a `Sink`: bytes that reached the device, a call counter and an arbitrary fault schedule saying at which
  call the device fails and how many bytes of that call it still accepts. Theorems quantify over the schedule (crash points).
* `Iterator<Item = u8>` passed to a decoder is the list of the bytes still to come; iterators stacked on one another
  (bits, symbols, decoded bytes, colours) are state machines with a `next`, so laziness and "how far does the
  consumer read" are visible.
* Machine integers are `UInt8/16/32/64`, `Int16` where width matters (bits, serialization, symbol numbers, run counters,
  voronoi distances); `usize` is 64-bit. Counters that cannot overflow (list lengths, frequencies) are `Nat`.
* `HashMap` iteration order and `BinaryHeap` tie-breaking are parameters constrained only by the documented contract
  (some permutation; pop returns a maximum). Theorems quantify over them.
* `rand` choices are parameters.
* The Hilbert traversal comes from the external crate `zhang_hilbert`; it is a parameter assumed to enumerate each
  cell of the rectangle exactly once.
* Finite `f64` values are the rational numbers they denote. The arithmetic operations are a parameter (`FloatOps`) constrained
  by the relative error of IEEE 754 round-to-nearest (`FloatOps.Lawful`); no overflow, subnormals or NaN arise from 8-bit
  channels. The allowance comes from outside and may be any `f64`, including infinities and NaN.
* Clustering (`kmeans.rs`) is generic. The point type with its distance and mean, the sorting function (any function
  returning a sorted permutation), the float square root giving the shortest list (any function of the cluster count) and the
  random numbers (any sequence) are parameters, collected in `Kmeans.Env`. A distance is a finite rational or `none` for a
  panic. The `while` loops take fuel; running out of it is `err`, so "whenever clustering returns" is `cluster … = .ok …` for
  some fuel (`C63_outcome`: more fuel never changes a result). The statistics that `assign_points` prints
  are in a model of their own (C99).
* `measure_all` (`bench.rs`): the work on one image is a function (`measureOne`); what `image::open` returns and whether a
  picture can be saved are inputs. The workers that share the report file are a transition system (`Bench.Step`): at most
  one worker holds the lock, a worker that holds it makes one step per record. A failing write of a record has no effect
  on the file (buffering inside the `csv` crate is not modelled). Work that panics does so before it takes the lock.
  `Run.Step` adds the files: a path leads to a file (several may lead to the same one), reading an image and saving a picture
  are single steps (a half-written picture is not modelled), and what is read later depends on what was saved before. C50 and
  C64 - C67 take what is read as given.
* `main.rs`: the arguments are lists of characters; the result of `main` is the task it starts or the message it panics
  with. The file system seen by the export of traversals is a function from paths to lists of records; opening images and
  creating files succeed or fail as given by a parameter (`Disk`). Paths are Unix paths as strings. The text of an `f64` is
  a parameter (`ShowsF64`: injective, made of the characters Rust uses). `Main` puts both parts together as a relation between
  the files before and the exit and files after. Reports, traversals and pictures are kept apart there. A panic in one image
  may leave out images that no worker has begun, but not those begun (what rayon does is assumed here, not modelled), and a
  run with an endless clustering has no exit.
* The clustering codecs (`clusterc.rs`) instantiate that model with the two point types. All their unsigned arithmetic has
  a flag `chk`: with it an overflow is a panic (debug profile), without it the result wraps around (release profile). The
  `HashMap` from colours to new colours is a list of pairs in which the last one for a key counts. Their distances are
  rounded, so the triangle inequality used by the shortcuts does not hold exactly; `Proofs/Prune.lean` derives from
  `FloatOps.Lawful` that a computed distance is within 2^-40 of the root of an integer and that this suffices.

## Plan per property

| id | modelled | proof |
|----|----------|-------|
| C01–C03 | `bit.rs` on `UInt8` with shifts and masks | invariant of the writer state (pending bits = low bits of `curr_bits`), induction on operations |
| C04–C07 | `ser.rs` type classes, `SerStream`, `deser_stream` | algebraic laws per type, lifted through type constructors; strict-prefix rejection from consumption bounds |
| C08–C14 | `huf.rs`, `utils.rs` | tree build loop as a relation over any legal heap; code table = leaf paths; bit-level round trip; Huffman optimality by exchange argument |
| C15–C20 | `zip/dict.rs` including trie, nodes with two representations | refinement trie → finite map; lock-step simulation encoder/decoder; greedy match lemma |
| C21–C27, C53, C54 | `zip/back.rs` including ring buffer, index, read-ahead buffer | refinement to "history list"; index invariant across wrap-arounds; longest-match lemma; decoder simulation |
| C28–C33, C37, C39 | `codec/*.rs` encode/decode on an image model | composition of the above |
| C34–C36, C55, C56 | `AbstractRle`, `Exact`, `Approx`, `RleDecoder` | induction on the input; float rounding lemmas |
| C38 | all encoders in the `Sink` monad | compositional `Emits` predicate |
| C40–C42, C57 | `prs.rs`, `from_str` of every codec; regexes hand-translated to matchers | induction on the scanned characters; negative results by evaluation |
| C43–C46, C49, C58–C60 | `kmeans.rs` over an abstract point type and metric | invariants over iterations; triangle inequality |
| C47, C48, C61, C62 | `clusterc.rs` | from the k-means invariants and the Huffman round trip; modular arithmetic |
| C63 | two-cluster dynamics | a finite set of divisions of the colours that no step leaves and every step changes |
| C50 | workers of `measure_all` as a transition system, one step per access to shared state | invariant over reachable states; decreasing number of steps left |
| C51, C67 | `compute_error` with rounded arithmetic | relative error of sums of non-negative numbers |
| C64–C66 | the work on one image in `measure_all` | composition of C39 and C67; modular arithmetic |
| C68–C71 | `main.rs`, paths, names of codecs | characterisation of path components; invariants over the list of images |
| C72 | all codecs | distance of colours is a rounded root of a whole number; counterexample images |
| C52 | `hilbert.rs` | permutation and power-of-two lemmas |
| C73 | all codecs | each encoder sees the pixels only through `to_rgb` |
| C74 | all decoders | a reader that succeeds is local: it does not see what follows what it consumes |
| C75 | all decoders | a total description of the result on every input, written without the decoders' own state |
| C76 | `Delta::decode` | both builds are described by the same function of the bytes (C75) |
| C77 | all encoders | C11, C12 and fixed-length codes via Kraft; greedy runs stay ahead of any other runs; the formats of zip determine what is written |
| C78 | `hilbert(rle)` applied repeatedly | second-generation runs end at or after the first-generation ones; a bounded potential that grows until the picture is stable |
| C79 | `ClusterColors`, `VoronoiCluster` with extreme cluster counts | a state in which every point stays is returned after the first iteration; sums of two squares modulo 2^32 for the decoder of voronoi |
| C80 | termination of clustering | a potential: the sum over all points of the distance to the rounded mean, weighted so that rounding down does not raise it; it drops whenever a point moves |
| C81 | `measure_all` with the files it reads and saves | an invariant of `Run.Step`: inputs unchanged, outcomes as if alone, every saved picture accounted for; two complete schedules evaluated for each refutation |
| C82 | average colour and squared error of lossy pictures | both codecs replace groups of pixels by their rounded mean (C35, C47); the mean minimises the squared error of a group, rounding costs at most 1 resp. 1/4 per channel |
| C83 | `ClusterColors` on pictures of any size | C47 and C59 without a bound on the counts (`weight` is the count modulo 2^32); at most 2^24 colours, so no sum reaches 2^64 |
| C84 | recursion on code trees | weights in the heap grow like Fibonacci numbers with the height (`Balanced`); `deFuel` counts nested calls |
| C85 | the program as a whole | cases of `Main` reduced to C50, C68, C81; completeness from `Run.inTurn` and C50_ends |
| C86 | `print_stats` of `zip/dict.rs` | depth-first visit = nodes with their paths; every node of an encoder's trie is a proper prefix of a key; doubling of a constant input |
| C87 | `i32` counters of `kmeans.rs` | simulation of the loop with a counter; a list is replaced at most once per pass; downward induction from 2³¹ |
| C88 | `Drop for TrieMap` | the loop is the traversal of C86; nesting depth is the length of the longest path, i.e. of the longest key |
| C89 | all decoders on hostile files | bounds on the descriptions of C75 by induction on the file; explicit files built from pairs of symbols and periodic copies |
| C90 | all lossless codecs | C39 and C74 give prefix-freeness; Kraft's inequality over bytes, then Bernoulli for the average |
| C91 | hufman, delta, cluster-colors | C77, then Shannon's bounds on the least number of bits: Gibbs's inequality below, lengths ⌈log2(n/count)⌉ above |
| C92 | measureOne, the program; cluster-colors | C77 and C39 for one image, C85 for the program; counterexamples: rounding down empties two of five clusters, and the random choice of new centroids decides |
| C93 | a debug build that does not panic and a release build agree: encoders, decoders, parser, rows, program | the relation `a = panic or a = b` is kept by sequencing; arithmetic, k-means, parser, export and runs in turn |
| C94 | what the size of a file does not depend on | the least number of bits of a prefix code and the least number of runs are invariant under bijections of the symbols; differences commute with exchanging channels; refutations by kernel evaluation |
| C95 | the rules of the Makefile against the names of the reports; the wrong backup for voronoi | names of codecs (C71), selection (C42) and effects of the program (C85) composed along the recipes |
| C96 | files read with another codec than the one that wrote them: which are refused, which are misread | shapes of the files (`file_shape`) read with the characterizations of C75 |
| C97 | The test of the certainty radius is a duplicate of the loop within one pass, but removing it changes results | induction over the sorted neighbour list; parallelogram law for ties; evaluation of a counterexample |
| C98 | The graph of the neighbour lists is connected for at most five clusters, may fall apart for six, and then no point crosses | counting the clusters of a side against the least list length; induction over the pass; evaluation of a witness |
| C99 | The statistics of `assign_points`: they change nothing, never fail, and are what they say | induction over the loop with all counters; the pass without them is the existing model |
| C100 | Periodic data of n bytes become O(log² n) bytes with the dictionary; one-colour pictures of any size at most 20740 bytes | pieces that start at the same place of the period are equal; strong induction over the bytes left with the chain of the latest long pieces: once it closes to a cycle each round halves the number of pieces or doubles their length |
| C101 | zip-back looks for repetitions only at powers of two: what is found, what is missed | inductions over the factorization of C22; uniqueness of the factorization |
| C102 | allowance against file size: never worse than exact runs, not monotone | a greedy group that starts inside an exact run reaches its end; explicit family of pictures |
| C103 | the console output of zip-back: lengths add up, a positive number of places means a copy, the panic names its length | printed trace next to the symbols (`Says`); induction over it |
| C104 | the index of zip-back: bounded memory; when the filter of the newer map is needed | exact contents of both maps by induction over the bytes; encoder states are made by writes only |
| C105 | the bit writer without its mask; single bits least significant first | relation of writers that cannot be told apart; state = the last eight bits |
| C106 | nested calls of the dictionary decoder: exact number for every stream, two for written ones, unbounded for crafted ones | decoder with a call budget; invariant of the dictionary as in C20; simulation for the codecs |
| C107 | leaving out pixels and merging colours never enlarges hufman and exact-run files, cluster-colors never exceeds hufman; false for the other lossless codecs | a prefix code for the old pixels gives one for the new ones (shortest code among the merged colours); runs shortened one by one; concrete pictures for the rest |
| C108 | colours and sizes can be edited in files; smaller sizes are not noticed | the characterisations of C75, and that trees, runs and centroids are read independently of the colours in them |
| C109 | zip-back data can be joined, so every picture has a zip(back) file; zip-dict data cannot | symbols mean the same after a longer history; the dictionary after compressed data, whose entry 256 is known |
| C110 | the only unsafe block is never undefined behaviour | a model with undefined behaviour as an outcome; case analysis and induction over the alternatives |
| C111 | which worked examples of the README are right | evaluation for the examples; induction over the factorization, the grouping and the parse for the general statements; optimality of the code for delta |
| C112 | no copy zip-back writes is a loss; shorter ones would sometimes gain | induction over the symbols with the cost of a header carried along; an explicit factorization for the counterexample |
| C113 | what a damaged file still shows | prefix laws of the decoded meaning (C75) for what is before the damage; form of the written file (C108) for runs; first minimum of a changed list for centroids |
| C114 | what a pass of clustering does to the error | weighted squares around any number as a quadratic polynomial, with the mean rounded down: the excess is 2rd - Wd^2; assignment via the sum over moves of C80; witnesses evaluated by the kernel |
| C115 | freeing code trees | a tree that was read is lower than the room there was, by induction over the room; all blocks that end with freeing it are then unchanged |
| C116 | lengths of single codes | exchange arguments on a tree of least cost (C11): a node is not heavier than its parent's sibling, swapping two lengths, or moving a leaf down and two up, keeps Kraft's sum |
| C117 | the console output of zip-dict | a content is an array exactly from 65 entries on, and an insertion adds as many arrays as it prints lines; sum over the nodes of the trie |
| C118 | the two calls of `new_iter` in `encode_all` | the run unfolded into tree, second call and payload; an item without a code makes the payload loop panic on every device |
| C119 | sizes of hufman and delta files with a background | a 1-bit code word can be split off and put back, so best codes of the whole and of the rest correspond; 1 bit from C116 |
| C120 | the benchmark when prints fail | the run with failing prints mirrors one in which those images panic or have returned `Err`; C50 for that one |
| C121 | how many pictures have short files | Kraft's inequality for the files, which form a prefix code (C90); sizes from C77 |
| C122 | damaged Huffman bits | what is read depends on the remaining bits only (C75); with all codewords of length L (C116) every group of L bits is a codeword |
| C123 | the beginning of a file depends on the beginning of the picture | the greedy runs, the longest known sequences and the longest copies are determined by a bounded part of the input that follows; induction over the runs, pairs and symbols |
| C124 | what changing a few pixels costs | a changed pixel splits one run in three; the old code still works for the changed picture and the new one is at least as good (C77), with codewords bounded by Fibonacci numbers (C84) |
| C125 | cutting a picture into pieces | the pieces can use the code of the whole; the whole can use both codes with one bit in front, the shorter codeword for common colours; a cut splits at most one run |
| C126 | where decoding leaves the reader | each stream of a decoder reaches a state with exactly the following bytes after the items of the picture; fewer than eight bits of padding, whole pairs, whole runs |
| C127 | the bytes that decoding consumes | every iterator of a decoder, run with and without further bytes: either the runs agree and the further bytes are untouched, or the first one wanted more and the second one takes some; this is kept by every combination that the decoders use |
| C128 | files on targets where usize is narrower | the decoders for a `usize` of w bits: each reader that succeeds with 64 bits succeeds with w bits in the same way, since a colour needs the length 3 and the points of a voronoi file are at least as many bytes; own hilbert zip files by the colours their dictionary decoder yields |
| C129 | the iterators over the pixels, and pictures of width 0 | the state of the iterator after i pixels is the cell number i, with the end of a row counted as the start of the next; at width 0 its first step leaves the first row, where the second row has no pixel |

## Trusted base

What has to be believed in order to believe the theorems:

1. **Lean's kernel** (4.33.0), and Mathlib only as a source of kernel-checked lemmas (`Core/FloatLaws`, `Core/Ieee`,
   `Spec/Approx`, and the proofs about rounding and distances; `Spec/Entropy` and its proofs, for real logarithms; a few
   counting lemmas).
2. **Axioms.** Nothing beyond Lean's own three is used: no `sorry`, no axiom of ours, no `native_decide`, no `bv_decide`.
   Per theorem (written by `tools/axioms.py`):

<!-- axioms -->
* `propext, Classical.choice, Quot.sound`: all 496 theorems `C…` not listed below.
* `propext, Quot.sound`: `C01_lsb_unaligned_byte_panics`, `C01_lsb_writer_loses_bits`, `C01_padding_is_ambiguous`, `C03_join_split`, `C03_split_join`, `C06_char`, `C06_char_round_trip`, `C07_ser_stream_bad_char`, `C08_empty_input_panics`, `C100_pairs`, `C105_arrays`, `C106_exact`, `C118_same`, `C119_bound`, `C126_others`, `C126_same`, `C127_painted`, `C128_wide`, `C129_drawn`, `C129_pixels`, `C129_points`, `C13_enumeration`, `C13_paths_distinct`, `C13_paths_lead_to_leaves`, `C20_damaged_input`, `C20_odd_symbols_panic`, `C29_differences_fit`, `C34_runs`, `C34_unique`, `C37_refuted`, `C40_non_ascii`, `C40_unique`, `C42_first`, `C46_grows`, `C50_ends`, `C50_progress`, `C50_report`, `C52_linearize_large_overflow`, `C57_overflow`, `C74_incomplete`, `C75_cluster_colors`, `C75_zip_back_total`, `C93_decode`, `C96_parameters`.
* `propext`: `C111_dict`, `C42_all_failed`.
* `none`: `C04_colour_takes_11_bytes`, `C110_assertion`, `C110_merged`, `C110_stack_error`, `C110_then_try`, `C111_differences`.
<!-- /axioms -->

3. **The model says what the Rust code does.** Each definition cites the lines it stands for; the model was written by
   reading, the program was never run. Three things check it: the 84 unit tests of the program, with the values they assert,
   hold of the model (`Verif/Tests/Repo.lean`); every definition was damaged on purpose and the theorems noticed
   (`seeded/LOG.jsonl`); and the examples beside the theorems.
4. **The assumptions on what comes from outside**, which appear as hypotheses or fields of structures:
   * `MinHeap` – `BinaryHeap`: `pop` returns a greatest element, nothing is lost;
   * `IsOrder` – iterating over a `HashMap` gives each entry once, in any order;
   * `VisitsOnce` – the crate `zhang_hilbert` visits each cell of a rectangle once (C52 treats the part of `hilbert.rs`
     that is in the repository);
   * `FloatOps.Lawful` – `+ - * / sqrt powi` round to nearest, integers up to 2⁵³ are exact; met by `Ieee.ops`, a complete
     model of rounding to 53 bits (`Ieee.lawful`), which has no overflow and no subnormals, neither of which can arise here;
   * `IsSort` – `sort_unstable_by` returns a sorted permutation;
   * `Addressable` – the RGB buffer of the picture, 3·width·height bytes, is below 2⁶³ bytes. "Every picture" in the
     claims means this wherever a file is decoded; a picture in memory has to meet it (C89 says what decoders do otherwise);
   * `Setup.Lawful.cap` – the capacity of a `Vec` is at least what was reserved;
   * `ShowsF64` – printing an `f64` is injective and uses the characters Rust uses; `f64::from_str` is its inverse where
     used;
   * `Disk`, `Job`, `Host` – what `image::open`, `File::create` and saving return, and which file a path leads to, is
     arbitrary; a file changes only by saving a picture in it.

What is modelled: every function of `src/` that is not a test (and not `bench::measure`, see below). Trivial wrappers are merged into their callers
(`BitArray` accessors, `into_inner`, constructors of iterators, the macros of `codec.rs`, `Matrix` for images). Besides, the
recipes of the `Makefile` that run the program and the choice of files in `scripts/` (`Model/Makefile.lean`, C95).
Five places are modelled a second time in more detail: `ParseAlternatives` with its assertions and its `unsafe` block
(`Model/Alternatives.lean`, C110), the calls of `new_iter` in `encode_all` (`Model/Twice.lean`, C118), the bytes left in the
reader after `decode` (`Model/Position.lean`, C126, C127; after a panic they are not meaningful), reading lengths where `usize`
has any number of bits (`Model/Narrow.lean`, C128), and the iterators over the pixels of a picture (`Model/View.lean`, C129).

What is not modelled:

* memory: allocation failure and the depth of the stack. The exceptions are the size of an image buffer, which panics from
  2⁶³ bytes on, reading and writing code trees and the calls of the dictionary decoder to itself with a limited number of nested calls
  (`Model/Depth.lean`, C84, C106; that the compiler does not turn `self.next()` of dict.rs:211 into a loop is assumed there),
  freeing the tries of the dictionary coder (`Model/DictDrop.lean`, C88) and freeing code trees (`Model/TreeDrop.lean`, C115; the
  code that the compiler generates for it is assumed to make one nested call for each child). Calls are counted, not the
  bytes of their frames;
* 32-bit targets (`usize` has 64 bits), except the lengths in files that are decoded (C128); encoders and the limit for image
  buffers are those of 64 bits there as well;
* console output (`println!`, `eprintln!`; these panic if the console cannot be written to, e.g. a closed pipe, which is left
  out, but for the benchmark: `Model/Console.lean`, C120), except what zip-back prints while encoding (`Model/BackNotes.lean`, C103) and what zip-dict prints
  (`Model/DictNotes.lean`, C117). The counters of `print_stats` in `zip/dict.rs` are modelled (C86), but the models
  of the codecs leave the call out: C86 says that this makes no difference in release builds and for pictures of up to
  195 225 785 pixels. Likewise the `i32` counters of `kmeans.rs` are modelled (`Model/KmeansCount.lean`), but the other models
  leave them out: C87 says that this makes no difference in release builds and for fewer than 2³¹ iterations, so "does not end"
  in other theorems means, for debug builds, "does not end within 2³¹ − 1 iterations". The numbers printed by `assign_points`
  are modelled too, and C99 says that leaving them out makes no difference. Also not modelled is
  `bench::measure` (bench.rs:113-121), which is not called;
* the inside of the crates `image` (a picture is its size and its pixels as seen through `GenericImageView`; a picture of
  width 0 and height ≥ 2 has no pixels in the model, whereas `pixels()` would panic: C129 says for each codec what that changes,
  with the iterators written down from memory), `csv` (a record
  is written or not; its buffering and the final `flush` are not seen), `rayon` (any interleaving of the workers), `regex`
  (the patterns are hand-translated into a small backtracking matcher, `Prs.Re`), `rand` (any sequence of numbers),
  `zhang_hilbert`;
* reading: the program only decodes bytes that are in memory, so an iterator over them gives these bytes and then `None`;
* writing: a device fails at any call after accepting any number of bytes of it (`Sink`); in the export of traversals the
  `csv` writer does not fail once the file is created;
* unwinding: a panic ends the call; what other threads see is part of the model of `bench.rs` only.
