# Formal model of demixer in Lean 4

`lean/Verif/` holds a function-by-function model of the Rust crate in `/repo`
and machine-checked proofs of the properties of `properties.jsonl`.
`MANIFEST.json` maps each property to its theorems.

## Layout

| directory | source modelled | properties |
|-----------|-----------------|------------|
| `Rust.lean` | integer ranges, wrapping, panics | – |
| `Bits.lean` | `src/bit/mod.rs` | – |
| `Text.lean` | `{}`, `{:b}` and `{:x}` of integers | – |
| `Coding/` | `src/coding/*` | C01–C06, C83, C88, C90–C92, C95, C97 |
| `Fixed/` | `src/fixed_point/*` | C06–C09, C46, C62 |
| `Log2/` | `src/lut/log2.rs`, `src/lut/cost.rs`, `src/estimators/cost.rs` | C10–C12, C45 |
| `Est/` | `src/estimators/*`, `src/lut/estimator.rs` | C13–C17, C71, C94 |
| `State/` | `src/history/state/*` | C18, C19 |
| `Util/` | `src/util/*` | C20–C23 |
| `Window/` | `src/history/window.rs` | C24–C26 |
| `History/` | `src/history/mod.rs`, `naive.rs`, `fat_map.rs` | C27, C28, C31, C32 |
| `Tree/` | `src/history/tree/*` | C29, C30, C33, C34, C51, C56–C61, C63, C79, C81 |
| `Lut/` | `src/lut/stretch.rs`, `src/lut/squash.rs` | C35–C37, C47, C72, C89, C100 |
| `Mix/` | `src/mixing/*`, `src/lut/apm.rs` | C38–C41, C48–C50, C64, C76–C78, C101 |
| `Random/` | `src/random/mod.rs` | C43 |
| `Float/` | float conversions of `src/fixed_point/mod.rs`, `next_real*` of `src/random/mod.rs`, the sum of `src/main.rs`, `{:w.p}` of floats | C65, C66 |
| `Pred/` | `src/predictor/*`, `src/lut/mod.rs`, the loop of `src/main.rs` | C42, C44, C52–C56, C63, C67, C73–C75, C77, C78, C82–C84, C86–C88, C91, C93, C95–C99 |
| `Bin/` | `src/bin/print_histories.rs`, `entropy_simulations.rs`, `bench_sigmoid.rs` | C68–C70, C80, C85 |

In each directory `Model.lean` (or `*Model.lean`) holds the transcription, with file and lines in each comment,
`*Spec.lean` the independent specification, `*Props.lean` the theorems named in the manifest, the other files lemmas.
Theorems that carry a property id in their name (`C29_tree`) are the ones claimed.

`Vectors.lean` evaluates the model on the concrete inputs and expected values written in `/repo/tests` and `Random/Vector.lean`
on the published random numbers. These are tests of the model, since the code itself cannot be run here; no claim rests on them.

## Modelling conventions

* Rust values of type `uN` are modelled as `Nat`, of type `iN` as `Int`; the range of each
  is enforced by explicit checks (`Verif/Rust.lean`).
* Every function that can panic (assertion, `unwrap`, slice index out of bounds,
  checked arithmetic overflow) returns `Option`; `none` is the panic. Arithmetic overflow of
  `+ - *` is a panic (the semantics of a debug build). When a model function returns `some`,
  release and debug builds agree, so each no-panic theorem covers both.
* `<<`, `as` casts and `wrapping_*` wrap like in Rust.
* I/O writers and readers are byte lists; a read past the end is `none`. `Coding/Io.lean` repeats the coder over any writer and
  reader, which may refuse a byte; C90 relates the two.
* `Vec`/arrays are lists. `Vec::with_capacity(n)` is assumed to give capacity exactly `n`. The code relies on it in
  `ActiveContexts::max_order` (capacity − 1), the loop of `MixersWithIndexer` up to the capacity, the node pool
  and `CollectedContextStates`. The standard library guarantees only "at least `n`".
* Mutable objects are structures threaded through functions. Shared references are copies.
* Loops with a data dependent number of rounds carry fuel; the theorems show that the fuel suffices
  (the tree walk has fuel 65536, more than the greatest depth a `u16` can hold).

## Trusted base

* The Lean 4.33.0 kernel. No `sorry`, `admit`, `native_decide`, `bv_decide`, no axioms of our own.
* Axioms, from `#print axioms` for each theorem in the manifest: `propext`, `Classical.choice` and `Quot.sound` for all
  except the following.
  * no axiom: `C03_empty`;
  * `propext` only: `C13_constant_half_wraps`, `C20_onto`, `C21_new`, `C28_neutralize`, `C34_root`, `C34_root_delete`, `C35_zero`, `C43_int63`, `C68_empty`,
    `C93_bits`;
  * `propext` and `Quot.sound`: `C06_final_probability`, `C07_panics`, `C09_flip`, `C09_flip_wide`, `C09_signed_flip_panics`, `C62_probabilities`,
    `C16_fixed_speed`, `C16_default`, `C16_new`, `C16_learns`, `C16_limits`, `C21_rejects`, `C21_bijection`, `C23_fnv_step`, `C24_bad_shift`,
    `C26_empty_suffixes_panics`, `C46_far`, `C89_domain`, `C90_writer`, `C90_limited`, `C90_reader`, `C90_written`, `C97_decoder`.
* The transcription of the Rust source into the model (each definition cites file and lines).
* `usize` is 64 bits. Memory allocation succeeds.

## Not modelled

* Printing and timing: the clock itself (its readings are parameters of C74, C84 and C85), `{:?}` of structures, the messages printed
  before a panic. The listing of the tree and its `fmt` implementations are modelled (C79).
* `f64::ln`, `exp` and `log2` of the platform. C72 takes any `ln` and `exp` with a given absolute error,
  C67 any `log2` with a given relative error; `C47_table` compares with the real logarithm.
* The hash map of the fat map source is an association by bucket; the hash function is an arbitrary parameter.
* Opening a file; the standard library's `BufReader` beyond its documentation (C93); failures of the standard streams.

## Plan per property

| id | what is modelled | how it is proved |
|----|------------------|------------------|
| C01 | `Encoder`, `Decoder` state machines over byte lists | refinement: emitted bytes + pending byte/run + buffer denote one natural number; interval invariant; decoder buffer = code value − low |
| C02 | same, every overflow and assertion explicit | same invariant, plus "a second carry cannot hit a pending 0xff" |
| C03 | same | induction over events, counting shifts; product of ranges; lower and upper bound in bits with `Real.logb` |
| C04 | coder driven by an arbitrary model | corollary of the step lemma of C01 by induction generalised over the model state |
| C05 | `Decoder` on arbitrary bytes | invariant on range only; a decoder is a reader of a list, extending the list commutes with each step |
| C06 | `FinalProbability`, `to_fix_u32` | arithmetic |
| C07 | `fix_*::scaled_down` for six widths | arithmetic on floor division |
| C08 | `fix_*::mul` | from C07 |
| C09 | `flip` | arithmetic |
| C10 | `Log2Lut::new`, `log2` | whole table checked by kernel computation against exact powers, lifted to the reals |
| C11 | `estimate_cost` | table facts and arithmetic |
| C12 | `CostTracker` | arithmetic, induction over updates; convergence stated for costs below two bits, since the state saturates there |
| C13–C15 | `DeceleratingEstimator` and its rate table | invariant, simulation, error recurrence. C15 compares with (zeros + 1/2) / (bits + 1), the fixed point of the recurrence, for up to 1001 bits, after which the rate no longer falls. `C15_step` is the law of one step for any number of bits, `C13_any_rates` covers every rate table from `make(factor, addend)` without a rate above one half at the start and one third later |
| C16 | `FixedSpeedEstimator`, with the accepted starts, the learning step and the limits (`Est/FixedProps.lean`) | invariant; one step by linear arithmetic; the limits are reached after 1000 equal bits |
| C17 | estimator caches | induction over run length |
| C18, C19 | bit history trackers | invariants tying the packed word to the bit list |
| C20 | quantizer | bucket boundaries by arithmetic: monotone, steps of at most one, onto |
| C21 | indexers | mixed radix induction |
| C22, C23 | last bytes cache, hash | invariant; injectivity; separation by kernel evaluation over all earlier bytes |
| C24–C26 | input window | refinement to a queue; refused operations case by case (`Window/IllegalProps.lean`) |
| C27 | naive source | refinement to `specGather`, a specification on the list of bytes seen; what the methods of a state read follows from the replay (`ReadProps`) |
| C28 | fat map source, hash function arbitrary | invariant: bucket contents determined by the text; equal to C27 up to cost trackers, exactly with default ones |
| C29 | tree source while the input fits in the window | representation invariant `Flat`: each node is a branching context of the text, each active context the longest suffix; every step (split, extend, degenerate prefix) preserves it |
| C30, C51 | tree source, any length | invariant `WindowState` preserved by removal of the oldest suffix; statistics known up to "some suffix of the occurrences"; `C30_places` reads the places of the contexts off the invariant |
| C31, C32 | context states | induction over occurrences; for the tree from C30 (`Tree/PrefixProps.lean`) |
| C33, C34 | node child encoding, node pool | bijection; allocator invariant (live set, free list) |
| C35–C37 | stretch and squash tables | kernel evaluation of the entire tables, interpolation lemmas |
| C38–C40, C48 | mixers | invariants over histories of calls; protocol automaton; sign argument |
| C41, C49, C50 | APM and its weight and rate tables | invariant and whole-table facts |
| C42 | statistics of the predictor | sums over a specification of the bits and contexts fed |
| C43 | Mersenne Twister | refinement of the block generator to the word recurrence; no orbit reaches the zero state |
| C44 | predictor | composition of all of the above by an invariant over the whole state |
| C45 | cost table for new contexts | induction on run length |
| C46 | conversions of fixed point formats | arithmetic |
| C62 | add, sub, neg, trunc, sign conversions | arithmetic |
| C47 | stretch and squash against `Real.log`, `Real.exp` | error analysis of the squaring loop, chord bounds, relative round trip error by kernel computation over the whole squash table; in the middle from C100 and the accuracy of stretch (`Lut/LogitProps.lean`) |
| C52 | construction of all tables | kernel computation |
| C53, C54 | predictor with coder | C44 and C04, C03; the client that joins predictor and coder is ours, the program only estimates the size |
| C55 | whole predictor against `Pred/RefSpec.lean` | simulation: arrays and indexers hold the functions of the reference, pending state is what the reference keeps in `Opinion` and `Verdict`; side conditions from the invariant of C44 |
| C56 | sources with cost trackers, predictor on any source | ideal source `History/Ideal.lean` remembers all bits and supplied trackers; the invariants of C28 and C29 hold for a predicate relating string, bits after it and trackers; simulation of the reference predictor |
| C57 | the tree's own integrity check (`check_integrity_on_next_byte`, `ActiveContexts::check_integrity`), run after the start of a byte | generic theorem about the traversal: every child of every live node is handled exactly once, fuel = number of nodes; each assertion follows from the invariant of C30 |
| C58 | live node count, same traversal | the pool holds as many live nodes as there are branching strings; the traversal visits each once |
| C59 | the same checks, on arbitrary node pools; specifications `Unfolds` (a finite tree reached from a child code) and `Follows` (the way of a suffix down the tree) | both directions: the traversal finishes within its fuel exactly on finite trees (distinct leaves bound the number of nodes); the counters count leaves; a text comparison is an equality of bits of the window; the walk of a suffix (specification `Follows`) by induction on the unfolding; the youngest suffix forces the text of the root to be the last byte, so that all walks end there |
| C60 | repeated `remove_leftmost_suffix` on the state after a whole byte | induction over the removals with the invariant of C30; the last removal ends in the state without a tree. `C60_integrity`: the integrity check that the test runs before every removal, with the bit index set to 7 by hand; besides the invariant of C30 it needs that the text of the root is the current byte at all times |
| C61 | two tree sources; specification `Shape`, an algebraic tree without node numbers, positions counted from the window start | both trees have the shape of C30; a node is determined by its label, induction on what is left of the maximal depth. Contexts are compared by `SamePlace` (`C61_contexts`): depth and shape of their node, leaf or not, age of the suffix, and the direction if they are in a leaf. The direction of a context that is not in a leaf can differ for equal windows; an example in `Tree/ContextProps.lean` shows it. So the assertion at `tests/sliding_window_trees.rs:449-456`, which compares it for all contexts, would fail for such inputs; the code uses the direction in a leaf only. The root's text is not compared |
| C63 | tree source and predictor for inputs of any length; specification `Tree/MemoSpec.lean`: one record (bits, trackers) per bit string, a count per order | the invariant of C30 for a predicate saying that a node's statistics are those of the record of its string and that the count of an edge context is that of the memory; simulation step by step, then the reference predictor of C55 on either source |
| C64 | APM; specification: complemented calls (`ApmEvent.flip`), `OffStops` | two maps side by side: entries stay exactly complementary, the interval of the complemented input is the mirrored one, the two weights add up to 2^31 within 2, so only rounding remains; a computed history for inputs on a stop |
| C65 | `Float/Model.lean`: finite floats as rationals, rounding to nearest even with gradual underflow, overflow is `none`; `Float/Spec.lean`: numbers with 53 (24) bits and "nearest" | rounding is the identity on representable numbers, gives a nearest one and is monotone; powers of two scale exactly; scale and bounds of each format in `FormatProps` |
| C66 | `next_real1`–`3` on the generator of C43 | exact products; for `next_real1` monotone rounding and the value at the largest argument |
| C67 | the loop of `main.rs` in floating point | induction with a relative error bound per addition; `(1 + u)^n ≤ 1 + 2 n u` |
| C68 | `print_histories.rs` for the three sources; specification: the histories of all contexts from the file alone | the invariants of C27–C29 give each source's states; a line is a function of them |
| C69 | `entropy_simulations.rs` with floats as in C65; `exp` and `log2` of the platform are parameters | loop invariant: accumulated rounding, counts, estimator state since the last restart, cost within two units per bit; the report by error bounds of each float operation; the overhead by C71 for each run and Gibbs' inequality |
| C70 | `bench_sigmoid.rs`; the recursion carries a depth limit | case distinction per random word; counting preimages; sums by induction; the run by kernel computation from the recurrence of C43 and closed forms of squash and stretch |
| C71 | estimator and range coder as modelled; a client that connects them (`packEst`, `unpackEst`) is specification, not code of the repository | each prediction is within a rounding error of (zeros + 1/2)/(n + 1), by the error bound of C15; the ideal estimator's regret by induction with an inequality for log Γ-like products (midpoint bound on integrals of 1/x); rounding costs summed; then C03 (size) and C01 (round trip) |
| C72 | the constructors of the stretch and squash tables with their float arithmetic (`Lut/SelfCheck.lean`); `ln` and `exp` are parameters | each float operation is within an ulp of the real one; with the table errors of C47 the sum stays below the tolerance; the loops then agree with the integer-only model |
| C73 | the decompressor of C53 on arbitrary bytes | each call of the predictor is allowed by the protocol of C44 whatever the bits are, and the decoder stays in range (C05); reading is a `Reader` in the sense of C05, which gives prefix and panic; truncation follows with the round trip of C53 |
| C74 | `main` and `estimate_compression` with all numbers of the report; `log2` and the clock readings are parameters | the sum of C67; each division is one rounding with relative error 2^-53 or exact by a power of two; mean context length and table cost from the run of the statistics (C54–C56) |
| C75 | the numbers in the two tables of the statistics | ranges of the counters from C54–C56, conversion to doubles exact below 2^53, one rounding per division |
| C76 | rounds of the mixer (`Mix/RegretProps.lean`), costs in `Mix/RegretSpec.lean` | online gradient descent: the cost is convex in the stretched prediction, limiting weights to the box is a projection, roundings of the update and errors of the squash table (one-sided relative bound `C47_rarer`, from convexity of the logistic function) enter as explicit terms |
| C77 | rounds of a map (`Mix/LearnProps.lean`), guesses in `Mix/LearnSpec.lean`; the last stage of the predictor over a whole file (`Pred/LearnProps.lean`), contexts in `Pred/LearnSpec.lean` | potential: the ideal cost of all entries of listed contexts under their guesses. A right guess moves the two entries used by a share of their cost (weight of the interpolation), which pays for the bit; a wrong one costs at most 38 bits; rounding of the entries, of the blend and of the final average (Jensen) enter as explicit terms; then telescoping over the file and C54 for the coder |
| C78 | the same rounds and files as C77; lists of probabilities, allowances and ideal code lengths in `Mix/ProbSpec.lean` and `Pred/ProbSpec.lean` | potential: the relative cost of all entries of listed contexts under the probabilities of the list, with entries below 2^-20 counted as 2^-20 so that rounding of small entries does not matter. One step of 1/64 towards the coded bit pays its cost minus the ideal code length up to (1-r)/(63 r) (Jensen with the weight 1/(64 r)); the entry that is not weighted by the interpolation can raise the potential by at most 1-r. `Payer` in `Mix/ApmProb.lean` is the common interface of guesses (C77) and probabilities |
| C79 | `Tree::print`, `print_node`, `fmt` of nodes, indices and contexts (`Tree/Print.lean`); the specification writes the lines with Lean's own strings (`Tree/PrintSpec.lean`) | both directions between printing and the inductive description `Draws`; equal text is taken apart at characters that cannot occur before them; the listing of the tree of an input by induction over the tree shape of C30: ages of leaves are sorted, labels of printed nodes are exactly the branching strings that C58 counts |
| C80 | the text of `print_histories.rs` rendered from the numbers of C68; the specification writes it with Lean's own strings | C68 gives the numbers; text is read from the front: the header of a byte has a known length, a line starts with the number of its bit, numbers contain neither commas nor line breaks |
| C81 | the rounds of the loops of the tree, counted beside the calls of `feed` (`Tree/WorkProps.lean`); the rounds of the walk to the oldest leaf are the least fuel with which its model ends | the walk goes down labels of growing length, at most `8 * maxOrder + 7`; contexts are at most `maxOrder + 1` by the invariant of C29; a bit makes only strings branch that end where the history ended, one for each order |
| C82 | the sum of table costs of `tests/coding_symbols.rs` (`Pred/TableEstimate.lean`) beside the encoder of C01 | C10 gives each cost up to 1/1024 bit, C03 the size of the output; for moderate probabilities the rounding of an interval costs at most 1/4096 bit; the limit is a concrete run of the encoder with a bound of the sum from the general lemma; longer inputs by the size of C88 (`Pred/TableLong.lean`) |
| C83 | the encoder of C01 and the client of C53; outputs are compared in the order of Lean's lists (`Coding/OrderProps.lean`, `Pred/OrderProps.lean`) | the output is the lower end of the exact interval in base 256; after the first difference the two intervals lie side by side and everything coded later stays inside them; lists of digits are compared through their values; equal bits get equal probabilities since the predictor is deterministic |
| C84 | the text of the report: labels, widths and decimals of each `println!` (`Pred/ReportText.lean`) on the numbers of C74; `{:w.p}` with an arbitrary rule for ties (`Float/Print.lean`); specification: reading the words of a text as decimal numbers, lines and columns | a printed number contains no gap and reads back as the nearest multiple of `10^-p`; the labels contain no numbers; errors add up with those of C74. Columns: the digits of a number counted from its end |
| C85 | the text of `entropy_simulations.rs` on the reports of C69 (`Bin/EntropyText.lean`) and of `bench_sigmoid.rs` on the checksums of C70 with the computation of the nanoseconds (`Bin/SigmoidText.lean`); the reader of C84, with signs | the text is cut at gaps into labels without numbers and printed numbers; the loops over powers, run lengths and tables become lists of numbers; four roundings for the nanoseconds |
| C86 | `print_state` of `src/predictor/stats.rs` as text (`Pred/TableText.lean`) on the numbers of C75; the reader and the lines of C84 | a text is cut into lines at its line feeds, no field contains one; the fields of a cell have fixed widths for counts and costs that fit; the report text of C84 ends with the text of the two statistics |
| C87 | the client of C53; the set of all files of a size (`Pred/LimitProps.lean`) | prefix freedom from the round trip with trailing data; the Kraft inequality of Mathlib; Gibbs' inequality for the entropy; growth from the decoder's consumption (C73) and from C78 with even odds in every context |
| C88 | encoder and decoder of C01, client of C53 (`Coding/LongProps.lean`, `Pred/LongProps.lean`) | every step of the encoder either keeps the representation of the exact interval or stops with a full counter of pending bytes, read off the value of the pending digits; the failing input is a loop of two events that adds one pending byte; files of a billion bytes by the price of even odds (C78), which bounds the output below 2^31 bytes |
| C89 | `onePlusLog2`, `stretchLog2` (`Lut/LogProps.lean`) | induction over the squarings: each rounding moves the logarithm by at most 3/2^31, doubled with every later step; the bits are the leading digits of the logarithm; the last rounding to 25 bits saturates just below one, which costs at most one unit |
| C90 | the coder with any `Read` and `Write` (`Coding/Io.lean`, `Coding/IoProps.lean`), a second transcription of the coder with the byte loops written out | simulation: every step of the coder with a writer is the step of the coder with a list, and the writer takes the bytes the list grew by; likewise for the reader; position of the reader from the exact interval |
| C91 | no new code: C04, C73, C77, C78, C83 and C87 without the bounds of 87.5 million bytes and 700 million bits (`Coding/LargeProps.lean`, `Pred/LargeProps.lean`) | exact interval of C88 instead of the bounded round trip; a bound on estimate and loss below 2 GiB gives that the encoder finishes |
| C92 | the encoder when a write fails (`Coding/Unwind.lean`): a third transcription in which a panic keeps the state and `Drop` runs on it | simulation with the coder on a list, up to the first refused byte (`Coding/UnwindProps.lean`); on a full device the fifth round of `Drop` at the latest writes and panics; the recovery that corrupts is a concrete run |
| C93 | `main` with the calls that read the file, both streams and the exit code (`Pred/Program.lean`) | induction over the calls; the rest is C74 and C84 |
| C94 | `DeceleratingEstimator` beyond 1000 bits (`Est/LongRegret.lean`, nothing new modelled) | potential: 1002 times the cost of the predictions, each raised by 1002 rounding errors, under the fixed probability; each step pays for its bit up to the price of the raise. The first 1000 bits by C71 |
| C95 | coder and predictor on arbitrary data (`Coding/ExactProps.lean`, `Pred/ExactProps.lean`, nothing new modelled) | the decoder on any data stays inside the exact interval of the answers it gives: the data, continued by zeros, is the lower end of an interval of width one, to which the step lemma of C01 applies; the converse from the same lemma; order from the disjointness of the intervals |
| C96 | sizes of the lists of the predictor (`Pred/MemoryProps.lean`, counting functions only, nothing new modelled) | the invariant of C44 fixes the sizes of all tables in every phase; bounds of pool, window and contexts as in C81; states of contexts by induction over the calls |
| C97 | rounds of loops, counted beside the calls of the model (`Coding/WorkProps.lean`, `Pred/WorkProps.lean`; counting functions only, nothing new modelled) | encoder: bytes written, held back and delayed grow by one with every call of `output_byte`, and releasing turns held bytes into written ones; decoder: every round reads a byte; predictor: bounds of C81 in every phase, at most one state per order |
| C98 | the predictor with two settings of window and maximal order (`Pred/SettingsProps.lean`, nothing new modelled) | C56: as long as the window holds the file the predictions are those of the reference predictor on the ideal history, which has no window; a context of order `k` can have occurred before only after `k + 1` bytes, so higher orders change nothing; compression and decompression follow from the predictions |
| C99 | encoders and decoders used one after another on the same stream (`Pred/SegmentProps.lean`, only the composition is new) | induction over the streams with the round trips of C88 and C53, which leave trailing data unread |
| C100 | stretch and squash composed (`Lut/ComposeProps.lean`, nothing new modelled) | on the part of a segment of stretch that meets one cell of squash both are straight lines up to rounding, so the error is largest at the ends of the part; the kernel evaluates it at all ends (about 5600 parts each way), rounding is added by a linear inequality |
| C101 | mixers just made, inputs set once, then mixed (`Mix/FreshProps.lean`, nothing new modelled) | induction over the calls that set inputs keeps the weights; products with weight one are exact, with weight zero vanish; C100 for the squashed value |

Kernel computation here always runs over an entire table (`decide +kernel`), and a lemma lifts the result to every input;
it is used for `log2`, rates, stretch, squash, APM weights.

## Notes on single models

* Predictor: the constants of `main.rs` (window, `MAX_ORDER`, mode) are parameters; the theorems hold for window sizes up to
  2^31 and orders up to 8191. All three modes of the finalizer are modelled. Counters of type `u64`/`i64` bound the number of calls by 2^40.
* Tree: `PRINT_DEBUG` output is omitted. With `max_order ≥ 8192` a depth no longer fits `u16`; the theorems assume less.
* History sources return the list of collected states. Cost trackers are part of the state; C28 and C29 compare the states
  without them, C56 with them.

## Findings

Behaviour proved that a user may not expect; each has a theorem unless marked otherwise.

* Signed `scaled_down` by w − 1 bits returns 0 (`C07_top_shift_wrong`).
* `FractOnlyI32::flip` and `FractOnlyI64::flip` always panic (`C09_signed_flip_panics`); `FractOnlyU32::flip(0)` panics, hence `stretch(0)` too (`C35_zero`).
* `DeceleratingEstimator::make(1 − 2^-22, 0)` followed by a 0 wraps to 0 (`C13_make_wraps`).
* `DeceleratingEstimatorRates::make(0, 2)`, a constant rate of one half, makes the probability wrap after 22 zeros (`C13_constant_half_wraps`); the code never makes such a table.
* The cost tracker saturates at about two bits (`C12_converges` is limited to costs below).
* Stretch and squash are not monotone, off by one unit (`C35_not_monotone`, `C36_not_monotone`). Squash saturates beyond ±11.78.
  In the tails the table of stretch is coarse: at probability 1.5 · 2^-17 the error reaches about 1/8 (`C47_stretch_tails` gives the bound).
* An adaptive probability map with fixed weights treats the two bits differently for inputs exactly on a stop, such as probability 1/2 (`C64_on_stop`); off the stops it is symmetric (`C64_complement`).
* An input window whose shift equals its maximal size is accepted but panics on the first advance (`C24_bad_shift`).
* `for_each_suffix` panics on a fresh empty window with shift 0 (`C26_empty_suffixes_panics`).
* The estimator recorded for a branching context forgets the leading run beyond 1000 occurrences (part of the specification of C27).
* The part of the tree's integrity check that follows each suffix down the tree looks at the root only: the start of a byte
  has just set the text of the root to the current byte, so every walk takes the early exit there, and the check passes
  whatever the other nodes are (`C57_suffixes_root_only`). For every node pool this part passes exactly if the root's text
  is the last byte and its depth is within the limit (`C59_suffixes`).
* The encoder counts the bytes it holds back for a carry in an `i32`; a run of 2^31 pending bytes `0xff` overflows it
  (`C88_panic_exists`, and nothing else makes it fail, `C88_panic_cause`).
* When a write fails, the encoder panics and its `Drop` writes again while unwinding. On a device that stays full this aborts the
  process (`C92_full`); on a device that recovers it can write one byte twice and lose another, since the counter of held back
  bytes goes down before each write (`C92_once`).
* `print_histories` panics on an empty file (`C68_empty`).
* Deleting the root breaks the node pool (`C34_root_delete`).
* The adaptive probability map with rate limit 1 panics (`C41_fastest_rate_panics`).
* A mixer of size 0 cannot use the initialisers `DominantFirst` and `EqualSummingToOne` (part of `C38_new`).
* Statistics: bits without any context are not charged, so "Total cost (computed using LUTs)" understates the cost that
  `main.rs` computes; the last byte is never booked per symbol; printing by symbol covers codes 0 to 127 only; printing by
  context type panics if the maximal order is below 4 (`C42_*`).

## Seeded bugs

`seeded/LOG.jsonl` lists every edit made to a scratch copy of the model and the theorems that then fail. Edits that no
theorem noticed led to tighter theorems, or are marked as not changing behaviour on reachable states.
