{"id": "C01", "title": "Range coder round trip", "statement": "Encoding any sequence of events (bits with any probability each, and rare-event flags) with Encoder, dropping the encoder, and decoding the produced bytes with Decoder using the same probabilities returns exactly the same sequence of events, whenever the encoder finishes; it does unless its output has 2^31 bytes or more.", "quantifier": "every finite sequence of events on which the encoder finishes (all with fewer than 2^31 bytes of output), every probability in [1, 2^23-1] chosen per event", "why_tests_cant": "Input sequences are unbounded and the state depends on all of them; tests sample a few random sequences. Carry propagation over runs of 0xff bytes is astronomically unlikely in random tests.", "anchors": ["src/coding/encoder.rs: Encoder", "src/coding/decoder.rs: Decoder", "src/coding/mod.rs: FinalProbability"]}
{"id": "C02", "title": "Encoder and decoder never panic on valid use; decoder consumes exactly what the encoder wrote", "statement": "During such a round trip no assertion, unwrap or arithmetic overflow fires in either side (for fewer than 2^31 bytes of output, the range of the i32 run counter), and when the last event has been decoded the reader has been advanced exactly past the last byte the encoder wrote, whatever bytes follow.", "quantifier": "every event sequence of output below 2^31 bytes, every trailing byte string", "why_tests_cant": "The overflow of `last_output_byte + 1` depends on rare carry histories.", "anchors": ["src/coding/encoder.rs: output_byte, add_with_carry, drop", "src/coding/decoder.rs: input_byte, normalize"]}
{"id": "C03", "title": "Compressed size", "statement": "The encoder writes exactly 4 bytes plus one byte per renormalisation step, independent of carries; every event costs at most 3 bytes; the empty sequence gives 4 bytes. In bits, the size beyond the four final bytes is at most the sum of the information contents of the events for the share of the interval each is guaranteed (its probability, rounded down by at most a factor f/(f+1) for a 0 with probability f/2^23), and at least the sum for the largest share each can get less 31 bits.", "quantifier": "every event sequence", "why_tests_cant": "Input sequences are unbounded and the state depends on all of them; tests sample a few random sequences.", "anchors": ["src/coding/encoder.rs: normalize, drop", "tests/coding_symbols.rs"]}
{"id": "C04", "title": "Lossless coding with any adaptive model", "statement": "If the probability of each bit is computed by any deterministic model (state, predict, update) from the previously coded bits, then a decoder running the same model in lock step recovers the bit sequence, whenever the encoder finishes; it does for every sequence of up to 700 000 000 bits.", "quantifier": "every model type, every predict/update functions, every bit sequence", "why_tests_cant": "Quantifies over all predictors.", "anchors": ["src/coding/encoder.rs", "src/coding/decoder.rs", "src/predictor/mod.rs: Predictor"]}
{"id": "C05", "title": "Decoder is robust against corrupted streams", "statement": "Decoding any number of events from any byte stream that is long enough never panics, never overflows, and reads at most 4+3n bytes for n events; a too short stream makes it panic (unwrap on read_exact) and nothing else does. What follows the bytes read has no influence on the result. A stream cut short anywhere before its end makes the decoder panic and never yields wrong values.", "quantifier": "every byte stream, every sequence of decode calls", "why_tests_cant": "All byte streams.", "anchors": ["src/coding/decoder.rs"]}
{"id": "C06", "title": "Final probability is always usable by the coder", "statement": "Every FinalProbability made through the API lies in [1, 2^23-1]: neither symbol gets an empty interval, and converting any FractOnlyU32 to it never panics.", "quantifier": "every raw value that can be passed", "why_tests_cant": "2^31 inputs; and the consequence ranges over all coder states.", "anchors": ["src/coding/mod.rs: FinalProbability::new_unchecked", "src/fixed_point/mod.rs: to_fix_u32"]}
{"id": "C07", "title": "Fixed point rounding is to nearest, ties away from zero", "statement": "scaled_down(raw, s) for every width returns the integer nearest to raw/2^s, ties away from zero, except where adding one half saturates; for signed types it is an odd function. Rounded division by an integer behaves in the same way and panics exactly for divisors that are not positive.", "quantifier": "every raw value and shift", "why_tests_cant": "2^64 inputs.", "anchors": ["src/fixed_point/mod.rs: fix_*::scaled_down, fix_*::div"]}
{"id": "C08", "title": "Fixed point multiplication accuracy", "statement": "The product of two fixed point numbers is within half a unit in the last place of the exact product whenever the result type has no more fractional bits than the operands together, exact if it has more, and never overflows the intermediate type; it panics exactly when the result does not fit. The one exception is an unsigned product so large that adding half a unit leaves 64 bits, which needs 32 dropped bits or more and cannot happen for probabilities: the result is then one unit below the nearest.", "quantifier": "every operand pair and every combination of fractional bit counts", "why_tests_cant": "2^64 pairs.", "anchors": ["src/fixed_point/mod.rs: fix_u32::mul, fix_i32::mul, mul_wide"]}
{"id": "C09", "title": "Probability flip", "statement": "FractOnlyU32::flip and FractOnlyU64::flip map p to 1-p, are involutions on the open unit interval, and panic exactly on 0.", "quantifier": "every value", "why_tests_cant": "2^31 values.", "anchors": ["src/fixed_point/types.rs: FractOnlyU32::flip, FractOnlyU64::flip"]}
{"id": "C10", "title": "Base 2 logarithm accuracy", "statement": "log2 of any positive 32-bit fixed point number differs from the real base 2 logarithm by less than one unit in the last place plus the truncation of the mantissa (documented bound), is monotone in the argument, and never panics.", "quantifier": "every nonzero raw u32, every number of fractional bits", "why_tests_cant": "2^32 inputs against real-number mathematics.", "anchors": ["src/fixed_point/mod.rs: FixU32::log2", "src/lut/log2.rs: Log2Lut"]}
{"id": "C11", "title": "Bit costs are positive, bounded and monotone", "statement": "estimate_cost of a coded bit lies in (0, 23] bits for every probability and bit, cost of the less probable bit is never smaller, so a cost tracker update never panics.", "quantifier": "every probability, both bits", "why_tests_cant": "Ranges over 2^23 probabilities and all tracker states.", "anchors": ["src/coding/mod.rs: estimate_cost", "src/estimators/cost.rs: CostTracker::updated"]}
{"id": "C12", "title": "Cost tracker is a bounded moving average", "statement": "After an update the tracker lies between the old tracked cost and the new cost (up to one unit of rounding), never overflows 16 bits, and never drifts outside the range of costs that were fed.", "quantifier": "every tracker state, every sequence of costs", "why_tests_cant": "Input sequences are unbounded and the state depends on all of them; tests sample a few random sequences.", "anchors": ["src/estimators/cost.rs"]}
{"id": "C13", "title": "Decelerating estimator stays inside (0,1) and never panics", "statement": "From new(), after any sequence of bits the prediction is strictly between 0 and 1 and the count is min(limit, number of bits); update never panics. The same holds for every rate table made from a factor and an addend of at least 2 that sum to at least 3.", "quantifier": "every bit sequence", "why_tests_cant": "Input sequences are unbounded and the state depends on all of them; tests sample a few random sequences.", "anchors": ["src/estimators/decelerating.rs", "src/lut/estimator.rs: DeceleratingEstimatorRates::make", "src/bin/entropy_simulations.rs"]}
{"id": "C14", "title": "Decelerating estimator symmetry", "statement": "Feeding the complemented bit sequence yields exactly the complementary prediction and the same count.", "quantifier": "every bit sequence", "why_tests_cant": "Input sequences are unbounded and the state depends on all of them; tests sample a few random sequences.", "anchors": ["src/estimators/decelerating.rs", "tests/probability_estimators.rs"]}
{"id": "C15", "title": "Decelerating estimator computes the smoothed frequency of zeros", "statement": "For up to 1001 bits fed to a new estimator, the prediction equals (zeros + 1/2) / (bits + 1) up to an explicit accumulated rounding error, below 2^-14. After any number of bits, one more bit moves the prediction by the fraction 1 / (count + 2) of the distance to that bit (1 / (count * factor + addend) for other rate tables), up to 257 units of 2^-31, and never in the wrong direction.", "quantifier": "every bit sequence; the closed form up to the count limit", "why_tests_cant": "2^1000 sequences.", "anchors": ["src/estimators/decelerating.rs", "src/lut/estimator.rs"]}
{"id": "C16", "title": "Fixed speed estimator: range, symmetry and learning", "statement": "Every start but zero is accepted and is the first prediction. From any accepted start, after any bit sequence, no overflow occurs, the prediction is strictly between zero and one, and the complemented sequence from the complementary start gives the complementary prediction. One more bit moves the prediction towards that bit by 1/128 of the distance up to 2^-16. From default the prediction never comes closer to zero or one than 127/65536, and both limits are reached.", "quantifier": "every bit sequence, every start", "why_tests_cant": "Input sequences are unbounded and the state depends on all of them; tests sample a few random sequences.", "anchors": ["src/estimators/fixed_speed.rs"]}
{"id": "C17", "title": "Run caches agree with replay", "statement": "The cached estimator for a run of n zeros (or n zeros followed by a one, and mirrored) equals the estimator obtained by replaying those bits from new(), for every n the cache supports.", "quantifier": "every run length and bit", "why_tests_cant": "Whole table times all replay lengths.", "anchors": ["src/lut/estimator.rs: DeceleratingEstimatorCache, DeceleratingEstimatorPredictions"]}
{"id": "C18", "title": "Recent bits history is exactly the last 15 bits", "statement": "After any bit sequence the tracker stores exactly the last min(n,15) bits and that count; the run and new-node constructors equal replay.", "quantifier": "every bit sequence", "why_tests_cant": "Input sequences are unbounded and the state depends on all of them; tests sample a few random sequences.", "anchors": ["src/history/state/recent_bits.rs"]}
{"id": "C19", "title": "Bit runs tracker records the last three runs", "statement": "After any bit sequence the tracker reports the last bit and the lengths of the last three maximal runs, each capped at 1000; constructors equal replay; no field overflows into another.", "quantifier": "every bit sequence", "why_tests_cant": "Input sequences are unbounded and the state depends on all of them; tests sample a few random sequences.", "anchors": ["src/history/state/bits_runs.rs"]}
{"id": "C20", "title": "Occurrence count quantizer", "statement": "quantize is defined for every 16-bit count, monotone, changes by at most one between consecutive counts, is onto 0..=max_output, and a count falls in bucket k or higher exactly from the bucket's start 2^(k/2) or 3*2^((k-1)/2 - 1) on.", "quantifier": "every 16-bit count", "why_tests_cant": "Tests sample counts; the existing monotonicity test compares a value with itself.", "anchors": ["src/util/quantizers.rs:24-37"]}
{"id": "C21", "title": "Indexer is a bijection", "statement": "For any dimension sizes, the sub-index tuples in range map one-to-one and onto 0..array_size in lexicographic order; out-of-range or too many/few sub-indices panic; after get_array_index_and_reset the indexer behaves as new.", "quantifier": "all dimension lists, all tuples, all call histories", "why_tests_cant": "Infinite family of dimensions.", "anchors": ["src/util/indexer.rs"]}
{"id": "C22", "title": "Last bytes cache follows the input", "statement": "After any byte/bit history respecting the protocol, unfinished_byte, previous_byte(1..n) and the 16-bit hashes are the documented functions of the bits seen so far and no panic occurs; protocol violations panic.", "quantifier": "every bit history", "why_tests_cant": "Input sequences are unbounded and the state depends on all of them; tests sample a few random sequences.", "anchors": ["src/util/last_bytes.rs"]}
{"id": "C23", "title": "Context hashes separate contexts", "statement": "hash01_16 distinguishes every two (last byte, unfinished byte) situations; an Fnv1A step is injective in the state for a fixed byte and in the byte for a fixed state. hash01_16, hash02_16 and hash03_16 depend on the last one, two and three bytes and the unfinished bits, and on nothing else. After every history a last byte 0 or 1 makes all three differ; a second last byte 0 or 1 in front of 0x34 makes the second and third differ; a third last byte 0 or 1 in front of 0x67 0x34 makes the third differ. The second and third hash do collide for some other last bytes.", "quantifier": "all pairs of histories", "why_tests_cant": "All pairs; the tests sample histories at random, and the collisions show that separation is not automatic.", "anchors": ["src/util/last_bytes.rs: hash01_16, hash02_16, hash03_16", "src/util/hash.rs"]}
{"id": "C24", "title": "Input window is a bounded queue", "statement": "Under any legal sequence of advance_cursor, advance_start and set operations the window behaves as a FIFO queue of at most max_size bytes, whatever the initial shift and wrap-around; the internal invariant checks never fire; illegal operations (advancing a full window, dropping from an empty one, a bit index above 7) panic. The one exception is overwriting the newest byte of an empty window: this panics or is silently accepted, and in the latter case nothing later shows it.", "quantifier": "every operation history, every max size and initial shift", "why_tests_cant": "Input sequences are unbounded and the state depends on all of them; tests sample a few random sequences.", "anchors": ["src/history/window.rs"]}
{"id": "C25", "title": "Prefix comparison is exact", "statement": "compare_for_equal_prefix returns true iff the two suffixes agree on the given number of full bytes and on the leading bits of the next byte, for straight and wrapped windows. With bit index 7, where only full bytes are compared, the bytes may reach up to the newest one.", "quantifier": "every window content, every pair of positions, every length and bit index", "why_tests_cant": "All contents.", "anchors": ["src/history/window.rs: compare_for_equal_prefix"]}
{"id": "C26", "title": "Window index arithmetic", "statement": "index_add/index_subtract are inverse, index_diff measures distance, index_is_smaller is the age order of positions, whatever the rotation.", "quantifier": "all windows and indices", "why_tests_cant": "All rotations.", "anchors": ["src/history/window.rs"]}
{"id": "C27", "title": "Reference history source meets its specification", "statement": "For every input within the window, the naive source reports for each order exactly those contexts (last k bytes + bits of current byte) that occurred before, in order of k without gaps, with the state obtained by folding the bits that followed those occurrences. Each state gives the distance of the last occurrence, the number of occurrences (up to 1000), the last 15 bits that followed, and whether both bits have followed; the cost trackers are new (2^15) except right after the first differing bit.", "quantifier": "every input, position, bit index, max order", "why_tests_cant": "Input sequences are unbounded and the state depends on all of them; tests sample a few random sequences.", "anchors": ["src/history/naive.rs", "src/history/mod.rs: ContextState"]}
{"id": "C28", "title": "Hash map history source equals the reference", "statement": "The fat map source returns the same context states as the naive source at every bit of every input, for any hash function, collisions included. They agree in every field but the cost trackers, and neutralizing the cost trackers changes nothing else.", "quantifier": "every input and every hash function", "why_tests_cant": "Hash collisions never occur in tests.", "anchors": ["src/history/fat_map.rs"]}
{"id": "C29", "title": "Tree history source equals the reference", "statement": "The tree source returns the same context states (modulo cost trackers) as the reference at every bit of every input that fits in the window. It agrees with both other sources in every field but the cost trackers.", "quantifier": "every input up to the window size, every max order", "why_tests_cant": "Tests compare on a few dozen short inputs.", "anchors": ["src/history/tree/mod.rs", "src/history/tree/context.rs"]}
{"id": "C30", "title": "Tree structure integrity", "statement": "The tree built for any input satisfies its structural invariant (depths, counts, child pointers, representative text) after every bit and never exhausts its node pool or panics. There is one active context for each order whose bits have occurred within the window, it remembers the last such place, and it is at the node of the shortest branching string that starts with these bits or, if there is none, on the way to a leaf.", "quantifier": "every input", "why_tests_cant": "Input sequences are unbounded and the state depends on all of them; tests sample a few random sequences.", "anchors": ["src/history/tree/mod.rs: check_integrity", "src/history/tree/nodes.rs"]}
{"id": "C31", "title": "Deterministic contexts follow branching contexts", "statement": "In every gathered chain the contexts that have seen both bits form a prefix: a longer context never has seen both bits if a shorter one has not; so the chain mixer's panic branch is unreachable and cost trackers line up.", "quantifier": "every input, every position; the reference within the window, the tree for inputs of any length", "why_tests_cant": "Input sequences are unbounded and the state depends on all of them; tests sample a few random sequences.", "anchors": ["src/predictor/chain.rs: compare_context_states", "src/history/mod.rs"]}
{"id": "C32", "title": "Context state transitions equal replay", "statement": "The state of a context after any sequence of following bits equals a replay of that sequence: deterministic contexts keep (bit, min(count,1000)), branching contexts keep the three trackers obtained from the run prefix and the later bits. The methods of a state read: the last distance, the number of bits up to 1000, the last 15 bits.", "quantifier": "every bit sequence following a context", "why_tests_cant": "Input sequences are unbounded and the state depends on all of them; tests sample a few random sequences.", "anchors": ["src/history/mod.rs: ContextState::next_state"]}
{"id": "C33", "title": "Node child encoding", "statement": "Encoding a window position or node index as a child value and decoding returns the same variant and index; distinct children have distinct encodings; the invalid marker is neither.", "quantifier": "all indices in range", "why_tests_cant": "2^31 values.", "anchors": ["src/history/tree/node_child.rs"]}
{"id": "C34", "title": "Node pool is a sound allocator", "statement": "Under any history of add and delete operations, add returns an index that is not live, live nodes keep their contents, the live count is exact, and adding fails only when all slots are live.", "quantifier": "every operation history", "why_tests_cant": "Input sequences are unbounded and the state depends on all of them; tests sample a few random sequences.", "anchors": ["src/history/tree/nodes.rs"]}
{"id": "C35", "title": "Stretch is odd, bounded, interpolates its grid and never panics", "statement": "stretch(p) is defined for every p strictly between 0 and 1, lies within [-12,12] (in fact within +-ln(2^17-1)), satisfies stretch(1-p) = -stretch(p) exactly, never has the wrong sign (at most 0 below one half, at least 0 above), lies between its values at the ends of its grid segment and less than one unit off the straight line between them, is constant up to 2^-17, and never decreases by more than one unit (it is not exactly monotone). stretch(0) panics.", "quantifier": "every probability", "why_tests_cant": "2^31 values.", "anchors": ["src/lut/stretch.rs"]}
{"id": "C36", "title": "Squash is odd, bounded, interpolates its table and never panics", "statement": "squash(x) is defined for every x in [-12,12], lies within [2^-17, 1-2^-17], squash(-x) = 1 - squash(x) exactly, squash(0) = 1/2, between adjacent table points it lies between its values there and less than one unit off the straight line, and it never decreases by more than one unit (it is not exactly monotone).", "quantifier": "every stretched probability", "why_tests_cant": "5*10^7 values.", "anchors": ["src/lut/squash.rs"]}
{"id": "C37", "title": "Squash inverts stretch at table points", "statement": "At every multiple of 2^-7 from 0 to 12 (below 0 by the symmetry of C36) squash returns the best inverse image under stretch: an exact preimage, or the better of two adjacent probabilities around the target, or the end of the accurate range if the target exceeds every value of stretch. For every such x within the range of stretch, stretch(squash(x)) differs from x by at most 45*2^-21.", "quantifier": "every table entry", "why_tests_cant": "Depends on the behaviour of a binary search over a function that is not monotone; 2^31 candidates.", "anchors": ["src/lut/squash.rs: find_squashed_prob"]}
{"id": "C38", "title": "Mixer weights and outputs stay in range", "statement": "After any history of predictions and updates every weight stays within the documented limit, the mixed output is within [-12,12] and (0,1), and no intermediate overflows.", "quantifier": "every history of inputs, bits, rates, and mixer sizes", "why_tests_cant": "Input sequences are unbounded and the state depends on all of them; tests sample a few random sequences.", "anchors": ["src/mixing/mixer.rs"]}
{"id": "C39", "title": "Mixer symmetry", "statement": "Feeding complemented inputs and bits to a mixer gives exactly complementary outputs and identical weights forever.", "quantifier": "every history", "why_tests_cant": "Input sequences are unbounded and the state depends on all of them; tests sample a few random sequences.", "anchors": ["src/mixing/mixer.rs"]}
{"id": "C40", "title": "Mixer call protocol", "statement": "Setting all inputs once, mixing and updating never panics and can be repeated forever; setting an input twice, mixing with missing inputs, or an out of range index panics.", "quantifier": "every call history", "why_tests_cant": "Input sequences are unbounded and the state depends on all of them; tests sample a few random sequences.", "anchors": ["src/mixing/mixer.rs"]}
{"id": "C41", "title": "Adaptive probability map stays in range and never panics", "statement": "For every history of refine/update calls where the stretched and the squashed input belong together (one was computed from the other), the calls complete exactly when they alternate and use existing contexts and permitted rates, and every refined probability is strictly inside (0,1). The rate 1, although accepted, can panic and is excluded.", "quantifier": "every history, every context, every probability, up to seven fractional index bits when squashing, up to two when stretching", "why_tests_cant": "Input sequences are unbounded and the state depends on all of them; tests sample a few random sequences.", "anchors": ["src/mixing/apm.rs", "src/lut/apm.rs"]}
{"id": "C42", "title": "Prediction statistics are exact", "statement": "After any history of calls the statistics hold the number of bytes, of contexts and the summed costs of all bits that had a context; per class of contexts (highest order and number of deterministic orders) and per symbol the counts and costs; the classes add up to the total and so do the symbols with the byte under way; the total is the information content of the charged bits within 2/2048 bit per bit. No index is out of bounds; the first byte is not charged; printing by context type panics exactly for maximal orders below 4.", "quantifier": "every history of calls, every window size up to 2^31, every maximal order up to 8191, every mode of the final refinement", "why_tests_cant": "Input sequences are unbounded and the state depends on all of them; tests sample a few random sequences.", "anchors": ["src/predictor/stats.rs", "src/predictor/mod.rs"]}
{"id": "C43", "title": "Mersenne Twister follows the reference recurrence", "statement": "For every seed the output stream is the tempered MT19937-64 linear recurrence; tempering is a bijection of 64-bit words; an empty vector seed panics and any other does not.", "quantifier": "every seed, every stream position", "why_tests_cant": "Input sequences are unbounded and the state depends on all of them; tests sample a few random sequences.", "anchors": ["src/random/mod.rs"]}
{"id": "C44", "title": "Predictor never panics", "statement": "Over any input the calls start_new_byte, predict and update never panic when every byte is started and each of its eight bits is predicted before it is fed; every other order of calls panics; every prediction is a valid final probability, so the pipeline of the program is total.", "quantifier": "every input of up to 2^35 bytes, every history of up to 2^40 calls, every window size up to 2^31, every maximal order up to 8191, every mode of the final refinement", "why_tests_cant": "Input sequences are unbounded and the state depends on all of them; tests sample a few random sequences.", "anchors": ["src/predictor/mod.rs", "src/predictor/chain.rs", "src/predictor/post_process.rs"]}
{"id": "C45", "title": "Cost table for new contexts agrees with replay", "statement": "The cost tracker looked up for a context that has just seen a run of n equal bits and then the opposite bit equals the tracker obtained by charging those bits one at a time at the predictions of an estimator fed with them; the table construction never panics.", "quantifier": "every run length", "why_tests_cant": "The table is checked only for a few entries; agreement is about all run lengths and the whole replay.", "anchors": ["src/lut/cost.rs: CostTrackersLut", "src/estimators/cost.rs"]}
{"id": "C46", "title": "Conversions between fixed point formats never wrap", "statement": "Converting a fixed point number to a format with at least as many fractional bits is exact and to one with fewer rounds to nearest; a value that does not fit the target width is rejected by a panic instead of being truncated. At the ends of the type, where adding one half saturates, the result is the largest quotient instead of the nearest; formats whose fractional bits differ by the width or more cannot be converted into each other.", "quantifier": "every value, every pair of formats, every width including the 64 to 32 bit narrowing", "why_tests_cant": "The set of values and format combinations is far too large to enumerate.", "anchors": ["src/fixed_point/mod.rs: to_fix_u32, to_fix_i32, to_fix_i64, to_fix_u64"]}
{"id": "C47", "title": "Stretch is the logit and squash the logistic function", "statement": "Every entry of the stretch table is within 10^-6 of ln(p/(1-p)) as the constructor asserts; between entries the interpolated value is within 2*10^-6 for probabilities from 1/256 to 255/256 and within 1/(4i(i+1))+10^-6 in the tails, where i is the probability of the rarer bit in steps of 2^-17; squash is within 7*10^-6 of 1/(1+e^-x) for every input from -12 to 12; for inputs of magnitude below 700/128 (about 5.47) its error is at most 12*10^-6 times the product of the probabilities of both bits, and its logit is within 12*10^-6 of the input.", "quantifier": "every table entry, every probability from 2^-17 to 1-2^-17, every stretched value from -12 to 12 in steps of 2^-21", "why_tests_cant": "The 50 million inputs are compared with real logarithms and exponentials, which floating point tests only approximate.", "anchors": ["src/lut/stretch.rs:38-145", "src/lut/squash.rs:30-125"]}
{"id": "C48", "title": "Mixer learns in the right direction", "statement": "After a mixer is updated with a bit, presenting the same inputs again never gives a prediction further from that bit (the squashed value may deviate by one unit in the last place because of interpolation rounding).", "quantifier": "every reachable mixer state, inputs, bit, prediction and rate limit", "why_tests_cant": "Needs a sign argument about rounding and clamping for all weights and inputs.", "anchors": ["src/mixing/mixer.rs"]}
{"id": "C49", "title": "Adaptive probability map learns in the right direction and only in its context", "statement": "After any history, updating with a zero bit never lowers and with a one bit never raises the refined probability of the same input in the same context; with the fixed weight the move is 2^-(rate+1) of the distance within three units; other contexts are unaffected.", "quantifier": "every history, every input, every context, every rate but 1", "why_tests_cant": "The effect depends on all earlier updates and on rounding of 31-bit products.", "anchors": ["src/mixing/apm.rs: update_predictions"]}
{"id": "C50", "title": "A new adaptive probability map is the identity", "statement": "A freshly created map returns its input probability, limited to the range squash can produce, within one unit of the last place.", "quantifier": "every input probability, every number of contexts, up to seven fractional index bits", "why_tests_cant": "There are 2^31 inputs per configuration.", "anchors": ["src/mixing/apm.rs: new, refine", "src/lut/apm.rs: extra_factor"]}
{"id": "C51", "title": "What the tree reports depends only on the window", "statement": "Two history trees of the same window size and maximal order whose windows have the same contents report the same orders, and for each the same distance, the same distinction between branching and non-branching contexts and the same repeated bit, whatever was read before the window, wherever in the ring buffer it starts and whatever costs were passed.", "quantifier": "all window sizes up to 2^31, all maximal orders up to 8191, all pairs of inputs of any length with equal window contents, all pairs of initial positions, all cost tracker updates", "why_tests_cant": "The tree is changed incrementally when the window slides; a test compares a handful of random inputs, while equality must hold after every possible sequence of removals and insertions.", "anchors": ["src/history/tree/mod.rs:69-275", "tests/sliding_window_trees.rs"]}
{"id": "C52", "title": "Creating the lookup tables never panics", "statement": "Creating all lookup tables (stretch, squash, logarithm, estimator rates, map interpolation, quantisation) succeeds: no assertion of their self checks on integers fails, no index is out of bounds and no arithmetic overflows.", "quantifier": "the single construction, with every entry of every table; the comparison with f64 logarithms is in C72", "why_tests_cant": "The checks run at every start of the program; only proof shows that no combination of table sizes and roundings violates an assertion on integer arithmetic semantics of every build.", "anchors": ["src/lut/mod.rs", "src/lut/stretch.rs", "src/lut/squash.rs", "src/lut/apm.rs", "src/lut/log2.rs"]}
{"id": "C53", "title": "Compression with the predictor is lossless", "statement": "Coding every bit of a file with the probability the predictor gives, and decoding with a second predictor fed with the decoded bits, restores the file and leaves following data unread; different files of the same size give different outputs.", "quantifier": "every file of up to 87 500 000 bytes, every window size up to 2^31, every maximal order up to 8191, every mode, any trailing data", "why_tests_cant": "Encoder and decoder must stay in lockstep through all predictor states; no test covers all files.", "anchors": ["src/predictor/mod.rs", "src/coding/encoder.rs", "src/coding/decoder.rs", "src/main.rs"]}
{"id": "C54", "title": "The estimated size is the real size", "statement": "The total information content the program sums up to report a compressed size differs from the size of the output of the encoder, less its four final bytes, only by the coder's rounding: at most log2(1+1/f) bits more per 0 of probability f/2^23, at most log2(1+1/(2^23-f)) less per 1, and at most 31 bits less in total.", "quantifier": "every file of up to 87 500 000 bytes, every window size, maximal order and mode", "why_tests_cant": "The program never runs the encoder; the relation is between real logarithms and integer arithmetic for all inputs.", "anchors": ["src/main.rs:62-67", "src/coding/encoder.rs"]}
{"id": "C55", "title": "The predictor is the reference predictor", "statement": "The predictions for a file are those of a reference in which every estimator, mixer and refinement map is a value of its own, found by a key: order, class of the number of occurrences or of the last run, unfinished byte or bit, class of the distance, class of the costs, whether it is the longest context, how it relates to the next shorter context, hash of the last bytes. Each order is told the opinion of the order below; a prediction changes nothing; after a bit exactly the values that were asked learn it, with the rates given for each.", "quantifier": "every file of up to 2^35 bytes, every window size up to 2^31, every maximal order up to 8191, every mode", "why_tests_cant": "An index that mixes up two keys, an update to the wrong mixer or an input left over from an earlier prediction gives valid probabilities and only compresses worse; no test states which value belongs to which context.", "anchors": ["src/predictor/chain.rs", "src/predictor/single.rs", "src/predictor/kits.rs", "src/predictor/post_process.rs", "src/predictor/mod.rs"]}
{"id": "C56", "title": "Predictions do not depend on how the history is kept", "statement": "As long as the file fits in the window, the history tree and the hash map (with any hash function) report exactly the same context states at every bit, including the cost trackers, whatever cost trackers are supplied: the trackers reported for a context are those supplied with the bit that followed its last occurrence. Hence the predictions of the compressor are those of a predictor whose history source remembers all bits and all cost trackers and looks contexts up by searching.", "quantifier": "for all files not longer than the window, all window sizes up to 2^31, highest orders up to 8191, window offsets, hash functions, final stage modes, all ways to choose the supplied trackers", "why_tests_cant": "Cost trackers are stored per tree node, moved by splits and shared by contexts on the same edge; a tracker that lands in the wrong node only shifts predictions, and only for some files. The existing test compares the sources only with default trackers.", "anchors": ["src/history/tree/mod.rs", "src/history/tree/context.rs", "src/history/fat_map.rs", "src/predictor/mod.rs"]}
{"id": "C57", "title": "The tree passes its own integrity checks", "statement": "After any input of whole bytes, in a window of any size and with any maximal order, and the start of the next byte, the integrity check of the tree source finishes without a failed assertion: window bounds, suffixes, leaves (no suffix has two leaves, no child is invalid), texts of the nodes and active contexts.", "quantifier": "every input of whole bytes, however long; every window size, maximal order and way of updating cost trackers", "why_tests_cant": "Tests run the check on some dozens of short generated inputs; whether it can fail depends on the whole input once the window slides.", "anchors": ["src/history/tree/mod.rs: check_integrity_on_next_byte", "src/history/tree/context.rs: check_integrity", "tests/sliding_window_trees.rs"]}
{"id": "C58", "title": "The tree leaks no nodes", "statement": "However long the input, the number of live nodes the tree reports equals the number of distinct bit strings (up to the maximal order) that have been followed by both bits within the window, and equals the number of nodes reachable from the root.", "quantifier": "every input, after every bit; every window size and maximal order", "why_tests_cant": "A leak shows only after many slides of the window over particular repetitions; tests compare node counts for a few short inputs.", "anchors": ["src/history/tree/nodes.rs: live_nodes_count", "src/history/tree/mod.rs: remove_leftmost_suffix"]}
{"id": "C59", "title": "What a passed integrity check of the tree means", "statement": "The leaf check accepts a node pool exactly when the children, followed from the root, form a finite binary tree whose leaves are distinct and all refer to suffixes inside the window; then no node is reached twice and there is one leaf more than there are nodes. The text check accepts such a tree exactly when each node's text and the texts of its two children agree on the node's depth. The size check accepts a window exactly when it is full or its size is the number of bytes from its start to its cursor. The walk of one suffix succeeds exactly when the texts met on its way are not older than the suffix and agree with it; the search for all suffixes succeeds exactly when the root's depth is within the limit and its text is the last byte, so it does not look at any other node.", "quantifier": "every node pool and window, including ones no run of the program produces", "why_tests_cant": "Tests run the checks on correct trees only, so they say nothing about which wrong trees would be rejected.", "anchors": ["src/history/tree/mod.rs: check_integrity_on_next_byte", "src/history/tree/context.rs: check_integrity"]}
{"id": "C60", "title": "The tree can be shrunk to nothing", "statement": "After any input of whole bytes the oldest suffixes can be removed one at a time without a panic until the window is empty. After every removal the window holds the remaining bytes, the tree is exactly the tree of these bytes and has no other live nodes. Before every removal the integrity check of the source passes. Two sources whose inputs end with the same bytes have trees of the same shape once both are shrunk to these bytes.", "quantifier": "every input of whole bytes, every window size and maximal order, every number of removals up to the size of the window", "why_tests_cant": "Tests shrink a few generated windows; which branches of the removal run depends on the whole window contents.", "anchors": ["src/history/tree/mod.rs: remove_leftmost_suffix, check_integrity_on_next_byte", "tests/sliding_window_trees.rs: lines 480-517"]}
{"id": "C61", "title": "The shape of the tree depends on the window only", "statement": "Two tree sources with equal window size and maximal order whose windows hold the same bits have trees of the same shape: depths of the nodes, ages of their texts, kinds of children and ages of the leaves agree, and the live node counts are equal. Their active contexts are equally many and those of the same order are in the same place of the tree. What was read before, where the windows start in their buffers and the cost trackers supplied do not matter.", "quantifier": "every pair of inputs with equal windows, after every bit; every window size, start and maximal order", "why_tests_cant": "Tests compare shapes for a few prefixes and repetitive inputs; a remnant of a forgotten prefix can show up arbitrarily late.", "anchors": ["src/history/tree/mod.rs", "tests/sliding_window_trees.rs: compare_shape"]}
{"id": "C62", "title": "Fixed point arithmetic is exact or panics", "statement": "Addition, subtraction and negation of fixed point numbers, and conversion between the signed and unsigned type of the same format, give the exact value, or panic exactly when the result type does not have it; none wraps silently. The whole part is the floor, also of negative numbers. Division by an integer is rounded to nearest. The interval index of a stretched probability is that of the interval of width 2^-b that contains it.", "quantifier": "every value of every format, 32 and 64 bits", "why_tests_cant": "2^64 pairs of operands per format.", "anchors": ["src/fixed_point/mod.rs: add, sub, neg, trunc, div", "src/fixed_point/types.rs: to_signed, to_unsigned", "src/fixed_point/types.rs: StretchedProbD::to_interval_index, intervals_count"]}
{"id": "C63", "title": "What the history tree reports in the long run", "statement": "At every bit of an input of any length the tree source reports exactly what a memory of contexts reports, a machine with three rules that keeps one record of following bits and cost trackers per bit string and knows nothing of nodes, edges, text positions or the ring buffer. In particular the position in the buffer where the first byte is stored has no influence. The predictions of the predictor for a file of any length are those of the reference predictor on this memory.", "quantifier": "every input of any length (predictions: files up to 2^35 bytes), every window size up to 2^31 bytes, start position, maximal order up to 8191, mode, and every sequence of supplied cost trackers", "why_tests_cant": "Once bytes leave the window the statistics of a context depend on the whole past and on when nodes were made and removed; tests can only compare a few short inputs with the naive source, which forgets differently.", "anchors": ["src/history/tree/mod.rs: start_new_byte, gather_states, process_input_bit", "src/history/tree/context.rs", "src/history/tree/node.rs", "src/predictor/mod.rs: Predictor"]}
{"id": "C64", "title": "Adaptive probability maps favour neither bit", "statement": "If two histories of an adaptive probability map that learns with fixed weights differ only in that every probability is replaced by its complement and every bit by its opposite, then their results add up to one, up to three units of the last place, however long the histories are. This holds if no input lies exactly on an interior stop of the map; an input on a stop (probability one half, for example) breaks the symmetry by a visible amount.", "quantifier": "every resolution 0..7, number of contexts, history of calls with consistent inputs off the stops, every learning rate", "why_tests_cant": "The test of the repository compares a few hundred random steps; a bias of one unit per step would show up only in long histories, and the exceptional inputs are too rare for random tests.", "anchors": ["src/mixing/apm.rs: AdaptiveProbabilityMap", "src/lut/apm.rs: ApmWeightingLut"]}
{"id": "C65", "title": "Fixed point values and floats", "statement": "Converting a fixed point value of up to 53 significant bits (hence every value of a 32 bit type) to f64 is exact, and converting it back gives the same value. Any 64 bit value becomes a nearest f64, with relative error at most 2^-53; from 2^53 + 1 on a round trip can lose the value. Converting a float to fixed point drops the digits beyond the last place (toward zero), saturates outside the range of the raw integer, and then passes the check of the type. Converting values of up to 53 bits to f32 gives a nearest f32. Every number format has its documented scale and accepts its documented range.", "quantifier": "every fixed point type with up to 63 fractional bits, signed and unsigned, every raw value; every finite float", "why_tests_cant": "There are no tests of these conversions; samples cannot show exactness for all raw values, and double rounding (i64 to f64 to f32) or a wrong rounding mode shows only at rare values.", "anchors": ["src/fixed_point/mod.rs: FixedPoint::as_f64, from_f64, as_f32, from_f32", "src/fixed_point/mod.rs: FloatConversions"]}
{"id": "C66", "title": "Random reals stay in their documented intervals", "statement": "next_real1 lies in [0, 1], is exactly 0 for the smallest and exactly 1 for the largest upper 53 bits of the next integer and within 2^-51 of their quotient otherwise; next_real2 is exactly the upper 53 bits over 2^53 and lies in [0, 1); next_real3 is exactly the midpoint of an interval of length 2^-52 and lies in (0, 1). Each consumes exactly one integer and never panics.", "quantifier": "every scalar or vector seed, after any number of calls", "why_tests_cant": "The ends of the intervals have probability 2^-53; whether the rounded product of next_real1 can exceed 1 depends on the rounding of a constant and of a product that no random test hits.", "anchors": ["src/random/mod.rs: MersenneTwister::next_real1, next_real2, next_real3"]}
{"id": "C67", "title": "The reported cost is the information content up to a tiny relative error", "statement": "The total cost in bits that the program accumulates in floating point is finite and differs from the exact information content of the file under the predictions by a relative error of at most 2 d + n / 2^52, where d is the relative error of the platform's base two logarithm and n the number of bits. Converting a prediction to a float and taking its complement is exact.", "quantifier": "every file up to 2^35 bytes, window size, order, mode, and every logarithm with relative error up to one half; for the sum, any list of up to 2^50 valid predictions", "why_tests_cant": "Accumulated rounding depends on the order and number of additions; a test sees one total and has no exact value to compare with.", "anchors": ["src/main.rs: estimate_compression", "src/fixed_point/mod.rs: FixedPoint::as_f64", "src/coding/mod.rs: FinalProbability"]}
{"id": "C68", "title": "All history sources print the same histories", "statement": "The tool that prints the bit histories of a file prints the same text whichever of the three history sources is selected, namely for each bit the histories of all contexts that occurred before, from order 0 up to order 63. On an empty file it panics.", "quantifier": "every non-empty file up to 2^31 bytes, every hash function, all three source kinds", "why_tests_cant": "The output has one line per bit and depends on every earlier byte; comparing the output of a few files says nothing about others, and the bucket collisions of the hash map source are rare.", "anchors": ["src/bin/print_histories.rs: main, print_bit_histories"]}
{"id": "C69", "title": "The entropy simulation measures what it says", "statement": "The simulation of the estimator on a stream with a fixed probability of zeros never panics, feeds exactly 10000 bits whose number of zeros follows the probability within one at every prefix, reports the exact counts of both bits, and its total cost is the information content of these bits under the estimator's predictions, up to 1/1024 bit per bit. For the probabilities of the program both bits occur, the printed ideal cost is the entropy of the counts and the printed overhead and ratio compare cost and entropy correctly, up to the errors of the platform's logarithm and of rounding. For the first table and run lengths up to 1001 the cost exceeds the entropy by at most the cost of learning the frequencies anew in each run. The whole program runs to its end. A run length of zero panics.", "quantifier": "every probability strictly between 0 and 1, every positive run length, every usable rate table", "why_tests_cant": "The stream is generated by accumulating a float, whose rounding errors differ for each probability; the reported cost has no independent value to compare with.", "anchors": ["src/bin/entropy_simulations.rs: check_decelerating_estimator_single, main"]}
{"id": "C70", "title": "The sigmoid benchmark runs through with fixed checksums", "statement": "Each test value of the benchmark is in the range of stretched probabilities and uniformly distributed (each value comes from exactly 64 of the 2^32 low words of the generator, the topmost from one). For any test values in range no call of squash or stretch panics and no checksum overflows, up to 2^32 calls. The program, which has no input, finishes and prints the checksums 10699864371220000, 10699864371220000 and -4197659520000.", "quantifier": "every seed and state of the generator; every list of test values in range and every number of rounds up to 2^32 calls", "why_tests_cant": "There is no test of the benchmark; a rejection loop that never ends, a value just out of range or an overflow of a sum shows only for particular random numbers.", "anchors": ["src/bin/bench_sigmoid.rs: main, generate_stretched_prob"]}
{"id": "C71", "title": "An estimator codes any bits nearly as well as knowing their frequencies", "statement": "For one to 1001 bits, the ideal code length at the predictions of a fresh estimator fed with the bits exceeds the length for a coder that knows how many zeros and ones there are by at most log2(n)/2 + 1 bits, plus 2(n/1000)^2 for the rounding of the arithmetic. A client that codes the bits with the range coder at these probabilities gets at most n/2000 bits more than that beyond four final bytes; a run of up to 1001 equal bits takes at most five bytes. The coded bits, up to 700 million, come back exactly, and data behind them is left unread.", "quantifier": "every sequence of bits (size: one to 1001 bits, runs from 0; round trip: up to 700 million bits and any data behind)", "why_tests_cant": "The bound compares the code with the best possible one for each of the 2^n sequences; rounding accumulates over the updates and a rate slightly wrong shows only as a small loss on some sequences.", "anchors": ["src/estimators/decelerating.rs: DeceleratingEstimator::new, prediction, update", "src/lut/estimator.rs: DeceleratingEstimatorRates", "src/coding/encoder.rs: Encoder::encode_bit", "src/coding/decoder.rs: Decoder::decode_bit"]}
{"id": "C72", "title": "The float self checks of the lookup tables pass with any accurate logarithm and exponential", "statement": "The table constructors compare their integer tables with the floating point logarithm and exponential of the platform. If the logarithm is accurate to 10^-7 on [2^-31, 1], every comparison made while the stretch table is created passes, and the table is the same as without them. With an exponential accurate to 10^-9 on [-12, 0], the maximal error computed while the squash table is created is the true maximal distance to the logistic function up to 10^-8, at most 24/10^7. So creating all tables succeeds on every such platform and gives the same tables. A comparison accepts an entry within 8*10^-7 of the true stretch value and rejects one from 12*10^-7 on.", "quantifier": "every logarithm and exponential of the given accuracy; every entry of both tables; for the comparison every input and entry", "why_tests_cant": "The program runs with one logarithm; other platforms round differently, and the tolerance leaves only part of its width to the table error. Only the bound on each entry shows that no accurate logarithm makes the start of the program panic.", "anchors": ["src/lut/stretch.rs: StretchLut::new", "src/lut/squash.rs: SquashLut::new", "src/lut/mod.rs: LookUpTables::new"]}
{"id": "C73", "title": "Decompressing truncated or damaged data is safe", "statement": "A decompressor made of the range decoder and the predictor never panics on any data that is long enough: it gives the requested number of bytes and reads at most 24 bytes for each, and four more. It panics only for lack of data: continued by enough bytes, whatever they are, the data is decompressed, and bytes behind its end are read. If it succeeds, it gives the same result on every continuation of the data and leaves the continuation unread. Asking for fewer bytes gives the first of the bytes. Compressed data that lacks its last byte, or more, always makes the decompressor panic; it never gives wrong bytes.", "quantifier": "every list of bytes as data, every number of bytes asked for up to 2^35, every finalizer mode, window up to 2^31 and maximal order up to 8191; truncation: every input up to 87.5 million bytes, every cut", "why_tests_cant": "Damaged data drives the predictor through histories that no compressor run produces, and every cut of every file is a case; the decoder must keep its probabilities and interval valid on all of them.", "anchors": ["src/coding/decoder.rs: Decoder::new, Decoder::decode_bit", "src/predictor/mod.rs: Predictor::new, start_new_byte, predict, update"]}
{"id": "C74", "title": "The printed report is numerically right", "statement": "The program finishes exactly if a file name is given, the file can be opened and read, and the clock was not set back. Its report gives the length of the file; the cost in bits is the information content of the file under the predictions, the cost in bytes an eighth of it, the average cost the cost per byte, the ratio the bits of the file per bit of cost, each up to the stated relative error of the platform's logarithm and of rounding, and each a finite number. The average context length is the double nearest to the mean number of orders with a known context, at most 21. The cost computed by tables is the information content of the bits with a context up to 1/1023 bit per bit. Durations, time per byte and bytes per second are right up to 2^-50. For an empty file costs are 0 and the averages and ratios are NaN; speed is infinite if no time has passed.", "quantifier": "every file up to 2^35 bytes, every base 2 logarithm of relative error up to 1/8, all clock readings whose differences fit a Duration", "why_tests_cant": "Each figure is a sum of billions of rounded terms or a quotient of such; a test file gives one value and no reference for it. NaN, infinity, an overflow or a panic may occur on one file only.", "anchors": ["src/main.rs: main, estimate_compression", "src/predictor/stats.rs: print_state"]}
{"id": "C75", "title": "The printed tables of the statistics", "statement": "After any allowed run printing the tables of the statistics does not panic if the maximal order is at least 4, and always panics otherwise. The table by symbol value has 32 rows of 4 cells and shows the values 0 to 127 once each with their number of occurrences and their cost in bytes; values from 128 on are not shown. The table by context type has one line for each class with its number of bits over 8, its cost over 8 and the double nearest to the mean number of occurrences, which is NaN exactly for classes without bits and below 1024 otherwise.", "quantifier": "every run of up to 2^40 calls, every finalizer mode, window up to 2^31 and maximal order up to 8191", "why_tests_cant": "Printing divides by counts that may be zero and indexes arrays by class; whether it panics or prints NaN depends on the history of the run and on the maximal order.", "anchors": ["src/predictor/stats.rs: print_costs_and_occurrences_by_context_type, print_costs_and_occurrences_by_symbol_value"]}
{"id": "C76", "title": "A mixer codes nearly as well as the best fixed weights", "statement": "Use a mixer in rounds: set all inputs, mix, code a bit with the mixed prediction, update. No round panics. Whatever the inputs and the bits, the total cost of the bits is at most what any fixed weights within ±8 would have paid (they predict the logistic function of the weighted sum of the stretched inputs), plus the squared distance of the first weights from them times (index + 2), plus a bounded term for the growth of the index, plus the price of moving the weights (squared error times squared input length over 4 (index + 2) per round), plus at most (n+1)/1000 + n (limit+2)/10^5 nats per round lost to rounding, tables and clipping. In particular this holds against each single input; if the squared input length is at most X the price of moving is at most the share X / (4 (index + 2)) of the cost paid.", "quantifier": "every mixer after any history with no inputs set, every number of rounds, all inputs and bits, every rate limit up to 1000, all real weight vectors within ±8", "why_tests_cant": "It compares against every real weight vector on every adversarial sequence; fixed point rounding, table errors and clipping accumulate over the whole run.", "anchors": ["src/mixing/mixer.rs: Mixer::set_input, Mixer::mix_all, Mixer::update_and_reset", "src/lut/squash.rs: SquashLut::squash", "src/lut/estimator.rs: DeceleratingEstimatorRates"]}
{"id": "C77", "title": "Predictable data compress well: nearly as little as any list of guesses costs", "statement": "Choose afterwards, for the contexts of order 1, 2 and 3 (last bytes and the bits of the unfinished byte, as numbers below 65536), three lists that each name a bit for some contexts. Compressing the file with the program's predictor in its default mode then takes at most 2024 bits per guess and 11 bits per bit of the file that a list does not name correctly (both counted twice for order 2), plus one bit per 2^19 bits of the file and four bytes; the program's estimate is bounded likewise. In particular, if the same context is never followed by different bits, the size depends on the number of different contexts only, and a file that repeats one byte shrinks to at most 8188 bytes plus one byte per 524288 bytes. Likewise a single adaptive probability map pays, whatever probabilities it is given, a fixed amount for each guess, 40 bits for each round not named and next to nothing for the others.", "quantifier": "every file of up to 87.5 million bytes (the estimate: 2^35 bytes), every window up to 2^31, every maximal order up to 8191, all lists of guesses; for a single map every sequence of rounds, up to 7 fractional index bits and rates from 2 to 29", "why_tests_cant": "The bound holds for every file against lists chosen with hindsight, whatever the rest of the model predicts; a test measures single files and cannot exclude a file whose cost the last stage never learns to reduce.", "anchors": ["src/mixing/apm.rs: AdaptiveProbabilityMap::refine, update_predictions", "src/predictor/post_process.rs: PredictionFinalizer", "src/predictor/mod.rs: Predictor", "src/main.rs: estimate_compression"]}
{"id": "C78", "title": "Skewed data compress well: little more than any fixed probabilities of the contexts cost", "statement": "Choose afterwards, for the contexts of order 1, 2 and 3, three lists that each name a probability of a zero for some contexts. Compressing the file with the program's predictor in its default mode then takes at most 2024 bits per entry of a list plus ten percent more than the average of the allowances by the three lists (order 2 counted twice for both), plus one bit per 2^19 bits of the file and four bytes. The allowance for a bit is its ideal code length by the list, plus at most 8/5 (1-r) (1 + 1/(64 r)) bits where r is the probability the list gave to it; it is 33 bits where the list says nothing or less than one in 32. In particular, if no bit had less than one chance in 32, the size is at most 2024 bits per different context plus three times the average ideal code length; and a file of the letters a and b in any order shrinks to at most 72870 bytes plus 251 bytes per thousand letters. The program's estimate, and a single adaptive probability map in the same mode, are bounded likewise.", "quantifier": "every file of up to 87.5 million bytes (the estimate: 2^35 bytes), every window up to 2^31, every maximal order up to 8191, all lists of probabilities; for a single map every sequence of rounds with up to 7 fractional index bits", "why_tests_cant": "The bound holds for every file against probabilities chosen with hindsight, in any order of the bits and whatever the rest of the model predicts; a test measures single files and cannot exclude an order of the same bits on which the adaptive entries oscillate and cost more.", "anchors": ["src/mixing/apm.rs: AdaptiveProbabilityMap::refine, update_predictions", "src/predictor/post_process.rs: PredictionFinalizer", "src/predictor/mod.rs: Predictor", "src/main.rs: estimate_compression"]}
{"id": "C79", "title": "The listing of the tree shows the tree", "statement": "Printing the tree of any input, at any time, finishes without a panic. It prints one line for each live node and one more line for leaves than for nodes, indented by depth, left subtree first; read from top to bottom the leaves are positions of the window in lexicographic order of the text that starts there. Two trees with the same listing have the same shape, leaves, node numbers, texts, depths, counts and recent bits. Two lists of active contexts that print the same are the same.", "quantifier": "every input, window size and maximal order; for faithfulness every pair of node pools, also broken ones (printing succeeds exactly if the nodes form a finite tree)", "why_tests_cant": "Tests can only look at listings of a few trees. That no two different trees print the same, and that the order of leaves is right for all inputs, is about all trees.", "anchors": ["src/history/tree/mod.rs: print, print_node", "src/history/tree/node.rs: fmt", "src/history/tree/context.rs: fmt"]}
{"id": "C80", "title": "The printed bit histories, character by character", "statement": "For every non-empty file, print_histories prints exactly this text: for each of the first 1234 bytes its index and character, then for each bit with known contexts its number and the hexadecimal histories separated by commas, then a blank line. The text is the same for all three kinds of source; it depends on the first 1234 bytes only, and these can be read back from it, even if they contain line breaks.", "quantifier": "every file of 1 to 2^31 bytes; every hash function; every kind of source; for reading back every pair of files", "why_tests_cant": "That no two different files print the same text is about all pairs of files; a separator that is missing in a rare case would be seen only on particular inputs.", "anchors": ["src/bin/print_histories.rs: print_bit_histories, main"]}
{"id": "C81", "title": "The history tree works in linear time and bounded memory", "statement": "Feeding n bits to the history tree takes at most (max order + 1) * (2 n + 12 ceil(n / 8)) rounds of loops altogether, whatever the size of the window and the content of the input. At any time there are at most max order + 1 active contexts, no way down the tree passes more than 8 * max order + 8 nodes, the pool never holds more than max(1, window - 1) nodes and the window never more bytes than its maximal size. Reading a bit adds at most max order + 1 nodes.", "quantifier": "every input of any length, window size up to 2^31, initial position, maximal order up to 8191 and way of updating cost trackers", "why_tests_cant": "A bound on the work for all inputs cannot be seen from timing a few files; the worst input for a suffix tree is not the one in the test suite.", "anchors": ["src/history/tree/mod.rs: start_new_byte, remove_leftmost_suffix, gather_states, extend, split_degenerate_root_edge", "src/history/tree/context.rs: shift", "src/history/tree/nodes.rs: add_node"]}
{"id": "C82", "title": "The size estimated with the table of logarithms", "statement": "Adding up FinalProbability::estimate_cost over coded bits, as tests/coding_symbols.rs does, never panics and estimates the size written by the encoder: up to the rounding of the interval, 1/1024 bit for each bit and the four final bytes it is a bound from both sides. If all probabilities are between 1/1024 and 1023/1024, then up to 819 bits are written in at least the estimated number of bits and at most 33 bits more, whatever the bits are. The limit of 32 bits that the test asserts on random bits does not hold for all: forty pairs of an almost certain and an almost impossible bit take 40 bits more than estimated.", "quantifier": "every list of up to 700 million bits with probabilities between 1 and 2^23 - 1 (up to 10^14 bits where the encoder finishes, which it does when the estimate is below 2 GiB); every list of up to 819 bits with probabilities away from 0 and 1", "why_tests_cant": "The test draws a few random lists of bits and asserts a bound that is false in general; rounding errors add up only on particular sequences.", "anchors": ["tests/coding_symbols.rs: coding_can_be_estimated, estimate_event_cost", "src/coding/mod.rs: FinalProbability::estimate_cost", "src/coding/encoder.rs: encode_bit"]}
{"id": "C83", "title": "Coding preserves the order", "statement": "If two sequences of coded events first differ in one answer, the output of the sequence with the 0 (or the rare event that did not happen) comes first in the lexicographic order of byte strings. Coding further events never makes the output smaller. So for every deterministic model of probabilities, and for the predictor of this library, two files of the same size are ordered before compression as they are after it; a file that is not a prefix of a greater file has a strictly smaller compressed form.", "quantifier": "all sequences of events and probabilities that are coded (which succeeds for outputs below 2 GiB); all deterministic models; all modes, window sizes up to 2^31, maximal orders up to 8191 and pairs of files of up to 2^35 bytes that are compressed (which succeeds up to 87 500 000 bytes)", "why_tests_cant": "The order of all pairs of files cannot be sampled; a carry that is lost in a run of 0xff bytes would spoil it only for rare pairs.", "anchors": ["src/coding/encoder.rs: encode_bit, encode_rare_event, add_with_carry, output_byte, drop", "src/predictor/mod.rs: Predictor"]}
{"id": "C84", "title": "The text of the report", "statement": "For a file that is not empty the program prints a text in which a reader finds exactly twelve numbers: seconds of the initialization and in total, nanoseconds per byte, bytes per second, the cost in bytes and in bits, the exact length of the file, the cost per byte, the ratio and the 1 it is compared to, the average context length and the cost computed using lookup tables. Each differs from the true quantity by at most the error of the computation (that of the platform's logarithm and of rounding) and half a unit of the last decimal printed. The text is a table: the points of all numbers below 10^11 stand in one column, the units of the length stand before it, and the bars of the ruler line mark exactly the units, thousands, millions, thousand millions and the third decimal. For an empty file the length and the costs are 0 and NaN is printed for the cost per byte, the ratio and the context length.", "quantifier": "every file of up to 2^35 bytes, every platform with an accurate logarithm and a clock that is not set back, every rule for ties in decimal formatting; the columns for every report", "why_tests_cant": "The text depends on the clock and on the whole file; a test compares single outputs and cannot bound the error of every printed number.", "anchors": ["src/main.rs: main, estimate_compression", "src/predictor/stats.rs: print_state"]}
{"id": "C85", "title": "The text of the simulation and of the benchmark", "statement": "entropy_simulations prints a text in which a reader finds, in order, 37 powers from 9 down to -9 in steps of 1/2, after each of them the 16 run lengths, after each of them the four tables by factor and addend, and after each table the seven numbers of its simulation: probability, total cost, ideal cost (the entropy of the counts), overhead, ratio, and the exact counts of zeros and ones, each within half a unit of the seventh decimal and the error of its computation. bench_sigmoid prints the three checksums, which do not depend on the platform, and the nanoseconds per call of squash and stretch, within 1/20 of the measured time up to rounding; it prints nothing if the clock is set back.", "quantifier": "every platform with accurate exp and log2, every reading of the clock, every rule for ties in decimal formatting", "why_tests_cant": "The programs have no tests; their output depends on the floating point functions of the platform and on the clock.", "anchors": ["src/bin/entropy_simulations.rs: main, check_decelerating_estimator_single", "src/bin/bench_sigmoid.rs: main"]}
{"id": "C86", "title": "The text of the statistics", "statement": "After any run of a predictor, printing the statistics by symbol value gives an empty line, a title and 32 lines of four cells of 29 characters each separated by bars; the cell in line i and column j shows the value i+32j in hexadecimal, its character if it can be printed, how often it occurred, and its cost in bytes within half a unit of the second decimal. Printing the statistics by context type gives, if the maximal order is at least 4, 25 lines, one for each order from 0 to 4 and number of unary contexts from 0 to 4, with count, cost and mean occurrence count, which is shown as NaN exactly for classes without bits; with a smaller maximal order it panics. Several statistics are printed one after the other, and the report of the program ends with two of them.", "quantifier": "every mode, window size, maximal order, run of at most 2^40 calls and rule for ties in decimal formatting", "why_tests_cant": "The printing has no tests; the cells depend on the whole run, and the layout must hold for every count and cost.", "anchors": ["src/predictor/stats.rs: print_state, print_costs_and_occurrences_by_context_type, print_costs_and_occurrences_by_symbol_value", "src/main.rs: estimate_compression"]}
{"id": "C87", "title": "The limits of compression", "statement": "The compressed forms of two different files of the same size never begin with one another, so data compressed one after the other can be taken apart, and the sizes satisfy the Kraft inequality: the powers 256^-size add up to at most one over all files of a size. Whatever the distribution of files of one size, the mean compressed size in bits is at least its entropy; over all files of n bytes it is at least n bytes; at most one file in 256^k shrinks by k bytes or more, and some file does not shrink. In the other direction a compressed file has between 4 and 4 + 24 n bytes in every mode, and at most 2.01 n + 66.4 million bytes in the mode of the program.", "quantifier": "every mode, window size, maximal order, file size up to 87500000, distribution of files", "why_tests_cant": "It is a statement about all files of a size together, and the number of files is exponential.", "anchors": ["src/coding/encoder.rs: Encoder", "src/coding/decoder.rs: Decoder", "src/predictor/mod.rs: Predictor"]}
{"id": "C88", "title": "Coding without a limit on the length", "statement": "Whatever the number of events and the length of the output: if the encoder finishes, then its output consists of bytes, has the size given by the information content of the events, and is decoded to the values coded, with data that follows left unread. The encoder fails only if the exact code of the events so far, cut after some byte, ends in 2^31 or more bytes 0xff (its counter of bytes held back for a carry overflows), and a sequence of valid events on which it fails exists. Whenever a file of up to 2^35 bytes is compressed, it is restored exactly, and different files of one size never have compressed forms that begin with one another. In the mode of the program every file of up to a billion bytes is compressed without failure.", "quantifier": "every sequence of valid events of any length, every mode, window size, maximal order, file of up to 2^35 bytes (10^9 for success), trailing data", "why_tests_cant": "The failure needs more than four billion events, and that nothing else fails is a statement about all sequences.", "anchors": ["src/coding/encoder.rs: Encoder", "src/coding/decoder.rs: Decoder", "src/predictor/mod.rs: Predictor"]}
{"id": "C89", "title": "The logarithm routine is accurate for every input", "statement": "The logarithm by repeated squaring, for every input in [1/2, 1) with 31 fractional bits, succeeds and returns one plus the binary logarithm, at most 3 units of the last of 31 fractional bits too large and less than 4 too small; all other inputs panic. The logarithm of an arbitrary fraction strictly between 0 and 1, from which the tables of stretch are built, differs from the real logarithm by at most one unit of its last place, 2^-25; zero and values of one or more panic.", "quantifier": "every 31-bit fraction", "why_tests_cant": "Two thousand million inputs, compared with a real function; the errors of thirty-one rounded squarings add up.", "anchors": ["src/lut/log2.rs: one_plus_log2_restricted", "src/lut/stretch.rs: StretchLut"]}
{"id": "C90", "title": "Coding to a writer and from a reader, as the events come", "statement": "The encoder hands the writer exactly the bytes of the output, one after the other, each once; it fails if and only if coding fails or the writer refuses a byte. On a device with room for n bytes it succeeds if and only if the output has at most n bytes. The decoder on any reader returns what it returns on the list of bytes the reader gives, has then read exactly the bytes it used, and fails if the reader ends too early. What has been written after some events is the beginning of the final output, whatever follows; of the bytes determined so far only one and a run of 0xff (0x00 if the carry has just come) after it are held back. After any number of events the decoder has read exactly four bytes more than these events determine.", "quantifier": "every writer, reader, sequence of valid events, point in the sequence, and every continuation", "why_tests_cant": "Devices that fail at any point, carries that come any number of bytes later, and the position of the reader after every prefix of every sequence.", "anchors": ["src/coding/encoder.rs: Encoder, output_byte, drop", "src/coding/decoder.rs: Decoder, input_byte"]}
{"id": "C91", "title": "Large files: order, damage, limits and sizes", "statement": "For files of up to 2^35 bytes that are compressed: the order of files is preserved; every proper beginning of the compressed form makes the decompressor fail; the compressed form has between 4 and 4 + 24n bytes; compressed forms of files of one size satisfy the Kraft inequality, so the mean size is at least the entropy of any distribution and at most 256^m files are compressed to m bytes or less. In the mode of the program, files of up to 2^35 bytes are compressed without failure whenever the bound from three lists of guesses or probabilities is below 2 GiB, to at most that bound; so every file that repeats one byte or that follows a rule is compressed without failure whatever its size. The size in terms of the best probabilities per context that hindsight can choose also holds for files of up to 10^9 bytes. The same order and round trip hold for any deterministic model and sequences of bits of any length.", "quantifier": "every mode, window, order limit, pair of files, set of files, distribution, list of guesses or probabilities, and every deterministic model", "why_tests_cant": "Files of gigabytes, all pairs of files, sets of files and distributions; and the claims are inequalities that hold for all of them.", "anchors": ["src/coding/encoder.rs: Encoder", "src/coding/decoder.rs: Decoder", "src/predictor/mod.rs: Predictor::predict, Predictor::update", "src/predictor/post_process.rs"]}
{"id": "C92", "title": "What a failing writer leaves behind", "statement": "Using an encoder and dropping it ends without a panic if and only if the writer took every byte of the output; so a refused byte is never lost silently, although dropping the encoder writes again. On a device with room for n bytes that is less than the output, the device ends up with exactly the first n bytes of the output; the process is aborted if the bytes did not fit while events were being coded, and panics if only the final bytes did not fit. On a device that refuses some calls, what it holds begins with the bytes before the first refusal. But a device that refuses one call and then recovers can be left with bytes that are not the beginning of the output: a byte is written twice and another one lost while unwinding, and the events coded before are then decoded wrongly.", "quantifier": "every writer, every sequence of events, every size of the device and every schedule of refused calls; the last sentence is an existence claim", "why_tests_cant": "Failures at every byte of every output, with any state of carry and held back bytes, and the second run of the writing code while a panic unwinds.", "anchors": ["src/coding/encoder.rs: Encoder::output_byte, Encoder::normalize, Drop for Encoder"]}
{"id": "C93", "title": "The program as seen from outside", "statement": "The program writes its banner of two lines and an empty one to the standard error stream before anything else. It ends with code 0 if and only if a file name is given, the file can be opened, no call to read it fails before its end is reported, and the clock has not been set back; then the standard output holds the whole report on the bytes of the file, each taken most significant bit first, and nothing follows the banner. Otherwise the exit code is 101 and the standard output is empty: a partial report is never printed. Neither the portions in which the operating system delivers the file, nor interrupted calls, nor further arguments have any influence on what is printed.", "quantifier": "every list of arguments, every file system, every sequence of results of the calls that read the file (the exit code: up to 2^35 bytes and an accurate logarithm)", "why_tests_cant": "Portions, interruptions and failures of read calls at every position of every file cannot be enumerated, and the operating system does not produce them on demand.", "anchors": ["src/main.rs: main, print_banner, estimate_compression"]}
{"id": "C94", "title": "An estimator codes bits well in the long run", "statement": "For any number of bits in any order, the ideal code length at the predictions of a fresh estimator fed with the bits exceeds the length for a coder that knows how many zeros and ones there are by at most a hundredth of a bit per bit and 11100 bits; against any fixed probability it pays at most 1/(243 r) + 1/690 bits per bit more, where r is the fixed probability of the bit, and 11100 bits. A client that codes up to 16 billion bits with the range coder at these probabilities gets at most one bit in 87 and 11100 bits more than the frequencies need, beyond four final bytes, and the bits come back exactly. C71 has sharper bounds for the first 1001 bits, while the rate still falls.", "quantifier": "every sequence of bits of any length, every fixed probability (size and round trip: up to 16 billion bits and any data behind)", "why_tests_cant": "The rate stays at 1/1002 after 1000 bits and every update is rounded to a multiple of 2^-22, half as much as the smallest correction; whether such errors add up on some order of the bits cannot be seen from single sequences.", "anchors": ["src/estimators/decelerating.rs: DeceleratingEstimator::new, prediction, update", "src/lut/estimator.rs: DeceleratingEstimatorRates", "src/coding/encoder.rs: Encoder::encode_bit"]}
{"id": "C95", "title": "Which data is decoded to what", "statement": "For all data, not only for outputs of the encoder: the data that is decoded to given values, or decompressed to a given file, with a given rest left unread, is exactly the data whose used part has the length of the output and lies, as a number, in an interval that begins with the output; so the output is the smallest data for the file. Greater data is never decompressed to a smaller file of the same size. If the compressed form is damaged only behind the length that its first k bytes alone would be compressed to, these k bytes still come out right. Every further byte of a file makes the compressed form at most 24 bytes longer. Excluded from the statements about order is data that begins with 0xfffffffe or 0xffffffff, which no output does.", "quantifier": "every sequence of valid events that is coded, every deterministic model, every file of up to 2^35 bytes that is compressed, all data", "why_tests_cant": "There are infinitely many pieces of data that no encoder wrote, and how a decoder treats them depends on all bits of its buffer and on the order of all earlier answers.", "anchors": ["src/coding/decoder.rs: Decoder::new, decode_bit, decode_rare_event, normalize", "src/coding/encoder.rs: Encoder::encode_bit, Drop", "src/predictor/mod.rs: Predictor"]}
{"id": "C96", "title": "Compression works in bounded memory", "statement": "However long the file is and whatever it holds, and at every point between two calls of the predictor, the estimators, mixers, probability maps and counters of the predictor are as many as when it was created, and its history keeps at most as many bytes as the window, one node less than that, and one context per order. With the parameters of the program the predictor never keeps more than 25 325 018 numbers.", "quantifier": "every mode, window up to 2^31, order limit up to 8191 and sequence of up to 2^40 calls", "why_tests_cant": "A leak of one element per byte, per context or per rare event shows only after long runs over files that no test contains.", "anchors": ["src/predictor/mod.rs: Predictor", "src/predictor/chain.rs: ContextsChainPredictionMixer", "src/predictor/kits.rs: EstimatorsWithIndexer, MixersWithIndexer", "src/predictor/post_process.rs: PredictionFinalizer", "src/predictor/stats.rs: PredictionStatistics", "src/history/tree/mod.rs: TreeHistorySource"]}
{"id": "C97", "title": "Compression and decompression take linear time", "statement": "The loops of the encoder, with the one that releases the bytes held back for a carry and with the closing of the stream, make at most two rounds per byte written, plus one. The loop of the decoder makes one round per byte read after the first four. The loops of the predictor make at most, per order, 12 rounds for each byte started, 2 for each prediction and 3 for each update; for the program that is at most 1092 rounds per byte of the file, whatever the file holds.", "quantifier": "every sequence of events and every input of the decoder; every mode, window up to 2^31, order limit up to 8191 and sequence of up to 2^40 calls", "why_tests_cant": "That no input makes a loop run long again and again, say over bytes held back or over a deep tree, does not follow from timing a few files.", "anchors": ["src/coding/encoder.rs: normalize, output_byte, drop", "src/coding/decoder.rs: normalize", "src/predictor/mod.rs: start_new_byte, predict, update", "src/predictor/chain.rs: predict, update", "src/predictor/stats.rs: on_next_bit", "src/history/tree/mod.rs: TreeHistorySource"]}
{"id": "C98", "title": "Settings beyond the size of the file do not matter", "statement": "The size of the window and the maximal order are constants of the predictor (10 million bytes and 20) that a user of the library may change. If the window holds the whole file, then its size has no influence on the result; and neither has the maximal order once it is at least the size of the file less two. All predictions are the same, compressing gives the same bytes (or the same failure), and decompressing any data, valid or not, gives the same result and leaves the same rest unread. So a file can be decompressed with other such settings than it was compressed with.", "quantifier": "every mode, every pair of windows (up to 2^31) not smaller than the file, every pair of maximal orders (up to 8191) that are equal or not smaller than the size of the file less two, every file, every input to decompress", "why_tests_cant": "a test compares a few settings on a few files; an influence of the window size could show only at one particular size, where positions wrap around or where nodes are reused", "anchors": ["src/predictor/mod.rs: Predictor::new, MAX_ORDER", "src/history/window.rs: InputWindow::new", "src/history/tree/mod.rs: TreeHistorySource::new", "src/main.rs: main"]}
{"id": "C99", "title": "Streams can be stored one after another", "statement": "Streams written by one encoder after another to the same place, each dropped before the next one is created, are read back by one decoder after another from the same reader: each decoder stops exactly where the next stream begins, so that no lengths have to be stored between them. Likewise files compressed one after another into one stream, each with its own mode, window and maximal order, are restored one after another and what follows is left unread; compressing files of up to 87.5 million bytes succeeds however many they are, and two lists of files with the same settings and sizes whose streams begin the same data are the same.", "quantifier": "every number of streams, every sequence of valid events in each that is coded; every list of files of up to 2^35 bytes each that are compressed, every choice of settings, every trailing data", "why_tests_cant": "whether a decoder reads one byte too many or too few depends on the last state of the interval, so tests of few streams can miss it", "anchors": ["src/coding/encoder.rs: Drop for Encoder", "src/coding/decoder.rs: Decoder::new, Decoder::normalize", "tests/coding_symbols.rs"]}
{"id": "C100", "title": "Squash and stretch undo each other", "statement": "Squash applied to stretch(p) returns p up to 10^-6 for every probability p from 2^-17 to 1 - 2^-17, and up to 10^-7 when p is within 2^-7 of zero or one. Stretch applied to squash(x) returns x up to 10^-3 for every x of magnitude below 1508/128 (about 11.78, where the range of stretch ends), and up to 10^-5 when the magnitude is below 6.25. Neither composition fails on these inputs.", "quantifier": "every probability from 2^-17 to 1 - 2^-17 (2^31 - 2^15 + 1 values), every stretched probability of magnitude below 1508/128", "why_tests_cant": "the project's test checks the first composition on a few thousand samples with the same accuracies and the second one not at all; both functions interpolate between points of different grids, so the largest error lies at points no sample needs to hit", "anchors": ["src/lut/stretch.rs: StretchLut::new, StretchLut::stretch", "src/lut/squash.rs: SquashLut::new, SquashLut::squash, find_squashed_prob", "tests/sigmoid.rs: squash_and_stretch_composed_are_close_to_identity"]}
{"id": "C101", "title": "What a new mixer predicts", "statement": "A new mixer whose inputs have been set predicts according to its initialization mode. With zero weights it predicts exactly one half, whatever the inputs are. With a dominant first input its stretched prediction is exactly the first stretched input, so that a first input given as a probability from 2^-17 to 1 - 2^-17 together with its stretched form is predicted up to 10^-6. With equal weights summing to one and equal stretched inputs it predicts that input up to 12*n*2^-21, where n is the number of inputs (the weights are rounded).", "quantifier": "every size up to 30 (fixed sizes 1 to 5 and the variable one), every rate index, every order of setting the inputs, every input in range", "why_tests_cant": "the inputs are pairs of 31-bit and 25-bit numbers; rounding and clamping could change any of them", "anchors": ["src/mixing/mixer.rs: MixerInitializationMode, FixedSizeMixer, MixerN, Mixer::set_input, Mixer::mix_all"]}
