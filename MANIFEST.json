{
 "claims": [
  {
   "property": "C01",
   "status": "proved",
   "theorems": [
    "Verif.Coding.C01_round_trip",
    "Verif.Coding.C01_injective",
    "Verif.Coding.C88_round_trip"
   ],
   "note": "Round trip for every event sequence the encoder finishes (C88_round_trip); it finishes whenever fewer than 2^31 bytes are produced (C01_round_trip; i32 run counter), and C88 says exactly when it does not."
  },
  {
   "property": "C02",
   "status": "proved",
   "theorems": [
    "Verif.Coding.C01_round_trip",
    "Verif.Coding.C02_no_panic",
    "Verif.Coding.C88_panic_cause"
   ],
   "note": "No panic on either side, decoder stops exactly behind the encoder's output."
  },
  {
   "property": "C03",
   "status": "proved",
   "theorems": [
    "Verif.Coding.C03_length",
    "Verif.Coding.C03_size",
    "Verif.Coding.C03_size_lower",
    "Verif.Coding.C03_bits",
    "Verif.Coding.C03_empty"
   ],
   "note": "Exact length, 3 bytes per event bound, upper and lower information content bound in bits."
  },
  {
   "property": "C04",
   "status": "proved",
   "theorems": [
    "Verif.Coding.C04_adaptive",
    "Verif.Coding.C91_adaptive"
   ],
   "note": "Any model type and functions; up to 700 000 000 bits the encoder finishes, and beyond that the round trip holds whenever it finishes."
  },
  {
   "property": "C05",
   "status": "proved",
   "theorems": [
    "Verif.Coding.C05_any_stream",
    "Verif.Coding.C05_short_stream",
    "Verif.Coding.C05_prefix",
    "Verif.Coding.C05_panic",
    "Verif.Coding.C05_truncated"
   ],
   "note": "Arbitrary streams; a longer stream gives the same values; only a too short stream panics; truncated encodings are always noticed."
  },
  {
   "property": "C06",
   "status": "proved",
   "theorems": [
    "Verif.Coding.C06_final_probability",
    "Verif.Fixed.C06_conversion"
   ],
   "note": "Constructor clamp; conversion of every probability."
  },
  {
   "property": "C07",
   "status": "proved",
   "theorems": [
    "Verif.Fixed.C07_unsigned",
    "Verif.Fixed.C07_signed",
    "Verif.Fixed.C07_signed_min",
    "Verif.Fixed.C07_odd",
    "Verif.Fixed.C07_panics",
    "Verif.Fixed.C07_top_shift_wrong",
    "Verif.Fixed.C07_div_unsigned",
    "Verif.Fixed.C07_div_signed",
    "Verif.Fixed.C07_div_unsigned_all",
    "Verif.Fixed.C07_div_signed_all",
    "Verif.Fixed.C07_sign_only"
   ],
   "note": "Rounding to nearest, ties away from zero, every width, shift and input incl. saturation, minimum and panic cases; shift w-1 signed is a finding; rounded division for all inputs"
  },
  {
   "property": "C08",
   "status": "proved",
   "theorems": [
    "Verif.Fixed.C08_mul_unsigned",
    "Verif.Fixed.C08_mul_probabilities",
    "Verif.Fixed.C08_mul_signed",
    "Verif.Fixed.C08_mul_wide_exact",
    "Verif.Fixed.C08_mul_unsigned_exact",
    "Verif.Fixed.C08_mul_unsigned_saturated",
    "Verif.Fixed.C08_mul_signed_all",
    "Verif.Fixed.C08_mul_signed_exact",
    "Verif.Fixed.C08_mul_wide_signed",
    "Verif.Fixed.C08_mul_wide_unsigned"
   ],
   "note": "Products are the exact product rounded to nearest, or a panic exactly when it does not fit; the saturating corner (outside the formats in use) is one unit low"
  },
  {
   "property": "C09",
   "status": "proved",
   "theorems": [
    "Verif.Fixed.C09_flip",
    "Verif.Fixed.C09_signed_flip_panics",
    "Verif.Fixed.C09_flip_wide"
   ],
   "note": "Unsigned complement exact and involutive on (0,1), panics at 0; signed complements always panic (finding)"
  },
  {
   "property": "C10",
   "status": "proved",
   "theorems": [
    "Verif.Log2.C10_table_exists",
    "Verif.Log2.C10_accuracy",
    "Verif.Log2.C10_monotone"
   ],
   "note": "Real logarithm bound, monotonicity and absence of panics for every nonzero value, every fractional bit count, 32 and 64 bit"
  },
  {
   "property": "C100",
   "status": "proved",
   "theorems": [
    "Verif.Lut.C100_squash_stretch",
    "Verif.Lut.C100_stretch_squash"
   ],
   "note": "the compositions are straight lines between the points of both grids up to rounding; the kernel computes the error at all ends of these lines"
  },
  {
   "property": "C101",
   "status": "proved",
   "theorems": [
    "Verif.Mix.C101_new_mixer"
   ],
   "note": "the weights from C38_new, the inputs by induction over the calls, the last step from C100"
  },
  {
   "property": "C11",
   "status": "proved",
   "theorems": [
    "Verif.Log2.C11_cost",
    "Verif.Log2.C11_monotone"
   ],
   "note": "Positive, at most 23 bits, within 1/1024 bit of Shannon length, monotone"
  },
  {
   "property": "C12",
   "status": "proved",
   "theorems": [
    "Verif.Log2.C12_step",
    "Verif.Log2.C12_panics",
    "Verif.Log2.C12_bounded",
    "Verif.Log2.C12_converges",
    "Verif.Log2.C12_updated_on_bit"
   ],
   "note": "Step bound, sequences, convergence (constant cost below two bits), panic cases"
  },
  {
   "property": "C13",
   "status": "proved",
   "theorems": [
    "Verif.Est.C13_range",
    "Verif.Est.C13_monotone",
    "Verif.Est.C13_make_wraps",
    "Verif.Est.C13_make_rates",
    "Verif.Est.C13_any_rates",
    "Verif.Est.C13_constant_half_wraps"
   ],
   "note": "All bit sequences from new(), default rates and every table of rates at most 1/2 (1/3 after the first bit); make() with count 0 or a constant rate of 1/2 can wrap (findings)"
  },
  {
   "property": "C14",
   "status": "proved",
   "theorems": [
    "Verif.Est.C14_symmetry",
    "Verif.Est.C13_any_rates"
   ],
   "note": "Exact symmetry for every bit sequence"
  },
  {
   "property": "C15",
   "status": "proved",
   "theorems": [
    "Verif.Est.C15_error",
    "Verif.Est.C15_estimate",
    "Verif.Est.C15_step"
   ],
   "note": "Estimate is (zeros+1/2)/(bits+1) within 2^-14 for every sequence up to 1001 bits; law of a single step for any number of bits and any usable rate table"
  },
  {
   "property": "C16",
   "status": "proved",
   "theorems": [
    "Verif.Est.C16_fixed_speed",
    "Verif.Est.C16_default",
    "Verif.Est.C16_new",
    "Verif.Est.C16_learns",
    "Verif.Est.C16_limits"
   ],
   "note": "Range, no overflow, symmetry, learning and limits for every sequence"
  },
  {
   "property": "C17",
   "status": "proved",
   "theorems": [
    "Verif.Est.C17_cache",
    "Verif.Est.C17_cache_exists",
    "Verif.Est.C17_predictions"
   ],
   "note": "Run caches equal replay for every run length; existence of the caches proved"
  },
  {
   "property": "C18",
   "status": "proved",
   "theorems": [
    "Verif.State.C18_last_bits",
    "Verif.State.C18_constructors",
    "Verif.State.C18_queries"
   ],
   "note": ""
  },
  {
   "property": "C19",
   "status": "proved",
   "theorems": [
    "Verif.State.C19_runs",
    "Verif.State.C19_single",
    "Verif.State.C19_constructors"
   ],
   "note": ""
  },
  {
   "property": "C20",
   "status": "proved",
   "theorems": [
    "Verif.Util.C20_buckets",
    "Verif.Util.C20_monotone",
    "Verif.Util.C20_step",
    "Verif.Util.C20_onto"
   ],
   "note": ""
  },
  {
   "property": "C21",
   "status": "proved",
   "theorems": [
    "Verif.Util.C21_new",
    "Verif.Util.C21_size",
    "Verif.Util.C21_query",
    "Verif.Util.C21_rejects",
    "Verif.Util.C21_bijection"
   ],
   "note": ""
  },
  {
   "property": "C22",
   "status": "proved",
   "theorems": [
    "Verif.Util.C22_history",
    "Verif.Util.C22_protocol"
   ],
   "note": ""
  },
  {
   "property": "C23",
   "status": "proved",
   "theorems": [
    "Verif.Util.C23_fnv_step",
    "Verif.Util.C23_hash01_injective",
    "Verif.Util.C23_uses_bytes",
    "Verif.Util.C23_depends",
    "Verif.Util.C23_collides"
   ],
   "note": ""
  },
  {
   "property": "C24",
   "status": "proved",
   "theorems": [
    "Verif.Window.C24_queue",
    "Verif.Window.C24_panics",
    "Verif.Window.C24_bad_shift",
    "Verif.Window.C24_illegal"
   ],
   "note": "finding: a shift equal to the maximum size is accepted by new but the first advance panics"
  },
  {
   "property": "C25",
   "status": "proved",
   "theorems": [
    "Verif.Window.C25_compare",
    "Verif.Window.C25_compare_bytes"
   ],
   "note": ""
  },
  {
   "property": "C26",
   "status": "proved",
   "theorems": [
    "Verif.Window.C26_add_sub",
    "Verif.Window.C26_order",
    "Verif.Window.C26_suffixes",
    "Verif.Window.C26_empty_suffixes_panics"
   ],
   "note": "finding: for_each_suffix panics on a fresh empty window with shift 0"
  },
  {
   "property": "C27",
   "status": "proved",
   "theorems": [
    "Verif.History.C27_naive",
    "Verif.History.C27_no_gaps",
    "Verif.History.C27_full",
    "Verif.History.C27_reads"
   ],
   "note": "Naive source: never panics and returns exactly the declarative specification (specGather) for every input that fits the window; no gaps; full list when the input is long enough."
  },
  {
   "property": "C28",
   "status": "proved",
   "theorems": [
    "Verif.History.C28_fat_map",
    "Verif.History.C28_fat_map_exact",
    "Verif.History.C28_neutralize",
    "Verif.History.C28_same"
   ],
   "note": "Every hash function (arbitrary, incl. constant), every cost tracker update; equal to the naive source up to cost trackers, exactly equal with default trackers."
  },
  {
   "property": "C29",
   "status": "proved",
   "theorems": [
    "Verif.Tree.C29_tree",
    "Verif.Tree.C29_tree_exact",
    "Verif.Tree.C29_tree_fat",
    "Verif.Tree.C29_same"
   ],
   "note": "For every input that fits in the window; with arbitrary cost trackers up to cost trackers, exactly with default ones; also against the hash map source."
  },
  {
   "property": "C30",
   "status": "proved",
   "theorems": [
    "Verif.Tree.C30_any_length",
    "Verif.Tree.C30_contexts",
    "Verif.Tree.C30_structure",
    "Verif.Tree.C30_places"
   ],
   "note": "For inputs of any length: no panic (hence the pool suffices), the contexts reported, and the exact set of nodes, depths and child pointers."
  },
  {
   "property": "C31",
   "status": "proved",
   "theorems": [
    "Verif.History.C31_prefix",
    "Verif.Tree.C31_tree"
   ],
   "note": "Branching contexts form a prefix of every specified chain."
  },
  {
   "property": "C32",
   "status": "proved",
   "theorems": [
    "Verif.History.C32_replay",
    "Verif.History.C32_branching",
    "Verif.History.C32_reads"
   ],
   "note": "States equal replay of the following bits."
  },
  {
   "property": "C33",
   "status": "proved",
   "theorems": [
    "Verif.Tree.C33_roundtrip"
   ],
   "note": "Round trip, injectivity, surjectivity onto the valid i32 values, rejection out of range."
  },
  {
   "property": "C34",
   "status": "proved",
   "theorems": [
    "Verif.Tree.C34_contents",
    "Verif.Tree.C34_add",
    "Verif.Tree.C34_delete",
    "Verif.Tree.C34_count",
    "Verif.Tree.C34_root_delete",
    "Verif.Tree.C34_root"
   ],
   "note": "Any history of add/delete/update; capacity taken as exactly the requested one; deleting the root is excluded (it breaks the pool: C34_root_delete)."
  },
  {
   "property": "C35",
   "status": "proved",
   "theorems": [
    "Verif.Lut.C35_stretch",
    "Verif.Lut.C35_zero",
    "Verif.Lut.C35_interpolates",
    "Verif.Lut.C35_floor",
    "Verif.Lut.C35_near_monotone",
    "Verif.Lut.C35_not_monotone"
   ],
   "note": "Tables computed by the constructor are pinned down by kernel computation over the entire table, everything else by general lemmas. C35_not_monotone is a finding."
  },
  {
   "property": "C36",
   "status": "proved",
   "theorems": [
    "Verif.Lut.C36_squash",
    "Verif.Lut.C36_interpolates",
    "Verif.Lut.C36_near_monotone",
    "Verif.Lut.C36_not_monotone"
   ],
   "note": "C36_not_monotone is a finding."
  },
  {
   "property": "C37",
   "status": "proved",
   "theorems": [
    "Verif.Lut.C37_best_inverse",
    "Verif.Lut.C37_round_trip"
   ],
   "note": ""
  },
  {
   "property": "C38",
   "status": "proved",
   "theorems": [
    "Verif.Mix.C38_new",
    "Verif.Mix.C38_in_range",
    "Verif.Mix.C38_mix_value",
    "Verif.Mix.C38_update_value"
   ],
   "note": "Constructors, ranges after every history, exact value of mixing and updating"
  },
  {
   "property": "C39",
   "status": "proved",
   "theorems": [
    "Verif.Mix.C39_symmetry"
   ],
   "note": "Exact complement symmetry over whole histories"
  },
  {
   "property": "C40",
   "status": "proved",
   "theorems": [
    "Verif.Mix.C40_protocol"
   ],
   "note": "Panics exactly when the protocol automaton rejects"
  },
  {
   "property": "C41",
   "status": "proved",
   "theorems": [
    "Verif.Mix.C41_new",
    "Verif.Mix.C41_total",
    "Verif.Mix.C41_fastest_rate_panics"
   ],
   "note": "event histories; fastest rate shown to panic"
  },
  {
   "property": "C42",
   "status": "proved",
   "theorems": [
    "Verif.Pred.C42_statistics",
    "Verif.Pred.C42_any_history",
    "Verif.Pred.C42_first_byte",
    "Verif.Pred.C42_print",
    "Verif.Pred.C42_total_cost"
   ],
   "note": "statistics equal sums over the specification of the bits fed; f64 division when printing not modelled"
  },
  {
   "property": "C43",
   "status": "proved",
   "theorems": [
    "Verif.Random.C43_scalar",
    "Verif.Random.C43_vector",
    "Verif.Random.C43_empty_key",
    "Verif.Random.C43_tempering",
    "Verif.Random.C43_int63",
    "Verif.Random.C43_never_stuck"
   ],
   "note": "Model of src/random/mod.rs:24-137. Spec: published recurrence, initialisations and tempering over infinite word sequences. Includes that no seed gets stuck at zeros."
  },
  {
   "property": "C44",
   "status": "proved",
   "theorems": [
    "Verif.Pred.C44_new",
    "Verif.Pred.C44_protocol",
    "Verif.Pred.C44_predictions",
    "Verif.Pred.C44_file",
    "Verif.Pred.C44_program"
   ],
   "note": "bounds 2^40 calls (u64/i64 counters), window size 2^31, maximal order 8191 (u16 depth)"
  },
  {
   "property": "C45",
   "status": "proved",
   "theorems": [
    "Verif.Log2.C45_cost_table"
   ],
   "note": "Whole table by induction on run length"
  },
  {
   "property": "C46",
   "status": "proved",
   "theorems": [
    "Verif.Fixed.C46_unsigned",
    "Verif.Fixed.C46_signed",
    "Verif.Fixed.C46_narrow",
    "Verif.Fixed.C46_narrow_unsigned",
    "Verif.Fixed.C46_saturated",
    "Verif.Fixed.C46_least",
    "Verif.Fixed.C46_far"
   ],
   "note": "Unsigned, signed and 64-to-32-bit conversions, incl. saturation."
  },
  {
   "property": "C47",
   "status": "proved",
   "theorems": [
    "Verif.Lut.C47_table",
    "Verif.Lut.C47_stretch",
    "Verif.Lut.C47_stretch_tails",
    "Verif.Lut.C47_squash",
    "Verif.Lut.C47_rarer",
    "Verif.Lut.C47_squash_middle"
   ],
   "note": "Compared with Real.log and Real.exp of Mathlib. The f64 self check of stretch.rs:81 is replaced by the same inequality over the reals (C47_table)."
  },
  {
   "property": "C48",
   "status": "proved",
   "theorems": [
    "Verif.Mix.C48_learns"
   ],
   "note": "Sign argument, rounding and clamping are monotone"
  },
  {
   "property": "C49",
   "status": "proved",
   "theorems": [
    "Verif.Mix.C49_direction",
    "Verif.Mix.C49_step",
    "Verif.Mix.C49_isolated"
   ],
   "note": "direction, size and isolation of learning after any history"
  },
  {
   "property": "C50",
   "status": "proved",
   "theorems": [
    "Verif.Mix.C50_identity"
   ],
   "note": "identity within one unit"
  },
  {
   "property": "C51",
   "status": "proved",
   "theorems": [
    "Verif.Tree.C51_window_only"
   ],
   "note": ""
  },
  {
   "property": "C52",
   "status": "proved",
   "theorems": [
    "Verif.Pred.C52_tables"
   ],
   "note": "self check against f64 ln not modelled"
  },
  {
   "property": "C53",
   "status": "proved",
   "theorems": [
    "Verif.Pred.C53_round_trip",
    "Verif.Pred.C53_injective"
   ],
   "note": "compress/decompress client combining predictor and coder is ours (the program only estimates)"
  },
  {
   "property": "C54",
   "status": "proved",
   "theorems": [
    "Verif.Pred.C54_estimate"
   ],
   "note": "f64 sum of the program taken as real numbers"
  },
  {
   "property": "C55",
   "status": "proved",
   "theorems": [
    "Verif.Pred.C55_reference",
    "Verif.Pred.C55_program"
   ],
   "note": "Reference in Pred/RefSpec.lean; the parts (estimators, mixers, maps, tables, sources) have their own properties."
  },
  {
   "property": "C56",
   "status": "proved",
   "theorems": [
    "Verif.Tree.C56_states",
    "Verif.Pred.C56_predictions"
   ],
   "note": "Simulation of the tree and of the hash map by the ideal source (History/Ideal.lean); the invariants of C28 and C29 carry a predicate relating string, bits that followed it and cost trackers, instantiated with 'supplied at the last occurrence'."
  },
  {
   "property": "C57",
   "status": "proved",
   "theorems": [
    "Verif.Tree.C57_integrity",
    "Verif.Tree.C57_suffixes_root_only"
   ],
   "note": "For all whole-byte inputs. C57_suffixes_root_only shows that one part of the check is weaker than it looks."
  },
  {
   "property": "C58",
   "status": "proved",
   "theorems": [
    "Verif.Tree.C58_live_nodes"
   ],
   "note": "After every bit of every input."
  },
  {
   "property": "C59",
   "status": "proved",
   "theorems": [
    "Verif.Tree.C59_leaves",
    "Verif.Tree.C59_tree",
    "Verif.Tree.C59_texts",
    "Verif.Tree.C59_window",
    "Verif.Tree.C59_suffix",
    "Verif.Tree.C59_suffixes",
    "Verif.Tree.C59_check",
    "Verif.Tree.C59_degenerate"
   ],
   "note": "any pool whose node indices and leaves fit their types; C59_leaves, C59_texts, C59_window, C59_suffix, C59_suffixes and C59_check are equivalences; C59_suffixes assumes that the text of the root lies in the window"
  },
  {
   "property": "C60",
   "status": "proved",
   "theorems": [
    "Verif.Tree.C60_shrink",
    "Verif.Tree.C60_same_shape",
    "Verif.Tree.C60_integrity"
   ],
   "note": "The integrity check is run with the bit index forced to 7, as the test of the repository does."
  },
  {
   "property": "C61",
   "status": "proved",
   "theorems": [
    "Verif.Tree.C61_same_shape",
    "Verif.Tree.TreeIs.det",
    "Verif.Tree.C61_contexts"
   ],
   "note": "shapes are independent of node numbers; TreeIs.det: a tree has one shape only"
  },
  {
   "property": "C62",
   "status": "proved",
   "theorems": [
    "Verif.Fixed.C62_whole",
    "Verif.Fixed.C62_probabilities",
    "Verif.Fixed.C62_exact",
    "Verif.Fixed.C62_trunc",
    "Verif.Fixed.C62_div",
    "Verif.Fixed.C62_interval"
   ],
   "note": "All widths."
  },
  {
   "property": "C63",
   "status": "proved",
   "theorems": [
    "Verif.Tree.C63_states",
    "Verif.Tree.C63_position",
    "Verif.Pred.C63_predictions"
   ],
   "note": "The memory of contexts (Tree/MemoSpec.lean) is the specification; the theorems hold for windows and files of any relative size. C56 relates the memory to the full history while nothing has left the window."
  },
  {
   "property": "C64",
   "status": "proved",
   "theorems": [
    "Verif.Mix.C64_complement",
    "Verif.Mix.C64_on_stop"
   ],
   "note": "Fixed weights and inputs off the interior stops; C64_on_stop shows that the exclusion is needed. Learning with the stored weights is not claimed: its roundings need not be complementary and can accumulate."
  },
  {
   "property": "C65",
   "status": "proved",
   "theorems": [
    "Verif.Float.C65_exact",
    "Verif.Float.C65_exact_unsigned",
    "Verif.Float.C65_nearest",
    "Verif.Float.C65_nearest_unsigned",
    "Verif.Float.C65_from",
    "Verif.Float.C65_from_unsigned",
    "Verif.Float.C65_round_trip",
    "Verif.Float.C65_round_trip_unsigned",
    "Verif.Float.C65_lossy",
    "Verif.Float.C65_single",
    "Verif.Float.C65_single_unsigned",
    "Verif.Float.C65_formats",
    "Verif.Float.C65_formats_unsigned",
    "Verif.Float.C65_bounds",
    "Verif.Float.C65_from_f32",
    "Verif.Float.C65_from_f32_unsigned"
   ],
   "note": "f64 and f32 are modelled as rationals with IEEE rounding to nearest even, gradual underflow and overflow; conversion from floats uses the saturating cast of current Rust."
  },
  {
   "property": "C66",
   "status": "proved",
   "theorems": [
    "Verif.Float.C66_real1",
    "Verif.Float.C66_real2",
    "Verif.Float.C66_real3"
   ],
   "note": "For every state reached from any seed; uses the integer generator of C43."
  },
  {
   "property": "C67",
   "status": "proved",
   "theorems": [
    "Verif.Pred.C67_sum",
    "Verif.Pred.C67_reported"
   ],
   "note": "The platform's f64::log2 is an arbitrary function with a given relative error; sums and differences are IEEE operations."
  },
  {
   "property": "C68",
   "status": "proved",
   "theorems": [
    "Verif.Bin.C68_same_text",
    "Verif.Bin.C68_empty"
   ],
   "note": "The printed text is modelled as a list of bytes with, per bit, the list of state numbers; formatting of numbers is not modelled."
  },
  {
   "property": "C69",
   "status": "proved",
   "theorems": [
    "Verif.Bin.C69_simulation",
    "Verif.Bin.C69_both_bits",
    "Verif.Bin.C69_probability",
    "Verif.Bin.C69_zero_run",
    "Verif.Bin.C69_report",
    "Verif.Bin.C69_overhead",
    "Verif.Bin.C69_main"
   ],
   "note": "exp and log2 of the platform are parameters with error bounds."
  },
  {
   "property": "C70",
   "status": "proved",
   "theorems": [
    "Verif.Bin.C70_test_value",
    "Verif.Bin.C70_uniform",
    "Verif.Bin.C70_checksums",
    "Verif.Bin.C70_run"
   ],
   "note": "The clock and the printed durations are not modelled."
  },
  {
   "property": "C71",
   "status": "proved",
   "theorems": [
    "Verif.Est.C71_regret",
    "Verif.Est.C71_size",
    "Verif.Est.C71_run",
    "Verif.Est.C71_round_trip"
   ],
   "note": "The client that connects estimator and coder is a specification: the repository's own predictor mixes many estimators. The size bound ends at 1001 bits because the counter of an estimator stops at 1000."
  },
  {
   "property": "C72",
   "status": "proved",
   "theorems": [
    "Verif.Lut.C72_check",
    "Verif.Lut.C72_stretch",
    "Verif.Lut.C72_squash",
    "Verif.Lut.C72_tables"
   ],
   "note": "Logarithm and exponential are arbitrary functions of the given accuracy; the other float operations are modelled exactly (rounding to nearest even)."
  },
  {
   "property": "C73",
   "status": "proved",
   "theorems": [
    "Verif.Pred.C73_any_stream",
    "Verif.Pred.C73_prefix",
    "Verif.Pred.C73_panic",
    "Verif.Pred.C73_truncated",
    "Verif.Pred.C73_streaming"
   ],
   "note": "The decompressor loop is a client of decoder and predictor, as in C53; the repository itself contains only the estimate of the compressed size."
  },
  {
   "property": "C74",
   "status": "proved",
   "theorems": [
    "Verif.Pred.C74_finishes",
    "Verif.Pred.C74_costs",
    "Verif.Pred.C74_empty",
    "Verif.Pred.C74_context_length",
    "Verif.Pred.C74_lut_cost",
    "Verif.Pred.C74_times"
   ],
   "note": "log2 is any function of given relative error and the clock readings are any numbers; the printed text is not modelled, only the numbers."
  },
  {
   "property": "C75",
   "status": "proved",
   "theorems": [
    "Verif.Pred.C75_symbols",
    "Verif.Pred.C75_contexts"
   ],
   "note": "Finding: the table by symbol value lacks the values 128 to 255, and printing panics for a maximal order below 4."
  },
  {
   "property": "C76",
   "status": "proved",
   "theorems": [
    "Verif.Mix.C76_round",
    "Verif.Mix.C76_regret",
    "Verif.Mix.C76_best_input",
    "Verif.Mix.C76_small"
   ],
   "note": "Costs in nats. The round is a composition of the modelled calls in RegretProps.lean; table errors enter by C47_squash and C47_rarer."
  },
  {
   "property": "C77",
   "status": "proved",
   "theorems": [
    "Verif.Mix.C77_map",
    "Verif.Pred.C77_estimate",
    "Verif.Pred.C77_compressed",
    "Verif.Pred.C77_determined",
    "Verif.Pred.C77_repeat"
   ],
   "note": "Only for the mode the program uses (two refinement stages, `light`). The constants are not optimal."
  },
  {
   "property": "C78",
   "status": "proved",
   "theorems": [
    "Verif.Mix.C78_map",
    "Verif.Pred.C78_estimate",
    "Verif.Pred.C78_compressed",
    "Verif.Pred.C78_ideal",
    "Verif.Pred.C78_letters"
   ],
   "note": "rate 5 and fixed weights, the values of the default mode"
  },
  {
   "property": "C79",
   "status": "proved",
   "theorems": [
    "Verif.Tree.C79_text",
    "Verif.Tree.C79_faithful",
    "Verif.Tree.C79_contexts",
    "Verif.Tree.C79_listing"
   ],
   "note": "C79_text: printing succeeds exactly on finite trees and gives the described lines; C79_faithful: equal listings mean equal trees (up to fields that are not printed); C79_contexts: the same for the list of contexts; C79_listing: on every input the listing has 2n+1 lines for n live nodes and its leaves are in lexicographic order."
  },
  {
   "property": "C80",
   "status": "proved",
   "theorems": [
    "Verif.Bin.C80_text",
    "Verif.Bin.C80_readable"
   ],
   "note": "Text is a list of characters; its encoding as UTF-8 by the standard output is not modelled."
  },
  {
   "property": "C81",
   "status": "proved",
   "theorems": [
    "Verif.Tree.C81_time",
    "Verif.Tree.C81_memory",
    "Verif.Tree.C81_growth"
   ],
   "note": "rounds of loops are counted; the steps outside of loops are a fixed number per call; the capacity of vectors is taken as requested"
  },
  {
   "property": "C82",
   "status": "proved",
   "theorems": [
    "Verif.Pred.C82_table_estimate",
    "Verif.Pred.C82_moderate",
    "Verif.Pred.C82_limit",
    "Verif.Pred.C82_long"
   ],
   "note": "C82_limit shows that the bound of 32 bits asserted by the test suite does not hold for all bits and probabilities."
  },
  {
   "property": "C83",
   "status": "proved",
   "theorems": [
    "Verif.Coding.C83_events",
    "Verif.Coding.C83_prefix",
    "Verif.Coding.C83_adaptive",
    "Verif.Pred.C83_files",
    "Verif.Pred.C83_same_size",
    "Verif.Coding.C91_order_events",
    "Verif.Coding.C91_order_prefix",
    "Verif.Coding.C91_order_adaptive",
    "Verif.Pred.C91_files",
    "Verif.Pred.C91_same_size"
   ],
   "note": ""
  },
  {
   "property": "C84",
   "status": "proved",
   "theorems": [
    "Verif.Pred.C84_text",
    "Verif.Pred.C84_columns",
    "Verif.Pred.C84_empty"
   ],
   "note": "The rule for ties of the decimal formatting is a parameter: any rule that gives a nearest decimal. The file is not empty and time has passed for C84_text."
  },
  {
   "property": "C85",
   "status": "proved",
   "theorems": [
    "Verif.Bin.C85_entropy",
    "Verif.Bin.C85_benchmark",
    "Verif.Bin.C85_clock"
   ],
   "note": "exp, log2 and the clock of the platform and the rule for ties of decimal formatting are parameters; exp is accurate within one percent, log2 up to a relative error of at most 1/8."
  },
  {
   "property": "C86",
   "status": "proved",
   "theorems": [
    "Verif.Pred.C86_symbols",
    "Verif.Pred.C86_contexts",
    "Verif.Pred.C86_several",
    "Verif.Pred.C86_report"
   ],
   "note": "Cells of the table by symbols keep their width if counts are below 10^10 and costs below 9*10^9 bytes; runs of at most 2^40 calls; the rule for ties of decimal formatting is a parameter."
  },
  {
   "property": "C87",
   "status": "proved",
   "theorems": [
    "Verif.Pred.C87_prefix",
    "Verif.Pred.C87_kraft",
    "Verif.Pred.C87_entropy",
    "Verif.Pred.C87_mean",
    "Verif.Pred.C87_few",
    "Verif.Pred.C87_growth",
    "Verif.Pred.C87_double"
   ],
   "note": "For the client of C53 that combines predictor and coder, files of up to 87 500 000 bytes. C87_double only for the mode the program uses."
  },
  {
   "property": "C88",
   "status": "proved",
   "theorems": [
    "Verif.Coding.C88_round_trip",
    "Verif.Coding.C88_size",
    "Verif.Coding.C88_panic_cause",
    "Verif.Coding.C88_panic_exists",
    "Verif.Pred.C88_files",
    "Verif.Pred.C88_prefix",
    "Verif.Pred.C88_estimate",
    "Verif.Pred.C88_billion",
    "Verif.Pred.C88_lists"
   ],
   "note": "Arithmetic overflow counts as failure, as in a build with overflow checks. Files: for the client of C53. C88_billion and C88_lists only for the mode the program uses."
  },
  {
   "property": "C89",
   "status": "proved",
   "theorems": [
    "Verif.Lut.C89_log2",
    "Verif.Lut.C89_domain",
    "Verif.Lut.C89_fraction",
    "Verif.Lut.C89_fraction_domain"
   ],
   "note": "The error of the finished tables is C10 and C47; here the routine that fills them, for all its inputs."
  },
  {
   "property": "C90",
   "status": "proved",
   "theorems": [
    "Verif.Coding.C90_writer",
    "Verif.Coding.C90_limited",
    "Verif.Coding.C90_reader",
    "Verif.Coding.C90_pipe",
    "Verif.Coding.C90_written",
    "Verif.Coding.C90_held",
    "Verif.Coding.C90_ahead"
   ],
   "note": "A panic ends the run here; what the unwinding does with the encoder is C92."
  },
  {
   "property": "C91",
   "status": "proved",
   "theorems": [
    "Verif.Coding.C91_order_events",
    "Verif.Coding.C91_order_prefix",
    "Verif.Coding.C91_order_adaptive",
    "Verif.Coding.C91_adaptive",
    "Verif.Pred.C91_files",
    "Verif.Pred.C91_same_size",
    "Verif.Pred.C91_truncated",
    "Verif.Pred.C91_growth",
    "Verif.Pred.C91_kraft",
    "Verif.Pred.C91_entropy",
    "Verif.Pred.C91_few",
    "Verif.Pred.C91_guesses",
    "Verif.Pred.C91_determined",
    "Verif.Pred.C91_repeat",
    "Verif.Pred.C91_lists",
    "Verif.Pred.C91_letters",
    "Verif.Pred.C91_mean",
    "Verif.Pred.C91_ideal"
   ],
   "note": "In modes other than the light one, and for files that need 2 GiB or more, the encoder finishing is a hypothesis (C88 says when it panics)."
  },
  {
   "property": "C92",
   "status": "proved",
   "theorems": [
    "Verif.Coding.C92_noticed",
    "Verif.Coding.C92_full",
    "Verif.Coding.C92_scheduled",
    "Verif.Coding.C92_once"
   ],
   "note": "Builds in which a panic unwinds (the default). A writer that itself panics is not modelled."
  },
  {
   "property": "C93",
   "status": "proved",
   "theorems": [
    "Verif.Pred.C93_bits",
    "Verif.Pred.C93_banner",
    "Verif.Pred.C93_streams",
    "Verif.Pred.C93_ending",
    "Verif.Pred.C93_delivery"
   ],
   "note": "BufReader and Bytes of the standard library are modelled from their documentation. Writing to the standard streams always succeeds in the model; the panic message is a parameter."
  },
  {
   "property": "C94",
   "status": "proved",
   "theorems": [
    "Verif.Est.C94_fixed",
    "Verif.Est.C94_regret",
    "Verif.Est.C94_size",
    "Verif.Est.C94_run"
   ],
   "note": "The estimator with the default rate table. The client that codes with it is the one of C71."
  },
  {
   "property": "C95",
   "status": "proved",
   "theorems": [
    "Verif.Coding.C95_exact",
    "Verif.Coding.C95_regular",
    "Verif.Coding.C95_order",
    "Verif.Coding.C95_monotone",
    "Verif.Coding.C95_damage",
    "Verif.Coding.C95_irregular",
    "Verif.Pred.C95_data",
    "Verif.Pred.C95_files",
    "Verif.Pred.C95_damaged"
   ],
   "note": "Data that begins with 0xfffffffe or 0xffffffff is excluded where the order matters (C95_irregular shows why); no output begins so (C95_regular)."
  },
  {
   "property": "C96",
   "status": "proved",
   "theorems": [
    "Verif.Pred.C96_memory",
    "Verif.Pred.C96_program"
   ],
   "note": "Counts the numbers kept in lists, not bytes; up to 2^40 calls. The lookup tables are constant and not counted."
  },
  {
   "property": "C97",
   "status": "proved",
   "theorems": [
    "Verif.Coding.C97_encoder",
    "Verif.Coding.C97_decoder",
    "Verif.Pred.C97_predictor",
    "Verif.Pred.C97_program"
   ],
   "note": "Rounds of loops are counted beside the calls of the model; a loop over the at most five inputs of a mixer counts as a fixed number of steps. Up to 2^40 calls for the predictor."
  },
  {
   "property": "C98",
   "status": "proved",
   "theorems": [
    "Verif.Pred.C98_predictions",
    "Verif.Pred.C98_compress",
    "Verif.Pred.C98_decompress"
   ],
   "note": "by C56 the predictions are those of the reference predictor on the ideal history, which knows no window; contexts of higher orders cannot have occurred before"
  },
  {
   "property": "C99",
   "status": "proved",
   "theorems": [
    "Verif.Pred.C99_events",
    "Verif.Pred.C99_files",
    "Verif.Pred.C99_success",
    "Verif.Pred.C99_unique"
   ],
   "note": "by induction from the round trips of C88, which leave the trailing data unread"
  }
 ]
}
