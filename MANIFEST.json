{
 "claims": [
  {
   "property": "C01",
   "status": "proved",
   "theorems": [
    "Verif.Pond.share_reconstruct",
    "Verif.Pond.dealerShare_reconstruct",
    "Verif.Pond.input_reveal"
   ],
   "note": "Any additive group of tensors, any mask, both coin outcomes, both servers' copies."
  },
  {
   "property": "C02",
   "status": "proved",
   "theorems": [
    "Verif.Pond.program_exact",
    "Verif.Pond.program_refines"
   ],
   "note": "All straight-line programs; ring-exact when unscaled, refinement up to the truncation relation otherwise."
  },
  {
   "property": "C03",
   "status": "partial",
   "theorems": [
    "Verif.Pond.share_uniform",
    "Verif.Pond.program_secrecy_partial",
    "Verif.Pond.matmul_public_leaks",
    "Verif.Pond.matmul_public_leaks_false",
    "Verif.Pond.pondCfg_hides",
    "Verif.Pond.reveal_leaks"
   ],
   "note": "Equality of distributions of a server's whole view, ideal uniform samplers, truncation that hides, for every program at server 1 and for every program without a matrix product private x public at server 0. The full claim is false: that product computes server 1's share on server 0's device, so server 0 receives both shares (matmul_public_leaks, for every input and draw)."
  },
  {
   "property": "C04",
   "status": "proved",
   "theorems": [
    "Verif.Aby3.share_reconstruct",
    "Verif.Aby3.share_reveal"
   ],
   "note": "Any width and size, arithmetic and boolean, every draw, every server and outside player."
  },
  {
   "property": "C05",
   "status": "proved",
   "theorems": [
    "Verif.Aby3.program_exact",
    "Verif.Aby3.program_refines",
    "Verif.Aby3.program_reveals"
   ],
   "note": "All straight-line programs over the modelled operations, every draw; exact without truncation, refinement with it."
  },
  {
   "property": "C06",
   "status": "proved",
   "theorems": [
    "Verif.Aby3.program_exact",
    "Verif.Aby3.program_reveals"
   ],
   "note": "The same program language contains xor/and/or/not, conversions and bit extraction."
  },
  {
   "property": "C07",
   "status": "partial",
   "theorems": [
    "Verif.Aby3.share_uniform",
    "Verif.Aby3.program_secrecy",
    "Verif.Aby3.closed_secrecy",
    "Verif.Aby3.equal_zero_secrecy",
    "Verif.Aby3.vector_max_secrecy",
    "Verif.Aby3.cmp_swap_secrecy",
    "Verif.Aby3.sort_secrecy",
    "Verif.Aby3.pow_secrecy",
    "Verif.Aby3.polynomial_secrecy",
    "Verif.Aby3.piecewise_secrecy",
    "Verif.Aby3.broadcast_leaks_false",
    "Verif.Aby3.cheetah_leaks_false"
   ],
   "note": "Equality of the distributions of a server's whole view for all programs whose zero sharings are not broadcast; with a broadcast first factor, or with the cheetah truncation, the claim is false (proved)."
  },
  {
   "property": "C08",
   "status": "proved",
   "theorems": [
    "Verif.Fixed.pond_encode_decode",
    "Verif.Fixed.aby3_encode_decode",
    "Verif.Fixed.encode_decode_exact",
    "Verif.Fixed.encode_decode_integer",
    "Verif.Fixed.pond_decode_out_of_range",
    "Verif.Fixed.encode_tf_tensor_raises"
   ],
   "note": "Every config, every rational in range; floats are exact rationals."
  },
  {
   "property": "C09",
   "status": "partial",
   "theorems": [
    "Verif.Fixed.validate_iff",
    "Verif.Fixed.validate_ready_partial",
    "Verif.Fixed.validate_ready_crt",
    "Verif.Fixed.validate_ready_false",
    "Verif.Fixed.validate_ready_explicit_false",
    "Verif.Fixed.product_may_exceed",
    "Verif.Fixed.library_configs"
   ],
   "note": "The full claim (validated implies ready for every factory) is false; witnesses proved, and the partial theorem for native and CRT factories."
  },
  {
   "property": "C10",
   "status": "proved",
   "theorems": [
    "Verif.Pond.interactive_truncation",
    "Verif.Pond.interactive_truncation_not_floor",
    "Verif.Pond.interactive_heuristic_raises"
   ],
   "note": "Every share, mask and in-range value; error is 0 or 1."
  },
  {
   "property": "C100",
   "status": "partial",
   "theorems": [
    "Verif.Local.Aby3.public_input_partial",
    "Verif.Local.Aby3.remote_raises",
    "Verif.Local.Aby3.public_input_false",
    "Verif.Local.Pond.public_input",
    "Verif.Local.Pond.public_input_refused"
   ],
   "note": "Proved for Pond in every configuration, and for ABY3 in local configurations, where all players are on one device. False for ABY3 in every remote configuration: the one encoded tensor is on the player's device, and the constructor of public tensors demands a tensor on each server's device, so the call raises AssertionError (remote_raises, public_input_false)."
  },
  {
   "property": "C101",
   "status": "partial",
   "theorems": [
    "Verif.Local.Pond.equal_partial",
    "Verif.Local.Pond.equal_number_partial",
    "Verif.Local.Pond.equal_numbers_partial",
    "Verif.Local.Pond.equal_far",
    "Verif.Local.Pond.stands_decodes",
    "Verif.Local.Pond.local_one_device",
    "Verif.Local.Pond.equal_remote_raises",
    "Verif.Local.Pond.equal_int128_false",
    "Verif.Local.Pond.mixed_scales_false",
    "Verif.Local.Pond.rounded_number_false",
    "Verif.Local.Pond.equal_refused"
   ],
   "note": "Proved if both servers are on one device (every local configuration, local_one_device), for tensors of one scaling and for numbers that are whole numbers of units; numbers in between are compared after rounding, and never equal a value that is a unit or more away (equal_far). False: in every remote configuration equal raises AssertionError, as both copies of the result are computed on the device of the first server (equal_remote_raises); tensors of different scalings are compared by their words without an error, so that 2 is not 2 (mixed_scales_false); an unscaled 100 equals 100.7 (rounded_number_false); with int128 words equal always raises (equal_int128_false). Tensors are flat and of the same length."
  },
  {
   "property": "C102",
   "status": "partial",
   "theorems": [
    "Verif.Utils.unwrap_fetches_partial",
    "Verif.Utils.unwrap_raises_iff",
    "Verif.Utils.attribute_error_false",
    "Verif.Utils.tuple_false"
   ],
   "note": "Proved if no conversion raises AttributeError, with tuples turned into lists; any other exception of a conversion is raised, and only then. False: an AttributeError from inside a conversion is swallowed and the object returned as if it could not be converted (attribute_error_false); no tuple stays a tuple (tuple_false)."
  },
  {
   "property": "C103",
   "status": "partial",
   "theorems": [
    "Verif.Keras.Compile.trains_as_compiled_partial",
    "Verif.Keras.Compile.fits_length",
    "Verif.Keras.Compile.recompile_ignored",
    "Verif.Keras.Compile.late_layer_raises",
    "Verif.Keras.Compile.failed_step_updates_nothing",
    "Verif.Keras.Compile.debug_partial_update_false",
    "Verif.Keras.Compile.uncompiled_raises",
    "Verif.Keras.Compile.compile_refuses",
    "Verif.Keras.Compile.recompile_false",
    "Verif.Keras.Compile.failed_compile_false"
   ],
   "note": "Proved for every history before the last compile: in debug mode for all batches, otherwise for batches of shapes that were not trained before it. False outside of debug mode after training: the training function keeps its graphs, so for batches of a shape that was trained before, a new optimizer, a new loss and new layers are silently ignored (recompile_ignored, recompile_false). False: a compile that raises has already replaced the optimizer and the loss (failed_compile_false); in debug mode a step that raises may have updated layers (debug_partial_update_false)."
  },
  {
   "property": "C104",
   "status": "partial",
   "theorems": [
    "Verif.Keras.PredictGraph.predicts_all_partial",
    "Verif.Keras.PredictGraph.predict_first",
    "Verif.Keras.PredictGraph.late_layer_false"
   ],
   "note": "Proved in debug mode for every history; otherwise if no layer was added after the first prediction on a batch of the same shape. predict_first says what happens in all other cases: the batch goes through the layers the model had at that first prediction. False therefore: a layer added after a prediction is ignored by later predictions of that shape (late_layer_false)."
  },
  {
   "property": "C105",
   "status": "partial",
   "theorems": [
    "Verif.Keras.Build.weights_once_partial",
    "Verif.Keras.Build.built_stays",
    "Verif.Keras.Build.failed_build_false",
    "Verif.Keras.Build.build_twice_false"
   ],
   "note": "Proved if calls that fail do so before a weight is made. False: after a failure between two weights the next call makes all weights again, behind those of the failed attempt, so that what is trained and loaded is not what the layer computes with (failed_build_false); the same happens if build is called by hand on a built layer (build_twice_false)."
  },
  {
   "property": "C106",
   "status": "partial",
   "theorems": [
    "Verif.Keras.Metrics.evaluate_reports_partial",
    "Verif.Keras.Metrics.reports_supported",
    "Verif.Keras.Metrics.no_metrics",
    "Verif.Keras.Metrics.unknown_metric_false"
   ],
   "note": "Proved for the two metrics that exist, under the conditions of C64 on the data; for every list, those names on it that exist are reported (reports_supported). False: a name that is not one of the two is dropped without an error (unknown_metric_false)."
  },
  {
   "property": "C11",
   "status": "proved",
   "theorems": [
    "Verif.Pond.noninteractive_no_wrap",
    "Verif.Pond.wrap_count_native",
    "Verif.Pond.wrap_count_crt",
    "Verif.Pond.noninteractive_bad_masks",
    "Verif.Pond.noninteractive_wrap_is_bad",
    "Verif.Pond.noninteractive_crt_below_floor"
   ],
   "note": "Exact failure set and exact count of failing masks."
  },
  {
   "property": "C12",
   "status": "partial",
   "theorems": [
    "Verif.Aby3.truncate_default",
    "Verif.Aby3.truncate_default_error",
    "Verif.Aby3.truncate_msb0",
    "Verif.Aby3.truncate_cheetah_partial",
    "Verif.Aby3.truncate_cheetah_false"
   ],
   "note": "Default and secureq8 methods: all values, sharings, draws, widths. The cheetah variant returns floor or floor-1 (negation of the claim proved with a witness)."
  },
  {
   "property": "C13",
   "status": "proved",
   "theorems": [
    "Verif.Aby3.truncate_local",
    "Verif.Aby3.bad_masks",
    "Verif.Aby3.truncate_local_failure",
    "Verif.Aby3.mulTrunc2_dist",
    "Verif.Aby3.mul_trunc2_failure"
   ],
   "note": "Exact success condition and exact failure probability."
  },
  {
   "property": "C14",
   "status": "proved",
   "theorems": [
    "Verif.Pond.pond_fixed_mul",
    "Verif.Pond.pondCfg_sound",
    "Verif.Aby3.aby3_fixed_mul",
    "Verif.Aby3.decodeWord_eq"
   ],
   "note": "Pond with interactive truncation and ABY3 with the default truncation: all operands in range, all shares, triples, masks and draws; error at most (|q1|+|q2|+1)/scale."
  },
  {
   "property": "C15",
   "status": "partial",
   "theorems": [
    "Verif.Helpers.egcd_bezout",
    "Verif.Helpers.egcd_natAbs",
    "Verif.Helpers.inverse_correct_partial",
    "Verif.Helpers.inverse_negative_rejected",
    "Verif.Helpers.inverse_correct_false",
    "Verif.Helpers.prod_spec"
   ],
   "note": "Correct for a >= 0; for negative a the code always fails its assertion, so the full claim is false (witness)."
  },
  {
   "property": "C16",
   "status": "proved",
   "theorems": [
    "Verif.Crt.crt_arithmetic",
    "Verif.Crt.crt_matmul",
    "Verif.Crt.crt_equal",
    "Verif.Crt.make_iff",
    "Verif.Crt.reduce_sum_partial",
    "Verif.Crt.reduce_sum_false",
    "Verif.Crt.rsub_false",
    "Verif.Crt.rsub_negated"
   ],
   "note": "Any modulus list the constructor accepts, all expressions, all inner dimensions, 32-bit wrap-around modelled. Also: reduce_sum overflows on long axes and the reflected subtraction returns the negated result (both proved)."
  },
  {
   "property": "C17",
   "status": "partial",
   "theorems": [
    "Verif.Crt.crt_mod",
    "Verif.Crt.crt_truncate",
    "Verif.Crt.crt_decode",
    "Verif.Crt.crt_bits",
    "Verif.Crt.approx_float",
    "Verif.Crt.int100_truncate",
    "Verif.Crt.crt_mod_false"
   ],
   "note": "Exact except for values within the floating-point error of half the modulus; the claim is false for large factors (crt_mod_false)."
  },
  {
   "property": "C18",
   "status": "proved",
   "theorems": [
    "Verif.Sampling.uniform_count",
    "Verif.Sampling.uniform_accepts",
    "Verif.Sampling.draw_range",
    "Verif.Sampling.draw_count"
   ],
   "note": "Every width and range; one word and any number of replacement words."
  },
  {
   "property": "C19",
   "status": "partial",
   "theorems": [
    "Verif.Sampling.native_count",
    "Verif.Sampling.native_sample_false",
    "Verif.Sampling.native_share_leaks_false",
    "Verif.Sampling.native_share_close_partial",
    "Verif.Sampling.explicit_count",
    "Verif.Sampling.bounded_count",
    "Verif.Sampling.bool_count",
    "Verif.Sampling.odd_count",
    "Verif.Sampling.odd_sample_false",
    "Verif.Sampling.crt_count",
    "Verif.Sampling.crt_sample_rep",
    "Verif.Sampling.crt_seeded_false",
    "Verif.Sampling.crt_bounded_unique",
    "Verif.Sampling.shifted_count"
   ],
   "note": "Exact counts for every factory. Uniform over the ring: explicit moduli, booleans, unseeded int100, bounded samplers. The claim is false for native rings, odd rings and seeded int100 (proved, with the size of the native leak)."
  },
  {
   "property": "C20",
   "status": "partial",
   "theorems": [
    "Verif.Sampling.keystream_nodup_partial",
    "Verif.Sampling.keystream_wraps_false"
   ],
   "note": "All element sizes, lengths and rejection patterns below 2^32 keystream blocks; beyond that the 32-bit block counter wraps and positions repeat (proved)."
  },
  {
   "property": "C21",
   "status": "partial",
   "theorems": [
    "Verif.Aby3.ppa_sum",
    "Verif.Aby3.ppa_sum_nBits",
    "Verif.Aby3.sklansky64_sum",
    "Verif.Aby3.sklansky128_sum",
    "Verif.Aby3.sklansky64_nBits_partial",
    "Verif.Aby3.ppa_nBits_64_false",
    "Verif.Aby3.ppa_nBits_large_false",
    "Verif.Aby3.sklansky64_nBits_false"
   ],
   "note": "Sum modulo 2^w for every operand pair; with n_bits the Kogge-Stone adder is right for n_bits <= 63 and raises or keeps too much otherwise; Sklansky does not mask (witnesses)."
  },
  {
   "property": "C22",
   "status": "proved",
   "theorems": [
    "Verif.Aby3.carry_out"
   ],
   "note": "All power-of-two widths and positions below the width."
  },
  {
   "property": "C23",
   "status": "proved",
   "theorems": [
    "Verif.Aby3.a2b_value",
    "Verif.Aby3.a2b_value_nBits",
    "Verif.Aby3.b2a_value",
    "Verif.Aby3.b2aBits_value",
    "Verif.Aby3.a2b_b2a",
    "Verif.Aby3.b2a_a2b"
   ],
   "note": "Every sharing and draw, widths up to 128."
  },
  {
   "property": "C24",
   "status": "partial",
   "theorems": [
    "Verif.Aby3.bitExtract_value",
    "Verif.Aby3.bitExtractB_value",
    "Verif.Aby3.msb_value",
    "Verif.Aby3.bitExtract_zero_false"
   ],
   "note": "Every position except 0 of an arithmetic sharing, where the code raises (proved)."
  },
  {
   "property": "C25",
   "status": "partial",
   "theorems": [
    "Verif.Aby3.less_than_partial",
    "Verif.Aby3.greater_than_partial",
    "Verif.Aby3.greater_equal_partial",
    "Verif.Aby3.less_equal_partial",
    "Verif.Aby3.less_than_exact_iff",
    "Verif.Aby3.comparable_of_small",
    "Verif.Aby3.less_than_overflow_false",
    "Verif.Aby3.less_than_public_raises"
   ],
   "note": "All four comparisons, every private/public mix, sharing, draw and width. The answer is right exactly when the difference does not overflow; the unconditional claim is false (witness)."
  },
  {
   "property": "C26",
   "status": "proved",
   "theorems": [
    "Verif.Aby3.equal_zero_exact",
    "Verif.Aby3.equal_exact"
   ],
   "note": "No precondition on the values."
  },
  {
   "property": "C27",
   "status": "proved",
   "theorems": [
    "Verif.Aby3.ot_value",
    "Verif.Aby3.mulAb_value",
    "Verif.Aby3.mulAbPub_value"
   ],
   "note": "Every message pair, bit, sharing and draw."
  },
  {
   "property": "C28",
   "status": "proved",
   "theorems": [
    "Verif.Aby3.select_value",
    "Verif.Aby3.selectB_value",
    "Verif.Aby3.maximum_value",
    "Verif.Aby3.cmp_swap_value",
    "Verif.Aby3.relu_value",
    "Verif.Aby3.relu_min_false"
   ],
   "note": "Under the comparability precondition of C25 where a comparison is used; relu of the most negative word is proved wrong."
  },
  {
   "property": "C29",
   "status": "proved",
   "theorems": [
    "Verif.Aby3.reduce_max_value",
    "Verif.Aby3.vector_max_value",
    "Verif.Aby3.argmax_onehot_value",
    "Verif.Aby3.argmax_normal_value",
    "Verif.Aby3.reduce_max_network_value"
   ],
   "note": "Any number of elements. Ties go to the last maximum."
  },
  {
   "property": "C30",
   "status": "partial",
   "theorems": [
    "Verif.Aby3.sort_value_partial",
    "Verif.Aby3.sort_small_partial",
    "Verif.Aby3.sort_one_raises",
    "Verif.Aby3.sort_pad_false",
    "Verif.Bitonic.net_sorts",
    "Verif.Bitonic.net_rearr"
   ],
   "note": "Every length of at least two, any number of columns, both directions, every sharing and draw. A single row raises, and -2^(w-2) is mishandled when padding is needed (both proved)."
  },
  {
   "property": "C31",
   "status": "proved",
   "theorems": [
    "Verif.Aby3.pow_exact",
    "Verif.Aby3.pow_zero_raises",
    "Verif.Aby3.pow_scaled",
    "Verif.Aby3.prod_exact",
    "Verif.Aby3.prod_scaled",
    "Verif.Aby3.pow2_from_bits_value",
    "Verif.Aby3.pow2_from_bits_raises"
   ],
   "note": "Exact for unscaled tensors and every exponent and length; for scaled tensors the rounding error is bounded by 2(k-1)B^(k-1)/2^frac."
  },
  {
   "property": "C32",
   "status": "proved",
   "theorems": [
    "Verif.Aby3.piece_unique",
    "Verif.Aby3.piecewise_exact",
    "Verif.Aby3.piecewise_scaled",
    "Verif.Aby3.polynomial_exact",
    "Verif.Aby3.polynomial_scaled"
   ],
   "note": "Every number of pieces and degrees, breakpoints in order (ties allowed) and comparable to x. The piece is the one containing x; unscaled evaluation is exact, scaled evaluation has a proved error bound."
  },
  {
   "property": "C33",
   "status": "partial",
   "theorems": [
    "Verif.Aby3.Nonce.nonces_fresh_partial",
    "Verif.Aby3.Nonce.cheetah_reuses_false",
    "Verif.Aby3.Nonce.compiled_twice_reuses_false",
    "Verif.Aby3.Nonce.holders_agree",
    "Verif.Aby3.Nonce.seed_injective",
    "Verif.Aby3.Nonce.seed_wraps_false"
   ],
   "note": "Fresh over every history without cheetah truncation and without a second call of a compiled function; each of the two exceptions is proved to reuse a nonce after every history."
  },
  {
   "property": "C34",
   "status": "proved",
   "theorems": [
    "Verif.SecureNN.odd_arithmetic",
    "Verif.SecureNN.odd_lift",
    "Verif.SecureNN.odd_add_minus_one_false"
   ],
   "note": "Every width of at least two bits and all elements; a value outside the ring (-1) gives a wrong sum (proved)."
  },
  {
   "property": "C35",
   "status": "proved",
   "theorems": [
    "Verif.SecureNN.private_compare",
    "Verif.SecureNN.private_compare_small_prime_false"
   ],
   "note": "All widths, all primes larger than the width plus one, all operands, blinding bits, masks and sharings. A prime equal to the width plus one is accepted by the code and gives wrong answers (proved)."
  },
  {
   "property": "C36",
   "status": "partial",
   "theorems": [
    "Verif.SecureNN.lsb_correct",
    "Verif.SecureNN.is_negative_partial",
    "Verif.SecureNN.is_negative_exact",
    "Verif.SecureNN.is_negative_minus_one_false",
    "Verif.SecureNN.is_negative_minus_two_false",
    "Verif.SecureNN.is_negative_max_false",
    "Verif.SecureNN.comparisons_partial",
    "Verif.SecureNN.less_adjacent_false",
    "Verif.SecureNN.relu_partial",
    "Verif.SecureNN.relu_split_false",
    "Verif.SecureNN.maximum_partial",
    "Verif.SecureNN.maximum_adjacent_false",
    "Verif.SecureNN.reduce_max_partial",
    "Verif.SecureNN.argmax_partial",
    "Verif.SecureNN.lsb_sampler_false"
   ],
   "note": "The exact outcome is proved for every value and sharing. The claim itself is false: -1 is never found negative, -2 and the largest value depend on the shares. Comparisons, maximum, reduce_max and argmax are proved away from these values, with the exact error otherwise."
  },
  {
   "property": "C37",
   "status": "proved",
   "theorems": [
    "Verif.SecureNN.bit_operators"
   ],
   "note": "Any commutative ring; public, private and masked operands; all randomness."
  },
  {
   "property": "C38",
   "status": "partial",
   "theorems": [
    "Verif.Runtime.memo_transparent_partial",
    "Verif.Runtime.key_eq_iff",
    "Verif.Runtime.call_key_iff",
    "Verif.Runtime.none_not_cached",
    "Verif.Runtime.memo_confuses_false",
    "Verif.Runtime.protocols_confused_false",
    "Verif.Runtime.transpose_perm_false",
    "Verif.Runtime.stack_axis_false",
    "Verif.Runtime.strided_slice_false",
    "Verif.Runtime.zeros_after_to_private_false",
    "Verif.Runtime.to_private_twice_false"
   ],
   "note": "Any history of calls, debug mode on or off; transparent if methods respect the keys and nobody mutates a cached object. Exact characterisation of confused arguments. False across protocol objects, for three hand-written caches, and after to_private."
  },
  {
   "property": "C39",
   "status": "partial",
   "theorems": [
    "Verif.Runtime.Vars.variables_partial",
    "Verif.Runtime.Vars.spec_last",
    "Verif.Runtime.Vars.use_is_stale",
    "Verif.Runtime.Vars.use_after_assign_false",
    "Verif.Runtime.Vars.assign_variable_false",
    "Verif.Runtime.Vars.assign_raises_false",
    "Verif.Runtime.Vars.half_assigned_false",
    "Verif.Runtime.Vars.assign_share_type_false"
   ],
   "note": "Any number of variables, any history: read_value is the last assigned value (native, int128). False for a variable used directly (stale), for assign(v, u), and for int100/bool variables (assign raises half way)."
  },
  {
   "property": "C40",
   "status": "partial",
   "theorems": [
    "Verif.Runtime.Queue.queue_fifo_partial",
    "Verif.Runtime.Queue.queue_capacity",
    "Verif.Runtime.Queue.queue_progress",
    "Verif.Runtime.Queue.two_producers_false",
    "Verif.Runtime.Queue.two_consumers_false",
    "Verif.Runtime.Queue.crash_mixes_false"
   ],
   "note": "Every schedule in which enqueues do not overlap each other and dequeues do not overlap each other; false for concurrent producers or consumers and after a crash between the two share queues."
  },
  {
   "property": "C41",
   "status": "partial",
   "theorems": [
    "Verif.Runtime.Serving.served_in_order_partial",
    "Verif.Runtime.Serving.own_answer_partial",
    "Verif.Runtime.Serving.serving_progress",
    "Verif.Runtime.Serving.two_clients_false",
    "Verif.Runtime.Serving.crash_loses_false"
   ],
   "note": "Any number of clients, any schedule: answers come in query order, no deadlock; own answer if runs do not overlap. False for overlapping clients and after a server crash."
  },
  {
   "property": "C42",
   "status": "partial",
   "theorems": [
    "Verif.Paillier.paillier_partial",
    "Verif.Paillier.round_trip_partial",
    "Verif.Paillier.refresh_is_encrypt",
    "Verif.Paillier.encrypt_mod",
    "Verif.Paillier.zero_randomness_false",
    "Verif.Paillier.bad_randomness_count"
   ],
   "note": "Every expression of encryptions, additions, scalings and refreshes, for any two suitable primes, provided the random factors are invertible; p+q-1 of the n values the code may draw are not, and then decryption is wrong (proved)."
  },
  {
   "property": "C43",
   "status": "proved",
   "theorems": [
    "Verif.Tensor.conv2d_nchw",
    "Verif.Tensor.conv2d_nhwc",
    "Verif.Tensor.crt_conv2d",
    "Verif.Tensor.outSize_eq",
    "Verif.Tensor.padSize_correct",
    "Verif.Tensor.conv2d_unknown_padding"
   ],
   "note": "All batch, image, filter, channel and stride sizes, SAME and VALID, both data formats, the shared and the int100 implementation, entries from any ring; reshapes and transposes are modelled in row-major order."
  },
  {
   "property": "C44",
   "status": "partial",
   "theorems": [
    "Verif.Convert.forward_correct",
    "Verif.Convert.forward_total",
    "Verif.Convert.backward_partial",
    "Verif.Convert.backward_gradient_partial",
    "Verif.Convert.backward_fanout_false",
    "Verif.Convert.backward_unused_false",
    "Verif.Convert.same_name_false"
   ],
   "note": "Forward: every well-formed graph with distinct node names. Backward: every graph in which each value is used exactly once, as equations between gradients and, if the nodes are right, as derivatives; false with fan-out (gradients overwritten), raises for unused outputs, and wrong when two nodes share a name."
  },
  {
   "property": "C45",
   "status": "proved",
   "theorems": [
    "Verif.Bits.bit_gather_spec",
    "Verif.Bits.bit_gather_128",
    "Verif.Bits.bit_split_and_gather_spec",
    "Verif.Bits.bit_split_and_gather_refused",
    "Verif.Bits.bit_reverse_spec",
    "Verif.Bits.bit_reverse_64",
    "Verif.Bits.bit_reverse_128",
    "Verif.Bits.xor_indices_spec",
    "Verif.Bits.xor_indices_one_hot",
    "Verif.Bits.kernels_xor",
    "Verif.Bits.prefix_ORs_spec",
    "Verif.Bits.top_bit_spec",
    "Verif.Bits.prefix_ORs_high_false"
   ],
   "note": "All words; gathering at every width, start and stride; reversal and position sums at 64 and 128 bits (the only widths with a kernel). prefix_ORs needs the bits above k to be clear, as its callers arrange; shown false otherwise."
  },
  {
   "property": "C46",
   "status": "partial",
   "theorems": [
    "Verif.Aby3.normalize_pos",
    "Verif.Aby3.normalize_signed",
    "Verif.Aby3.normalize_pos_zero",
    "Verif.Aby3.normalize_refused",
    "Verif.Aby3.log_reduce",
    "Verif.Aby3.log_smallest_false",
    "Verif.Aby3.sqrt_reduce"
   ],
   "note": "Proved for every tensor, sharing and draw over arbitrary word width and precision. The interval is closed ([1/2,1], [1,2], [1/4,1/2]) because the product that forms the significand is rounded up or down at random. The signed form normalises |b| or |b|+1, because the sign is multiplied with a rounding. log_smallest_false: for the smallest positive value the logarithm loses its scale, so its reduced value is not in [1,2]. The steps after the reductions are in C59, C60 and C68."
  },
  {
   "property": "C47",
   "status": "partial",
   "theorems": [
    "Verif.Runtime.contexts_nest_partial",
    "Verif.Runtime.within_restores_partial",
    "Verif.Runtime.within_exact",
    "Verif.Runtime.names_follow",
    "Verif.Runtime.config_resets",
    "Verif.Runtime.reenter_false",
    "Verif.Runtime.stale_name_false"
   ],
   "note": "All programs of nested blocks with exceptions and explicit switches; false for an object re-entered inside its own block."
  },
  {
   "property": "C48",
   "status": "partial",
   "theorems": [
    "Verif.Pond.program_flags",
    "Verif.Aby3.program_flags",
    "Verif.Aby3.flag_truthful",
    "Verif.Aby3.add_mismatch_accepted_false",
    "Verif.Aby3.sub_mismatch_accepted_false"
   ],
   "note": "Pond and ABY3: kinds, flags and exceptions equal a static table; ABY3: the payload carries the announced factor of the scale when additions match. The claim that mismatched additions are rejected is false for ABY3 (witnesses)."
  },
  {
   "property": "C49",
   "status": "partial",
   "theorems": [
    "Verif.Local.Aby3.local_spec_partial",
    "Verif.Local.Aby3.local_reveals",
    "Verif.Local.Aby3.local_reveals_exact",
    "Verif.Local.Aby3.local_reveals_bool",
    "Verif.Local.Aby3.local_secret",
    "Verif.Local.Aby3.public_argument_raises",
    "Verif.Local.Aby3.share_type_false",
    "Verif.Local.Aby3.share_type_any",
    "Verif.Local.Aby3.local_refused",
    "Verif.Local.Pond.local_spec_partial",
    "Verif.Local.Pond.local_reveals",
    "Verif.Local.Pond.masked_raises"
   ],
   "note": "Proved for every function, player, argument list and sharing where the code works, including what other servers learn. The full property is false: ABY3 raises ValueError on every public argument, reconstructs private arguments with the share type of the results (share_type_false, share_type_any), and Pond raises TypeError for every masked output."
  },
  {
   "property": "C50",
   "status": "partial",
   "theorems": [
    "Verif.I128.encode_word",
    "Verif.I128.decode_word",
    "Verif.I128.encode_decode",
    "Verif.I128.encode_wraps",
    "Verif.I128.decode_encode",
    "Verif.I128.bounds_spec",
    "Verif.I128.toDouble_error",
    "Verif.I128.decode64_close",
    "Verif.I128.encode_decode64_partial",
    "Verif.I128.encode_decode64_false",
    "Verif.I128.to_from_i128_partial",
    "Verif.I128.to_i128_false",
    "Verif.I128.arith_spec",
    "Verif.I128.abs_spec",
    "Verif.I128.abs_least_false",
    "Verif.I128.sar_spec",
    "Verif.I128.shr_spec",
    "Verif.I128.shl_spec",
    "Verif.I128.shift_negative",
    "Verif.I128.bitwise_word",
    "Verif.I128.cast_spec",
    "Verif.I128.words_memory",
    "Verif.I128.binary_spec",
    "Verif.I128.binary_refused",
    "Verif.I128.bitwise_spec",
    "Verif.I128.invert_spec",
    "Verif.I128.equal_spec",
    "Verif.I128.equal_order_false",
    "Verif.I128.reshape_spec",
    "Verif.I128.reshape_refused",
    "Verif.I128.stack_spec",
    "Verif.I128.stack_last_false",
    "Verif.I128.stack_scalars_false",
    "Verif.I128.concat_spec",
    "Verif.I128.concat_second_last_false",
    "Verif.I128.expand_dims_spec",
    "Verif.I128.gather_spec",
    "Verif.I128.reduce_sum_spec",
    "Verif.I128.matmul_spec",
    "Verif.I128.select_spec",
    "Verif.I128.ones_zeros_spec",
    "Verif.I128.transpose_spec",
    "Verif.I128.getitem_spec",
    "Verif.I128.getitem_ellipsis_false"
   ],
   "note": "Encoding, decoding, arithmetic, shifts, bitwise operations and casts are proved for every word and amount, and the structural operations for every shape and every axis from 0 up. Partial because tensors that are already in TensorFlow pass through a double (to_i128_false: 2^53+1 is changed), because axes counted from the end, ellipsis indices and stacking of scalars are wrong (the _false theorems), and because decode returns doubles: exact up to 2^53 units, within one part in 2^53 beyond (encode_decode64_false: 2^53+1 is changed)."
  },
  {
   "property": "C51",
   "status": "partial",
   "theorems": [
    "Verif.Aby3.exp2_pade_partial",
    "Verif.Aby3.exp2_pade_false",
    "Verif.Aby3.usedDegree_short",
    "Verif.Aby3.exp2_pade_raises",
    "Verif.Aby3.exp2_partial",
    "Verif.Aby3.exp2_accuracy",
    "Verif.Aby3.exp2_preset",
    "Verif.Aby3.exp2_wraps_false",
    "Verif.Aby3.exp2_secrecy"
   ],
   "note": "Every precision, tensor, sharing and draw: the distance from the polynomial that is evaluated, exact powers of two for the floor, zero below -frac, distance from the real 2^x, secrecy. The full property is false: the loop over powers stops one short, so the leading coefficient never takes part (exp2_pade_false), and the floor is taken modulo 32 (exp2_wraps_false). This is approx_type 'mp-spdz', the default; 'as2019' is C70."
  },
  {
   "property": "C52",
   "status": "partial",
   "theorems": [
    "Verif.Tensor.pond_pad_partial",
    "Verif.Tensor.aby3_pad_partial",
    "Verif.Tensor.pond_pad_unscaled_false",
    "Verif.Tensor.aby3_pad_public_false",
    "Verif.Tensor.avgpool_sums",
    "Verif.Tensor.pond_avgpool_sums",
    "Verif.Tensor.pond_avgpool_square_false",
    "Verif.Tensor.average_error",
    "Verif.Tensor.avgpool_unscaled_false",
    "Verif.Tensor.maxpool_correct",
    "Verif.Tensor.maxpool_same_false",
    "Verif.Tensor.secureNN_maxpool_false"
   ],
   "note": "All ranks and shapes. False: padding unscaled Pond or public ABY3 tensors raises; Pond square pooling raises; pooling an unscaled tensor gives zero; SAME max pooling lets zeros take part; SecureNN max pooling raises."
  },
  {
   "property": "C53",
   "status": "proved",
   "theorems": [
    "Verif.Keras.sgd_exact",
    "Verif.Keras.sgd_rounded",
    "Verif.Keras.sgd_ring",
    "Verif.Keras.optimizer_total",
    "Verif.Keras.optimizer_errors",
    "Verif.Keras.optimizer_frame",
    "Verif.Keras.sgd_two_products_false"
   ],
   "note": "Every history over every set of layers. Exact in exact arithmetic; within n*2d/(1-momentum) with products rounded within d; exact in the ring relative to the computed velocities when the two products of a step agree. Since lr*G is computed twice, randomised rounding makes the stored velocity differ from the applied step (sgd_two_products_false)."
  },
  {
   "property": "C54",
   "status": "partial",
   "theorems": [
    "Verif.Runtime.local_lookup_stable",
    "Verif.Runtime.local_lookup",
    "Verif.Runtime.local_indices",
    "Verif.Runtime.local_names",
    "Verif.Runtime.local_get_players",
    "Verif.Runtime.remote_players",
    "Verif.Runtime.remote_devices",
    "Verif.Runtime.remote_lookup",
    "Verif.Runtime.remote_unknown",
    "Verif.Runtime.save_load",
    "Verif.Runtime.duplicate_names_false",
    "Verif.Runtime.local_devices_false",
    "Verif.Runtime.load_loses_job_false"
   ],
   "note": "All histories of lookups; all host maps. Local players share one device and may have duplicate names; saving loses the job name."
  },
  {
   "property": "C55",
   "status": "proved",
   "theorems": [
    "Verif.Pond.interactive_view",
    "Verif.Pond.interactive_view_gap",
    "Verif.Pond.interactive_view_s0",
    "Verif.Pond.interactive_truncation_hides",
    "Verif.Pond.interactive_gap"
   ],
   "note": "The distribution of the messages and new share of server 1, with the masks drawn as the code draws them, for tensors of every size and every set of observations; server 0 receives nothing. Also in counting form per element."
  },
  {
   "property": "C56",
   "status": "partial",
   "theorems": [
    "Verif.SecureNN.helper_learns_false",
    "Verif.SecureNN.helper_view_partial"
   ],
   "note": "The claim is false (the vector is not permuted); the vector shows nothing but the position of its zero."
  },
  {
   "property": "C57",
   "status": "partial",
   "theorems": [
    "Verif.Tensor.patches2im_partial",
    "Verif.Tensor.patches2im_uncovered_false",
    "Verif.Tensor.patches2im_strides_false"
   ],
   "note": "All shapes with equal strides whose windows cover the image; false for unequal strides, raises when the windows leave a border."
  },
  {
   "property": "C58",
   "status": "proved",
   "theorems": [
    "Verif.Keras.amsgrad_exact",
    "Verif.Keras.adam_exact",
    "Verif.Keras.optimizer_total",
    "Verif.Keras.optimizer_errors"
   ],
   "note": "In exact arithmetic, for every inverse square root function; rounding of the two adaptive optimizers is not bounded."
  },
  {
   "property": "C59",
   "status": "proved",
   "theorems": [
    "Verif.Aby3.recip_pos",
    "Verif.Aby3.recip_signed",
    "Verif.Aby3.recip_default",
    "Verif.Aby3.recip_relative_false",
    "Verif.Aby3.recip_refused",
    "Verif.Aby3.recip_secrecy"
   ],
   "note": "For every tensor in range, sharing, draw, word width, precision and number of rounds. recip_relative_false: the relative error of 1e-5 in the code's comment cannot be met by any answer for 1/3 with 16 fractional bits."
  },
  {
   "property": "C60",
   "status": "proved",
   "theorems": [
    "Verif.Aby3.inv_sqrt_close",
    "Verif.Aby3.inv_sqrt_default",
    "Verif.Aby3.inv_sqrt_128",
    "Verif.Aby3.inv_sqrt_refused",
    "Verif.Aby3.inv_sqrt_secrecy"
   ],
   "note": "For every tensor of positive in-range values, sharing, draw and number of rounds, with 64 and 128 bits and every admissible precision; the distance is to the real number 1/sqrt(x)."
  },
  {
   "property": "C61",
   "status": "partial",
   "theorems": [
    "Verif.Aby3.exp_close",
    "Verif.Aby3.exp_default",
    "Verif.Aby3.exp_range_false",
    "Verif.Aby3.exp_secrecy",
    "Verif.Aby3.exp_infinity_power",
    "Verif.Aby3.exp_infinity_close",
    "Verif.Aby3.exp_infinity_range_false"
   ],
   "note": "The default variant is compared with the real exponential for every x up to 22, and the 'infinity' variant with (1+x/128)^128 and with the real exponential for x in [-128, 20]. Partial because the documented ranges have no upper end and, for 'infinity', no lower end either: exp_range_false shows that exp(23), which fits in the word, comes out as at most 5, and exp_infinity_range_false that exp(-260) comes out as at least 50. The 'as2019' variant is C70."
  },
  {
   "property": "C62",
   "status": "proved",
   "theorems": [
    "Verif.Aby3.softmax_close",
    "Verif.Aby3.softmax_tree_close",
    "Verif.Aby3.softmax_default",
    "Verif.Aby3.softmax_one_raises",
    "Verif.Aby3.softmax_secrecy",
    "Verif.Aby3.reduce_max_network_value",
    "Verif.Aby3.softmax_as2019_partial",
    "Verif.Aby3.softmax_infinity_partial",
    "Verif.Aby3.softmax_infinity_range_false",
    "Verif.Aby3.softmax_other_raises",
    "Verif.Aby3.softmax_kind_secrecy"
   ],
   "note": "Default approximation, both ways to find the maximum. The error is compared with the real softmax; for the default 64-bit configuration up to 819 classes. With one class the default way raises (softmax_one_raises), which the statement excludes. The other values of approx_type, which the statement does not speak about, are covered as well: 'as2019' and 'infinity' are close to the softmax as long as the logits of a column differ by less than about 6.2 and 128 (the two _partial theorems); beyond that 'infinity', documented for all numbers, picks the wrong class (softmax_infinity_range_false). Other strings are refused."
  },
  {
   "property": "C63",
   "status": "proved",
   "theorems": [
    "Verif.Aby3.sigmoid_close",
    "Verif.Aby3.sigmoid_three_close",
    "Verif.Aby3.sigmoid_other_raises",
    "Verif.Aby3.sigmoid_secrecy"
   ],
   "note": "Compared with the real logistic function. The coefficients are the decimal fractions in the source, not their float32 images."
  },
  {
   "property": "C64",
   "status": "partial",
   "theorems": [
    "Verif.Keras.fit_value",
    "Verif.Keras.fit_covers_partial",
    "Verif.Keras.groups_cover",
    "Verif.Keras.groups_sizes",
    "Verif.Keras.fit_skips",
    "Verif.Keras.fit_skips_false",
    "Verif.Keras.fit_epochs_ignored",
    "Verif.Keras.fit_epochs_false",
    "Verif.Keras.fit_empty_raises",
    "Verif.Keras.fit_ordinary_raises_false",
    "Verif.Keras.fit_scalar_raises",
    "Verif.Keras.fitMany_covers",
    "Verif.Keras.fitIter_value",
    "Verif.Keras.predict_value",
    "Verif.Keras.predict_reveal_false",
    "Verif.Keras.predict_empty_raises",
    "Verif.Keras.predict_none_raises",
    "Verif.Keras.predict_zero_diverges",
    "Verif.Keras.evaluate_value",
    "Verif.Keras.evaluate_all_partial",
    "Verif.Keras.evaluate_default_false"
   ],
   "note": "fit and evaluate on two tensors take the number of features for the number of samples, all epochs share one exhausted iterator, and the reveal flag of the first predict is kept for later calls; each is proved with what happens instead. Holds for iterators, for lists of tensors (one epoch) and for predict with an unchanged flag."
  },
  {
   "property": "C65",
   "status": "partial",
   "theorems": [
    "Verif.Keras.fitBatch_descends",
    "Verif.Keras.perceptron_descends",
    "Verif.Keras.dense_exact",
    "Verif.Keras.relu_exact",
    "Verif.Keras.activation_exact",
    "Verif.Keras.flattenLast_exact",
    "Verif.Keras.reshape_exact",
    "Verif.Keras.globalAverage_exact",
    "Verif.Keras.globalAverage_shape",
    "Verif.Keras.mse_gradient",
    "Verif.Keras.bceLogits_gradient",
    "Verif.Keras.cceLogits_gradient",
    "Verif.Keras.lazy_same",
    "Verif.Keras.dense_lazy",
    "Verif.Keras.reluLayer_lazy",
    "Verif.Keras.lossGrad_lazy",
    "Verif.Keras.untrainable_raises",
    "Verif.Keras.crossentropy_is_half_mse",
    "Verif.Keras.bce_gradient_false",
    "Verif.Keras.cce_gradient_false",
    "Verif.Keras.flattenFirst_false",
    "Verif.Keras.globalAverage_keepdims_false",
    "Verif.Keras.activation_none_raises_false",
    "Verif.Keras.frozen_moves_false"
   ],
   "note": "Exact real arithmetic. Fails for the cross-entropy losses on probabilities (the default), Flatten of channels-first data, GlobalAveragePooling2D with keepdims, Activation(None) and frozen layers; each with a proof of what happens. Convolution and the windowed pooling layers are not part of it."
  },
  {
   "property": "C66",
   "status": "partial",
   "theorems": [
    "Verif.Keras.conv_forward",
    "Verif.Keras.conv2D_exact_partial",
    "Verif.Keras.conv2D_backward_ok",
    "Verif.Keras.conv_backward_total",
    "Verif.Keras.covered_valid",
    "Verif.Keras.covered_same",
    "Verif.Keras.conv2D_lazy",
    "Verif.Keras.conv_shape",
    "Verif.Keras.convnet_descends",
    "Verif.Keras.conv_remainder_raises_false",
    "Verif.Keras.conv_strides_false",
    "Verif.Keras.conv_shape_false"
   ],
   "note": "The forward pass is right for all strides. The gradients are exact whenever backward returns and the two strides are equal; it returns exactly when the windows cover the image, and raises an AssertionError otherwise (VALID padding with a stride that does not divide the rest). With unequal strides, which the layer accepts, the gradient can be wrong without an exception, and the reported output shape is wrong."
  },
  {
   "property": "C67",
   "status": "partial",
   "theorems": [
    "Verif.Keras.avg_forward",
    "Verif.Keras.max_forward",
    "Verif.Keras.pool_shape",
    "Verif.Keras.avgPool_call",
    "Verif.Keras.maxPool_call",
    "Verif.Keras.avgPool_exact_partial",
    "Verif.Keras.maxPool_exact_partial",
    "Verif.Keras.pool_backward_ok",
    "Verif.Keras.pool_lazy",
    "Verif.Keras.globalMax_call",
    "Verif.Keras.globalMax_exact",
    "Verif.Keras.poolnet_descends",
    "Verif.Keras.pool_remainder_raises_false",
    "Verif.Keras.pool_strides_raise_false",
    "Verif.Keras.pool_strides_false",
    "Verif.Keras.globalMax_keepdims_false"
   ],
   "note": "The forward pass and the reported shape are right for all strides. The gradients are exact whenever backward returns and the two strides are equal; it returns exactly when the windows cover the image and raises otherwise (the default 2 x 2 pool on images of odd height). With unequal strides, which is the default for pools that are not square, backward raises or hands the gradient to the wrong pixels. GlobalMaxPooling2D ignores keepdims but reports a shape that has it."
  },
  {
   "property": "C68",
   "status": "partial",
   "theorems": [
    "Verif.Aby3.log_close_partial",
    "Verif.Aby3.log_two_false",
    "Verif.Aby3.log_other_raises",
    "Verif.Aby3.fp_log_close_partial",
    "Verif.Aby3.fp_log_smallest_false",
    "Verif.Aby3.fp_log_refused",
    "Verif.Aby3.log_secrecy"
   ],
   "note": "log_close_partial: tfe.log is within 0.0367 + 400 units in the last place on [0.1, 1.5], for every draw; log_two_false: at 2 it returns more than 4.9 (the docstring states no range). fp_log_close_partial: the logarithms of fp.py are within 0.0215 + (frac+13) units for every positive value of the documented size except the smallest one, for which fp_log_smallest_false shows an error of at least 1.5 for every draw. Any other approximation name raises."
  },
  {
   "property": "C69",
   "status": "partial",
   "theorems": [
    "Verif.Pond.sigmoid_close_partial",
    "Verif.Pond.relu_close_partial",
    "Verif.Pond.tanh_close_partial",
    "Verif.Pond.log_close_partial",
    "Verif.Pond.exact_values",
    "Verif.Pond.sigmoid_false",
    "Verif.Pond.relu_false",
    "Verif.Pond.relu_zero",
    "Verif.Pond.tanh_false",
    "Verif.Pond.log_false",
    "Verif.Pond.activation_secrecy"
   ],
   "note": "For every draw, in fixed64 on int64 and fixed100 on int100: sigmoid is within 0.035 on [-4,4], relu within 0.45 on [-6,6], tanh within 0.1 on [-2.9,2.9], log within 0.08 (0.041) on [0.1,1.5]. The property fails outside: sigmoid(8) >= 3, relu(10) <= 5, relu(0) >= 0.43, tanh(5) <= -2, log(2) >= 4.9, for every draw; nothing checks the inputs and no range is documented. exact_values: the coefficients of the two highest powers of sigmoid and relu are encoded as zero. Not covered: the non-interactive configurations, whose truncation fails with small probability (C11)."
  },
  {
   "property": "C70",
   "status": "partial",
   "theorems": [
    "Verif.Aby3.exp2_as_close_partial",
    "Verif.Aby3.exp_as_close_partial",
    "Verif.Aby3.exp2_as_default",
    "Verif.Aby3.exp2_as_wraps_false",
    "Verif.Aby3.exp2_as_negative_false",
    "Verif.Aby3.exp2_as_refused",
    "Verif.Aby3.exp_as_secrecy"
   ],
   "note": "For every sharing and draw, in all presets with probabilistic truncation: exp2 from -9 (64 bit) or -18 (128 bit) up to 32, exp correspondingly up to 22. The property fails below: with the default 64-bit configuration 2^-11.75 comes out below -10000 (exp2_as_negative_false), because the power needs more bits than the reciprocal looks at, and 2^-32 comes out as one (exp2_as_wraps_false). Configurations with too many integral bits raise an AssertionError after the power was computed (exp2_as_refused)."
  },
  {
   "property": "C71",
   "status": "partial",
   "theorems": [
    "Verif.Keras.depthwise_forward",
    "Verif.Keras.depthwise_build",
    "Verif.Keras.depthwise_set_weights",
    "Verif.Keras.depthwise_shape_partial",
    "Verif.Keras.depthwise_shape_false",
    "Verif.Keras.depthwise_reload_partial",
    "Verif.Keras.depthwise_reload_false"
   ],
   "note": "The forward pass is proved for all parameters. compute_output_shape is right exactly for one channel, channels first and equal strides (depthwise_shape_partial, depthwise_shape_false); with multiplier above one and more than one channel the layer refuses its own weights (depthwise_reload_false). The backward pass raises NotImplementedError in the code."
  },
  {
   "property": "C72",
   "status": "partial",
   "theorems": [
    "Verif.Keras.set_weights_arrays",
    "Verif.Keras.set_weights_private",
    "Verif.Keras.copy_weights",
    "Verif.Keras.accepts_plain",
    "Verif.Keras.has_plain",
    "Verif.Keras.train_ok",
    "Verif.Keras.set_weights_surplus_false",
    "Verif.Keras.set_weights_missing_false",
    "Verif.Keras.set_weights_half_false",
    "Verif.Keras.set_weights_empty_false",
    "Verif.Keras.copied_broken_false",
    "Verif.Keras.copy_breaks_source_false",
    "Verif.Keras.self_copy_false"
   ],
   "note": "Weights that fit are installed, for every model and heap, and all other variables keep their values. The rest of the property fails: surplus weights and weights missing for whole layers are ignored, weights missing inside a layer raise after earlier layers were written, an empty list raises IndexError even for a model without weights, copying from another model replaces the variables in the other model's lists so that it can no longer be trained, and setting a model's own weights raises TypeError."
  },
  {
   "property": "C73",
   "status": "partial",
   "theorems": [
    "Verif.Aby3.Disk.read_back",
    "Verif.Aby3.Disk.read_back_wide",
    "Verif.Aby3.Disk.read_rows",
    "Verif.Aby3.Disk.write_read",
    "Verif.Aby3.Disk.write_order",
    "Verif.Aby3.Disk.server_files",
    "Verif.Aby3.Disk.read_remainder_false",
    "Verif.Aby3.Disk.read_shared_list_false",
    "Verif.Aby3.Disk.read_unscaled_false",
    "Verif.Aby3.Disk.read_boolean_false",
    "Verif.Aby3.Disk.read_bool_false",
    "Verif.Aby3.Disk.write_crash_false",
    "Verif.Aby3.Disk.append_crash_false"
   ],
   "note": "Proved for all histories of completed writes of scaled arithmetic tensors, 64 and 128 bit, if the records divide into whole batches. Otherwise the property fails: left-over records raise, unscaled tensors come back divided by the scaling factor, boolean sharings come back as arithmetic ones, tensors of booleans cannot be read, a shape list can be used only once with 128 bits, and an interrupted write leaves files that open to neither the old nor the new value, without an exception."
  },
  {
   "property": "C74",
   "status": "partial",
   "theorems": [
    "Verif.Aby3.Disk.iterate_repeated",
    "Verif.Aby3.Disk.iterate_once_partial",
    "Verif.Aby3.Disk.iterate_opens",
    "Verif.Aby3.Disk.shuffle_once",
    "Verif.Aby3.Disk.batches_cover",
    "Verif.Aby3.Disk.shuffle_forever",
    "Verif.Aby3.Disk.iterate_last_false",
    "Verif.Aby3.Disk.shuffle_epoch_false",
    "Verif.Aby3.Disk.iterate_eager_false"
   ],
   "note": "For all seeds and random numbers the six shares stay aligned and full batches open to rows of the tensor. The rows of an incomplete last batch are never delivered (InvalidArgumentError), repeated and shuffled rows can come twice before others come once, and in eager mode the call always raises RuntimeError. The shuffle of tf.data is modelled with its buffer of 512 elements; that equal seeds give equal random numbers is assumed."
  },
  {
   "property": "C75",
   "status": "partial",
   "theorems": [
    "Verif.Keras.norm_call",
    "Verif.Keras.norm_build",
    "Verif.Keras.norm_set",
    "Verif.Keras.norm_build_iff",
    "Verif.Keras.norm_axis_iff",
    "Verif.Keras.normalised_statistics",
    "Verif.Keras.norm_last_axis_false",
    "Verif.Keras.norm_matrix_false",
    "Verif.Keras.norm_sequence_false",
    "Verif.Keras.norm_train_false"
   ],
   "note": "Proved in exact arithmetic for all shapes the layer can be built for, which are exactly matrices with axis 1 and images with axis 1 or 3. The rest fails: axis -1 is rejected, matrices raise IndexError with the default axis, data of other ranks raise UnboundLocalError although the documentation says that the input shape is arbitrary, and backward is not implemented."
  },
  {
   "property": "C76",
   "status": "partial",
   "theorems": [
    "Verif.Keras.reshape_shape",
    "Verif.Keras.reshape_back",
    "Verif.Keras.flatten_last",
    "Verif.Keras.flatten_first",
    "Verif.Keras.flatten_empty",
    "Verif.Keras.reshape_empty_false",
    "Verif.Keras.reshape_negative_false"
   ],
   "note": "Proved for all nonempty batches and all target shapes in which -1 is the only negative number, and for Flatten of channels-last data of every rank and channels-first images. For an empty batch, and for other negative numbers, a shape is declared and applying the layer raises. tf.reshape is modelled from its documentation."
  },
  {
   "property": "C77",
   "status": "partial",
   "theorems": [
    "Verif.Convert.matmul_node",
    "Verif.Convert.matmul_operands_false",
    "Verif.Convert.matmul_rank_false",
    "Verif.Convert.gemm_node_partial",
    "Verif.Convert.gemm_flip_partial",
    "Verif.Convert.gemm_transA_raises_false",
    "Verif.Convert.gemm_bias_size_false",
    "Verif.Convert.gemm_bias_column_false",
    "Verif.Convert.gemm_position",
    "Verif.Convert.gemm_transB_raises_false",
    "Verif.Convert.gemm_transB_false",
    "Verif.Convert.gemm_alpha_false",
    "Verif.Convert.gemm_defaults_false",
    "Verif.Convert.conv_node_swapped",
    "Verif.Convert.conv_node_partial",
    "Verif.Convert.depthwise_node_swapped",
    "Verif.Convert.depthwise_node_partial",
    "Verif.Convert.depthwise_declared_false",
    "Verif.Convert.conv_group_false",
    "Verif.Convert.conv_pads_false",
    "Verif.Convert.conv_defaults_false",
    "Verif.Convert.conv_square_false",
    "Verif.Convert.conv_dilations_false",
    "Verif.Convert.avg_node_partial",
    "Verif.Convert.max_node_partial",
    "Verif.Convert.pool_defaults_false",
    "Verif.Convert.pool_pads_false",
    "Verif.Convert.pool_ceil_false",
    "Verif.Convert.norm_node_partial",
    "Verif.Convert.norm_first_attribute",
    "Verif.Convert.norm_epsilon_false",
    "Verif.Convert.global_average_node",
    "Verif.Convert.reduce_mean_last_partial",
    "Verif.Convert.reduce_mean_middle_partial",
    "Verif.Convert.reduce_mean_axes_false",
    "Verif.Convert.reduce_max_last_partial",
    "Verif.Convert.global_max_false"
   ],
   "note": "Proved for all shapes, weights and inputs: MatMul of a matrix and a constant; Gemm if transA and transB are the first attributes, alpha and beta are 1, an input that is transposed is square and the bias is a vector or one row; Conv with one group or one channel per group if strides and group are given, the kernel is square, nothing is dilated and as many rows are padded above as below (with other paddings top and bottom are exchanged); BatchNormalization if epsilon comes first; AveragePool and MaxPool without padding and rounding; GlobalAveragePool; ReduceMean over rows and columns; ReduceMax over them without keeping them. Every other case is refuted by a theorem: wrong results, wrong declared shapes, or an exception. Arithmetic is exact; the operators are specified from the ONNX documentation."
  },
  {
   "property": "C78",
   "status": "partial",
   "theorems": [
    "Verif.Convert.add_node_partial",
    "Verif.Convert.add_constant_first_false",
    "Verif.Convert.add_declared_false",
    "Verif.Convert.bin_node_partial",
    "Verif.Convert.bin_constant_false",
    "Verif.Convert.map_node",
    "Verif.Convert.softmax_node_partial",
    "Verif.Convert.softmax_axis_false",
    "Verif.Convert.reshape_node_partial",
    "Verif.Convert.reshape_zero_false",
    "Verif.Convert.flatten_node_partial",
    "Verif.Convert.flatten_axis_false",
    "Verif.Convert.flatten_vector_false",
    "Verif.Convert.transpose_node_partial",
    "Verif.Convert.transpose_default_false",
    "Verif.Convert.unsqueeze_node_partial",
    "Verif.Convert.unsqueeze_declared_false",
    "Verif.Convert.unsqueeze_axes_false",
    "Verif.Convert.unsqueeze_attribute_false",
    "Verif.Convert.squeeze_node_partial",
    "Verif.Convert.squeeze_attribute_false",
    "Verif.Convert.squeeze_declared_false",
    "Verif.Convert.concat_node_partial",
    "Verif.Convert.concat_batch_false",
    "Verif.Convert.split_node_partial",
    "Verif.Convert.split_even_partial",
    "Verif.Convert.split_attribute_false",
    "Verif.Convert.split_default_false",
    "Verif.Convert.slice_node_partial",
    "Verif.Convert.slice_start_false",
    "Verif.Convert.slice_batch_false",
    "Verif.Convert.slice_declared_false",
    "Verif.Convert.gather_node_partial",
    "Verif.Convert.gather_scalar_false",
    "Verif.Convert.gather_negative_false",
    "Verif.Convert.gather_default_false",
    "Verif.Convert.gather_declared_false",
    "Verif.Convert.pad_node_partial",
    "Verif.Convert.pad_value_false",
    "Verif.Convert.pad_mode_false",
    "Verif.Convert.pad_attribute_false"
   ],
   "note": "Proved for all ranks, shapes and tensors: Neg and Relu; Add, Sub and Mul if the result has the shape of the first operand and (Sub, Mul) both are computed; Softmax along the last axis; Reshape without zeros; Flatten from axis 1; Transpose with its attribute; Unsqueeze of one axis in front of another; Squeeze of listed axes that are not negative; Concat and Split along an axis of known size; Slice if every axis that is not listed has a known size, with positive steps, and with negative steps if the axis has entries and the start is not before the first; Gather with a vector of indices that are not negative; Pad by zeros. Every other documented case is refuted by a theorem: wrong results (Slice without the batch among its axes drops the last sample; Slice with a negative step from before the first entry takes nothing; Pad by a value, at the edges, mirrored or repeated; Squeeze and Split with attributes), wrong declared shapes, or an exception. Arithmetic is exact."
  },
  {
   "property": "C79",
   "status": "partial",
   "theorems": [
    "Verif.Convert.backward_gradient_partial",
    "Verif.Convert.add_gradient_partial",
    "Verif.Convert.sub_gradient_partial",
    "Verif.Convert.mul_gradient_partial",
    "Verif.Convert.neg_gradient",
    "Verif.Convert.add_gradient_broadcast_false",
    "Verif.Convert.mul_gradient_broadcast_false",
    "Verif.Convert.add_bias_gradient_partial",
    "Verif.Convert.add_bias_shape_false",
    "Verif.Convert.add_bias_channels_false",
    "Verif.Convert.reshape_gradient_partial",
    "Verif.Convert.flatten_gradient_partial",
    "Verif.Convert.unsqueeze_gradient_partial",
    "Verif.Convert.squeeze_gradient_partial",
    "Verif.Convert.reshape_gradient_unknown_false",
    "Verif.Convert.transpose_gradient",
    "Verif.Convert.concat_gradient_partial",
    "Verif.Convert.concat_gradient_batch_false",
    "Verif.Convert.split_gradient_partial",
    "Verif.Convert.split_even_gradient_partial",
    "Verif.Convert.pad_gradient_partial",
    "Verif.Convert.missing_gradients_false",
    "Verif.Convert.dense_gradient",
    "Verif.Convert.matmul_gradient",
    "Verif.Convert.gemm_gradient",
    "Verif.Convert.conv_layer_gradient",
    "Verif.Convert.conv_gradient",
    "Verif.Convert.avg_gradient",
    "Verif.Convert.max_gradient",
    "Verif.Convert.relu_gradient",
    "Verif.Convert.sigmoid_gradient",
    "Verif.Convert.global_average_gradient",
    "Verif.Convert.global_max_gradient",
    "Verif.Convert.softmax_norm_gradient_false",
    "Verif.Convert.global_average_gradient_false",
    "Verif.Convert.global_max_kept_false",
    "Verif.Convert.grouped_gradient_false"
   ],
   "note": "Gradients are derivatives along every differentiable movement of the inputs. Whole graph: if every node's gradient is right and every value is used exactly once (with fan-out it is false, see C44). Nodes, for all shapes and values: Neg, Transpose; Add, Sub and Mul of equal shapes; Add with a constant of the shape of one sample (the mean over the batch, as Keras layers have it); Reshape, Flatten, Unsqueeze and Squeeze with at most one unknown dimension; Concat along an axis of known sizes; Split; Pad by zeros. Refuted: Add and Mul with broadcasting return gradients of the wrong shape, Add with any other constant too; Concat along the batch and reshaping with two unknown dimensions raise; Stack, Slice and Gather have no gradient. Nodes that wrap layers, gradients of the weights and of the input: MatMul, Gemm (a transposed input has to be square), Conv without groups and with equal strides for all paddings, AveragePool and MaxPool with equal strides (one largest entry per window), Relu away from zero, Sigmoid, GlobalAveragePool and ReduceMean over the image, GlobalMaxPool and ReduceMax over the image (one largest pixel per channel); Conv and pooling raise exactly if the windows do not cover the image. Refuted: Softmax, BatchNormalization and Conv with groups have no gradient; ReduceMean with the channels last and kept dimensions returns a tensor of the wrong shape; GlobalMaxPool and ReduceMax raise for a gradient of the declared shape when dimensions are kept."
  },
  {
   "property": "C80",
   "status": "partial",
   "theorems": [
    "Verif.Data.right_kept",
    "Verif.Data.vertical_aligned",
    "Verif.Data.rows_join",
    "Verif.Data.rows_whole",
    "Verif.Data.horizontal_split",
    "Verif.Data.nested_slice_ignored",
    "Verif.Data.nested_slice_false",
    "Verif.Data.open_slice_raises",
    "Verif.Data.stepped_slice_false",
    "Verif.Data.change_of_flags_false",
    "Verif.Data.crash_truncates_false",
    "Verif.Data.owner_answers",
    "Verif.Data.provider_in_order",
    "Verif.Data.empty_owner",
    "Verif.Data.second_provider_false"
   ],
   "note": "Vertical and horizontal splits with given ends: one common schedule, for every order of the shuffle, every batch size and every history of crash-free use of the disks; data owners: exact answer to every interleaving of requests. Refuted: a slice of a slice forgets the outer one; slices with an open end raise; slices with a step announce more batches than they have; an object asked for images first and for labels later raises; a process that dies while writing leaves a short file all later runs silently use; a second iterator of an owner repeats the first batch and goes on where the first stopped. Not modelled: the bytes of the record files, the arithmetic of normalize."
  },
  {
   "property": "C81",
   "status": "partial",
   "theorems": [
    "Verif.Sodium.unseal_iff",
    "Verif.Sodium.unseal_seal",
    "Verif.Sodium.seal_succeeds",
    "Verif.Sodium.seal_hides",
    "Verif.Sodium.retype_false",
    "Verif.Sodium.reshape_false",
    "Verif.Sodium.reflection_false",
    "Verif.Sodium.nonce_reuse_false",
    "Verif.Sodium.bool_false",
    "Verif.Sodium.unknown_shape_false"
   ],
   "note": "For every key agreement, key stream and authenticator libsodium may compute (parameters of the model). Proved: round trip for all types, shapes and values; opening yields a tensor if and only if sealing it with the same key gives this ciphertext and authenticator; hiding under a uniform key stream. Refuted: type and shape are not authenticated (a sealed tensor opens as any type of the same size, and in any shape of the same size); a party accepts its own messages as the other's; a nonce used twice reveals the xor of the plaintexts; booleans cannot be sealed; ciphertexts of statically unknown last dimension cannot be opened."
  },
  {
   "property": "C82",
   "status": "partial",
   "theorems": [
    "Verif.Keras.clone_correct_partial",
    "Verif.Keras.clone_succeeds",
    "Verif.Keras.clone_unsupported",
    "Verif.Keras.clone_shared_false",
    "Verif.Keras.clone_heads_false",
    "Verif.Keras.clone_unknown_batch_false",
    "Verif.Keras.clone_no_weights_false"
   ],
   "note": "What single layers compute is a parameter (C65-C67, C71, C75 and C76 are about the layers). Proved: the clone of a chain of layers of any length computes the value Keras computes, each layer with its own weights; chains of supported layers that start with a known batch shape and have weights are cloned; models with an unsupported layer or option are refused. Refuted: connections are ignored, so that a layer called twice is applied once and parallel branches are put one behind the other, without an exception; models whose batch size is open or whose first layer carries no batch shape, and models without weights, are refused although they are supported otherwise. Not modelled: layers with several inputs (the library has none)."
  },
  {
   "property": "C83",
   "status": "partial",
   "theorems": [
    "Verif.Aby3.div_close",
    "Verif.Aby3.div_possible",
    "Verif.Aby3.div_zero_raises",
    "Verif.Aby3.div_unscaled_false",
    "Verif.Aby3.average_close",
    "Verif.Aby3.average_false",
    "Verif.Aby3.average_empty",
    "Verif.Aby3.div_secrecy",
    "Verif.Aby3.average_secrecy",
    "Verif.Pond.div_int_close",
    "Verif.Pond.div_public_close",
    "Verif.Pond.div_public_unscaled_close",
    "Verif.Pond.recip_public_close",
    "Verif.Pond.recip_public_aby3_close",
    "Verif.Pond.sqrt_public_close",
    "Verif.Pond.div_errors",
    "Verif.Pond.div_public_int_close",
    "Verif.Pond.div_public_public_close",
    "Verif.Pond.div_public_public_unscaled_close",
    "Verif.Pond.div_public_int_unscaled_false",
    "Verif.Pond.div_public_errors",
    "Verif.Pond.div_float_false",
    "Verif.Pond.div_large_false",
    "Verif.Pond.div_int_unscaled_false",
    "Verif.Pond.recip_small_false"
   ],
   "note": "Proved for ABY3: division of scaled tensors to within 1 + |x| units (one unit for powers of two), averages of any number of owners to within 2 + sum |q| units (two units for powers of two), secrecy of both. Refuted: with more than 2^frac owners whose number is no power of two, the constant 1/m is encoded as zero and the average is zero; a tensor that is not scaled is divided by 3, 5, ... to zero although the documentation says true division. Divisors are exact rationals. Pond, with interactive truncation: division of scaled tensors by integers and public tensors to within |x| + 1/|y| + 1 units, of integers by public tensors to within |x| units, reciprocals and roots of public tensors to within one unit. Refuted: Pond.div raises a TypeError for every float, reveals 0 or one unit for every dividend when the divisor exceeds the scaling factor, 0 for integers divided by integers; the reciprocal of one unit of int100 does not fit its native type. Secrecy of Pond.div is that of products with constants (C03). The same bounds and negations for public dividends in Pond."
  },
  {
   "property": "C84",
   "status": "partial",
   "theorems": [
    "Verif.Aby3.ShareType.share_types_partial",
    "Verif.Aby3.ShareType.refused",
    "Verif.Aby3.ShareType.share_types_false",
    "Verif.Aby3.ShareType.bool_sum_depends"
   ],
   "note": "Proved: programs of any length that use every operation on the kinds it is for raise what the plain program raises or hold sharings of its results, for all sharings; operations that move elements (transpose, reshape, slices, gather, tile, split) and left shifts are right for both kinds; which operators refuse which kinds. Refuted with a witness each: negation, sums, products of boolean sharings, right shifts and not_ of arithmetic ones, additions and subtractions with a boolean right operand (functions: also left), and concat or stack of different kinds are accepted and wrong; the sum of a boolean tensor depends on how it was shared. Not modelled here: broadcasting, scaling (C48), tensors of single bits, public operands other than in additions."
  },
  {
   "property": "C85",
   "status": "proved",
   "theorems": [
    "Verif.Utils.reachable_nodes_correct",
    "Verif.Utils.mem_flatten"
   ],
   "note": "Equality and hashing of nodes are taken for granted: TensorFlow 2 allows tensors in sets in graph mode only. `unwrap_fetches` is C102; `print_banner` is not modelled."
  },
  {
   "property": "C86",
   "status": "partial",
   "theorems": [
    "Verif.Runtime.Function.compiled_same_partial",
    "Verif.Runtime.Function.debug_same",
    "Verif.Runtime.Function.bone_round_trip",
    "Verif.Runtime.Function.only_fresh",
    "Verif.Runtime.Function.tuples_false",
    "Verif.Runtime.Function.modulus_false",
    "Verif.Runtime.Function.int100_false",
    "Verif.Runtime.Function.pond_int128_false",
    "Verif.Runtime.Function.dict_false",
    "Verif.Runtime.Function.variable_false",
    "Verif.Runtime.Function.other_protocol_false"
   ],
   "note": "Proved for lists and tuples nested to any depth of tensors of the current protocol with boolean or native factories (ABY3: also int128), other values, and dictionaries without tensors in results; what becomes of every tensor is decided in `bone_round_trip`. Refuted: tuples return as lists; an explicit modulus is lost silently; int100 raises; int128 in Pond is converted to doubles; dictionaries of tensors cannot be returned; variables arrive as plain tensors; tensors of another protocol are refused. `tf.function` itself is taken for granted as described by `Graph`; devices are not modelled here."
  },
  {
   "property": "C87",
   "status": "partial",
   "theorems": [
    "Verif.Runtime.Trace.results_usable_partial",
    "Verif.Runtime.Trace.later_call_false",
    "Verif.Runtime.Trace.other_trace_false"
   ],
   "note": "Proved for histories of any length in which every call in a trace uses at least one tensor of the trace. Refuted otherwise: an operation on tensors from outside (weights, say) first called inside of a compiled function is cached, and the same call outside, in another compiled function or in another trace of the same function returns a tensor that TensorFlow refuses there. What operations compute is not part of this model (C38, C86)."
  },
  {
   "property": "C88",
   "status": "partial",
   "theorems": [
    "Verif.Aby3.predict_accuracy_partial",
    "Verif.Aby3.predict_uniform",
    "Verif.Aby3.same_class",
    "Verif.Aby3.predict_secrecy",
    "Verif.Aby3.predict_raises",
    "Verif.Aby3.dense_plain",
    "Verif.Aby3.dense_layer",
    "Verif.Aby3.conv_taps",
    "Verif.Aby3.conv_plain",
    "Verif.Aby3.relu_run",
    "Verif.Aby3.maxpool_plain",
    "Verif.Aby3.avgpool_plain",
    "Verif.Aby3.predict_sigmoid_partial",
    "Verif.Aby3.predict_sigmoid_secrecy",
    "Verif.Aby3.predict_softmax_partial",
    "Verif.Aby3.predict_softmax_secrecy",
    "Verif.Aby3.predict_overflow_false"
   ],
   "note": "Proved for networks of any depth provided that no intermediate result leaves the range (`Arch.Fits`, stated on the network over the numbers): the error is the explicit `Arch.err`, at most κ^depth·(1 + depth·(A+1) + biases) units. Secrecy needs no condition. Refuted without the condition (`predict_overflow_false`): input, weight and result fit, the product before truncation does not, and the prediction is 0 instead of 2^32. Pooling pads with zeros and averages divide by the size of the window also at the border; that this differs from TensorFlow is C52. A window whose size is so large a power of two that the division raises is excluded (`Arch.Averages`). The last layer may be a sigmoid (error: 0.042 + 6 units + a quarter of the error of the score) or a softmax (error of the private softmax + exp(2E) - 1 for scores with errors of at most E). Other activations in the middle of the network are not part of it."
  },
  {
   "property": "C89",
   "status": "proved",
   "theorems": [
    "Verif.Aby3.federated_descends",
    "Verif.Aby3.federated_close",
    "Verif.Aby3.federated_nobody",
    "Verif.Aby3.federated_secrecy",
    "Verif.Aby3.aggregate_hides",
    "Verif.Aby3.federated_result"
   ],
   "note": "All claims proved without bound. The weights are one vector, gradients are arbitrary functions of the weights (they may differ from round to round). Assumed: all weights are trainable; the code pairs gradients of `trainable_variables` with `model.weights` by position. The range conditions are part of the claim; that averages go wrong without them is C83."
  },
  {
   "property": "C90",
   "status": "partial",
   "theorems": [
    "Verif.Aby3.training_descends",
    "Verif.Aby3.training_close",
    "Verif.Aby3.training_secrecy",
    "Verif.Aby3.training_possible",
    "Verif.Aby3.grad_crossEntropy"
   ],
   "note": "The accuracy and the secrecy of the weight updates are proved without bound on batches, samples, features or steps. Not modelled: the loss that fit_batch computes and reveals to the servers after each batch (with it a server learns these losses, so its view is not independent of the data), generators of batches, a last batch of another size."
  },
  {
   "property": "C91",
   "status": "partial",
   "theorems": [
    "Verif.Data.horizontal_rounds",
    "Verif.Data.horizontal_epoch",
    "Verif.Data.horizontal_first_only",
    "Verif.Data.horizontal_example_false",
    "Verif.Data.horizontal_pass_partial",
    "Verif.Data.horizontal_unnumbered_false",
    "Verif.Data.horizontal_end_false",
    "Verif.Data.vertical_joined",
    "Verif.Data.vertical_train",
    "Verif.Data.vertical_end_false",
    "Verif.Data.vertical_two_false"
   ],
   "note": "False for the horizontal split: num_samples counts samples but horizontal_combine draws that many batches, so in the example (3 x 20000 samples, batches of 128, 5 x 468 steps) only the first owner's samples are ever used (horizontal_example_false); with the number of batches instead of samples every epoch is a pass over all owners (horizontal_pass_partial). The vertical split is proved for three owners; with fewer it fails, further owners are ignored, and at the end of test data both generators raise RuntimeError instead of stopping."
  },
  {
   "property": "C92",
   "status": "partial",
   "theorems": [
    "Verif.Keras.Args.honoured_partial",
    "Verif.Keras.Args.unknown_refused",
    "Verif.Keras.Args.ignored_false",
    "Verif.Keras.Args.frozen_false",
    "Verif.Keras.Args.activity_false",
    "Verif.Keras.Args.input_shape_false",
    "Verif.Keras.Args.pool_format_false",
    "Verif.Keras.Args.conv_activation_false",
    "Verif.Keras.Args.default_refused_false"
   ],
   "note": "Proved for all layers, arguments and parameters but those of the negations (honoured_partial); unknown arguments are refused (unknown_refused). False: trainable, weights and dtype have no effect on any layer (ignored_false; a frozen layer is trained), activity_regularizer is ignored where it is not a parameter of its own, input_shape is taken for the shape of a batch, pooling layers ignore the backend's data format, a convolution takes a nonsensical activation for the linear one. Some spellings of the default are refused."
  },
  {
   "property": "C93",
   "status": "partial",
   "theorems": [
    "Verif.Keras.Names.layer_names_partial",
    "Verif.Keras.Names.names_unique",
    "Verif.Keras.Names.search_returns",
    "Verif.Keras.Names.given_name_false",
    "Verif.Keras.Names.class_name_false",
    "Verif.Keras.Names.mixed_false",
    "Verif.Keras.Names.input_name_false",
    "Verif.Keras.Names.model_name_false"
   ],
   "note": "Proved: the search ends for all lists of names to avoid (search_returns); its results are unique in every history that counts in one way (names_unique); automatic names of layers of the library never coincide (layer_names_partial). False: an automatic name can coincide with a given one (given_name_false) or with that of a user's class whose name ends in a number (class_name_false), counting in both ways repeats names (mixed_false), and names given to input layers and models are lost (input_name_false, model_name_false)."
  },
  {
   "property": "C94",
   "status": "partial",
   "theorems": [
    "Verif.Aby3.ReduceMax.reduce_max_tree",
    "Verif.Aby3.ReduceMax.reduce_max_network_partial",
    "Verif.Aby3.ReduceMax.methods_agree",
    "Verif.Aby3.ReduceMax.reduce_max_errors",
    "Verif.Aby3.ReduceMax.network_all_false",
    "Verif.Aby3.ReduceMax.network_keepdims_false",
    "Verif.Aby3.ReduceMax.network_one_false"
   ],
   "note": "Proved for method \"tree\" with all arguments (reduce_max_tree) and for method \"network\" along an axis of at least two entries (reduce_max_network_partial); the methods agree there (methods_agree); nothing to reduce, axes outside the tensor and unknown methods raise (reduce_max_errors). False for method \"network\": without an axis it raises UnboundLocalError (network_all_false), with keepdims it returns one axis whatever the rank (network_keepdims_false), and an axis of size one raises (network_one_false). The meaning of maximum and of sorting rows is taken from C29 and C30."
  },
  {
   "property": "C95",
   "status": "partial",
   "theorems": [
    "Verif.Aby3.ReduceMax.argmax_onehot_partial",
    "Verif.Aby3.ReduceMax.argmax_index_partial",
    "Verif.Aby3.ReduceMax.argmax_errors",
    "Verif.Aby3.ReduceMax.onehot_negative_false",
    "Verif.Aby3.ReduceMax.onehot_vector_false",
    "Verif.Aby3.ReduceMax.index_one_false"
   ],
   "note": "Proved: one-hot positions for every axis counted from the front (argmax_onehot_partial), numbers for every axis with at least two entries (argmax_index_partial), errors for empty axes and axes outside the tensor (argmax_errors). Of several largest entries the last is found (tf.argmax: the first). False: with an axis counted from the end the one-hot result has too many axes (onehot_negative_false, onehot_vector_false), and along an axis of size one the numbers have the wrong shape or the call raises (index_one_false). The meaning of comparison and selection of entries is taken from C29 and C36."
  },
  {
   "property": "C96",
   "status": "partial",
   "theorems": [
    "Verif.Local.runs_at_named",
    "Verif.Local.unnamed_raises",
    "Verif.Local.names_unique",
    "Verif.Local.unknown_option_raises",
    "Verif.Local.written_runs_at_named",
    "Verif.Local.forms_agree",
    "Verif.Local.decorated_aby3_partial",
    "Verif.Local.decorated_pond_partial",
    "Verif.Local.keywords_ignored",
    "Verif.Local.keywords_false"
   ],
   "note": "Proved: which player runs the function, for every combination of names and every configuration (runs_at_named, names_unique, unnamed_raises, unknown_option_raises), and what the call returns when it has no keyword arguments but player_name (decorated_aby3_partial, decorated_pond_partial, which rest on C49). False: all other keyword arguments are dropped without an error (keywords_ignored, keywords_false). Not modelled: functions that raise."
  },
  {
   "property": "C97",
   "status": "partial",
   "theorems": [
    "Verif.Keras.InputArgs.input_iff",
    "Verif.Keras.InputArgs.first_input_iff",
    "Verif.Keras.InputArgs.no_batch_size_false",
    "Verif.Keras.InputArgs.docstring_false",
    "Verif.Keras.InputArgs.batch_size_ignored",
    "Verif.Keras.InputArgs.batch_size_ignored_false"
   ],
   "note": "Proved: exactly which calls succeed, and that they return zeros of the shape asked for (input_iff), and the same for the first layer of a model (first_input_iff). False: without a batch size every call raises, though the documentation calls it optional and its example leaves it out (no_batch_size_false, docstring_false); beside batch_shape the batch size is ignored without an error, even a contradictory one (batch_size_ignored, batch_size_ignored_false), and so is an empty shape (hypothesis of Supported)."
  },
  {
   "property": "C98",
   "status": "partial",
   "theorems": [
    "Verif.Local.Aby3.private_from_data",
    "Verif.Local.Aby3.public_from_data",
    "Verif.Local.Aby3.private_from_integers",
    "Verif.Local.Aby3.private_from_bools",
    "Verif.Local.Aby3.private_from_tensor_partial",
    "Verif.Local.Aby3.public_from_tensor_partial",
    "Verif.Local.Aby3.private_unscaled",
    "Verif.Local.Aby3.private_scaled",
    "Verif.Local.Aby3.private_scale_false",
    "Verif.Local.Aby3.private_share_type_false",
    "Verif.Local.Aby3.private_public_false",
    "Verif.Local.Aby3.refused",
    "Verif.Local.Pond.private_from_data",
    "Verif.Local.Pond.public_from_data",
    "Verif.Local.Pond.from_integers",
    "Verif.Local.Pond.private_from_tensor_partial",
    "Verif.Local.Pond.public_from_tensor_partial",
    "Verif.Local.Pond.private_unscaled",
    "Verif.Local.Pond.private_scale_false",
    "Verif.Local.Pond.refused"
   ],
   "note": "Proved for data, and for tensors whose scale and share type are those of the call. False otherwise: with the default arguments an unscaled tensor becomes a variable of its value divided by the scale (private_unscaled, private_scale_false, both protocols), a boolean sharing becomes an arithmetic one of another value (private_share_type_false), and ABY3 refuses the public tensors that its documentation names (private_public_false). Not modelled: placement on devices."
  },
  {
   "property": "C99",
   "status": "partial",
   "theorems": [
    "Verif.Tensor.SpaceBatch.space_spec",
    "Verif.Tensor.SpaceBatch.batch_spec",
    "Verif.Tensor.SpaceBatch.round_trip",
    "Verif.Tensor.SpaceBatch.round_trip_back",
    "Verif.Tensor.SpaceBatch.residues_space",
    "Verif.Tensor.SpaceBatch.words_space_partial",
    "Verif.Tensor.SpaceBatch.words_batch_partial",
    "Verif.Tensor.SpaceBatch.int128_false"
   ],
   "note": "Proved for both operations over native integers and residue numbers, with TensorFlow's operations modelled from their documentation, and both round trips. For 128-bit words both are proved for block shapes that fit the tensor (words_space_partial, words_batch_partial); with a block shape that is one entry too long it takes the halves of the words apart where it should raise (int128_false)."
  }
 ]
}
