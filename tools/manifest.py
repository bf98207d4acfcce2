"""Writes MANIFEST.json. One call of c() per property."""
import json, os
claims = []

def c(prop, status, theorems, note):
    claims.append(dict(property=prop, status=status, theorems=theorems, note=note))

P = "Verif.Pond."
F = "Verif.Fixed."
H = "Verif.Helpers."
A = "Verif.Aby3."
C = "Verif.Crt."
S = "Verif.Sampling."
N = "Verif.SecureNN."
R = "Verif.Runtime."
c("C01", "proved", [P+"share_reconstruct", P+"dealerShare_reconstruct", P+"input_reveal"],
  "Any additive group of tensors, any mask, both coin outcomes, both servers' copies.")
c("C02", "proved", [P+"program_exact", P+"program_refines"],
  "All straight-line programs; ring-exact when unscaled, refinement up to the truncation relation otherwise.")
c("C03", "partial", [P+"share_uniform", P+"program_secrecy_partial", P+"matmul_public_leaks", P+"matmul_public_leaks_false", P+"pondCfg_hides", P+"reveal_leaks"],
  "Equality of distributions of a server's whole view, ideal uniform samplers, truncation that hides, for every program at server 1 and for every program without a matrix product private x public at server 0. The full claim is false: that product computes server 1's share on server 0's device, so server 0 receives both shares (matmul_public_leaks, for every input and draw).")
c("C48", "partial", [P+"program_flags", A+"program_flags", A+"flag_truthful", A+"add_mismatch_accepted_false", A+"sub_mismatch_accepted_false"],
  "Pond and ABY3: kinds, flags and exceptions equal a static table; ABY3: the payload carries the announced factor of the scale when additions match. The claim that mismatched additions are rejected is false for ABY3 (witnesses).")
c("C04", "proved", [A+"share_reconstruct", A+"share_reveal"], "Any width and size, arithmetic and boolean, every draw, every server and outside player.")
c("C05", "proved", [A+"program_exact", A+"program_refines", A+"program_reveals"],
  "All straight-line programs over the modelled operations, every draw; exact without truncation, refinement with it.")
c("C06", "proved", [A+"program_exact", A+"program_reveals"], "The same program language contains xor/and/or/not, conversions and bit extraction.")
c("C07", "partial", [A+"share_uniform", A+"program_secrecy", A+"closed_secrecy", A+"equal_zero_secrecy", A+"vector_max_secrecy", A+"cmp_swap_secrecy", A+"sort_secrecy", A+"pow_secrecy", A+"polynomial_secrecy", A+"piecewise_secrecy", A+"broadcast_leaks_false", A+"cheetah_leaks_false"],
  "Equality of the distributions of a server's whole view for all programs whose zero sharings are not broadcast; with a broadcast first factor, or with the cheetah truncation, the claim is false (proved).")
c("C12", "partial", [A+"truncate_default", A+"truncate_default_error", A+"truncate_msb0", A+"truncate_cheetah_partial", A+"truncate_cheetah_false"],
  "Default and secureq8 methods: all values, sharings, draws, widths. The cheetah variant returns floor or floor-1 (negation of the claim proved with a witness).")
c("C13", "proved", [A+"truncate_local", A+"bad_masks", A+"truncate_local_failure", A+"mulTrunc2_dist", A+"mul_trunc2_failure"],
  "Exact success condition and exact failure probability.")
c("C21", "partial", [A+"ppa_sum", A+"ppa_sum_nBits", A+"sklansky64_sum", A+"sklansky128_sum", A+"sklansky64_nBits_partial", A+"ppa_nBits_64_false", A+"ppa_nBits_large_false", A+"sklansky64_nBits_false"],
  "Sum modulo 2^w for every operand pair; with n_bits the Kogge-Stone adder is right for n_bits <= 63 and raises or keeps too much otherwise; Sklansky does not mask (witnesses).")
c("C22", "proved", [A+"carry_out"], "All power-of-two widths and positions below the width.")
c("C23", "proved", [A+"a2b_value", A+"a2b_value_nBits", A+"b2a_value", A+"b2aBits_value", A+"a2b_b2a", A+"b2a_a2b"], "Every sharing and draw, widths up to 128.")
c("C24", "partial", [A+"bitExtract_value", A+"bitExtractB_value", A+"msb_value", A+"bitExtract_zero_false"],
  "Every position except 0 of an arithmetic sharing, where the code raises (proved).")
c("C27", "proved", [A+"ot_value", A+"mulAb_value", A+"mulAbPub_value"], "Every message pair, bit, sharing and draw.")
c("C25", "partial", [A+"less_than_partial", A+"greater_than_partial", A+"greater_equal_partial", A+"less_equal_partial", A+"less_than_exact_iff", A+"comparable_of_small", A+"less_than_overflow_false", A+"less_than_public_raises"],
  "All four comparisons, every private/public mix, sharing, draw and width. The answer is right exactly when the difference does not overflow; the unconditional claim is false (witness).")
c("C26", "proved", [A+"equal_zero_exact", A+"equal_exact"], "No precondition on the values.")
c("C28", "proved", [A+"select_value", A+"selectB_value", A+"maximum_value", A+"cmp_swap_value", A+"relu_value", A+"relu_min_false"],
  "Under the comparability precondition of C25 where a comparison is used; relu of the most negative word is proved wrong.")
c("C29", "proved", [A+"reduce_max_value", A+"vector_max_value", A+"argmax_onehot_value", A+"argmax_normal_value", A+"reduce_max_network_value"],
  "Any number of elements. Ties go to the last maximum.")
c("C30", "partial", [A+"sort_value_partial", A+"sort_small_partial", A+"sort_one_raises", A+"sort_pad_false", "Verif.Bitonic.net_sorts", "Verif.Bitonic.net_rearr"],
  "Every length of at least two, any number of columns, both directions, every sharing and draw. A single row raises, and -2^(w-2) is mishandled when padding is needed (both proved).")
c("C31", "proved", [A+"pow_exact", A+"pow_zero_raises", A+"pow_scaled", A+"prod_exact", A+"prod_scaled", A+"pow2_from_bits_value", A+"pow2_from_bits_raises"],
  "Exact for unscaled tensors and every exponent and length; for scaled tensors the rounding error is bounded by 2(k-1)B^(k-1)/2^frac.")
c("C32", "proved", [A+"piece_unique", A+"piecewise_exact", A+"piecewise_scaled", A+"polynomial_exact", A+"polynomial_scaled"],
  "Every number of pieces and degrees, breakpoints in order (ties allowed) and comparable to x. The piece is the one containing x; unscaled evaluation is exact, scaled evaluation has a proved error bound.")

c("C08", "proved", [F+"pond_encode_decode", F+"aby3_encode_decode", F+"encode_decode_exact", F+"encode_decode_integer", F+"pond_decode_out_of_range", F+"encode_tf_tensor_raises"],
  "Every config, every rational in range; floats are exact rationals.")
c("C09", "partial", [F+"validate_iff", F+"validate_ready_partial", F+"validate_ready_crt", F+"validate_ready_false", F+"validate_ready_explicit_false", F+"product_may_exceed", F+"library_configs"],
  "The full claim (validated implies ready for every factory) is false; witnesses proved, and the partial theorem for native and CRT factories.")
c("C10", "proved", [P+"interactive_truncation", P+"interactive_truncation_not_floor", P+"interactive_heuristic_raises"],
  "Every share, mask and in-range value; error is 0 or 1.")
c("C11", "proved", [P+"noninteractive_no_wrap", P+"wrap_count_native", P+"wrap_count_crt", P+"noninteractive_bad_masks", P+"noninteractive_wrap_is_bad", P+"noninteractive_crt_below_floor"],
  "Exact failure set and exact count of failing masks.")
c("C15", "partial", [H+"egcd_bezout", H+"egcd_natAbs", H+"inverse_correct_partial", H+"inverse_negative_rejected", H+"inverse_correct_false", H+"prod_spec"],
  "Correct for a >= 0; for negative a the code always fails its assertion, so the full claim is false (witness).")
c("C14", "proved", [P+"pond_fixed_mul", P+"pondCfg_sound", A+"aby3_fixed_mul", A+"decodeWord_eq"],
  "Pond with interactive truncation and ABY3 with the default truncation: all operands in range, all shares, triples, masks and draws; error at most (|q1|+|q2|+1)/scale.")
c("C33", "partial", [A+"Nonce.nonces_fresh_partial", A+"Nonce.cheetah_reuses_false", A+"Nonce.compiled_twice_reuses_false", A+"Nonce.holders_agree", A+"Nonce.seed_injective", A+"Nonce.seed_wraps_false"],
  "Fresh over every history without cheetah truncation and without a second call of a compiled function; each of the two exceptions is proved to reuse a nonce after every history.")
c("C16", "proved", [C+"crt_arithmetic", C+"crt_matmul", C+"crt_equal", C+"make_iff", C+"reduce_sum_partial", C+"reduce_sum_false", C+"rsub_false", C+"rsub_negated"],
  "Any modulus list the constructor accepts, all expressions, all inner dimensions, 32-bit wrap-around modelled. Also: reduce_sum overflows on long axes and the reflected subtraction returns the negated result (both proved).")
c("C17", "partial", [C+"crt_mod", C+"crt_truncate", C+"crt_decode", C+"crt_bits", C+"approx_float", C+"int100_truncate", C+"crt_mod_false"],
  "Exact except for values within the floating-point error of half the modulus; the claim is false for large factors (crt_mod_false).")
c("C18", "proved", [S+"uniform_count", S+"uniform_accepts", S+"draw_range", S+"draw_count"],
  "Every width and range; one word and any number of replacement words.")
c("C19", "partial", [S+"native_count", S+"native_sample_false", S+"native_share_leaks_false", S+"native_share_close_partial", S+"explicit_count", S+"bounded_count", S+"bool_count", S+"odd_count", S+"odd_sample_false", S+"crt_count", S+"crt_sample_rep", S+"crt_seeded_false", S+"crt_bounded_unique", S+"shifted_count"],
  "Exact counts for every factory. Uniform over the ring: explicit moduli, booleans, unseeded int100, bounded samplers. The claim is false for native rings, odd rings and seeded int100 (proved, with the size of the native leak).")
c("C20", "partial", [S+"keystream_nodup_partial", S+"keystream_wraps_false"],
  "All element sizes, lengths and rejection patterns below 2^32 keystream blocks; beyond that the 32-bit block counter wraps and positions repeat (proved).")
c("C34", "proved", [N+"odd_arithmetic", N+"odd_lift", N+"odd_add_minus_one_false"],
  "Every width of at least two bits and all elements; a value outside the ring (-1) gives a wrong sum (proved).")
c("C35", "proved", [N+"private_compare", N+"private_compare_small_prime_false"],
  "All widths, all primes larger than the width plus one, all operands, blinding bits, masks and sharings. A prime equal to the width plus one is accepted by the code and gives wrong answers (proved).")
c("C36", "partial", [N+"lsb_correct", N+"is_negative_partial", N+"is_negative_exact", N+"is_negative_minus_one_false", N+"is_negative_minus_two_false", N+"is_negative_max_false", N+"comparisons_partial", N+"less_adjacent_false", N+"relu_partial", N+"relu_split_false", N+"maximum_partial", N+"maximum_adjacent_false", N+"reduce_max_partial", N+"argmax_partial", N+"lsb_sampler_false"],
  "The exact outcome is proved for every value and sharing. The claim itself is false: -1 is never found negative, -2 and the largest value depend on the shares. Comparisons, maximum, reduce_max and argmax are proved away from these values, with the exact error otherwise.")
c("C37", "proved", [N+"bit_operators"], "Any commutative ring; public, private and masked operands; all randomness.")
c("C56", "partial", [N+"helper_learns_false", N+"helper_view_partial"],
  "The claim is false (the vector is not permuted); the vector shows nothing but the position of its zero.")
c("C38", "partial", [R+"memo_transparent_partial", R+"key_eq_iff", R+"call_key_iff", R+"none_not_cached", R+"memo_confuses_false", R+"protocols_confused_false", R+"transpose_perm_false", R+"stack_axis_false", R+"strided_slice_false", R+"zeros_after_to_private_false", R+"to_private_twice_false"],
  "Any history of calls, debug mode on or off; transparent if methods respect the keys and nobody mutates a cached object. Exact characterisation of confused arguments. False across protocol objects, for three hand-written caches, and after to_private.")
c("C39", "partial", [R+"Vars.variables_partial", R+"Vars.spec_last", R+"Vars.use_is_stale", R+"Vars.use_after_assign_false", R+"Vars.assign_variable_false", R+"Vars.assign_raises_false", R+"Vars.half_assigned_false", R+"Vars.assign_share_type_false"],
  "Any number of variables, any history: read_value is the last assigned value (native, int128). False for a variable used directly (stale), for assign(v, u), and for int100/bool variables (assign raises half way).")
c("C40", "partial", [R+"Queue.queue_fifo_partial", R+"Queue.queue_capacity", R+"Queue.queue_progress", R+"Queue.two_producers_false", R+"Queue.two_consumers_false", R+"Queue.crash_mixes_false"],
  "Every schedule in which enqueues do not overlap each other and dequeues do not overlap each other; false for concurrent producers or consumers and after a crash between the two share queues.")
c("C41", "partial", [R+"Serving.served_in_order_partial", R+"Serving.own_answer_partial", R+"Serving.serving_progress", R+"Serving.two_clients_false", R+"Serving.crash_loses_false"],
  "Any number of clients, any schedule: answers come in query order, no deadlock; own answer if runs do not overlap. False for overlapping clients and after a server crash.")
c("C47", "partial", [R+"contexts_nest_partial", R+"within_restores_partial", R+"within_exact", R+"names_follow", R+"config_resets", R+"reenter_false", R+"stale_name_false"],
  "All programs of nested blocks with exceptions and explicit switches; false for an object re-entered inside its own block.")
c("C54", "partial", [R+"local_lookup_stable", R+"local_lookup", R+"local_indices", R+"local_names", R+"local_get_players", R+"remote_players", R+"remote_devices", R+"remote_lookup", R+"remote_unknown", R+"save_load", R+"duplicate_names_false", R+"local_devices_false", R+"load_loses_job_false"],
  "All histories of lookups; all host maps. Local players share one device and may have duplicate names; saving loses the job name.")
L = "Verif.Paillier."
c("C42", "partial", [L+"paillier_partial", L+"round_trip_partial", L+"refresh_is_encrypt", L+"encrypt_mod", L+"zero_randomness_false", L+"bad_randomness_count"],
  "Every expression of encryptions, additions, scalings and refreshes, for any two suitable primes, provided the random factors are invertible; p+q-1 of the n values the code may draw are not, and then decryption is wrong (proved).")
T = "Verif.Tensor."
c("C43", "proved", [T+"conv2d_nchw", T+"conv2d_nhwc", T+"crt_conv2d", T+"outSize_eq", T+"padSize_correct", T+"conv2d_unknown_padding"],
  "All batch, image, filter, channel and stride sizes, SAME and VALID, both data formats, the shared and the int100 implementation, entries from any ring; reshapes and transposes are modelled in row-major order.")
c("C52", "partial", [T+"pond_pad_partial", T+"aby3_pad_partial", T+"pond_pad_unscaled_false", T+"aby3_pad_public_false", T+"avgpool_sums", T+"pond_avgpool_sums", T+"pond_avgpool_square_false", T+"average_error", T+"avgpool_unscaled_false", T+"maxpool_correct", T+"maxpool_same_false", T+"secureNN_maxpool_false"],
  "All ranks and shapes. False: padding unscaled Pond or public ABY3 tensors raises; Pond square pooling raises; pooling an unscaled tensor gives zero; SAME max pooling lets zeros take part; SecureNN max pooling raises.")
c("C57", "partial", [T+"patches2im_partial", T+"patches2im_uncovered_false", T+"patches2im_strides_false"],
  "All shapes with equal strides whose windows cover the image; false for unequal strides, raises when the windows leave a border.")
V = "Verif.Convert."
c("C44", "partial", [V+"forward_correct", V+"forward_total", V+"backward_partial", V+"backward_gradient_partial", V+"backward_fanout_false", V+"backward_unused_false", V+"same_name_false"],
  "Forward: every well-formed graph with distinct node names. Backward: every graph in which each value is used exactly once, as equations between gradients and, if the nodes are right, as derivatives; false with fan-out (gradients overwritten), raises for unused outputs, and wrong when two nodes share a name.")
K = "Verif.Keras."
c("C53", "proved", [K+"sgd_exact", K+"sgd_rounded", K+"sgd_ring", K+"optimizer_total", K+"optimizer_errors", K+"optimizer_frame", K+"sgd_two_products_false"],
  "Every history over every set of layers. Exact in exact arithmetic; within n*2d/(1-momentum) with products rounded within d; exact in the ring relative to the computed velocities when the two products of a step agree. Since lr*G is computed twice, randomised rounding makes the stored velocity differ from the applied step (sgd_two_products_false).")
c("C58", "proved", [K+"amsgrad_exact", K+"adam_exact", K+"optimizer_total", K+"optimizer_errors"],
  "In exact arithmetic, for every inverse square root function; rounding of the two adaptive optimizers is not bounded.")
B = "Verif.Bits."
c("C45", "proved", [B+"bit_gather_spec", B+"bit_gather_128", B+"bit_split_and_gather_spec", B+"bit_split_and_gather_refused", B+"bit_reverse_spec", B+"bit_reverse_64", B+"bit_reverse_128", B+"xor_indices_spec", B+"xor_indices_one_hot", B+"kernels_xor", B+"prefix_ORs_spec", B+"top_bit_spec", B+"prefix_ORs_high_false"],
  "All words; gathering at every width, start and stride; reversal and position sums at 64 and 128 bits (the only widths with a kernel). prefix_ORs needs the bits above k to be clear, as its callers arrange; shown false otherwise.")
c("C46", "partial",
  [A+"normalize_pos", A+"normalize_signed", A+"normalize_pos_zero", A+"normalize_refused", A+"log_reduce",
   A+"log_smallest_false", A+"sqrt_reduce"],
  "Proved for every tensor, sharing and draw over arbitrary word width and precision. The interval is closed "
  "([1/2,1], [1,2], [1/4,1/2]) because the product that forms the significand is rounded up or down at random. "
  "The signed form normalises |b| or |b|+1, because the sign is multiplied with a rounding. "
  "log_smallest_false: for the smallest positive value the logarithm loses its scale, so its reduced value is "
  "not in [1,2]. The steps after the reductions are in C59, C60 and C68.")
I = "Verif.I128."
c("C50", "partial",
  [I+"encode_word", I+"decode_word", I+"encode_decode", I+"encode_wraps", I+"decode_encode", I+"bounds_spec",
   I+"toDouble_error", I+"decode64_close", I+"encode_decode64_partial", I+"encode_decode64_false", I+"to_from_i128_partial", I+"to_i128_false", I+"arith_spec", I+"abs_spec",
   I+"abs_least_false", I+"sar_spec", I+"shr_spec", I+"shl_spec", I+"shift_negative", I+"bitwise_word",
   I+"cast_spec", I+"words_memory", I+"binary_spec", I+"binary_refused", I+"bitwise_spec", I+"invert_spec",
   I+"equal_spec", I+"equal_order_false", I+"reshape_spec", I+"reshape_refused", I+"stack_spec",
   I+"stack_last_false", I+"stack_scalars_false", I+"concat_spec", I+"concat_second_last_false",
   I+"expand_dims_spec", I+"gather_spec", I+"reduce_sum_spec", I+"matmul_spec", I+"select_spec",
   I+"ones_zeros_spec", I+"transpose_spec", I+"getitem_spec", I+"getitem_ellipsis_false"],
  "Encoding, decoding, arithmetic, shifts, bitwise operations and casts are proved for every word and amount, and "
  "the structural operations for every shape and every axis from 0 up. Partial because tensors that are already in "
  "TensorFlow pass through a double (to_i128_false: 2^53+1 is changed), because axes counted from the end, "
  "ellipsis indices and stacking of scalars are wrong (the _false theorems), and because decode returns doubles: "
  "exact up to 2^53 units, within one part in 2^53 beyond (encode_decode64_false: 2^53+1 is changed).")
O = "Verif.Local."
c("C49", "partial",
  [O+"Aby3.local_spec_partial", O+"Aby3.local_reveals", O+"Aby3.local_reveals_exact", O+"Aby3.local_reveals_bool",
   O+"Aby3.local_secret", O+"Aby3.public_argument_raises", O+"Aby3.share_type_false", O+"Aby3.share_type_any",
   O+"Aby3.local_refused", O+"Pond.local_spec_partial", O+"Pond.local_reveals", O+"Pond.masked_raises"],
  "Proved for every function, player, argument list and sharing where the code works, including what other servers "
  "learn. The full property is false: ABY3 raises ValueError on every public argument, reconstructs private "
  "arguments with the share type of the results (share_type_false, share_type_any), and Pond raises TypeError for "
  "every masked output.")
c("C51", "partial",
  [A+"exp2_pade_partial", A+"exp2_pade_false", A+"usedDegree_short", A+"exp2_pade_raises", A+"exp2_partial",
   A+"exp2_accuracy", A+"exp2_preset", A+"exp2_wraps_false", A+"exp2_secrecy"],
  "Every precision, tensor, sharing and draw: the distance from the polynomial that is evaluated, exact powers of two "
  "for the floor, zero below -frac, distance from the real 2^x, secrecy. The full property is false: the loop over "
  "powers stops one short, so the leading coefficient never takes part (exp2_pade_false), and the floor is taken "
  "modulo 32 (exp2_wraps_false). This is approx_type 'mp-spdz', the default; 'as2019' is C70.")
c("C59", "proved", [A+"recip_pos", A+"recip_signed", A+"recip_default", A+"recip_relative_false", A+"recip_refused", A+"recip_secrecy"],
  "For every tensor in range, sharing, draw, word width, precision and number of rounds. recip_relative_false: the "
  "relative error of 1e-5 in the code's comment cannot be met by any answer for 1/3 with 16 fractional bits.")
c("C60", "proved", [A+"inv_sqrt_close", A+"inv_sqrt_default", A+"inv_sqrt_128", A+"inv_sqrt_refused", A+"inv_sqrt_secrecy"],
  "For every tensor of positive in-range values, sharing, draw and number of rounds, with 64 and 128 bits and every "
  "admissible precision; the distance is to the real number 1/sqrt(x).")
c("C61", "partial", [A+"exp_close", A+"exp_default", A+"exp_range_false", A+"exp_secrecy", A+"exp_infinity_power", A+"exp_infinity_close",
   A+"exp_infinity_range_false"],
  "The default variant is compared with the real exponential for every x up to 22, and the 'infinity' variant with "
  "(1+x/128)^128 and with the real exponential for x in [-128, 20]. Partial because the documented ranges have no upper "
  "end and, for 'infinity', no lower end either: exp_range_false shows that exp(23), which fits in the word, comes out as at most 5, and "
  "exp_infinity_range_false that exp(-260) comes out as at least 50. The 'as2019' variant is C70.")
c("C62", "proved", [A+"softmax_close", A+"softmax_tree_close", A+"softmax_default", A+"softmax_one_raises", A+"softmax_secrecy", A+"reduce_max_network_value", A+"softmax_as2019_partial", A+"softmax_infinity_partial", A+"softmax_infinity_range_false", A+"softmax_other_raises", A+"softmax_kind_secrecy"],
  "Default approximation, both ways to find the maximum. The error is compared with the real softmax; for the default 64-bit "
  "configuration up to 819 classes. With one class the default way raises (softmax_one_raises), which the statement excludes. "
  "The other values of approx_type, which the statement does not speak about, are covered as well: 'as2019' and 'infinity' are close to the "
  "softmax as long as the logits of a column differ by less than about 6.2 and 128 (the two _partial theorems); beyond that 'infinity', "
  "documented for all numbers, picks the wrong class (softmax_infinity_range_false). Other strings are refused.")
c("C63", "proved", [A+"sigmoid_close", A+"sigmoid_three_close", A+"sigmoid_other_raises", A+"sigmoid_secrecy"],
  "Compared with the real logistic function. The coefficients are the decimal fractions in the source, not their float32 images.")
c("C64", "partial", [K+"fit_value", K+"fit_covers_partial", K+"groups_cover", K+"groups_sizes", K+"fit_skips", K+"fit_skips_false", K+"fit_epochs_ignored", K+"fit_epochs_false", K+"fit_empty_raises", K+"fit_ordinary_raises_false", K+"fit_scalar_raises", K+"fitMany_covers", K+"fitIter_value", K+"predict_value", K+"predict_reveal_false", K+"predict_empty_raises", K+"predict_none_raises", K+"predict_zero_diverges", K+"evaluate_value", K+"evaluate_all_partial", K+"evaluate_default_false"],
  "fit and evaluate on two tensors take the number of features for the number of samples, all epochs share one exhausted iterator, and the reveal flag of the first predict is kept for later calls; each is proved with what happens instead. Holds for iterators, for lists of tensors (one epoch) and for predict with an unchanged flag.")
c("C65", "partial", [K+"fitBatch_descends", K+"perceptron_descends", K+"dense_exact", K+"relu_exact", K+"activation_exact", K+"flattenLast_exact", K+"reshape_exact", K+"globalAverage_exact", K+"globalAverage_shape", K+"mse_gradient", K+"bceLogits_gradient", K+"cceLogits_gradient", K+"lazy_same", K+"dense_lazy", K+"reluLayer_lazy", K+"lossGrad_lazy", K+"untrainable_raises", K+"crossentropy_is_half_mse", K+"bce_gradient_false", K+"cce_gradient_false", K+"flattenFirst_false", K+"globalAverage_keepdims_false", K+"activation_none_raises_false", K+"frozen_moves_false"],
  "Exact real arithmetic. Fails for the cross-entropy losses on probabilities (the default), Flatten of channels-first data, GlobalAveragePooling2D with keepdims, Activation(None) and frozen layers; each with a proof of what happens. Convolution and the windowed pooling layers are not part of it.")
c("C66", "partial", [K+"conv_forward", K+"conv2D_exact_partial", K+"conv2D_backward_ok", K+"conv_backward_total", K+"covered_valid", K+"covered_same", K+"conv2D_lazy", K+"conv_shape", K+"convnet_descends", K+"conv_remainder_raises_false", K+"conv_strides_false", K+"conv_shape_false"],
  "The forward pass is right for all strides. The gradients are exact whenever backward returns and the two strides are equal; it returns exactly when the windows cover the image, and raises an AssertionError otherwise (VALID padding with a stride that does not divide the rest). With unequal strides, which the layer accepts, the gradient can be wrong without an exception, and the reported output shape is wrong.")
c("C67", "partial", [K+"avg_forward", K+"max_forward", K+"pool_shape", K+"avgPool_call", K+"maxPool_call", K+"avgPool_exact_partial", K+"maxPool_exact_partial", K+"pool_backward_ok", K+"pool_lazy", K+"globalMax_call", K+"globalMax_exact", K+"poolnet_descends", K+"pool_remainder_raises_false", K+"pool_strides_raise_false", K+"pool_strides_false", K+"globalMax_keepdims_false"],
  "The forward pass and the reported shape are right for all strides. The gradients are exact whenever backward returns and the two strides are equal; it returns exactly when the windows cover the image and raises otherwise (the default 2 x 2 pool on images of odd height). With unequal strides, which is the default for pools that are not square, backward raises or hands the gradient to the wrong pixels. GlobalMaxPooling2D ignores keepdims but reports a shape that has it.")
c("C68", "partial", [A+"log_close_partial", A+"log_two_false", A+"log_other_raises", A+"fp_log_close_partial", A+"fp_log_smallest_false", A+"fp_log_refused", A+"log_secrecy"],
  "log_close_partial: tfe.log is within 0.0367 + 400 units in the last place on [0.1, 1.5], for every draw; log_two_false: at 2 it returns more than 4.9 (the docstring states no range). fp_log_close_partial: the logarithms of fp.py are within 0.0215 + (frac+13) units for every positive value of the documented size except the smallest one, for which fp_log_smallest_false shows an error of at least 1.5 for every draw. Any other approximation name raises.")
c("C69", "partial", [P+"sigmoid_close_partial", P+"relu_close_partial", P+"tanh_close_partial", P+"log_close_partial", P+"exact_values", P+"sigmoid_false", P+"relu_false", P+"relu_zero", P+"tanh_false", P+"log_false", P+"activation_secrecy"],
  "For every draw, in fixed64 on int64 and fixed100 on int100: sigmoid is within 0.035 on [-4,4], relu within 0.45 on [-6,6], tanh within 0.1 on [-2.9,2.9], log within 0.08 (0.041) on [0.1,1.5]. The property fails outside: sigmoid(8) >= 3, relu(10) <= 5, relu(0) >= 0.43, tanh(5) <= -2, log(2) >= 4.9, for every draw; nothing checks the inputs and no range is documented. exact_values: the coefficients of the two highest powers of sigmoid and relu are encoded as zero. Not covered: the non-interactive configurations, whose truncation fails with small probability (C11).")
c("C70", "partial", [A+"exp2_as_close_partial", A+"exp_as_close_partial", A+"exp2_as_default", A+"exp2_as_wraps_false", A+"exp2_as_negative_false", A+"exp2_as_refused", A+"exp_as_secrecy"],
  "For every sharing and draw, in all presets with probabilistic truncation: exp2 from -9 (64 bit) or -18 (128 bit) up to 32, exp correspondingly up to 22. The property fails below: with the default 64-bit configuration 2^-11.75 comes out below -10000 (exp2_as_negative_false), because the power needs more bits than the reciprocal looks at, and 2^-32 comes out as one (exp2_as_wraps_false). Configurations with too many integral bits raise an AssertionError after the power was computed (exp2_as_refused).")
c("C71", "partial", [K+"depthwise_forward", K+"depthwise_build", K+"depthwise_set_weights", K+"depthwise_shape_partial", K+"depthwise_shape_false", K+"depthwise_reload_partial", K+"depthwise_reload_false"],
  "The forward pass is proved for all parameters. compute_output_shape is right exactly for one channel, channels first and equal strides (depthwise_shape_partial, depthwise_shape_false); with multiplier above one and more than one channel the layer refuses its own weights (depthwise_reload_false). The backward pass raises NotImplementedError in the code.")
c("C72", "partial", [K+"set_weights_arrays", K+"set_weights_private", K+"copy_weights", K+"accepts_plain", K+"has_plain", K+"train_ok", K+"set_weights_surplus_false", K+"set_weights_missing_false", K+"set_weights_half_false", K+"set_weights_empty_false", K+"copied_broken_false", K+"copy_breaks_source_false", K+"self_copy_false"],
  "Weights that fit are installed, for every model and heap, and all other variables keep their values. The rest of the property fails: surplus weights and weights missing for whole layers are ignored, weights missing inside a layer raise after earlier layers were written, an empty list raises IndexError even for a model without weights, copying from another model replaces the variables in the other model's lists so that it can no longer be trained, and setting a model's own weights raises TypeError.")
D = A + "Disk."
c("C73", "partial", [D+"read_back", D+"read_back_wide", D+"read_rows", D+"write_read", D+"write_order", D+"server_files", D+"read_remainder_false", D+"read_shared_list_false", D+"read_unscaled_false", D+"read_boolean_false", D+"read_bool_false", D+"write_crash_false", D+"append_crash_false"],
  "Proved for all histories of completed writes of scaled arithmetic tensors, 64 and 128 bit, if the records divide into whole batches. Otherwise the property fails: left-over records raise, unscaled tensors come back divided by the scaling factor, boolean sharings come back as arithmetic ones, tensors of booleans cannot be read, a shape list can be used only once with 128 bits, and an interrupted write leaves files that open to neither the old nor the new value, without an exception.")
c("C74", "partial", [D+"iterate_repeated", D+"iterate_once_partial", D+"iterate_opens", D+"shuffle_once", D+"batches_cover", D+"shuffle_forever", D+"iterate_last_false", D+"shuffle_epoch_false", D+"iterate_eager_false"],
  "For all seeds and random numbers the six shares stay aligned and full batches open to rows of the tensor. The rows of an incomplete last batch are never delivered (InvalidArgumentError), repeated and shuffled rows can come twice before others come once, and in eager mode the call always raises RuntimeError. The shuffle of tf.data is modelled with its buffer of 512 elements; that equal seeds give equal random numbers is assumed.")
c("C75", "partial", [K+"norm_call", K+"norm_build", K+"norm_set", K+"norm_build_iff", K+"norm_axis_iff", K+"normalised_statistics", K+"norm_last_axis_false", K+"norm_matrix_false", K+"norm_sequence_false", K+"norm_train_false"],
  "Proved in exact arithmetic for all shapes the layer can be built for, which are exactly matrices with axis 1 and images with axis 1 or 3. The rest fails: axis -1 is rejected, matrices raise IndexError with the default axis, data of other ranks raise UnboundLocalError although the documentation says that the input shape is arbitrary, and backward is not implemented.")
c("C76", "partial", [K+"reshape_shape", K+"reshape_back", K+"flatten_last", K+"flatten_first", K+"flatten_empty", K+"reshape_empty_false", K+"reshape_negative_false"],
  "Proved for all nonempty batches and all target shapes in which -1 is the only negative number, and for Flatten of channels-last data of every rank and channels-first images. For an empty batch, and for other negative numbers, a shape is declared and applying the layer raises. tf.reshape is modelled from its documentation.")
c("C77", "partial", [V+"matmul_node", V+"matmul_operands_false", V+"matmul_rank_false", V+"gemm_node_partial", V+"gemm_flip_partial", V+"gemm_transA_raises_false", V+"gemm_bias_size_false", V+"gemm_bias_column_false", V+"gemm_position", V+"gemm_transB_raises_false", V+"gemm_transB_false", V+"gemm_alpha_false", V+"gemm_defaults_false", V+"conv_node_swapped", V+"conv_node_partial", V+"depthwise_node_swapped", V+"depthwise_node_partial", V+"depthwise_declared_false", V+"conv_group_false", V+"conv_pads_false", V+"conv_defaults_false", V+"conv_square_false", V+"conv_dilations_false", V+"avg_node_partial", V+"max_node_partial", V+"pool_defaults_false", V+"pool_pads_false", V+"pool_ceil_false", V+"norm_node_partial", V+"norm_first_attribute", V+"norm_epsilon_false", V+"global_average_node", V+"reduce_mean_last_partial", V+"reduce_mean_middle_partial", V+"reduce_mean_axes_false", V+"reduce_max_last_partial", V+"global_max_false"],
  "Proved for all shapes, weights and inputs: MatMul of a matrix and a constant; Gemm if transA and transB are the first attributes, alpha and beta are 1, an input that is transposed is square and the bias is a vector or one row; Conv with one group or one channel per group if strides and group are given, the kernel is square, nothing is dilated and as many rows are padded above as below (with other paddings top and bottom are exchanged); BatchNormalization if epsilon comes first; AveragePool and MaxPool without padding and rounding; GlobalAveragePool; ReduceMean over rows and columns; ReduceMax over them without keeping them. Every other case is refuted by a theorem: wrong results, wrong declared shapes, or an exception. Arithmetic is exact; the operators are specified from the ONNX documentation.")
c("C78", "partial", [V+"add_node_partial", V+"add_constant_first_false", V+"add_declared_false", V+"bin_node_partial", V+"bin_constant_false", V+"map_node", V+"softmax_node_partial", V+"softmax_axis_false", V+"reshape_node_partial", V+"reshape_zero_false", V+"flatten_node_partial", V+"flatten_axis_false", V+"flatten_vector_false", V+"transpose_node_partial", V+"transpose_default_false", V+"unsqueeze_node_partial", V+"unsqueeze_declared_false", V+"unsqueeze_axes_false", V+"unsqueeze_attribute_false", V+"squeeze_node_partial", V+"squeeze_attribute_false", V+"squeeze_declared_false", V+"concat_node_partial", V+"concat_batch_false", V+"split_node_partial", V+"split_even_partial", V+"split_attribute_false", V+"split_default_false", V+"slice_node_partial", V+"slice_start_false", V+"slice_batch_false", V+"slice_declared_false", V+"gather_node_partial", V+"gather_scalar_false", V+"gather_negative_false", V+"gather_default_false", V+"gather_declared_false", V+"pad_node_partial", V+"pad_value_false", V+"pad_mode_false", V+"pad_attribute_false"],
  "Proved for all ranks, shapes and tensors: Neg and Relu; Add, Sub and Mul if the result has the shape of the first operand and (Sub, Mul) both are computed; Softmax along the last axis; Reshape without zeros; Flatten from axis 1; Transpose with its attribute; Unsqueeze of one axis in front of another; Squeeze of listed axes that are not negative; Concat and Split along an axis of known size; Slice if every axis that is not listed has a known size, with positive steps, and with negative steps if the axis has entries and the start is not before the first; Gather with a vector of indices that are not negative; Pad by zeros. Every other documented case is refuted by a theorem: wrong results (Slice without the batch among its axes drops the last sample; Slice with a negative step from before the first entry takes nothing; Pad by a value, at the edges, mirrored or repeated; Squeeze and Split with attributes), wrong declared shapes, or an exception. Arithmetic is exact.")
c("C79", "partial", [V+"backward_gradient_partial", V+"add_gradient_partial", V+"sub_gradient_partial", V+"mul_gradient_partial", V+"neg_gradient", V+"add_gradient_broadcast_false", V+"mul_gradient_broadcast_false", V+"add_bias_gradient_partial", V+"add_bias_shape_false", V+"add_bias_channels_false", V+"reshape_gradient_partial", V+"flatten_gradient_partial", V+"unsqueeze_gradient_partial", V+"squeeze_gradient_partial", V+"reshape_gradient_unknown_false", V+"transpose_gradient", V+"concat_gradient_partial", V+"concat_gradient_batch_false", V+"split_gradient_partial", V+"split_even_gradient_partial", V+"pad_gradient_partial", V+"missing_gradients_false", V+"dense_gradient", V+"matmul_gradient", V+"gemm_gradient", V+"conv_layer_gradient", V+"conv_gradient", V+"avg_gradient", V+"max_gradient", V+"relu_gradient", V+"sigmoid_gradient", V+"global_average_gradient", V+"global_max_gradient", V+"softmax_norm_gradient_false", V+"global_average_gradient_false", V+"global_max_kept_false", V+"grouped_gradient_false"],
  "Gradients are derivatives along every differentiable movement of the inputs. Whole graph: if every node's gradient is right and every value is used exactly once (with fan-out it is false, see C44). Nodes, for all shapes and values: Neg, Transpose; Add, Sub and Mul of equal shapes; Add with a constant of the shape of one sample (the mean over the batch, as Keras layers have it); Reshape, Flatten, Unsqueeze and Squeeze with at most one unknown dimension; Concat along an axis of known sizes; Split; Pad by zeros. Refuted: Add and Mul with broadcasting return gradients of the wrong shape, Add with any other constant too; Concat along the batch and reshaping with two unknown dimensions raise; Stack, Slice and Gather have no gradient. Nodes that wrap layers, gradients of the weights and of the input: MatMul, Gemm (a transposed input has to be square), Conv without groups and with equal strides for all paddings, AveragePool and MaxPool with equal strides (one largest entry per window), Relu away from zero, Sigmoid, GlobalAveragePool and ReduceMean over the image, GlobalMaxPool and ReduceMax over the image (one largest pixel per channel); Conv and pooling raise exactly if the windows do not cover the image. Refuted: Softmax, BatchNormalization and Conv with groups have no gradient; ReduceMean with the channels last and kept dimensions returns a tensor of the wrong shape; GlobalMaxPool and ReduceMax raise for a gradient of the declared shape when dimensions are kept.")
c("C80", "partial", ["Verif.Data."+"right_kept", "Verif.Data."+"vertical_aligned", "Verif.Data."+"rows_join", "Verif.Data."+"rows_whole", "Verif.Data."+"horizontal_split", "Verif.Data."+"nested_slice_ignored", "Verif.Data."+"nested_slice_false", "Verif.Data."+"open_slice_raises", "Verif.Data."+"stepped_slice_false", "Verif.Data."+"change_of_flags_false", "Verif.Data."+"crash_truncates_false", "Verif.Data."+"owner_answers", "Verif.Data."+"provider_in_order", "Verif.Data."+"empty_owner", "Verif.Data."+"second_provider_false"],
  "Vertical and horizontal splits with given ends: one common schedule, for every order of the shuffle, every batch size and every history of crash-free use of the disks; data owners: exact answer to every interleaving of requests. Refuted: a slice of a slice forgets the outer one; slices with an open end raise; slices with a step announce more batches than they have; an object asked for images first and for labels later raises; a process that dies while writing leaves a short file all later runs silently use; a second iterator of an owner repeats the first batch and goes on where the first stopped. Not modelled: the bytes of the record files, the arithmetic of normalize.")
c("C81", "partial", ["Verif.Sodium."+"unseal_iff", "Verif.Sodium."+"unseal_seal", "Verif.Sodium."+"seal_succeeds", "Verif.Sodium."+"seal_hides", "Verif.Sodium."+"retype_false", "Verif.Sodium."+"reshape_false", "Verif.Sodium."+"reflection_false", "Verif.Sodium."+"nonce_reuse_false", "Verif.Sodium."+"bool_false", "Verif.Sodium."+"unknown_shape_false"],
  "For every key agreement, key stream and authenticator libsodium may compute (parameters of the model). Proved: round trip for all types, shapes and values; opening yields a tensor if and only if sealing it with the same key gives this ciphertext and authenticator; hiding under a uniform key stream. Refuted: type and shape are not authenticated (a sealed tensor opens as any type of the same size, and in any shape of the same size); a party accepts its own messages as the other's; a nonce used twice reveals the xor of the plaintexts; booleans cannot be sealed; ciphertexts of statically unknown last dimension cannot be opened.")
c("C82", "partial", ["Verif.Keras.clone_correct_partial", "Verif.Keras.clone_succeeds", "Verif.Keras.clone_unsupported", "Verif.Keras.clone_shared_false", "Verif.Keras.clone_heads_false", "Verif.Keras.clone_unknown_batch_false", "Verif.Keras.clone_no_weights_false"],
  "What single layers compute is a parameter (C65-C67, C71, C75 and C76 are about the layers). Proved: the clone of a chain of layers of any length computes the value Keras computes, each layer with its own weights; chains of supported layers that start with a known batch shape and have weights are cloned; models with an unsupported layer or option are refused. Refuted: connections are ignored, so that a layer called twice is applied once and parallel branches are put one behind the other, without an exception; models whose batch size is open or whose first layer carries no batch shape, and models without weights, are refused although they are supported otherwise. Not modelled: layers with several inputs (the library has none).")
c("C83", "partial", ["Verif.Aby3.div_close", "Verif.Aby3.div_possible", "Verif.Aby3.div_zero_raises", "Verif.Aby3.div_unscaled_false", "Verif.Aby3.average_close", "Verif.Aby3.average_false", "Verif.Aby3.average_empty", "Verif.Aby3.div_secrecy", "Verif.Aby3.average_secrecy", "Verif.Pond.div_int_close", "Verif.Pond.div_public_close", "Verif.Pond.div_public_unscaled_close", "Verif.Pond.recip_public_close", "Verif.Pond.recip_public_aby3_close", "Verif.Pond.sqrt_public_close", "Verif.Pond.div_errors", "Verif.Pond.div_public_int_close", "Verif.Pond.div_public_public_close", "Verif.Pond.div_public_public_unscaled_close", "Verif.Pond.div_public_int_unscaled_false", "Verif.Pond.div_public_errors", "Verif.Pond.div_float_false", "Verif.Pond.div_large_false", "Verif.Pond.div_int_unscaled_false", "Verif.Pond.recip_small_false"],
  "Proved for ABY3: division of scaled tensors to within 1 + |x| units (one unit for powers of two), averages of any number of owners to within 2 + sum |q| units (two units for powers of two), secrecy of both. Refuted: with more than 2^frac owners whose number is no power of two, the constant 1/m is encoded as zero and the average is zero; a tensor that is not scaled is divided by 3, 5, ... to zero although the documentation says true division. Divisors are exact rationals. Pond, with interactive truncation: division of scaled tensors by integers and public tensors to within |x| + 1/|y| + 1 units, of integers by public tensors to within |x| units, reciprocals and roots of public tensors to within one unit. Refuted: Pond.div raises a TypeError for every float, reveals 0 or one unit for every dividend when the divisor exceeds the scaling factor, 0 for integers divided by integers; the reciprocal of one unit of int100 does not fit its native type. Secrecy of Pond.div is that of products with constants (C03). The same bounds and negations for public dividends in Pond.")
c("C84", "partial", ["Verif.Aby3.ShareType.share_types_partial", "Verif.Aby3.ShareType.refused", "Verif.Aby3.ShareType.share_types_false", "Verif.Aby3.ShareType.bool_sum_depends"],
  "Proved: programs of any length that use every operation on the kinds it is for raise what the plain program raises or hold sharings of its results, for all sharings; operations that move elements (transpose, reshape, slices, gather, tile, split) and left shifts are right for both kinds; which operators refuse which kinds. Refuted with a witness each: negation, sums, products of boolean sharings, right shifts and not_ of arithmetic ones, additions and subtractions with a boolean right operand (functions: also left), and concat or stack of different kinds are accepted and wrong; the sum of a boolean tensor depends on how it was shared. Not modelled here: broadcasting, scaling (C48), tensors of single bits, public operands other than in additions.")
c("C85", "proved", ["Verif.Utils.reachable_nodes_correct", "Verif.Utils.mem_flatten"],
  "Equality and hashing of nodes are taken for granted: TensorFlow 2 allows tensors in sets in graph mode only. `unwrap_fetches` is C102; `print_banner` is not modelled.")
c("C86", "partial", ["Verif.Runtime.Function.compiled_same_partial", "Verif.Runtime.Function.debug_same", "Verif.Runtime.Function.bone_round_trip", "Verif.Runtime.Function.only_fresh", "Verif.Runtime.Function.tuples_false", "Verif.Runtime.Function.modulus_false", "Verif.Runtime.Function.int100_false", "Verif.Runtime.Function.pond_int128_false", "Verif.Runtime.Function.dict_false", "Verif.Runtime.Function.variable_false", "Verif.Runtime.Function.other_protocol_false"],
  "Proved for lists and tuples nested to any depth of tensors of the current protocol with boolean or native factories (ABY3: also int128), other values, and dictionaries without tensors in results; what becomes of every tensor is decided in `bone_round_trip`. Refuted: tuples return as lists; an explicit modulus is lost silently; int100 raises; int128 in Pond is converted to doubles; dictionaries of tensors cannot be returned; variables arrive as plain tensors; tensors of another protocol are refused. `tf.function` itself is taken for granted as described by `Graph`; devices are not modelled here.")
c("C87", "partial", ["Verif.Runtime.Trace.results_usable_partial", "Verif.Runtime.Trace.later_call_false", "Verif.Runtime.Trace.other_trace_false"],
  "Proved for histories of any length in which every call in a trace uses at least one tensor of the trace. Refuted otherwise: an operation on tensors from outside (weights, say) first called inside of a compiled function is cached, and the same call outside, in another compiled function or in another trace of the same function returns a tensor that TensorFlow refuses there. What operations compute is not part of this model (C38, C86).")
c("C88", "partial", ["Verif.Aby3.predict_accuracy_partial", "Verif.Aby3.predict_uniform", "Verif.Aby3.same_class", "Verif.Aby3.predict_secrecy", "Verif.Aby3.predict_raises", "Verif.Aby3.dense_plain", "Verif.Aby3.dense_layer", "Verif.Aby3.conv_taps", "Verif.Aby3.conv_plain", "Verif.Aby3.relu_run", "Verif.Aby3.maxpool_plain", "Verif.Aby3.avgpool_plain", "Verif.Aby3.predict_sigmoid_partial", "Verif.Aby3.predict_sigmoid_secrecy", "Verif.Aby3.predict_softmax_partial", "Verif.Aby3.predict_softmax_secrecy", "Verif.Aby3.predict_overflow_false"],
  "Proved for networks of any depth provided that no intermediate result leaves the range (`Arch.Fits`, stated on the network over the numbers): the error is the explicit `Arch.err`, at most κ^depth·(1 + depth·(A+1) + biases) units. Secrecy needs no condition. Refuted without the condition (`predict_overflow_false`): input, weight and result fit, the product before truncation does not, and the prediction is 0 instead of 2^32. Pooling pads with zeros and averages divide by the size of the window also at the border; that this differs from TensorFlow is C52. A window whose size is so large a power of two that the division raises is excluded (`Arch.Averages`). The last layer may be a sigmoid (error: 0.042 + 6 units + a quarter of the error of the score) or a softmax (error of the private softmax + exp(2E) - 1 for scores with errors of at most E). Other activations in the middle of the network are not part of it.")
c("C89", "proved", ["Verif.Aby3.federated_descends", "Verif.Aby3.federated_close", "Verif.Aby3.federated_nobody", "Verif.Aby3.federated_secrecy", "Verif.Aby3.aggregate_hides", "Verif.Aby3.federated_result"],
  "All claims proved without bound. The weights are one vector, gradients are arbitrary functions of the weights (they may differ from round to round). Assumed: all weights are trainable; the code pairs gradients of `trainable_variables` with `model.weights` by position. The range conditions are part of the claim; that averages go wrong without them is C83.")
c("C90", "partial", ["Verif.Aby3.training_descends", "Verif.Aby3.training_close", "Verif.Aby3.training_secrecy", "Verif.Aby3.training_possible", "Verif.Aby3.grad_crossEntropy"],
  "The accuracy and the secrecy of the weight updates are proved without bound on batches, samples, features or steps. Not modelled: the loss that fit_batch computes and reveals to the servers after each batch (with it a server learns these losses, so its view is not independent of the data), generators of batches, a last batch of another size.")
c("C91", "partial", ["Verif.Data.horizontal_rounds", "Verif.Data.horizontal_epoch", "Verif.Data.horizontal_first_only", "Verif.Data.horizontal_example_false", "Verif.Data.horizontal_pass_partial", "Verif.Data.horizontal_unnumbered_false", "Verif.Data.horizontal_end_false", "Verif.Data.vertical_joined", "Verif.Data.vertical_train", "Verif.Data.vertical_end_false", "Verif.Data.vertical_two_false"],
  "False for the horizontal split: num_samples counts samples but horizontal_combine draws that many batches, so in the example (3 x 20000 samples, batches of 128, 5 x 468 steps) only the first owner's samples are ever used (horizontal_example_false); with the number of batches instead of samples every epoch is a pass over all owners (horizontal_pass_partial). The vertical split is proved for three owners; with fewer it fails, further owners are ignored, and at the end of test data both generators raise RuntimeError instead of stopping.")
c("C92", "partial", ["Verif.Keras.Args.honoured_partial", "Verif.Keras.Args.unknown_refused", "Verif.Keras.Args.ignored_false", "Verif.Keras.Args.frozen_false", "Verif.Keras.Args.activity_false", "Verif.Keras.Args.input_shape_false", "Verif.Keras.Args.pool_format_false", "Verif.Keras.Args.conv_activation_false", "Verif.Keras.Args.default_refused_false"],
  "Proved for all layers, arguments and parameters but those of the negations (honoured_partial); unknown arguments are refused (unknown_refused). False: trainable, weights and dtype have no effect on any layer (ignored_false; a frozen layer is trained), activity_regularizer is ignored where it is not a parameter of its own, input_shape is taken for the shape of a batch, pooling layers ignore the backend's data format, a convolution takes a nonsensical activation for the linear one. Some spellings of the default are refused.")
c("C93", "partial", ["Verif.Keras.Names.layer_names_partial", "Verif.Keras.Names.names_unique", "Verif.Keras.Names.search_returns", "Verif.Keras.Names.given_name_false", "Verif.Keras.Names.class_name_false", "Verif.Keras.Names.mixed_false", "Verif.Keras.Names.input_name_false", "Verif.Keras.Names.model_name_false"],
  "Proved: the search ends for all lists of names to avoid (search_returns); its results are unique in every history that counts in one way (names_unique); automatic names of layers of the library never coincide (layer_names_partial). False: an automatic name can coincide with a given one (given_name_false) or with that of a user's class whose name ends in a number (class_name_false), counting in both ways repeats names (mixed_false), and names given to input layers and models are lost (input_name_false, model_name_false).")
c("C94", "partial", ["Verif.Aby3.ReduceMax.reduce_max_tree", "Verif.Aby3.ReduceMax.reduce_max_network_partial", "Verif.Aby3.ReduceMax.methods_agree", "Verif.Aby3.ReduceMax.reduce_max_errors", "Verif.Aby3.ReduceMax.network_all_false", "Verif.Aby3.ReduceMax.network_keepdims_false", "Verif.Aby3.ReduceMax.network_one_false"],
  "Proved for method \"tree\" with all arguments (reduce_max_tree) and for method \"network\" along an axis of at least two entries (reduce_max_network_partial); the methods agree there (methods_agree); nothing to reduce, axes outside the tensor and unknown methods raise (reduce_max_errors). False for method \"network\": without an axis it raises UnboundLocalError (network_all_false), with keepdims it returns one axis whatever the rank (network_keepdims_false), and an axis of size one raises (network_one_false). The meaning of maximum and of sorting rows is taken from C29 and C30.")
c("C95", "partial", ["Verif.Aby3.ReduceMax.argmax_onehot_partial", "Verif.Aby3.ReduceMax.argmax_index_partial", "Verif.Aby3.ReduceMax.argmax_errors", "Verif.Aby3.ReduceMax.onehot_negative_false", "Verif.Aby3.ReduceMax.onehot_vector_false", "Verif.Aby3.ReduceMax.index_one_false"],
  "Proved: one-hot positions for every axis counted from the front (argmax_onehot_partial), numbers for every axis with at least two entries (argmax_index_partial), errors for empty axes and axes outside the tensor (argmax_errors). Of several largest entries the last is found (tf.argmax: the first). False: with an axis counted from the end the one-hot result has too many axes (onehot_negative_false, onehot_vector_false), and along an axis of size one the numbers have the wrong shape or the call raises (index_one_false). The meaning of comparison and selection of entries is taken from C29 and C36.")
c("C96", "partial", ["Verif.Local.runs_at_named", "Verif.Local.unnamed_raises", "Verif.Local.names_unique", "Verif.Local.unknown_option_raises", "Verif.Local.written_runs_at_named", "Verif.Local.forms_agree", "Verif.Local.decorated_aby3_partial", "Verif.Local.decorated_pond_partial", "Verif.Local.keywords_ignored", "Verif.Local.keywords_false"],
  "Proved: which player runs the function, for every combination of names and every configuration (runs_at_named, names_unique, unnamed_raises, unknown_option_raises), and what the call returns when it has no keyword arguments but player_name (decorated_aby3_partial, decorated_pond_partial, which rest on C49). False: all other keyword arguments are dropped without an error (keywords_ignored, keywords_false). Not modelled: functions that raise.")
c("C97", "partial", ["Verif.Keras.InputArgs.input_iff", "Verif.Keras.InputArgs.first_input_iff", "Verif.Keras.InputArgs.no_batch_size_false", "Verif.Keras.InputArgs.docstring_false", "Verif.Keras.InputArgs.batch_size_ignored", "Verif.Keras.InputArgs.batch_size_ignored_false"],
  "Proved: exactly which calls succeed, and that they return zeros of the shape asked for (input_iff), and the same for the first layer of a model (first_input_iff). False: without a batch size every call raises, though the documentation calls it optional and its example leaves it out (no_batch_size_false, docstring_false); beside batch_shape the batch size is ignored without an error, even a contradictory one (batch_size_ignored, batch_size_ignored_false), and so is an empty shape (hypothesis of Supported).")
c("C98", "partial", ["Verif.Local.Aby3.private_from_data", "Verif.Local.Aby3.public_from_data", "Verif.Local.Aby3.private_from_integers", "Verif.Local.Aby3.private_from_bools", "Verif.Local.Aby3.private_from_tensor_partial", "Verif.Local.Aby3.public_from_tensor_partial", "Verif.Local.Aby3.private_unscaled", "Verif.Local.Aby3.private_scaled", "Verif.Local.Aby3.private_scale_false", "Verif.Local.Aby3.private_share_type_false", "Verif.Local.Aby3.private_public_false", "Verif.Local.Aby3.refused", "Verif.Local.Pond.private_from_data", "Verif.Local.Pond.public_from_data", "Verif.Local.Pond.from_integers", "Verif.Local.Pond.private_from_tensor_partial", "Verif.Local.Pond.public_from_tensor_partial", "Verif.Local.Pond.private_unscaled", "Verif.Local.Pond.private_scale_false", "Verif.Local.Pond.refused"],
  "Proved for data, and for tensors whose scale and share type are those of the call. False otherwise: with the default arguments an unscaled tensor becomes a variable of its value divided by the scale (private_unscaled, private_scale_false, both protocols), a boolean sharing becomes an arithmetic one of another value (private_share_type_false), and ABY3 refuses the public tensors that its documentation names (private_public_false). Not modelled: placement on devices.")
c("C99", "partial", ["Verif.Tensor.SpaceBatch.space_spec", "Verif.Tensor.SpaceBatch.batch_spec", "Verif.Tensor.SpaceBatch.round_trip", "Verif.Tensor.SpaceBatch.round_trip_back", "Verif.Tensor.SpaceBatch.residues_space", "Verif.Tensor.SpaceBatch.words_space_partial", "Verif.Tensor.SpaceBatch.words_batch_partial", "Verif.Tensor.SpaceBatch.int128_false"],
  "Proved for both operations over native integers and residue numbers, with TensorFlow's operations modelled from their documentation, and both round trips. For 128-bit words both are proved for block shapes that fit the tensor (words_space_partial, words_batch_partial); with a block shape that is one entry too long it takes the halves of the words apart where it should raise (int128_false).")
c("C100", "partial", ["Verif.Local.Aby3.public_input_partial", "Verif.Local.Aby3.remote_raises", "Verif.Local.Aby3.public_input_false", "Verif.Local.Pond.public_input", "Verif.Local.Pond.public_input_refused"],
  "Proved for Pond in every configuration, and for ABY3 in local configurations, where all players are on one device. False for ABY3 in every remote configuration: the one encoded tensor is on the player's device, and the constructor of public tensors demands a tensor on each server's device, so the call raises AssertionError (remote_raises, public_input_false).")
c("C101", "partial", ["Verif.Local.Pond.equal_partial", "Verif.Local.Pond.equal_number_partial", "Verif.Local.Pond.equal_numbers_partial", "Verif.Local.Pond.equal_far", "Verif.Local.Pond.stands_decodes", "Verif.Local.Pond.local_one_device", "Verif.Local.Pond.equal_remote_raises", "Verif.Local.Pond.equal_int128_false", "Verif.Local.Pond.mixed_scales_false", "Verif.Local.Pond.rounded_number_false", "Verif.Local.Pond.equal_refused"],
  "Proved if both servers are on one device (every local configuration, local_one_device), for tensors of one scaling and for numbers that are whole numbers of units; numbers in between are compared after rounding, and never equal a value that is a unit or more away (equal_far). False: in every remote configuration equal raises AssertionError, as both copies of the result are computed on the device of the first server (equal_remote_raises); tensors of different scalings are compared by their words without an error, so that 2 is not 2 (mixed_scales_false); an unscaled 100 equals 100.7 (rounded_number_false); with int128 words equal always raises (equal_int128_false). Tensors are flat and of the same length.")
c("C102", "partial", ["Verif.Utils.unwrap_fetches_partial", "Verif.Utils.unwrap_raises_iff", "Verif.Utils.attribute_error_false", "Verif.Utils.tuple_false"],
  "Proved if no conversion raises AttributeError, with tuples turned into lists; any other exception of a conversion is raised, and only then. False: an AttributeError from inside a conversion is swallowed and the object returned as if it could not be converted (attribute_error_false); no tuple stays a tuple (tuple_false).")
c("C103", "partial", ["Verif.Keras.Compile.trains_as_compiled_partial", "Verif.Keras.Compile.fits_length", "Verif.Keras.Compile.recompile_ignored", "Verif.Keras.Compile.late_layer_raises", "Verif.Keras.Compile.failed_step_updates_nothing", "Verif.Keras.Compile.debug_partial_update_false", "Verif.Keras.Compile.uncompiled_raises", "Verif.Keras.Compile.compile_refuses", "Verif.Keras.Compile.recompile_false", "Verif.Keras.Compile.failed_compile_false"],
  "Proved for every history before the last compile: in debug mode for all batches, otherwise for batches of shapes that were not trained before it. False outside of debug mode after training: the training function keeps its graphs, so for batches of a shape that was trained before, a new optimizer, a new loss and new layers are silently ignored (recompile_ignored, recompile_false). False: a compile that raises has already replaced the optimizer and the loss (failed_compile_false); in debug mode a step that raises may have updated layers (debug_partial_update_false).")
c("C104", "partial", ["Verif.Keras.PredictGraph.predicts_all_partial", "Verif.Keras.PredictGraph.predict_first", "Verif.Keras.PredictGraph.late_layer_false"],
  "Proved in debug mode for every history; otherwise if no layer was added after the first prediction on a batch of the same shape. predict_first says what happens in all other cases: the batch goes through the layers the model had at that first prediction. False therefore: a layer added after a prediction is ignored by later predictions of that shape (late_layer_false).")
c("C105", "partial", ["Verif.Keras.Build.weights_once_partial", "Verif.Keras.Build.built_stays", "Verif.Keras.Build.failed_build_false", "Verif.Keras.Build.build_twice_false"],
  "Proved if calls that fail do so before a weight is made. False: after a failure between two weights the next call makes all weights again, behind those of the failed attempt, so that what is trained and loaded is not what the layer computes with (failed_build_false); the same happens if build is called by hand on a built layer (build_twice_false).")
c("C106", "partial", ["Verif.Keras.Metrics.evaluate_reports_partial", "Verif.Keras.Metrics.reports_supported", "Verif.Keras.Metrics.no_metrics", "Verif.Keras.Metrics.unknown_metric_false"],
  "Proved for the two metrics that exist, under the conditions of C64 on the data; for every list, those names on it that exist are reported (reports_supported). False: a name that is not one of the two is dropped without an error (unknown_metric_false).")
c("C55", "proved", [P+"interactive_view", P+"interactive_view_gap", P+"interactive_view_s0", P+"interactive_truncation_hides", P+"interactive_gap"],
  "The distribution of the messages and new share of server 1, with the masks drawn as the code draws them, for tensors of every size and every set of observations; server 0 receives nothing. Also in counting form per element.")

out = os.path.join(os.path.dirname(__file__), "..", "MANIFEST.json")
with open(out, "w") as f:
    json.dump({"claims": sorted(claims, key=lambda d: d["property"])}, f, indent=1, ensure_ascii=False)
    f.write("\n")
