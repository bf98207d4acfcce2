{"id": "C01", "title": "Pond private values reconstruct exactly", "statement": "A value made private with Pond (define_private_input/variable/tensor) and then revealed is the value that was shared, whatever random mask was drawn and whichever of the two shares each server receives.", "quantifier": "every secret in every finite ring (native, int100, odd), every tensor shape, every random mask", "why_tests_cant": "The mask ranges over the whole ring (2^64 or ~2^100 values); tests sample a handful.", "anchors": ["tf_encrypted/protocol/pond/pond.py:_share", "pond.py:_reconstruct", "pond.py:_reveal_private", "pond/triple_sources.py:_share"]}
{"id": "C02", "title": "Pond programs over shares compute the cleartext program", "statement": "Any finite program built from add, sub, negative, mul, square, matmul (and other bilinear maps), reduce_sum-like linear maps and public/private/masked operands, run on shares with any dealer triples and with masks reused through the cache, reveals exactly the ring value obtained by running the same program on cleartext values.", "quantifier": "every program (any length, any sharing of sub-results), every input, every dealer randomness, every ring", "why_tests_cant": "Programs, inputs and dealer randomness form an unbounded space; a mistake in one mixed public/private/masked combination shows up only for some of it.", "anchors": ["pond.py:_add_*", "pond.py:_sub_*", "pond.py:_mul_*", "pond.py:_square_*", "pond.py:_matmul_*", "pond.py:_mask_private", "triple_sources.py:BaseTripleSource"]}
{"id": "C03", "title": "A single Pond server learns nothing from a share or an opened Beaver mask", "statement": "With masks drawn uniformly from the ring, what one server receives when a value is shared, the values opened while multiplying, and everything sent to the device on which it computes, has a distribution that does not depend on the secrets.", "quantifier": "every pair of secrets, every observed value, every finite ring", "why_tests_cant": "Secrecy is a statement about whole distributions; a test cannot observe equality of distributions over 2^64 points.", "anchors": ["pond.py:_share", "pond.py:_mask_private", "pond.py:_mul_masked_masked", "pond.py:_matmul_private_public"]}
{"id": "C04", "title": "ABY3 sharings reconstruct exactly at every server", "statement": "A value shared by ABY3, arithmetic or boolean, is replicated consistently (servers i and i+1 agree on the common component) and every server, and any outside player, reconstructs exactly the shared value.", "quantifier": "every secret, every randomness, both share types, every word width", "why_tests_cant": "Randomness ranges over 2^128 pairs; server-specific reconstruction paths are exercised by tests only on a few literals.", "anchors": ["protocol/aby3/aby3.py:_share", "aby3.py:_reconstruct", "aby3.py:_reveal_private"]}
{"id": "C05", "title": "ABY3 programs over replicated shares compute the cleartext program and stay consistent", "statement": "Any finite program of add/sub/negative/mul/matmul over private and public operands keeps every intermediate sharing replicated-consistent and reveals, at every server, exactly the ring value of the cleartext program.", "quantifier": "every program, every input, every correlated randomness, every ring", "why_tests_cant": "An inconsistency between the two copies of a component is invisible to a test that reconstructs at only one server, and programs are unbounded.", "anchors": ["aby3.py:_add_*", "aby3.py:_sub_*", "aby3.py:_mul_*", "aby3.py:_matmul_*", "aby3.py:_negative_*", "aby3.py:_gen_zero_sharing"]}
{"id": "C06", "title": "ABY3 boolean programs compute the cleartext bitwise program", "statement": "Any finite program of xor/and/or/not/shifts over boolean-shared and public operands keeps sharings consistent and reveals the bitwise value of the cleartext program.", "quantifier": "every program, every input, every word width, every correlated randomness", "why_tests_cant": "Xor-ing a public value into shares, complementing one share and shifting each share are right only by parity and linearity arguments; tests try literals.", "anchors": ["aby3.py:_xor_*", "aby3.py:_and_*", "aby3.py:_or_*", "aby3.py:_not_private", "aby3.py:_lshift_private", "aby3.py:_rshift_private", "aby3.py:_logical_rshift_private"]}
{"id": "C07", "title": "A single ABY3 server learns nothing from its shares or from multiplication messages", "statement": "With uniform randomness, the pair of components one server holds, and the resharing message it receives in a multiplication, are distributed independently of the secrets.", "quantifier": "every pair of secrets, every observed pair, every finite ring, every server", "why_tests_cant": "A statement about equality of distributions.", "anchors": ["aby3.py:_share", "aby3.py:_mul_private_private", "aby3.py:_gen_zero_sharing"]}
{"id": "C08", "title": "Fixed-point encode/decode error is below one unit of precision", "statement": "Encoding a number that is within the configured range, and decoding it again, returns a value that differs from the number by less than 1/scaling_factor and never exceeds it in magnitude; integers with apply_scaling off round-trip exactly.", "quantifier": "every rational in range, every scaling base/precision, every ring modulus that can hold the range", "why_tests_cant": "The range contains ~2^(int+frac) encodable points and infinitely many inputs.", "anchors": ["pond.py:_encode", "pond.py:_decode", "aby3.py:_encode", "aby3.py:_decode", "tensor/fixed.py"]}
{"id": "C09", "title": "Fixed-point configurations that pass validation satisfy what truncation needs", "statement": "For every configuration accepted by the validation step, a scaled product stays inside the ring with the statistical gap to spare, so interactive truncation's preconditions hold for every pair of in-range operands.", "quantifier": "every configuration (base, precisions, gap, modulus) and every pair of operands in range", "why_tests_cant": "Configurations and operands are unbounded.", "anchors": ["tensor/fixed.py:_validate_fixedpoint_config", "tensor/__init__.py", "pond.py:_truncate_private_interactive"]}
{"id": "C10", "title": "Pond interactive truncation is off by at most one unit", "statement": "Truncating a private value in Pond's interactive mode yields floor(x/scale) or floor(x/scale)+1 for every mask and every sharing, as long as the value is within the double-precision bound.", "quantifier": "every value in range, every mask, every share split, every base and modulus coprime to the scale", "why_tests_cant": "The error is mask-dependent; 2^100 masks per value.", "anchors": ["pond.py:_truncate_private_interactive", "fixed.py:FixedpointConfig"]}
{"id": "C11", "title": "Pond non-interactive truncation is off by at most one unit unless the shares wrap", "statement": "Local truncation of the two shares yields floor(x/scale)+{0,1}-type error when the shares do not wrap around; the number of masks for which the result is instead off by a huge amount is exactly bounded by |x|.", "quantifier": "every value, every mask, every power-of-two scale and word width", "why_tests_cant": "Failure probability ~|x|/2^64 is far below what tests can hit; yet it is catastrophic.", "anchors": ["pond.py:_truncate_private_noninteractive", "tensor/native.py:truncate", "tensor/int100.py:truncate"]}
{"id": "C12", "title": "ABY3 default truncation is off by at most one unit", "statement": "ABY3's default private truncation returns floor(x/2^a) or floor(x/2^a)+1 for every randomness and every x in [-2^(n-2), 2^(n-2)); the msb-zero variants return it for every x with top bit zero.", "quantifier": "every x in range, every word width n and amount a, every randomness", "why_tests_cant": "Error depends on randomness over the whole ring.", "anchors": ["aby3.py:_truncate_heuristic_private", "aby3.py:_truncate_msb0_secureq8_private", "aby3.py:_truncate_msb0_cheetah_private"]}
{"id": "C13", "title": "ABY3 local and two-round truncations: exact failure set", "statement": "truncate_local and mul_trunc2 are within one unit of floor(x/2^a) exactly when the signed difference of the value and the mask does not overflow, which happens with probability exactly 1 - |x+1|/2^n.", "quantifier": "every x, mask, width, amount", "why_tests_cant": "Rare catastrophic failures cannot be sampled.", "anchors": ["aby3.py:_truncate_local_private", "aby3.py:_mul_trunc2_private_private"]}
{"id": "C14", "title": "Fixed-point multiplication end to end", "statement": "Multiplying two encoded private values, truncating and decoding gives the real product within a stated bound of a few units of precision, for all in-range operands and all randomness.", "quantifier": "every pair of rationals in range, every share split and truncation randomness", "why_tests_cant": "Composition of encode, multiply, truncate and decode errors over an infinite domain.", "anchors": ["pond.py:_mul_private_private", "pond.py:_truncate_private", "aby3.py:_mul_private_private", "aby3.py:truncate"]}
{"id": "C15", "title": "Modular inverse helper", "statement": "inverse(a, m) returns the unique b in [0,m) with a*b = 1 mod m whenever a is invertible, and fails otherwise; egcd returns Bezout coefficients.", "quantifier": "every a and every m >= 1", "why_tests_cant": "Unbounded integers.", "anchors": ["tensor/helpers.py:egcd", "tensor/helpers.py:inverse"]}
{"id": "C16", "title": "int100 (CRT) arithmetic is arithmetic modulo the product of the moduli", "statement": "Adding, subtracting, multiplying or matrix-multiplying int100 tensors and converting back gives the integer result, whenever that result's centred representative fits; no intermediate int32 product or sum overflows, including in long matrix products.", "quantifier": "every operand, every matrix inner dimension, every modulus list meeting the constructor's check", "why_tests_cant": "Ten residues with ~2^100 combinations, and inner dimensions beyond the chunk size.", "anchors": ["tensor/int100.py:crt_factory", "int100.py:_crt_decompose", "int100.py:crt_recombine_explicit", "int100.py:matmul"]}
{"id": "C17", "title": "int100 reduction and truncation", "statement": "x % k on int100 tensors is the residue of the centred integer value, and truncate(f) is exact floor division by the factor, for every x.", "quantifier": "every x and factor k coprime to the modulus", "why_tests_cant": "~2^100 values.", "anchors": ["int100.py:crt_mod", "int100.py:_mod", "int100.py:truncate", "int100.py:__rsub__"]}
{"id": "C18", "title": "Secure sampling is exactly uniform on the requested range", "statement": "The secure uniform sampler gives every value of [minval, maxval) exactly the same number of accepted raw machine words, and never returns anything outside the range.", "quantifier": "every integer width and every minval < maxval", "why_tests_cant": "Bias of one in 2^64 is unobservable; edge ranges (full width, width-one) rarely tested.", "anchors": ["operations/secure_random/generators.h:Generator::Uniform"]}
{"id": "C19", "title": "Masks drawn for sharing cover the whole ring uniformly", "statement": "sample_uniform / sample_seeded_uniform on a tensor factory give every ring element with equal probability, so that a share hides its secret perfectly.", "quantifier": "every ring element, every factory (native, int100, odd)", "why_tests_cant": "A single missing element out of 2^64, or a biased residue, is invisible to tests.", "anchors": ["tensor/native.py:sample_uniform", "tensor/native.py:sample_seeded_uniform", "tensor/int100.py:sample_seeded_uniform", "protocol/securenn/odd_tensor.py:_construct_value_from_sampler"]}
{"id": "C20", "title": "Seeded sampling never reuses keystream", "statement": "When some words are rejected, replacement words come from keystream positions not used by any output element nor by an earlier replacement, for every output size and any number of rejections.", "quantifier": "every output length, element size and number of rejections", "why_tests_cant": "Rejections are vanishingly rare for most ranges.", "anchors": ["generators.h:SeededGenerator::GetNextValidData", "generators.h:SeededGenerator"]}
{"id": "C21", "title": "Parallel-prefix adders add", "statement": "Both ABY3 adder topologies (Kogge-Stone and Sklansky) return the sum modulo 2^n for all operands, and with n_bits given the sum modulo 2^n_bits.", "quantifier": "every pair of operands, every word width, every n_bits", "why_tests_cant": "2^128 operand pairs; masks and shift schedules depend on width.", "anchors": ["aby3.py:_ppa_kogge_stone_private_private", "aby3.py:_ppa_sklansky_private_private"]}
{"id": "C22", "title": "The carry circuit computes the carry", "statement": "The log-depth carry computation used for bit extraction returns the carry out of position pos of the addition of the two operands.", "quantifier": "every operand pair, every position below the width", "why_tests_cant": "2^128 operand pairs times 64 positions.", "anchors": ["aby3.py:_carry_private_private", "aby3.py:_carry_private_public", "operations/aux/aux_kernels.cc:BitSplitAndGatherOp"]}
{"id": "C23", "title": "Arithmetic/boolean conversions are inverse to each other", "statement": "a2b then b2a (and b2a then a2b) return a sharing of the same value; a2b yields a boolean sharing of the bits of the value, b2a an arithmetic sharing of the word, for each conversion algorithm.", "quantifier": "every value, every sharing, every randomness, every width, every nbits argument", "why_tests_cant": "Word-sized values times word-sized randomness.", "anchors": ["aby3.py:_a2b_private", "aby3.py:_b2a_private", "aby3.py:_b2a_single_private"]}
{"id": "C24", "title": "Bit extraction and sign", "statement": "bit_extract(x, i) is a sharing of bit i of the shared word and msb(x) of its sign, for arithmetic and boolean sharings and every i.", "quantifier": "every value, every sharing, every bit position including 0 and the top bit", "why_tests_cant": "Word-sized values times sharings; boundary positions.", "anchors": ["aby3.py:_bit_extract_private", "aby3.py:_msb_private"]}
{"id": "C25", "title": "Comparisons agree with integer order", "statement": "less_than, less_equal, greater_than, greater_equal on ABY3 values return the comparison of the signed values.", "quantifier": "every pair of word values and every sharing", "why_tests_cant": "2^128 pairs; failures only at extremes.", "anchors": ["aby3.py:_less_than_*", "aby3.py:_greater_than_*", "aby3.py:_less_equal_*", "aby3.py:_greater_equal_*"]}
{"id": "C26", "title": "Equality tests are exact", "statement": "equal_zero and equal return 1 exactly when the values are equal, for every word including the most negative one.", "quantifier": "every word / pair of words and every sharing", "why_tests_cant": "Failures could hide at single points such as the minimum integer.", "anchors": ["aby3.py:_equal_zero_private", "aby3.py:_equal_private_private"]}
{"id": "C27", "title": "Oblivious transfer and share-times-bit products", "statement": "Three-party OT delivers exactly the chosen message and mul_ab(x, b) is an arithmetic sharing of x*b for a private bit b, with public or private x.", "quantifier": "every message pair, choice bit, masks, sharing", "why_tests_cant": "Word-sized randomness; role rotation between three servers.", "anchors": ["aby3.py:_ot", "aby3.py:_mul_ab_public_private", "aby3.py:_mul_ab_private_private", "aby3.py:__mul_ab_routine"]}
{"id": "C28", "title": "Selection, maximum, relu and compare-swap", "statement": "select(c, x, y) is x when c=0 and y when c=1; maximum, relu and cmp_swap return the mathematical results for all operands for which comparison is exact.", "quantifier": "every operand pair and choice", "why_tests_cant": "Composition of comparison and selection over all words.", "anchors": ["aby3.py:select", "aby3.py:maximum", "aby3.py:cmp_swap", "aby3.py:_relu_private", "securenn.py:select", "securenn.py:maximum", "securenn.py:relu_with_cmp"]}
{"id": "C29", "title": "Tree reductions compute the maximum of the whole axis", "statement": "reduce_max returns the maximum of all elements for every axis length, and reduce_max_with_argmax returns an index at which it is attained.", "quantifier": "every list length >= 1 and every contents", "why_tests_cant": "Odd sizes and deep trees are unbounded.", "anchors": ["aby3.py:_reduce_max_tree_private", "aby3.py:reduce_max_with_argmax", "securenn.py:reduce_max", "securenn.py:reduce_max_with_argmax"]}
{"id": "C30", "title": "Private sort sorts", "statement": "sort returns the elements of its input in ascending (or descending) order, nothing lost, duplicated or invented, for every length, including lengths that are not powers of two.", "quantifier": "every length and every contents in the comparable range, both directions", "why_tests_cant": "Sorting networks must be checked on 2^n 0-1 inputs per size and sizes are unbounded.", "anchors": ["aby3.py:_sort_private", "aby3.py:sort"]}
{"id": "C31", "title": "Powers and products", "statement": "pow(x, p) equals x multiplied by itself p times, prod is the product of all elements of the axis, and pow2_from_bits turns bits into 2 to the encoded exponent.", "quantifier": "every exponent p >= 1, every axis length, every ring element", "why_tests_cant": "Unbounded exponents and lengths.", "anchors": ["aby3.py:_pow_private", "aby3.py:_prod_private", "aby3.py:_pow2_from_bits_private"]}
{"id": "C32", "title": "Piecewise polynomials select exactly one piece", "statement": "polynomial_piecewise evaluates the polynomial of the interval containing x, and exactly one interval is selected, for every x and every increasing list of breakpoints.", "quantifier": "every x, every number of pieces, every increasing breakpoint list", "why_tests_cant": "Boundary points and unbounded numbers of pieces.", "anchors": ["aby3.py:_polynomial_piecewise_private", "aby3.py:_sigmoid_private"]}
{"id": "C33", "title": "Protocol randomness is never reused", "statement": "Over any history of ABY3 operations, no (shared key, nonce) pair is used for two different draws.", "quantifier": "every sequence of protocol operations of any length", "why_tests_cant": "Histories are unbounded, and reuse has no functional symptom.", "anchors": ["aby3.py:_update_pairwise_nonces", "aby3.py:_gen_zero_sharing", "aby3.py:_gen_b2a_sharing", "aby3.py:_truncate_msb0_cheetah_private", "aby3.py:while_loop"]}
{"id": "C34", "title": "Odd-modulus ring arithmetic", "statement": "Addition, subtraction and lifting in SecureNN's odd ring are arithmetic modulo 2^n-1, closed on the representation (the excluded pattern never appears), for every pair of elements.", "quantifier": "every pair of representable elements, every width", "why_tests_cant": "2^128 pairs with corner cases at wrap-around.", "anchors": ["protocol/securenn/odd_tensor.py:add", "odd_tensor.py:sub", "odd_tensor.py:_lessthan_as_unsigned"]}
{"id": "C35", "title": "SecureNN private comparison", "statement": "The private-compare subprotocol returns whether the shared integer exceeds the public bound, xored with the blinding bit, for every integer, bound, blinding bit and multiplicative masks.", "quantifier": "every x, r, beta, every nonzero masks, every bit width and prime larger than needed", "why_tests_cant": "Bit-level protocol with edge case at the wrap-around bound.", "anchors": ["securenn.py:_private_compare"]}
{"id": "C36", "title": "SecureNN sign and comparison operators", "statement": "lsb, msb, is_negative and the comparison operators of SecureNN agree with the signed value of the operands.", "quantifier": "every shared word and every share split", "why_tests_cant": "Failures concentrate on single points and on share-dependent wrap-around.", "anchors": ["securenn.py:msb", "securenn.py:_lsb_private", "securenn.py:cast_backing_private", "securenn.py:less", "securenn.py:greater"]}
{"id": "C37", "title": "SecureNN bit operators", "statement": "bitwise_not/and/or/xor over arithmetic 0/1 values equal the boolean operations.", "quantifier": "every pair of bits in every ring, in any sharing", "why_tests_cant": "Holds for all rings/sharings only by algebra.", "anchors": ["securenn.py:bitwise_not", "securenn.py:bitwise_and", "securenn.py:bitwise_or", "securenn.py:bitwise_xor"]}
{"id": "C38", "title": "Memoised operations are transparent", "statement": "Calling a protocol operation through the memoiser returns what a fresh evaluation of that operation with those arguments would return, for any history of calls.", "quantifier": "every history of operation calls, arguments and assignments", "why_tests_cant": "Key collisions and stale entries appear only under particular histories.", "anchors": ["protocol/protocol.py:memoize", "protocol/protocol.py:make_hashable", "pond.py:transpose", "pond.py:strided_slice", "pond.py:stack"]}
{"id": "C39", "title": "Variables hold the last assigned value", "statement": "After any sequence of assignments, reading a private or public variable returns the most recently assigned value, also when the variable is used directly in an operation.", "quantifier": "every sequence of assigns and reads", "why_tests_cant": "Staleness depends on history.", "anchors": ["tensor/native.py:Variable", "tensor/int100.py:Variable.assign", "tensor/boolfactory.py:Variable.assign", "pond.py:assign", "aby3.py:assign"]}
{"id": "C40", "title": "Private queues are first-in first-out", "statement": "A private FIFO queue returns values in the order they were enqueued, each exactly once, and blocks when empty or full, for any history and any number of concurrent producers.", "quantifier": "every history and every interleaving of producers and consumers", "why_tests_cant": "Interleavings.", "anchors": ["pond.py:AdditiveFIFOQueue", "queue/fifo.py"]}
{"id": "C41", "title": "A serving client gets the answer to its own query", "statement": "QueueClient.run(x) returns the served computation applied to x, for every interleaving of clients and server steps.", "quantifier": "every number of clients and every schedule", "why_tests_cant": "Interleavings are unbounded.", "anchors": ["serving/queues.py:QueueServer", "serving/queues.py:QueueClient"]}
{"id": "C42", "title": "Paillier encryption", "statement": "decrypt(encrypt(x)) = x, adding ciphertexts adds plaintexts and multiplying by a constant multiplies, modulo n, with or without refreshing.", "quantifier": "every key pair of distinct primes with gcd(n, phi(n))=1, every plaintext, every randomness", "why_tests_cant": "Unbounded integers.", "anchors": ["primitives/tf_encrypted/primitives/paillier/primitives.py"]}
{"id": "C43", "title": "Convolution through im2col equals convolution", "statement": "conv2d on shared tensors, computed by patch extraction and matrix product, equals the mathematical strided, padded cross-correlation; output sizes follow the SAME/VALID formulas.", "quantifier": "every image/filter/stride size and contents", "why_tests_cant": "Unbounded shapes; padding asymmetry for even filters.", "anchors": ["tensor/shared.py:im2col", "tensor/shared.py:conv2d", "tensor/shared.py:out_size", "tensor/shared.py:pad_size"]}
{"id": "C44", "title": "Converted models compute the graph and its gradients", "statement": "A converted ONNX graph evaluates every node once on the values its inputs name, and backward returns for each input the sum of the gradient contributions of all its consumers.", "quantifier": "every acyclic graph and every node semantics", "why_tests_cant": "Graphs are unbounded; fan-out is the corner case.", "anchors": ["convert/convert.py:_build_forward", "convert/convert.py:_build_backward"]}
{"id": "C45", "title": "Bit-level kernels", "statement": "bit_gather/bit_split_and_gather pick every stride-th bit, bit_reverse reverses the word, xor_indices xors the positions of set bits, prefix_ORs smears the top set bit downwards, on every word.", "quantifier": "every word of every supported width, every start/stride", "why_tests_cant": "2^64 words.", "anchors": ["operations/aux/aux_kernels.cc", "operations/tf_i128/int128_tensor.cc", "protocol/aby3/fp.py:prefix_ORs"]}
{"id": "C46", "title": "Floating-point style normalisation", "statement": "For every in-range non-zero private value, the normalisation step used by reciprocal/sqrt/log finds the top set bit and scales the value into [0.5, 1) (respectively the stated interval).", "quantifier": "every encoded value in range, every precision configuration", "why_tests_cant": "All powers of two boundaries at every precision.", "anchors": ["protocol/aby3/fp.py:__fp_normalize", "fp.py:approx_sqrt_inv", "fp.py:_do_fp_log_private"]}
{"id": "C47", "title": "Protocol contexts nest", "statement": "Leaving a `with protocol:` block restores the protocol that was active on entry, for every nesting of protocol objects.", "quantifier": "every properly nested sequence of enters/exits", "why_tests_cant": "Histories, including re-entering the same object.", "anchors": ["protocol/protocol.py:Protocol.__enter__", "protocol/protocol.py:Protocol.__exit__", "__init__.py:set_protocol"]}
{"id": "C48", "title": "Scale bookkeeping is sound", "statement": "Whenever an operation returns a tensor, its is_scaled flag tells truthfully whether the payload carries one factor of the scale: multiplication truncates exactly when both operands are scaled, and additions reject mismatched flags.", "quantifier": "every well-typed program and every operand scaling", "why_tests_cant": "Flag/payload mismatches appear only for particular operand combinations.", "anchors": ["pond.py:_mul_*", "pond.py:_add_*", "pond.py:_sub_*", "aby3.py:_mul_*", "aby3.py:_add_*", "aby3.py:_sub_*"]}
{"id": "C49", "title": "Local computation on private inputs", "statement": "define_local_computation runs the player's function on the true values of its arguments and shares its results, for public and private arguments of either share type.", "quantifier": "every argument kind, value and sharing", "why_tests_cant": "Argument-kind combinations times sharings.", "anchors": ["aby3.py:define_local_computation", "pond.py:define_local_computation"]}
{"id": "C50", "title": "128-bit words", "statement": "Encoding an integer into two 64-bit limbs and back is the identity on [-2^127, 2^127), and limb arithmetic and shifts agree with 128-bit two's-complement arithmetic.", "quantifier": "every 128-bit integer and every shift amount", "why_tests_cant": "2^128 values; carries between limbs.", "anchors": ["operations/tf_i128/tf_i128.py:encode", "tf_i128.py:decode", "operations/tf_i128/int128_tensor.cc", "tensor/int128.py"]}
{"id": "C51", "title": "Exponential approximation uses every coefficient it promises", "statement": "exp2 on the fractional part evaluates the full truncated polynomial, including its leading coefficient, and the integer part is exact.", "quantifier": "every argument and every precision", "why_tests_cant": "A dropped leading term shows up only as a small numeric error.", "anchors": ["aby3.py:_exp2_pade_private", "aby3.py:_exp2_private", "aby3.py:_pow2_from_bits_private"]}
{"id": "C52", "title": "Average pooling and padding", "statement": "avgpool2d returns the sum of each window divided by the window size and pad surrounds the tensor with exact zeros, for every shape.", "quantifier": "every shape, pool size, stride, paddings, contents", "why_tests_cant": "Unbounded shapes.", "anchors": ["pond.py:_avgpool2d_core", "pond.py:_pad_private", "pond.py:pad", "aby3.py:pad", "tensor/native.py:zeros", "tensor/native.py:pad"]}
{"id": "C53", "title": "Gradient descent with momentum", "statement": "After any sequence of apply_gradients calls the weights equal the initial weights minus the sum of the velocities of the recurrence V=bV+aG, W=W-V.", "quantifier": "every sequence of gradients, every momentum and learning rate", "why_tests_cant": "Histories.", "anchors": ["keras/optimizers.py:SGD.apply_gradients"]}
{"id": "C54", "title": "Player configuration", "statement": "Looking players up by name returns the same player every time, names map to distinct devices/indices, and saving and loading a remote configuration preserves the host map.", "quantifier": "every sequence of lookups and every host map", "why_tests_cant": "Histories.", "anchors": ["config.py:LocalConfig", "config.py:RemoteConfig"]}
{"id": "C55", "title": "Interactive truncation hides the value up to the statistical gap", "statement": "Whatever set of observations a server looks for in the masked share it receives during interactive truncation, its probability differs for two in-range values by at most 2^-gap.", "quantifier": "every pair of values in the double-precision range, every share the server holds, every set of observations", "why_tests_cant": "A statement about two probability distributions.", "anchors": ["pond.py:_truncate_private_interactive", "tensor/fixed.py:FixedpointConfig"]}
{"id": "C56", "title": "The SecureNN helper server learns nothing", "statement": "What the helper server receives while it assists a sign test has the same distribution for every value of the operand.", "quantifier": "every pair of operands, every sharing, every blinding bit and mask", "why_tests_cant": "A statement about two distributions of messages; the result of the computation is correct either way.", "anchors": ["securenn.py:_lsb_private", "securenn.py:_private_compare"]}
{"id": "C57", "title": "Patches are reassembled where they were taken", "statement": "patches2im adds every entry of every patch back to the pixel that im2patches read it from, so the gradient of a pooling layer reaches the pixels that were pooled.", "quantifier": "every image, patch and stride size, SAME and VALID, all contents", "why_tests_cant": "Overlapping windows, asymmetric padding and unequal strides interact; tests use square cases.", "anchors": ["tensor/shared.py:patches2im", "tensor/shared.py:im2patches", "keras/layers/pooling.py:backward"]}
{"id": "C58", "title": "Adaptive optimizers", "statement": "After any sequence of apply_gradients calls Adam and AMSgrad have moved each weight by the sum, over its gradients, of lr*M/sqrt(V) with the averages (bias-corrected, respectively maximised) of the gradients seen so far by that weight, whatever happens to other layers in between.", "quantifier": "every history of calls over every set of layers, every hyperparameter", "why_tests_cant": "Histories; interleavings of layers.", "anchors": ["keras/optimizers.py:Adam.apply_gradients", "keras/optimizers.py:AMSgrad.apply_gradients"]}
{"id": "C59", "title": "The private reciprocal is close to the real one", "statement": "reciprocal(x) of a private tensor succeeds and returns y with x*y close to 1: the residual of the first linear guess, raised to the fifth power once per round, plus a few units in the last place; for values of either sign, with or without nonsigned, and no server learns anything about x.", "quantifier": "every tensor of in-range values, every sharing, every draw of the protocol's randomness, every number of rounds, every word width and precision", "why_tests_cant": "Random roundings happen inside the iteration; bounds hold for all of them and for all values.", "anchors": ["aby3/fp.py:_fp_recip_private", "aby3/aby3.py:reciprocal"]}
{"id": "C60", "title": "The private inverse square root is close to the real one", "statement": "inv_sqrt(x) of a private tensor of positive values succeeds and returns 1/sqrt(x) up to a relative error, which every round squares, and a few units in the last place; a precision below a quarter of the word size is refused; and no server learns anything about x.", "quantifier": "every tensor of positive in-range values, every sharing, every draw of the protocol's randomness, every number of rounds, both word sizes and every admissible precision", "why_tests_cant": "Random roundings happen inside the iteration, and the scale depends on the position and parity of the leading bit; the bound holds for all of them.", "anchors": ["aby3/fp.py:_fp_inv_sqrt_private", "aby3/fp.py:approx_sqrt_inv", "aby3/aby3.py:inv_sqrt"]}
{"id": "C61", "title": "The private exponential is close to the real one", "statement": "exp(x) of a private tensor succeeds and returns e^x up to a stated relative error and a few units in the last place, for every x up to the largest one whose exponential the protocol can represent, however small x is; the variant exp(x, approx_type='infinity') returns (1 + x/128)^128 up to rounding for x in its range; and no server learns anything about x.", "quantifier": "every tensor of in-range values, every sharing, every draw of the protocol's randomness, both word sizes and every admissible precision", "why_tests_cant": "The argument is rescaled, split into integer and fractional bits and recombined after random roundings; the bound holds for every value and every rounding.", "anchors": ["aby3/aby3.py:_exp_private", "aby3/aby3.py:_exp2_private", "aby3/aby3.py:exp"]}
{"id": "C62", "title": "The private softmax is close to the real one", "statement": "softmax(x) of a private tensor with at least two classes succeeds and returns, along the last axis, values that differ from exp(x_i)/sum_j exp(x_j) by a stated relative error and a few units in the last place, and that add up to one up to a stated error; this holds however large or far apart the logits are; and no server learns anything about x.", "quantifier": "every number of classes up to the bound set by the precision, every batch, all logits of moderate size, every sharing, every draw of the protocol's randomness, both ways of finding the maximum", "why_tests_cant": "The result combines a sorting network, the exponential, a sum and a reciprocal, each with its own random roundings and ranges; the claim is that none of the ranges is ever left.", "anchors": ["aby3/aby3.py:_softmax_private", "aby3/aby3.py:_reduce_max_network_private", "aby3/aby3.py:softmax"]}
{"id": "C63", "title": "The private sigmoid is close to the logistic function", "statement": "sigmoid(x) of a private tensor succeeds and returns a number within 0.042 (0.076 for the three-piece variant), plus a few units in the last place, of 1/(1+e^-x), for every x from hugely negative to hugely positive; with at least 14 fractional bits the result lies between 0 and 1; an unknown approximation is refused; and no server learns anything about x.", "quantifier": "every tensor of in-range values, every sharing, every draw of the protocol's randomness, every word size and every admissible precision, both approximations", "why_tests_cant": "The claim is about a continuum of arguments, the seams between the pieces and every random rounding of the products.", "anchors": ["aby3/aby3.py:_sigmoid_private", "aby3/aby3.py:_polynomial_piecewise_private", "aby3/aby3.py:sigmoid"]}
{"id": "C64", "title": "Training, prediction and evaluation go over the data as documented", "statement": "fit(x, y, batch_size, epochs) trains once per epoch on the entire data, in order, in batches of batch_size (steps_per_epoch batches per epoch if given; an iterator is consumed in order); predict(x) returns one prediction per sample, in order, for every batch size, and opens the predictions exactly if reveal is set in that call; evaluate(x, y) measures on all samples; every such call with a positive batch size ends.", "quantifier": "every data set (number of samples and shape of a sample), batch size, number of epochs and steps, and every sequence of predict calls on one model", "why_tests_cant": "A test that trains for one epoch on data with more features than samples, or checks only that the loss falls, does not see samples that are never visited; the flags of earlier calls matter.", "anchors": ["keras/models/base_model.py:BaseModel.fit", "keras/models/base_model.py:BaseModel.predict", "keras/models/base_model.py:BaseModel.evaluate", "keras/models/base_model.py:data_wrap"]}
{"id": "C65", "title": "Training follows the gradient of the loss", "statement": "One training step on a batch moves every weight of every trainable layer of a Sequential model by the learning rate times the partial derivative of the batch's loss by that weight, taken at the old weights; the loss functions' gradients are those of the losses they report; lazy normalization gives the same weights; layers that cannot be trained raise.", "quantifier": "every stack of Dense, ReLU, Activation, Flatten, Reshape and GlobalAveragePooling2D layers, every size, all weights, inputs and targets (exact real arithmetic)", "why_tests_cant": "Derivatives at all points of all networks cannot be sampled; a gradient that is merely correlated with the true one also makes the loss fall in tests.", "anchors": ["keras/layers/dense.py:Dense.backward", "keras/layers/relu.py:ReLU.backward", "keras/layers/activation.py:Activation.backward", "keras/layers/flatten.py:Flatten.backward", "keras/layers/reshape.py:Reshape.backward", "keras/layers/pooling.py:GlobalAveragePooling2D.backward", "keras/losses.py", "keras/activations.py", "keras/models/sequential.py:Sequential.backward", "keras/models/base_model.py:BaseModel.fit_batch"]}
{"id": "C66", "title": "Convolution layers are trained along the gradient", "statement": "A Conv2D layer outputs the strided, padded cross-correlation of its input with its kernel plus the bias, in the shape it reports; in training it moves the kernel and the bias by the learning rate times the partial derivatives of the loss, and passes the exact gradient on to the layer before it; lazy normalization gives the same weights.", "quantifier": "every number of images, channels and filters, every size of image and square kernel, both paddings and data formats, any strides, with and without bias and activation, all weights and inputs (exact real arithmetic)", "why_tests_cant": "The backward pass is itself built of two convolutions of expanded, padded, flipped tensors; whether the sizes fit and every product lands at the right pixel depends on size, kernel, stride and padding together, and a wrong gradient still lets a network learn.", "anchors": ["keras/layers/convolutional.py:Conv2D.call", "keras/layers/convolutional.py:Conv2D.backward", "keras/layers/convolutional.py:Conv2D.pad_size", "keras/layers/convolutional.py:Conv2D.compute_output_shape", "protocol/aby3/aby3.py:_expand_private", "protocol/aby3/aby3.py:_reverse_private"]}
{"id": "C67", "title": "Pooling layers output window averages and maxima and are trained along the gradient", "statement": "AveragePooling2D and MaxPooling2D output the average and the largest entry of every zero-padded window, in the shape they report, and in training pass on the exact gradient; GlobalMaxPooling2D outputs the largest pixel of every channel, in the shape it reports, and passes on the exact gradient.", "quantifier": "every number of images and channels, every size of image and pool, both paddings and data formats, any strides, all inputs (exact real arithmetic; for the maxima all inputs at which the maximum is differentiable)", "why_tests_cant": "The gradient is put back together from overlapping patches; whether every share of it lands at the pixel it came from depends on image, pool, stride and padding together, and a wrong gradient still lets a network learn.", "anchors": ["keras/layers/pooling.py:AveragePooling2D", "keras/layers/pooling.py:MaxPooling2D", "keras/layers/pooling.py:GlobalMaxPooling2D", "keras/layers/pooling.py:Pooling2D.compute_output_shape", "protocol/aby3/aby3.py:_maxpool2d_with_argmax_private", "protocol/aby3/aby3.py:_patches2im_private"]}
{"id": "C68", "title": "Private logarithms are close to the logarithm", "statement": "tfe.log of a private positive number, and the base 2, 10 and e logarithms of the fixed-point module, are within a stated small error of the true logarithm, and no server learns anything about the number.", "quantifier": "every tensor of positive values in range, every sharing, every draw of randomness, every word width and precision wide enough", "why_tests_cant": "The value is a polynomial of degree seven (or two, after a reduction by a power of two) computed with a random rounding at every product; tests try a few numbers at one precision.", "anchors": ["protocol/aby3/aby3.py:_log_private", "protocol/aby3/fp.py:_do_fp_log_private", "protocol/aby3/fp.py:_fp_log2_private", "protocol/aby3/fp.py:_fp_log10_private", "protocol/aby3/fp.py:_fp_ln_private"]}
{"id": "C69", "title": "Pond's activation functions are close to the functions they are named after", "statement": "tfe.sigmoid, tfe.relu, tfe.tanh and tfe.log of a private tensor under the Pond protocol decode to within a stated small error of the function, and with a hiding truncation no server learns anything about the tensor.", "quantifier": "every tensor of representable inputs, every sharing, triple, mask and draw, in both interactive fixed-point configurations of the library", "why_tests_cant": "The functions are polynomials of high degree evaluated with a rounding at every product and coefficients near the resolution of the encoding; the tests try a handful of small inputs.", "anchors": ["protocol/pond/pond.py:Pond.sigmoid", "protocol/pond/pond.py:Pond.relu", "protocol/pond/pond.py:Pond.tanh", "protocol/pond/pond.py:Pond.log"]}
{"id": "C70", "title": "The 'as2019' variants of the private powers are close to the real powers", "statement": "tfe.exp2 and tfe.exp of a private ABY3 tensor with approx_type='as2019' decode to within a stated small error of 2^x and e^x, and no single server learns anything about the tensor.", "quantifier": "every tensor of representable inputs, every sharing and every draw of the truncations", "why_tests_cant": "For negative inputs the result is the reciprocal of a power, so it depends on how many bits the reciprocal looks at; the tests try a few numbers near zero.", "anchors": ["protocol/aby3/aby3.py:_exp2_private", "protocol/aby3/aby3.py:_exp_private", "protocol/aby3/fp.py:_fp_recip_private"]}
{"id": "C71", "title": "A depthwise convolution layer filters every channel on its own, reports its output shape, and takes its own weights", "statement": "tfe.keras.layers.DepthwiseConv2D applied to a batch of images gives, for channel c and multiplier m, the correlation of channel c with its m-th kernel plus the bias; compute_output_shape gives the shape of that result; and the list of weights of a layer can be passed to set_weights of the same layer.", "quantifier": "every kernel size, stride, padding, multiplier, number of channels, both channel orders, every batch and image size, with or without bias", "why_tests_cant": "The layer is built from a full convolution with masked kernels; the tests use multiplier one and a single shape.", "anchors": ["keras/layers/convolutional.py:DepthwiseConv2D"]}
{"id": "C72", "title": "Setting weights puts exactly the given weights in every layer and changes nothing else", "statement": "After model.set_weights(weights) with numpy arrays, private variables or another model's weights, every layer has the weights given for it, batch normalisations have the matching denominator, and nothing else has changed, in particular not the model the weights were taken from; a list that does not fit is refused and leaves the model as it was.", "quantifier": "every sequence of layers, every list of weights and every state of the variables", "why_tests_cant": "Weights are passed by reference and written in place layer by layer, so what a call changes depends on which lists are shared and on how far it got before it failed; tests set matching weights once and never use the source again.", "anchors": ["keras/engine/base_layer.py:set_weights", "keras/models/sequential.py:set_weights", "keras/models/sequential.py:clone_model", "keras/layers/normalization.py:set_weights", "keras/layers/convolutional.py:DepthwiseConv2D.set_weights", "keras/optimizers.py:apply_gradients", "protocol/pond/pond.py:assign", "protocol/aby3/aby3.py:assign"]}
{"id": "C73", "title": "A private tensor written to disk is read back with the same values", "statement": "After any sequence of tfe.write calls, the tensors obtained from tfe.read open, for every server, to the values of the tensors that the prefixes stand for (everything since the last write that did not append), row after row and over again; a server's files depend on its own shares only; an interrupted write leaves the old or the new contents.", "quantifier": "every history of writes with and without append to any prefixes, every placement of the servers on machines, every order and every interruption of the single file writes, every shape and batch", "why_tests_cant": "Six files are written without coordination; whether they fit together depends on the whole history, on which of the writes were carried out, and on how records and batches divide; the tests write one tensor and read it once.", "anchors": ["protocol/aby3/aby3.py:_write_private", "protocol/aby3/aby3.py:_read_", "protocol/aby3/aby3.py:write", "protocol/aby3/aby3.py:read", "operations/dataset/write_record.cc:Compute"]}
{"id": "C74", "title": "Iterating over a private tensor delivers its rows", "statement": "The batches of tfe.iterate open, for every server, to rows of the tensor, scaled and shared as the tensor is: in order and wrapping around if the rows are repeated, each exactly once in some order if they are shuffled and not repeated; every row is delivered.", "quantifier": "every number of rows, batch size, seed, and sequence of random numbers, with or without repetition and shuffling", "why_tests_cant": "The six shares are shuffled independently of each other, so the result is meaningful only if the orders agree for all seeds; the only test is skipped.", "anchors": ["protocol/aby3/aby3.py:_iterate_private", "protocol/aby3/aby3.py:iterate"]}
{"id": "C75", "title": "Batch normalisation normalises with the statistics it was given", "statement": "tfe.keras.layers.BatchNormalization maps an entry x of a channel to gamma * (x - mean) / sqrt(variance + epsilon) + beta with that channel's parameters, after the layer is built and after every set_weights, with gamma and beta left out if scale or center is off; it accepts data of every rank and the axis that Keras uses by default, and can be part of a model that is trained.", "quantifier": "every number of samples, channels and pixels, matrices and images in both channel orders, every parameter and epsilon, every sequence of set_weights", "why_tests_cant": "The denominator is stored apart from the variance and the parameters are broadcast; that they belong together and to the right channel must hold after every history of assignments, and the tests compare single batches of one shape.", "anchors": ["keras/layers/normalization.py:BatchNormalization"]}
{"id": "C76", "title": "Reshape and Flatten deliver the shape they declare and keep the order of the entries", "statement": "Whenever compute_output_shape of Reshape or Flatten gives a shape, applying the layer gives a tensor of that shape whose samples have the same entries in row-major order (channels last for Flatten), and where it raises ValueError applying the layer raises too; backward restores the shape of the input.", "quantifier": "every input shape, target shape and batch", "why_tests_cant": "Two separate computations infer the missing dimension, one in the library and one in TensorFlow; whether they agree depends on divisibility, zeros and signs of all dimensions.", "anchors": ["keras/layers/reshape.py:Reshape", "keras/layers/flatten.py:Flatten"]}
{"id": "C77", "title": "Every weighted and pooling node of a converted model computes its ONNX operator and declares the shape of its result", "statement": "A converted MatMul, Gemm, Conv, BatchNormalization, AveragePool, MaxPool, GlobalAveragePool, GlobalMaxPool, ReduceMean or ReduceMax node, applied to a tensor, gives what the ONNX documentation says for the node's attributes (attributes that are absent have their documented defaults) and the node's declared output shape is the shape of that result up to the size of the batch; a node that is not supported is refused at conversion.", "quantifier": "every list of attributes, every constant weight, every input shape and tensor", "why_tests_cant": "The converter reads some attributes by position, ignores others and hands the rest to layers with their own conventions; whether the result is the operator depends on all attributes and shapes, and the tests convert a few fixed networks.", "anchors": ["convert/nodes.py:MatmulNode", "convert/nodes.py:GemmNode", "convert/nodes.py:Conv2dNode", "convert/nodes.py:BatchnormalizationNode", "convert/nodes.py:AvgpoolNode", "convert/nodes.py:MaxPoolNode", "convert/nodes.py:GlobalAvgpoolNode", "convert/nodes.py:GlobalMaxPoolNode", "keras/layers/pooling.py:GlobalPooling2D"]}
{"id": "C78", "title": "Every arithmetic and shape-changing node of a converted model computes its ONNX operator and declares the shape of its result", "statement": "A converted Add, Sub, Mul, Neg, Relu, Softmax, Reshape, Flatten, Transpose, Unsqueeze, Squeeze, Concat, Split, Slice, Gather or Pad node, applied to tensors of the declared shapes, gives what the ONNX documentation says for the node's attributes and inputs (those that are absent have their documented defaults), and the node's declared output shapes are the shapes of the results up to dimensions declared unknown; a node that is not supported is refused at conversion.", "quantifier": "every list of attributes, every constant input, every declared shape and every tensor of that shape", "why_tests_cant": "Whether entries end up where the operator says depends on ranks, negative axes, unknown batch sizes and defaults in combination; the tests convert a few fixed networks with one batch size.", "anchors": ["convert/nodes.py:AddNode", "convert/nodes.py:SubNode", "convert/nodes.py:MulNode", "convert/nodes.py:NegativeNode", "convert/nodes.py:ReluNode", "convert/nodes.py:SoftmaxNode", "convert/nodes.py:ReshapeNode", "convert/nodes.py:FlattenNode", "convert/nodes.py:TransposeNode", "convert/nodes.py:ExpandDimsNode", "convert/nodes.py:SqueezeNode", "convert/nodes.py:ConcatNode", "convert/nodes.py:SplitNode", "convert/nodes.py:StrideSliceNode", "convert/nodes.py:GatherNode", "convert/nodes.py:PadNode"]}
{"id": "C79", "title": "Training a converted model uses the true gradients of its nodes and of the whole graph", "statement": "For a converted model, the gradient handed to each input of an Add, Sub, Mul, Neg, Reshape, Flatten, Transpose, Unsqueeze, Squeeze, Concat, Split, Slice, Gather, Stack, Pad, MatMul, Gemm, Conv, AveragePool, MaxPool, GlobalAveragePool, ReduceMean, Relu, Sigmoid, Softmax or BatchNormalization node, and to its weights, has the shape of that input or weight and is the derivative of the loss with respect to it whenever the gradient handed to the node is the derivative with respect to its output; and the gradients returned for the inputs of the model are the derivatives of what the model computes.", "quantifier": "every graph, every shape, every value of the inputs, every direction in which they move and every gradient of the outputs", "why_tests_cant": "A gradient is a statement about all directions at a point and all points; a finite difference test at a few points with one batch size sees neither broadcasting nor unknown dimensions.", "anchors": ["convert/nodes.py:AddNode.backward", "convert/nodes.py:SubNode.backward", "convert/nodes.py:MulNode.backward", "convert/nodes.py:NegativeNode.backward", "convert/nodes.py:ReshapeNode.backward", "convert/nodes.py:FlattenNode.backward", "convert/nodes.py:TransposeNode.backward", "convert/nodes.py:ExpandDimsNode.backward", "convert/nodes.py:SqueezeNode.backward", "convert/nodes.py:ConcatNode.backward", "convert/nodes.py:SplitNode.backward", "convert/nodes.py:StackNode.backward", "convert/nodes.py:StrideSliceNode.backward", "convert/nodes.py:GatherNode.backward", "convert/nodes.py:PadNode.backward", "convert/nodes.py:MatmulNode.backward", "convert/nodes.py:GemmNode.backward", "convert/nodes.py:Conv2dNode.backward", "convert/nodes.py:AvgpoolNode.backward", "convert/nodes.py:MaxPoolNode.backward", "convert/nodes.py:GlobalAvgpoolNode.backward", "convert/nodes.py:ReluNode.backward", "convert/nodes.py:SigmoidNode.backward", "convert/nodes.py:SoftmaxNode.backward", "convert/nodes.py:BatchnormalizationNode.backward", "convert/convert.py:Converter._build_backward"]}
{"id": "C80", "title": "Data split among owners: parts of the same samples stay aligned, and every owner delivers its own samples", "statement": "When the MNIST data set is split by slicing among data owners, then (vertical split) the i-th batches of all owners of image rows and of the owner of the labels are about the same samples in the same order, for every i, and the rows put side by side are the whole images; (horizontal split) the owner of samples a to b delivers these and no others. Within one pass every sample occurs at most once, and exactly once if the batch size divides the number of samples; a pass has as many batches as the object announces. A data owner hands out the batches of its generator in order. This holds for every slice, also of a slice, for every way of using the objects, and after a process has died at any moment.", "quantifier": "every slice, batch size, data, order produced by the seeded shuffle, history of record files on the disk of every owner, crash point, and every interleaving of requests to the iterators of an owner", "why_tests_cant": "Tests use one slice and look at the first batch on a clean disk; alignment concerns all batches of a run, all histories of cached files, and crashes while they are written.", "anchors": ["keras/datasets/mnist.py:MnistDataset", "keras/datasets/mnist.py:HMnistDataset", "keras/datasets/mnist.py:VMnistDataset", "keras/datasets/convert.py", "player/data_owner.py:DataOwner"]}
{"id": "C81", "title": "A sealed tensor opens to exactly the tensor that was sealed, or not at all", "statement": "For tensors sealed with the easy-box functions: the receiver opens what the sender sealed to the same tensor, of the same shape and type; opening succeeds only for ciphertexts and authenticators that sealing with the keys of these two parties in these roles produces, and yields the tensor, type and shape the sender gave; the ciphertext depends on nothing but type size and shape as long as the key stream is uniform.", "quantifier": "every type, shape and value, every pair of keys, every nonce, every ciphertext and authenticator presented for opening", "why_tests_cant": "Tests seal and open one tensor; that nothing else opens is a statement about all ciphertexts, types and shapes.", "anchors": ["primitives/tf_encrypted/primitives/sodium/python/easy_box.py:seal_detached", "primitives/tf_encrypted/primitives/sodium/python/easy_box.py:open_detached", "primitives/tf_encrypted/primitives/sodium/cc/easy_box_kernels.cc", "primitives/tf_encrypted/primitives/sodium/cc/ops.cc"]}
{"id": "C82", "title": "A cloned model computes what the Keras model computes", "statement": "clone_model returns a model that computes, up to the approximations of its single layers, what the given Keras model computes: the same layers, connected in the same way, each with its own weights. What the library cannot reproduce is refused.", "quantifier": "every Keras model with one input, every number of layers, every connection of them, every configuration and weights", "why_tests_cant": "Tests clone a handful of small sequential models; models with shared layers, branches or several outputs are not covered.", "anchors": ["tf_encrypted/keras/models/sequential.py:clone_model", "tf_encrypted/keras/models/sequential.py:model_from_config", "tf_encrypted/keras/models/sequential.py:_instantiate_tfe_layer", "tf_encrypted/keras/models/sequential.py:Sequential.set_weights"]}
{"id": "C83", "title": "Dividing by a public number, and the average of private inputs", "statement": "A private tensor divided by a public number is the quotient up to the precision of the fixed-point format, and add_n(inputs) / len(inputs) is the average of the inputs of all owners. Nobody learns anything but the number of owners.", "quantifier": "every number of owners, every tensors, every divisor, every sharing and draw, every word width and precision (ABY3, Pond)", "why_tests_cant": "Tests divide single tensors by 2; the error depends on the divisor, the size of the sum and the number of owners, and secrecy is a statement about distributions.", "anchors": ["tf_encrypted/protocol/aby3/aby3.py:ABY3.div", "tf_encrypted/protocol/aby3/aby3.py:ABY3.add_n", "tf_encrypted/protocol/aby3/aby3.py:_mul_pow2_private", "tf_encrypted/protocol/pond/pond.py:Pond.div", "tf_encrypted/protocol/pond/pond.py:_reciprocal_public", "tf_encrypted/protocol/pond/pond.py:_sqrt_public", "tf_encrypted/protocol/aby3/aby3.py:_reciprocal_public", "examples/application/simple-average/run.py", "examples/application/federated-learning/run.py"]}
{"id": "C84", "title": "An operation on the wrong kind of sharing is refused", "statement": "Private tensors are shared arithmetically or as booleans. An operation applied to tensors of any kind returns a sharing of the result, with the right kind, or raises; it never returns silently something else.", "quantifier": "every program of operations, operators or functions, every combination of kinds, every sharing and random numbers (ABY3)", "why_tests_cant": "Tests apply operations to the kind they are for; the kind is a run-time tag, and a wrong result of one sharing may be right for another.", "anchors": ["tf_encrypted/protocol/aby3/aby3_tensors.py:ABY3Tensor", "tf_encrypted/protocol/aby3/aby3.py:_add_private_private", "tf_encrypted/protocol/aby3/aby3.py:_negative_private", "tf_encrypted/protocol/aby3/aby3.py:_reduce_sum_private", "tf_encrypted/protocol/aby3/aby3.py:_concat_private", "tf_encrypted/protocol/aby3/aby3.py:_rshift_private", "tf_encrypted/protocol/aby3/aby3.py:_not_private", "tf_encrypted/protocol/aby3/aby3.py:_mul_private_private", "tf_encrypted/protocol/aby3/aby3.py:_transpose_private", "tf_encrypted/protocol/aby3/aby3.py:_gather_private", "tf_encrypted/protocol/aby3/aby3.py:_split_private"]}
{"id": "C85", "title": "The search through a graph finds exactly the nodes that can be reached", "statement": "`reachable_nodes` of any tensors and operations, given singly, repeated or in nested lists, ends and returns exactly the nodes from which the given ones are computed, control inputs included; it raises when and only when one of them is neither a tensor nor an operation.", "quantifier": "every finite graph, with or without cycles, and every nesting of starting nodes", "why_tests_cant": "Tests search a few small acyclic graphs; loops in graphs (while loops) and shared sub-graphs are not tried.", "anchors": ["tf_encrypted/utils.py:reachable_nodes", "tf_encrypted/utils.py:flatten"]}
{"id": "C86", "title": "A compiled function returns what the plain function returns", "statement": "Calling a function decorated with `tfe.function` raises what the plain function raises, or returns the same nesting of tensors with the same shares, data types, flags and kinds of sharing.", "quantifier": "every function, all arguments and results nested to any depth, every kind of tensor of both families of protocols", "why_tests_cant": "Tests compile a few functions of one or two tensors of the default data type.", "anchors": ["tf_encrypted/protocol/protocol.py:function", "tf_encrypted/protocol/protocol.py:unwrap_func", "tf_encrypted/protocol/protocol.py:wrap_func", "tf_encrypted/protocol/protocol.py:input_unwrap", "tf_encrypted/protocol/protocol.py:input_wrap", "tf_encrypted/protocol/pond/pond.py:from_bone", "tf_encrypted/protocol/aby3/aby3.py:from_bone", "tf_encrypted/protocol/aby3/aby3_tensors.py:bone", "tf_encrypted/tensor/__init__.py:factories"]}
{"id": "C87", "title": "Results of operations can be used where they were asked for", "statement": "An operation called in eager code or inside of a compiled function returns a tensor that can be used there, whatever was computed before, inside or outside of compiled functions.", "quantifier": "every history of calls in eager code and in traces of compiled functions", "why_tests_cant": "Tests compile one function and use its result; the cache of operations is shared by everything in the process.", "anchors": ["tf_encrypted/protocol/protocol.py:memoize", "tf_encrypted/protocol/protocol.py:function"]}
{"id": "C88", "title": "A private prediction is close to the prediction in the clear, and reveals nothing", "statement": "Running a feed-forward network (Dense or Conv2D layers with or without bias, relu or no activation, MaxPooling2D and AveragePooling2D layers, a sigmoid or softmax at the end if wanted) in ABY3 on private inputs with private weights gives numbers within a stated error of what the network computes on the numbers themselves, hence the same class whenever the margin exceeds the errors; no server learns anything about weights or inputs.", "quantifier": "every number and shape of layers and samples, all weights and inputs, all sharings and random draws, every server", "why_tests_cant": "Tests compare a few predictions of small trained models with a loose tolerance; they cannot bound the error for all weights, and no test can check secrecy.", "anchors": ["tf_encrypted/keras/layers/dense.py:call", "tf_encrypted/keras/layers/convolutional.py:call", "tf_encrypted/keras/layers/pooling.py:call", "tf_encrypted/keras/models/sequential.py:call", "tf_encrypted/protocol/aby3/aby3.py:_matmul_private_private", "tf_encrypted/protocol/aby3/aby3.py:_conv2d_private_private", "tf_encrypted/protocol/aby3/aby3.py:_maxpool2d_with_argmax_private", "tf_encrypted/protocol/aby3/aby3.py:_avgpool2d_private", "tf_encrypted/protocol/aby3/aby3.py:relu_with_cmp"]}
{"id": "C89", "title": "Federated training follows gradient descent and shows nobody a single gradient", "statement": "Training with federated_training (owners of data compute gradients locally, the ABY3 servers average them, the owner of the model decrypts the average and takes a step): while gradients are bounded so that sums and products fit in the words, no round raises and the weights after any number of rounds are those of gradient descent along average gradients that are off by at most 2 + kG units in the last place (k owners, gradients at most G); for L-Lipschitz gradients they differ from exact descent by at most lr*eps*sum_{t<T}(1+lr*L)^t. What a server sees depends only on the numbers of rounds and owners. What the owner of the model gets depends only on the sums of the encoded gradients.", "quantifier": "every number of rounds, owners and weights, all gradient functions, learning rates, sharings and random draws, every server", "why_tests_cant": "The example trains one model on one dataset with three owners; no test can bound the drift over all gradients and rounds, or check what the parties learn.", "anchors": ["examples/application/federated-learning/run.py:federated_training", "examples/application/federated-learning/run.py:ModelOwner", "examples/application/federated-learning/run.py:DataOwner", "tf_encrypted/protocol/aby3/aby3.py:add_n", "tf_encrypted/protocol/aby3/aby3.py:div"]}
{"id": "C90", "title": "Private training of a logistic regression follows gradient descent and hides data and weights", "statement": "Training a logistic regression with fit on private data (ABY3, one Dense(1) layer with bias, BinaryCrossentropy from logits with lazy normalization, SGD with learning rate and momentum): while the numbers fit into the words, the weights, the bias and the momentum terms that the servers hold after any number of batches differ from those of exact gradient descent with momentum on the mean cross entropy by at most noise*(1+K+...+K^(n-1)); noise is lr*A times the error 0.042 of the piecewise linear sigmoid plus a number of units in the last place, K = 1+momentum+lr*A*(kA+1) for k features of size at most A. Apart from the losses that fit reveals on purpose, what a server sees depends on nothing but the number and the shape of the batches.", "quantifier": "every number of batches, samples and features, all data, labels in [0,1], start weights, learning rates, momenta, sharings and random draws, every server", "why_tests_cant": "Tests train a few steps on one dataset and compare with a loose tolerance; the error of every step feeds into the next gradient, and no test can bound it for all data and all numbers of steps or check what the servers learn.", "anchors": ["examples/models/logistic_regression.py:logistic_regression", "tf_encrypted/keras/models/base_model.py:fit_batch", "tf_encrypted/keras/models/base_model.py:fit", "tf_encrypted/keras/layers/dense.py:Dense", "tf_encrypted/keras/losses.py:BinaryCrossentropy", "tf_encrypted/keras/optimizers.py:SGD", "tf_encrypted/protocol/aby3/aby3.py:sigmoid"]}
{"id": "C91", "title": "Joint training sees the data of all owners", "statement": "Joint training on split data: when each of several owners holds some of the samples (horizontal split), every epoch of fit sees the samples of all owners, each at most once; when each of three owners holds some rows of every image (vertical split), every batch consists of whole images with their own labels. The generators that combine the owners' batches end when the data end.", "quantifier": "all data sets of MNIST shape, batch sizes, shuffles, ways to split the samples or the rows, numbers of owners, numbers of epochs and steps", "why_tests_cant": "Tests look at the first few batches; that an owner is never reached in a whole training, that no sample is seen twice or that every row meets its own image is a statement about all steps of all epochs.", "anchors": ["examples/application/joint-train/horizontal-training.py:horizontal_combine", "examples/application/joint-train/vertical-training.py:vertical_combine", "tf_encrypted/player/data_owner.py:DataOwner"]}
{"id": "C92", "title": "A layer honours its arguments or refuses them", "statement": "Whatever arguments a Keras layer is constructed with, either the constructor raises, or the layer works as the arguments ask for according to the documentation of TensorFlow: no parameter is silently ignored or changed, and parameters that are not given have TensorFlow's defaults.", "quantifier": "all kinds of layers with a constructor of their own, all sets of keyword arguments with arbitrary values, both settings of the data format of the backend, all documented parameters", "why_tests_cant": "Tests construct layers with a few arguments; an argument that is accepted and ignored changes the model without an error and can only be found by looking at every parameter of every layer.", "anchors": ["tf_encrypted/keras/layers/layers_utils.py:default_args_check", "tf_encrypted/keras/engine/base_layer.py:Layer.__init__", "tf_encrypted/keras/layers/dense.py:Dense.__init__", "tf_encrypted/keras/layers/convolutional.py:Conv2D.__init__", "tf_encrypted/keras/layers/convolutional.py:DepthwiseConv2D.__init__", "tf_encrypted/keras/layers/normalization.py:BatchNormalization.__init__", "tf_encrypted/keras/layers/pooling.py:Pooling2D.__init__", "tf_encrypted/keras/layers/relu.py:ReLU.__init__", "tf_encrypted/keras/activations.py:get"]}
{"id": "C93", "title": "Layer names are unique", "statement": "A layer has the name it is given, and in one graph the names of all layers differ from each other: a layer that is created without a name gets one that no other layer has. Finding such a name always ends, and a name that the caller wants to avoid is never returned.", "quantifier": "all histories of layers of all classes created with and without names, all states of the counters, all lists of names to avoid, counting from zero and from one", "why_tests_cant": "A test creates a few layers; whether a number is ever given out twice depends on the whole history of the graph and on the names of classes.", "anchors": ["tf_encrypted/keras/engine/base_layer_utils.py:unique_object_name", "tf_encrypted/keras/engine/base_layer.py:Layer._init_set_name", "tf_encrypted/keras/engine/input_layer.py:InputLayer.__init__", "tf_encrypted/keras/models/base_model.py:BaseModel.__init__"]}
{"id": "C94", "title": "reduce_max takes the arguments of tf.reduce_max", "statement": "For a private ABY3 tensor, reduce_max(x, axis, keepdims, method) returns, in shape and in every entry, what tf.reduce_max(x, axis, keepdims) returns, whichever of the two methods is chosen: over all axes or along one, counted from the front or the end, with the axis kept or dropped. A call that cannot be answered raises.", "quantifier": "all ranks, shapes and entries, all axes (none, positive, negative, outside the tensor), keepdims true and false, all methods", "why_tests_cant": "Tests reduce one matrix along its two axes with the default method; the combinations of rank, axis, sizes that are not powers of two, keepdims and method are unbounded.", "anchors": ["tf_encrypted/protocol/aby3/aby3.py:ABY3.reduce_max", "tf_encrypted/protocol/aby3/aby3.py:_reduce_max_tree_private", "tf_encrypted/protocol/aby3/aby3.py:_reduce_max_network_private", "tf_encrypted/protocol/aby3/aby3.py:_sort_private"]}
{"id": "C95", "title": "argmax returns positions in the documented shape", "statement": "argmax(x, axis, output_style) and reduce_max_with_argmax(x, axis, keepdims, output_style) return, beside the maximum of tf.reduce_max, the positions of the largest entries along the axis: as numbers in the shape of tf.argmax(x, axis), or one-hot along the axis in the shape of x. This holds for tensors of any rank and any axis, counted from the front or from the end. A call that cannot be answered raises.", "quantifier": "all ranks, shapes and entries, all axes (positive, negative, outside the tensor), keepdims true and false, both output styles, ABY3 and SecureNN", "why_tests_cant": "Tests use one matrix and the axes 0 and 1; the constants that are compared have shapes computed from the axis, and broadcasting hides wrong shapes for the sizes tested.", "anchors": ["tf_encrypted/protocol/aby3/aby3.py:ABY3.argmax", "tf_encrypted/protocol/aby3/aby3.py:ABY3.reduce_max_with_argmax", "tf_encrypted/protocol/aby3/aby3.py:_reduce_max_with_argmax_private", "tf_encrypted/protocol/securenn/securenn.py:SecureNN.reduce_max_with_argmax"]}
{"id": "C96", "title": "Decorated functions run at the player that was named", "statement": "A function decorated with local_computation, called with any arguments, is run at the player named in the decorator, else by the keyword player_name of the call, else by the attribute player_name of its first argument, and at no other. It is run on the true values of the arguments of the call, positional and keyword, and the call returns what it returns, shared as the options of the decorator say. If no player is named, the named player does not exist, or an option does not exist, the call raises.", "quantifier": "all functions, all positional and keyword arguments, all three ways of naming a player and all their combinations, all local and remote configurations, all options, ABY3 and Pond", "why_tests_cant": "There are no tests of the decorator with more than one source of the name, of methods, or of keyword arguments; every existing test names the player in the decorator.", "anchors": ["tf_encrypted/protocol/aby3/aby3.py:ABY3.local_computation", "tf_encrypted/protocol/pond/pond.py:Pond.local_computation", "tf_encrypted/config.py:LocalConfig.get_player", "tf_encrypted/config.py:RemoteConfig.get_player"]}
{"id": "C97", "title": "Input makes a tensor of the shape that was asked for, or refuses", "statement": "Input(shape, batch_size, ...) and Input(batch_shape=...) return a private tensor of zeros of exactly the shape that was asked for, with shapes given as tuple, number or TensorShape, and the batch size is optional as documented. The first layer of a Sequential model gets an input of the shape given to the layer. Arguments that are not supported, unknown or contradictory raise; none is ignored.", "quantifier": "all combinations of shape, batch_size, batch_shape, dtype, sparse, tensor and other keywords, all ranks and sizes, including unknown and negative ones", "why_tests_cant": "The test is one call with one shape; the branches depend on the truth value of optional arguments and on combinations of them.", "anchors": ["tf_encrypted/keras/engine/input_layer.py:Input", "tf_encrypted/keras/engine/input_layer.py:InputLayer", "tf_encrypted/keras/models/sequential.py:Sequential.add", "tf_encrypted/keras/engine/base_layer.py:Layer"]}
{"id": "C98", "title": "A variable starts with the value it was given", "statement": "Variables and constants made from data hold that data up to one unit of the fixed-point encoding (integers and truth values without scaling exactly), whatever randomness is drawn. Variables made from public or private tensors hold the value of the tensor. Initial values that cannot be used are refused.", "quantifier": "all arrays of values that fit, both scales and share types, all random draws, all tensors as initial values, all word sizes and configurations", "why_tests_cant": "The tests define a few scaled variables from arrays; a variable made from a tensor takes its scale and share type from the call, so the result depends on combinations that are never tried.", "anchors": ["tf_encrypted/protocol/aby3/aby3.py:ABY3.define_constant", "tf_encrypted/protocol/aby3/aby3.py:ABY3.define_public_variable", "tf_encrypted/protocol/aby3/aby3.py:ABY3.define_private_variable", "tf_encrypted/protocol/pond/pond.py:Pond.define_constant", "tf_encrypted/protocol/pond/pond.py:Pond.define_public_variable", "tf_encrypted/protocol/pond/pond.py:Pond.define_private_variable"]}
{"id": "C99", "title": "Moving space to the batch and back keeps the data", "statement": "tfe.space_to_batch and tfe.batch_to_space on public, private and masked tensors give what TensorFlow's operations give on the values, raise exactly when TensorFlow's do, keep the scale and keep public tensors public. Moving to the batch and back with the paddings as crops gives back the data, and so does the other order when nothing is cropped. This holds for all backing tensors: native integers, residue numbers and 128-bit words.", "quantifier": "all ranks, sizes, batch sizes, numbers of blocked axes, block sizes, paddings and crops, all shares and values, all kinds of tensors", "why_tests_cant": "The tests compare one small tensor per kind with TensorFlow; padding, several blocked axes and the axis of word halves are combinations that are not tried.", "anchors": ["tf_encrypted/protocol/pond/pond.py:Pond.space_to_batch", "tf_encrypted/protocol/pond/pond.py:Pond.batch_to_space", "tf_encrypted/protocol/pond/pond.py:_space_to_batch_core", "tf_encrypted/protocol/pond/pond.py:_batch_to_space_core", "tf_encrypted/tensor/int100.py:space_to_batch", "tf_encrypted/tensor/int128.py:space_to_batch", "tf_encrypted/tensor/native.py:space_to_batch"]}
{"id": "C100", "title": "A public input reaches all servers in every deployment", "statement": "define_public_input gives, for every tensor that the player's function returns, a public tensor that holds this data at all servers, in the form in which the function returned it (one tensor or a list), for every player and configuration, local or remote. Functions that return something else are refused.", "quantifier": "all return values of the function, all configurations and histories of lookups, all choices of servers and player, both protocols", "why_tests_cant": "No test calls define_public_input, and the test suite runs in the local configuration, where all players are on one device.", "anchors": ["tf_encrypted/protocol/aby3/aby3.py:ABY3.define_public_input", "tf_encrypted/protocol/aby3/aby3_tensors.py:ABY3PublicTensor", "tf_encrypted/protocol/pond/pond.py:Pond.define_public_input", "tf_encrypted/protocol/pond/pond.py:PondPublicTensor", "tf_encrypted/config.py:LocalConfig", "tf_encrypted/config.py:RemoteConfig"]}
{"id": "C101", "title": "Equality of public values in Pond", "statement": "equal of two public tensors, of a public tensor and a number in either order, or of two numbers returns a public tensor that shows one exactly where the two hold the same number and zero elsewhere, the same at both servers, whatever the scalings of the tensors and in every deployment. Private and masked tensors and other objects are refused.", "quantifier": "all public tensors and numbers, all fixed-point configurations and factories that hold them, all configurations of players", "why_tests_cant": "The only test compares four unscaled integers with a number in the local configuration.", "anchors": ["tf_encrypted/protocol/pond/pond.py:Pond.equal", "tf_encrypted/protocol/pond/pond.py:_equal_public_public", "tf_encrypted/protocol/pond/pond.py:Pond.lift", "tf_encrypted/protocol/pond/pond.py:PondPublicTensor", "tf_encrypted/tensor/native.py:Tensor.equal", "tf_encrypted/tensor/int100.py:Tensor.equal"]}
{"id": "C102", "title": "Unwrapping fetches keeps their nesting", "statement": "unwrap_fetches of any nesting of lists and tuples returns the same nesting, in which every object with to_native is replaced by its native value and every other object is unchanged; if a conversion raises, so does unwrap_fetches.", "quantifier": "every nesting of lists and tuples of any depth and length, every outcome of the conversions", "why_tests_cant": "Nothing tests it; the depth of the nesting and the outcomes of the conversions are not bounded.", "anchors": ["tf_encrypted/utils.py:unwrap_fetches"]}
{"id": "C103", "title": "Training follows the last compile", "statement": "After model.compile(optimizer, loss), every training step uses that optimizer and that loss and updates every layer of the model exactly once; a compile that raises leaves the model as it was; training a model that was not compiled, or whose layers were added later, raises and updates nothing.", "quantifier": "every history of add, compile and fit calls, successful or not, every number of layers, every sequence of batches, in and out of debug mode", "why_tests_cant": "Tests compile a model once, with valid arguments, before training; what goes wrong depends on the order of the calls over the life of the model.", "anchors": ["tf_encrypted/keras/models/sequential.py:Sequential.compile", "tf_encrypted/keras/models/sequential.py:Sequential.backward", "tf_encrypted/keras/optimizers.py:get", "tf_encrypted/keras/models/base_model.py:BaseModel.fit", "tf_encrypted/keras/models/base_model.py:BaseModel.fit_batch"]}
{"id": "C104", "title": "Predictions go through all layers of the model", "statement": "model.predict(x) and model.evaluate(x, y) send every batch through all layers that have been added to the model, once and in the order in which they were added.", "quantifier": "every history of add, predict and evaluate calls, every number of layers, all shapes of the batches, in and out of debug mode", "why_tests_cant": "Tests add all layers before the first prediction; what goes wrong depends on the order of the calls over the life of the model.", "anchors": ["tf_encrypted/keras/models/sequential.py:Sequential.add", "tf_encrypted/keras/models/sequential.py:Sequential.call", "tf_encrypted/keras/models/base_model.py:BaseModel.predict", "tf_encrypted/keras/models/base_model.py:BaseModel.evaluate"]}
{"id": "C105", "title": "A layer makes its weights once, and trains the weights it computes with", "statement": "However often a layer is called, and with inputs of whatever shapes, its weights are made once, by the first call that succeeds; the list of its weights, which is trained, saved and loaded, consists of exactly the weights it computes with, in their order. A call that fails while the layer is built does not change this.", "quantifier": "every history of calls, each succeeding, refused for its shape or failing at any weight, every number of weights", "why_tests_cant": "Tests build each layer once, without failures; the point at which building fails and the calls after it are not bounded.", "anchors": ["tf_encrypted/keras/engine/base_layer.py:Layer.__call__", "tf_encrypted/keras/engine/base_layer.py:Layer.add_weight", "tf_encrypted/keras/layers/dense.py:Dense.build", "tf_encrypted/keras/layers/convolutional.py:Conv2D.build", "tf_encrypted/keras/layers/normalization.py:BatchNormalization.build"]}
{"id": "C106", "title": "Evaluation reports the metrics that are asked for", "statement": "The dictionary returned by evaluating a model has one entry for each metric that was asked for, in whatever order and however often it was named, with the value of that metric on the labels and predictions of all samples, and no other entries. A name that is not a metric is refused.", "quantifier": "every list of metric names, every model applied sample by sample, all data and batch sizes for which the loop reaches every sample", "why_tests_cant": "Tests ask for one known metric; lists of names, repetitions and misspelt names are not bounded.", "anchors": ["tf_encrypted/keras/models/base_model.py:BaseModel.evaluate"]}
