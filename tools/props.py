#!/usr/bin/env python3
"""Regenerates /verif/properties.jsonl (one JSON object per line)."""
import json, os
P = []
def p(id, title, statement, quantifier, why, anchors):
    P.append(dict(id=id, title=title, statement=statement, quantifier=quantifier,
                  why_tests_cant=why, anchors=anchors))

p("C01", "Pond private values reconstruct exactly",
  "A value made private with Pond (define_private_input/variable/tensor) and then revealed is the value that was shared, whatever random mask was drawn and whichever of the two shares each server receives.",
  "every secret in every finite ring (native, int100, odd), every tensor shape, every random mask",
  "The mask ranges over the whole ring (2^64 or ~2^100 values); tests sample a handful.",
  ["tf_encrypted/protocol/pond/pond.py:_share", "pond.py:_reconstruct", "pond.py:_reveal_private", "pond/triple_sources.py:_share"])
p("C02", "Pond programs over shares compute the cleartext program",
  "Any finite program built from add, sub, negative, mul, square, matmul (and other bilinear maps), reduce_sum-like linear maps and public/private/masked operands, run on shares with any dealer triples and with masks reused through the cache, reveals exactly the ring value obtained by running the same program on cleartext values.",
  "every program (any length, any sharing of sub-results), every input, every dealer randomness, every ring",
  "Programs, inputs and dealer randomness form an unbounded space; a mistake in one mixed public/private/masked combination shows up only for some of it.",
  ["pond.py:_add_*", "pond.py:_sub_*", "pond.py:_mul_*", "pond.py:_square_*", "pond.py:_matmul_*", "pond.py:_mask_private", "triple_sources.py:BaseTripleSource"])
p("C03", "A single Pond server learns nothing from a share or an opened Beaver mask",
  "With masks drawn uniformly from the ring, what one server receives when a value is shared, the values opened while multiplying, and everything sent to the device on which it computes, has a distribution that does not depend on the secrets.",
  "every pair of secrets, every observed value, every finite ring",
  "Secrecy is a statement about whole distributions; a test cannot observe equality of distributions over 2^64 points.",
  ["pond.py:_share", "pond.py:_mask_private", "pond.py:_mul_masked_masked", "pond.py:_matmul_private_public"])
p("C04", "ABY3 sharings reconstruct exactly at every server",
  "A value shared by ABY3, arithmetic or boolean, is replicated consistently (servers i and i+1 agree on the common component) and every server, and any outside player, reconstructs exactly the shared value.",
  "every secret, every randomness, both share types, every word width",
  "Randomness ranges over 2^128 pairs; server-specific reconstruction paths are exercised by tests only on a few literals.",
  ["protocol/aby3/aby3.py:_share", "aby3.py:_reconstruct", "aby3.py:_reveal_private"])
p("C05", "ABY3 programs over replicated shares compute the cleartext program and stay consistent",
  "Any finite program of add/sub/negative/mul/matmul over private and public operands keeps every intermediate sharing replicated-consistent and reveals, at every server, exactly the ring value of the cleartext program.",
  "every program, every input, every correlated randomness, every ring",
  "An inconsistency between the two copies of a component is invisible to a test that reconstructs at only one server, and programs are unbounded.",
  ["aby3.py:_add_*", "aby3.py:_sub_*", "aby3.py:_mul_*", "aby3.py:_matmul_*", "aby3.py:_negative_*", "aby3.py:_gen_zero_sharing"])
p("C06", "ABY3 boolean programs compute the cleartext bitwise program",
  "Any finite program of xor/and/or/not/shifts over boolean-shared and public operands keeps sharings consistent and reveals the bitwise value of the cleartext program.",
  "every program, every input, every word width, every correlated randomness",
  "Xor-ing a public value into shares, complementing one share and shifting each share are right only by parity and linearity arguments; tests try literals.",
  ["aby3.py:_xor_*", "aby3.py:_and_*", "aby3.py:_or_*", "aby3.py:_not_private", "aby3.py:_lshift_private", "aby3.py:_rshift_private", "aby3.py:_logical_rshift_private"])
p("C07", "A single ABY3 server learns nothing from its shares or from multiplication messages",
  "With uniform randomness, the pair of components one server holds, and the resharing message it receives in a multiplication, are distributed independently of the secrets.",
  "every pair of secrets, every observed pair, every finite ring, every server",
  "A statement about equality of distributions.",
  ["aby3.py:_share", "aby3.py:_mul_private_private", "aby3.py:_gen_zero_sharing"])
p("C08", "Fixed-point encode/decode error is below one unit of precision",
  "Encoding a number that is within the configured range, and decoding it again, returns a value that differs from the number by less than 1/scaling_factor and never exceeds it in magnitude; integers with apply_scaling off round-trip exactly.",
  "every rational in range, every scaling base/precision, every ring modulus that can hold the range",
  "The range contains ~2^(int+frac) encodable points and infinitely many inputs.",
  ["pond.py:_encode", "pond.py:_decode", "aby3.py:_encode", "aby3.py:_decode", "tensor/fixed.py"])
p("C09", "Fixed-point configurations that pass validation satisfy what truncation needs",
  "For every configuration accepted by the validation step, a scaled product stays inside the ring with the statistical gap to spare, so interactive truncation's preconditions hold for every pair of in-range operands.",
  "every configuration (base, precisions, gap, modulus) and every pair of operands in range",
  "Configurations and operands are unbounded.",
  ["tensor/fixed.py:_validate_fixedpoint_config", "tensor/__init__.py", "pond.py:_truncate_private_interactive"])
p("C10", "Pond interactive truncation is off by at most one unit",
  "Truncating a private value in Pond's interactive mode yields floor(x/scale) or floor(x/scale)+1 for every mask and every sharing, as long as the value is within the double-precision bound.",
  "every value in range, every mask, every share split, every base and modulus coprime to the scale",
  "The error is mask-dependent; 2^100 masks per value.",
  ["pond.py:_truncate_private_interactive", "fixed.py:FixedpointConfig"])
p("C11", "Pond non-interactive truncation is off by at most one unit unless the shares wrap",
  "Local truncation of the two shares yields floor(x/scale)+{0,1}-type error when the shares do not wrap around; the number of masks for which the result is instead off by a huge amount is exactly bounded by |x|.",
  "every value, every mask, every power-of-two scale and word width",
  "Failure probability ~|x|/2^64 is far below what tests can hit; yet it is catastrophic.",
  ["pond.py:_truncate_private_noninteractive", "tensor/native.py:truncate", "tensor/int100.py:truncate"])
p("C12", "ABY3 default truncation is off by at most one unit",
  "ABY3's default private truncation returns floor(x/2^a) or floor(x/2^a)+1 for every randomness and every x in [-2^(n-2), 2^(n-2)); the msb-zero variants return it for every x with top bit zero.",
  "every x in range, every word width n and amount a, every randomness",
  "Error depends on randomness over the whole ring.",
  ["aby3.py:_truncate_heuristic_private", "aby3.py:_truncate_msb0_secureq8_private", "aby3.py:_truncate_msb0_cheetah_private"])
p("C13", "ABY3 local and two-round truncations: exact failure set",
  "truncate_local and mul_trunc2 are within one unit of floor(x/2^a) exactly when the signed difference of the value and the mask does not overflow, which happens with probability exactly 1 - |x+1|/2^n.",
  "every x, mask, width, amount",
  "Rare catastrophic failures cannot be sampled.",
  ["aby3.py:_truncate_local_private", "aby3.py:_mul_trunc2_private_private"])
p("C14", "Fixed-point multiplication end to end",
  "Multiplying two encoded private values, truncating and decoding gives the real product within a stated bound of a few units of precision, for all in-range operands and all randomness.",
  "every pair of rationals in range, every share split and truncation randomness",
  "Composition of encode, multiply, truncate and decode errors over an infinite domain.",
  ["pond.py:_mul_private_private", "pond.py:_truncate_private", "aby3.py:_mul_private_private", "aby3.py:truncate"])
p("C15", "Modular inverse helper",
  "inverse(a, m) returns the unique b in [0,m) with a*b = 1 mod m whenever a is invertible, and fails otherwise; egcd returns Bezout coefficients.",
  "every a and every m >= 1",
  "Unbounded integers.",
  ["tensor/helpers.py:egcd", "tensor/helpers.py:inverse"])
p("C16", "int100 (CRT) arithmetic is arithmetic modulo the product of the moduli",
  "Adding, subtracting, multiplying or matrix-multiplying int100 tensors and converting back gives the integer result, whenever that result's centred representative fits; no intermediate int32 product or sum overflows, including in long matrix products.",
  "every operand, every matrix inner dimension, every modulus list meeting the constructor's check",
  "Ten residues with ~2^100 combinations, and inner dimensions beyond the chunk size.",
  ["tensor/int100.py:crt_factory", "int100.py:_crt_decompose", "int100.py:crt_recombine_explicit", "int100.py:matmul"])
p("C17", "int100 reduction and truncation",
  "x % k on int100 tensors is the residue of the centred integer value, and truncate(f) is exact floor division by the factor, for every x.",
  "every x and factor k coprime to the modulus",
  "~2^100 values.",
  ["int100.py:crt_mod", "int100.py:_mod", "int100.py:truncate", "int100.py:__rsub__"])
p("C18", "Secure sampling is exactly uniform on the requested range",
  "The secure uniform sampler gives every value of [minval, maxval) exactly the same number of accepted raw machine words, and never returns anything outside the range.",
  "every integer width and every minval < maxval",
  "Bias of one in 2^64 is unobservable; edge ranges (full width, width-one) rarely tested.",
  ["operations/secure_random/generators.h:Generator::Uniform"])
p("C19", "Masks drawn for sharing cover the whole ring uniformly",
  "sample_uniform / sample_seeded_uniform on a tensor factory give every ring element with equal probability, so that a share hides its secret perfectly.",
  "every ring element, every factory (native, int100, odd)",
  "A single missing element out of 2^64, or a biased residue, is invisible to tests.",
  ["tensor/native.py:sample_uniform", "tensor/native.py:sample_seeded_uniform", "tensor/int100.py:sample_seeded_uniform", "protocol/securenn/odd_tensor.py:_construct_value_from_sampler"])
p("C20", "Seeded sampling never reuses keystream",
  "When some words are rejected, replacement words come from keystream positions not used by any output element nor by an earlier replacement, for every output size and any number of rejections.",
  "every output length, element size and number of rejections",
  "Rejections are vanishingly rare for most ranges.",
  ["generators.h:SeededGenerator::GetNextValidData", "generators.h:SeededGenerator"])
p("C21", "Parallel-prefix adders add",
  "Both ABY3 adder topologies (Kogge-Stone and Sklansky) return the sum modulo 2^n for all operands, and with n_bits given the sum modulo 2^n_bits.",
  "every pair of operands, every word width, every n_bits",
  "2^128 operand pairs; masks and shift schedules depend on width.",
  ["aby3.py:_ppa_kogge_stone_private_private", "aby3.py:_ppa_sklansky_private_private"])
p("C22", "The carry circuit computes the carry",
  "The log-depth carry computation used for bit extraction returns the carry out of position pos of the addition of the two operands.",
  "every operand pair, every position below the width",
  "2^128 operand pairs times 64 positions.",
  ["aby3.py:_carry_private_private", "aby3.py:_carry_private_public", "operations/aux/aux_kernels.cc:BitSplitAndGatherOp"])
p("C23", "Arithmetic/boolean conversions are inverse to each other",
  "a2b then b2a (and b2a then a2b) return a sharing of the same value; a2b yields a boolean sharing of the bits of the value, b2a an arithmetic sharing of the word, for each conversion algorithm.",
  "every value, every sharing, every randomness, every width, every nbits argument",
  "Word-sized values times word-sized randomness.",
  ["aby3.py:_a2b_private", "aby3.py:_b2a_private", "aby3.py:_b2a_single_private"])
p("C24", "Bit extraction and sign",
  "bit_extract(x, i) is a sharing of bit i of the shared word and msb(x) of its sign, for arithmetic and boolean sharings and every i.",
  "every value, every sharing, every bit position including 0 and the top bit",
  "Word-sized values times sharings; boundary positions.",
  ["aby3.py:_bit_extract_private", "aby3.py:_msb_private"])
p("C25", "Comparisons agree with integer order",
  "less_than, less_equal, greater_than, greater_equal on ABY3 values return the comparison of the signed values.",
  "every pair of word values and every sharing",
  "2^128 pairs; failures only at extremes.",
  ["aby3.py:_less_than_*", "aby3.py:_greater_than_*", "aby3.py:_less_equal_*", "aby3.py:_greater_equal_*"])
p("C26", "Equality tests are exact",
  "equal_zero and equal return 1 exactly when the values are equal, for every word including the most negative one.",
  "every word / pair of words and every sharing",
  "Failures could hide at single points such as the minimum integer.",
  ["aby3.py:_equal_zero_private", "aby3.py:_equal_private_private"])
p("C27", "Oblivious transfer and share-times-bit products",
  "Three-party OT delivers exactly the chosen message and mul_ab(x, b) is an arithmetic sharing of x*b for a private bit b, with public or private x.",
  "every message pair, choice bit, masks, sharing",
  "Word-sized randomness; role rotation between three servers.",
  ["aby3.py:_ot", "aby3.py:_mul_ab_public_private", "aby3.py:_mul_ab_private_private", "aby3.py:__mul_ab_routine"])
p("C28", "Selection, maximum, relu and compare-swap",
  "select(c, x, y) is x when c=0 and y when c=1; maximum, relu and cmp_swap return the mathematical results for all operands for which comparison is exact.",
  "every operand pair and choice",
  "Composition of comparison and selection over all words.",
  ["aby3.py:select", "aby3.py:maximum", "aby3.py:cmp_swap", "aby3.py:_relu_private", "securenn.py:select", "securenn.py:maximum", "securenn.py:relu_with_cmp"])
p("C29", "Tree reductions compute the maximum of the whole axis",
  "reduce_max returns the maximum of all elements for every axis length, and reduce_max_with_argmax returns an index at which it is attained.",
  "every list length >= 1 and every contents",
  "Odd sizes and deep trees are unbounded.",
  ["aby3.py:_reduce_max_tree_private", "aby3.py:reduce_max_with_argmax", "securenn.py:reduce_max", "securenn.py:reduce_max_with_argmax"])
p("C30", "Private sort sorts",
  "sort returns the elements of its input in ascending (or descending) order, nothing lost, duplicated or invented, for every length, including lengths that are not powers of two.",
  "every length and every contents in the comparable range, both directions",
  "Sorting networks must be checked on 2^n 0-1 inputs per size and sizes are unbounded.",
  ["aby3.py:_sort_private", "aby3.py:sort"])
p("C31", "Powers and products",
  "pow(x, p) equals x multiplied by itself p times, prod is the product of all elements of the axis, and pow2_from_bits turns bits into 2 to the encoded exponent.",
  "every exponent p >= 1, every axis length, every ring element",
  "Unbounded exponents and lengths.",
  ["aby3.py:_pow_private", "aby3.py:_prod_private", "aby3.py:_pow2_from_bits_private"])
p("C32", "Piecewise polynomials select exactly one piece",
  "polynomial_piecewise evaluates the polynomial of the interval containing x, and exactly one interval is selected, for every x and every increasing list of breakpoints.",
  "every x, every number of pieces, every increasing breakpoint list",
  "Boundary points and unbounded numbers of pieces.",
  ["aby3.py:_polynomial_piecewise_private", "aby3.py:_sigmoid_private"])
p("C33", "Protocol randomness is never reused",
  "Over any history of ABY3 operations, no (shared key, nonce) pair is used for two different draws.",
  "every sequence of protocol operations of any length",
  "Histories are unbounded, and reuse has no functional symptom.",
  ["aby3.py:_update_pairwise_nonces", "aby3.py:_gen_zero_sharing", "aby3.py:_gen_b2a_sharing", "aby3.py:_truncate_msb0_cheetah_private", "aby3.py:while_loop"])
p("C34", "Odd-modulus ring arithmetic",
  "Addition, subtraction and lifting in SecureNN's odd ring are arithmetic modulo 2^n-1, closed on the representation (the excluded pattern never appears), for every pair of elements.",
  "every pair of representable elements, every width",
  "2^128 pairs with corner cases at wrap-around.",
  ["protocol/securenn/odd_tensor.py:add", "odd_tensor.py:sub", "odd_tensor.py:_lessthan_as_unsigned"])
p("C35", "SecureNN private comparison",
  "The private-compare subprotocol returns whether the shared integer exceeds the public bound, xored with the blinding bit, for every integer, bound, blinding bit and multiplicative masks.",
  "every x, r, beta, every nonzero masks, every bit width and prime larger than needed",
  "Bit-level protocol with edge case at the wrap-around bound.",
  ["securenn.py:_private_compare"])
p("C36", "SecureNN sign and comparison operators",
  "lsb, msb, is_negative and the comparison operators of SecureNN agree with the signed value of the operands.",
  "every shared word and every share split",
  "Failures concentrate on single points and on share-dependent wrap-around.",
  ["securenn.py:msb", "securenn.py:_lsb_private", "securenn.py:cast_backing_private", "securenn.py:less", "securenn.py:greater"])
p("C37", "SecureNN bit operators",
  "bitwise_not/and/or/xor over arithmetic 0/1 values equal the boolean operations.",
  "every pair of bits in every ring, in any sharing",
  "Holds for all rings/sharings only by algebra.",
  ["securenn.py:bitwise_not", "securenn.py:bitwise_and", "securenn.py:bitwise_or", "securenn.py:bitwise_xor"])
p("C38", "Memoised operations are transparent",
  "Calling a protocol operation through the memoiser returns what a fresh evaluation of that operation with those arguments would return, for any history of calls.",
  "every history of operation calls, arguments and assignments",
  "Key collisions and stale entries appear only under particular histories.",
  ["protocol/protocol.py:memoize", "protocol/protocol.py:make_hashable", "pond.py:transpose", "pond.py:strided_slice", "pond.py:stack"])
p("C39", "Variables hold the last assigned value",
  "After any sequence of assignments, reading a private or public variable returns the most recently assigned value, also when the variable is used directly in an operation.",
  "every sequence of assigns and reads",
  "Staleness depends on history.",
  ["tensor/native.py:Variable", "tensor/int100.py:Variable.assign", "tensor/boolfactory.py:Variable.assign", "pond.py:assign", "aby3.py:assign"])
p("C40", "Private queues are first-in first-out",
  "A private FIFO queue returns values in the order they were enqueued, each exactly once, and blocks when empty or full, for any history and any number of concurrent producers.",
  "every history and every interleaving of producers and consumers",
  "Interleavings.",
  ["pond.py:AdditiveFIFOQueue", "queue/fifo.py"])
p("C41", "A serving client gets the answer to its own query",
  "QueueClient.run(x) returns the served computation applied to x, for every interleaving of clients and server steps.",
  "every number of clients and every schedule",
  "Interleavings are unbounded.",
  ["serving/queues.py:QueueServer", "serving/queues.py:QueueClient"])
p("C42", "Paillier encryption",
  "decrypt(encrypt(x)) = x, adding ciphertexts adds plaintexts and multiplying by a constant multiplies, modulo n, with or without refreshing.",
  "every key pair of distinct primes with gcd(n, phi(n))=1, every plaintext, every randomness",
  "Unbounded integers.",
  ["primitives/tf_encrypted/primitives/paillier/primitives.py"])
p("C43", "Convolution through im2col equals convolution",
  "conv2d on shared tensors, computed by patch extraction and matrix product, equals the mathematical strided, padded cross-correlation; output sizes follow the SAME/VALID formulas.",
  "every image/filter/stride size and contents",
  "Unbounded shapes; padding asymmetry for even filters.",
  ["tensor/shared.py:im2col", "tensor/shared.py:conv2d", "tensor/shared.py:out_size", "tensor/shared.py:pad_size"])
p("C44", "Converted models compute the graph and its gradients",
  "A converted ONNX graph evaluates every node once on the values its inputs name, and backward returns for each input the sum of the gradient contributions of all its consumers.",
  "every acyclic graph and every node semantics",
  "Graphs are unbounded; fan-out is the corner case.",
  ["convert/convert.py:_build_forward", "convert/convert.py:_build_backward"])
p("C45", "Bit-level kernels",
  "bit_gather/bit_split_and_gather pick every stride-th bit, bit_reverse reverses the word, xor_indices xors the positions of set bits, prefix_ORs smears the top set bit downwards, on every word.",
  "every word of every supported width, every start/stride",
  "2^64 words.",
  ["operations/aux/aux_kernels.cc", "operations/tf_i128/int128_tensor.cc", "protocol/aby3/fp.py:prefix_ORs"])
p("C46", "Floating-point style normalisation",
  "For every in-range non-zero private value, the normalisation step used by reciprocal/sqrt/log finds the top set bit and scales the value into [0.5, 1) (respectively the stated interval).",
  "every encoded value in range, every precision configuration",
  "All powers of two boundaries at every precision.",
  ["protocol/aby3/fp.py:__fp_normalize", "fp.py:approx_sqrt_inv", "fp.py:_do_fp_log_private"])
p("C47", "Protocol contexts nest",
  "Leaving a `with protocol:` block restores the protocol that was active on entry, for every nesting of protocol objects.",
  "every properly nested sequence of enters/exits",
  "Histories, including re-entering the same object.",
  ["protocol/protocol.py:Protocol.__enter__", "protocol/protocol.py:Protocol.__exit__", "__init__.py:set_protocol"])
p("C48", "Scale bookkeeping is sound",
  "Whenever an operation returns a tensor, its is_scaled flag tells truthfully whether the payload carries one factor of the scale: multiplication truncates exactly when both operands are scaled, and additions reject mismatched flags.",
  "every well-typed program and every operand scaling",
  "Flag/payload mismatches appear only for particular operand combinations.",
  ["pond.py:_mul_*", "pond.py:_add_*", "pond.py:_sub_*", "aby3.py:_mul_*", "aby3.py:_add_*", "aby3.py:_sub_*"])
p("C49", "Local computation on private inputs",
  "define_local_computation runs the player's function on the true values of its arguments and shares its results, for public and private arguments of either share type.",
  "every argument kind, value and sharing",
  "Argument-kind combinations times sharings.",
  ["aby3.py:define_local_computation", "pond.py:define_local_computation"])
p("C50", "128-bit words",
  "Encoding an integer into two 64-bit limbs and back is the identity on [-2^127, 2^127), and limb arithmetic and shifts agree with 128-bit two's-complement arithmetic.",
  "every 128-bit integer and every shift amount",
  "2^128 values; carries between limbs.",
  ["operations/tf_i128/tf_i128.py:encode", "tf_i128.py:decode", "operations/tf_i128/int128_tensor.cc", "tensor/int128.py"])
p("C51", "Exponential approximation uses every coefficient it promises",
  "exp2 on the fractional part evaluates the full truncated polynomial, including its leading coefficient, and the integer part is exact.",
  "every argument and every precision",
  "A dropped leading term shows up only as a small numeric error.",
  ["aby3.py:_exp2_pade_private", "aby3.py:_exp2_private", "aby3.py:_pow2_from_bits_private"])
p("C52", "Average pooling and padding",
  "avgpool2d returns the sum of each window divided by the window size and pad surrounds the tensor with exact zeros, for every shape.",
  "every shape, pool size, stride, paddings, contents",
  "Unbounded shapes.",
  ["pond.py:_avgpool2d_core", "pond.py:_pad_private", "pond.py:pad", "aby3.py:pad", "tensor/native.py:zeros", "tensor/native.py:pad"])
p("C53", "Gradient descent with momentum",
  "After any sequence of apply_gradients calls the weights equal the initial weights minus the sum of the velocities of the recurrence V=bV+aG, W=W-V.",
  "every sequence of gradients, every momentum and learning rate",
  "Histories.",
  ["keras/optimizers.py:SGD.apply_gradients"])
p("C54", "Player configuration",
  "Looking players up by name returns the same player every time, names map to distinct devices/indices, and saving and loading a remote configuration preserves the host map.",
  "every sequence of lookups and every host map",
  "Histories.",
  ["config.py:LocalConfig", "config.py:RemoteConfig"])
p("C55", "Interactive truncation hides the value up to the statistical gap",
  "Whatever set of observations a server looks for in the masked share it receives during interactive truncation, its probability differs for two in-range values by at most 2^-gap.",
  "every pair of values in the double-precision range, every share the server holds, every set of observations",
  "A statement about two probability distributions.",
  ["pond.py:_truncate_private_interactive", "tensor/fixed.py:FixedpointConfig"])
p("C56", "The SecureNN helper server learns nothing",
  "What the helper server receives while it assists a sign test has the same distribution for every value of the operand.",
  "every pair of operands, every sharing, every blinding bit and mask",
  "A statement about two distributions of messages; the result of the computation is correct either way.",
  ["securenn.py:_lsb_private", "securenn.py:_private_compare"])
p("C57", "Patches are reassembled where they were taken", "patches2im adds every entry of every patch back to the pixel that im2patches read it from, so the gradient of a pooling layer reaches the pixels that were pooled.",
  "every image, patch and stride size, SAME and VALID, all contents", "Overlapping windows, asymmetric padding and unequal strides interact; tests use square cases.",
  ["tensor/shared.py:patches2im", "tensor/shared.py:im2patches", "keras/layers/pooling.py:backward"])

p("C58", "Adaptive optimizers",
  "After any sequence of apply_gradients calls Adam and AMSgrad have moved each weight by the sum, over its gradients, of lr*M/sqrt(V) with the averages (bias-corrected, respectively maximised) of the gradients seen so far by that weight, whatever happens to other layers in between.",
  "every history of calls over every set of layers, every hyperparameter",
  "Histories; interleavings of layers.",
  ["keras/optimizers.py:Adam.apply_gradients", "keras/optimizers.py:AMSgrad.apply_gradients"])
p("C59", "The private reciprocal is close to the real one",
  "reciprocal(x) of a private tensor succeeds and returns y with x*y close to 1: the residual of the first linear guess, raised to the fifth power once per round, plus a few units in the last place; for values of either sign, with or without nonsigned, and no server learns anything about x.",
  "every tensor of in-range values, every sharing, every draw of the protocol's randomness, every number of rounds, every word width and precision",
  "Random roundings happen inside the iteration; bounds hold for all of them and for all values.",
  ["aby3/fp.py:_fp_recip_private", "aby3/aby3.py:reciprocal"])
p("C60", "The private inverse square root is close to the real one",
  "inv_sqrt(x) of a private tensor of positive values succeeds and returns 1/sqrt(x) up to a relative error, which every round squares, and a few units in the last place; a precision below a quarter of the word size is refused; and no server learns anything about x.",
  "every tensor of positive in-range values, every sharing, every draw of the protocol's randomness, every number of rounds, both word sizes and every admissible precision",
  "Random roundings happen inside the iteration, and the scale depends on the position and parity of the leading bit; the bound holds for all of them.",
  ["aby3/fp.py:_fp_inv_sqrt_private", "aby3/fp.py:approx_sqrt_inv", "aby3/aby3.py:inv_sqrt"])
p("C61", "The private exponential is close to the real one",
  "exp(x) of a private tensor succeeds and returns e^x up to a stated relative error and a few units in the last place, for every x up to the largest one whose exponential the protocol can represent, however small x is; the variant exp(x, approx_type='infinity') returns (1 + x/128)^128 up to rounding for x in its range; and no server learns anything about x.",
  "every tensor of in-range values, every sharing, every draw of the protocol's randomness, both word sizes and every admissible precision",
  "The argument is rescaled, split into integer and fractional bits and recombined after random roundings; the bound holds for every value and every rounding.",
  ["aby3/aby3.py:_exp_private", "aby3/aby3.py:_exp2_private", "aby3/aby3.py:exp"])
p("C62", "The private softmax is close to the real one",
  "softmax(x) of a private tensor with at least two classes succeeds and returns, along the last axis, values that differ from exp(x_i)/sum_j exp(x_j) by a stated relative error and a few units in the last place, and that add up to one up to a stated error; this holds however large or far apart the logits are; and no server learns anything about x.",
  "every number of classes up to the bound set by the precision, every batch, all logits of moderate size, every sharing, every draw of the protocol's randomness, both ways of finding the maximum",
  "The result combines a sorting network, the exponential, a sum and a reciprocal, each with its own random roundings and ranges; the claim is that none of the ranges is ever left.",
  ["aby3/aby3.py:_softmax_private", "aby3/aby3.py:_reduce_max_network_private", "aby3/aby3.py:softmax"])
p("C63", "The private sigmoid is close to the logistic function",
  "sigmoid(x) of a private tensor succeeds and returns a number within 0.042 (0.076 for the three-piece variant), plus a few units in the last place, of 1/(1+e^-x), for every x from hugely negative to hugely positive; with at least 14 fractional bits the result lies between 0 and 1; an unknown approximation is refused; and no server learns anything about x.",
  "every tensor of in-range values, every sharing, every draw of the protocol's randomness, every word size and every admissible precision, both approximations",
  "The claim is about a continuum of arguments, the seams between the pieces and every random rounding of the products.",
  ["aby3/aby3.py:_sigmoid_private", "aby3/aby3.py:_polynomial_piecewise_private", "aby3/aby3.py:sigmoid"])
p("C64", "Training, prediction and evaluation go over the data as documented",
  "fit(x, y, batch_size, epochs) trains once per epoch on the entire data, in order, in batches of batch_size (steps_per_epoch batches per epoch if given; an iterator is consumed in order); predict(x) returns one prediction per sample, in order, for every batch size, and opens the predictions exactly if reveal is set in that call; evaluate(x, y) measures on all samples; every such call with a positive batch size ends.",
  "every data set (number of samples and shape of a sample), batch size, number of epochs and steps, and every sequence of predict calls on one model",
  "A test that trains for one epoch on data with more features than samples, or checks only that the loss falls, does not see samples that are never visited; the flags of earlier calls matter.",
  ["keras/models/base_model.py:BaseModel.fit", "keras/models/base_model.py:BaseModel.predict", "keras/models/base_model.py:BaseModel.evaluate", "keras/models/base_model.py:data_wrap"])
p("C65", "Training follows the gradient of the loss",
  "One training step on a batch moves every weight of every trainable layer of a Sequential model by the learning rate times the partial derivative of the batch's loss by that weight, taken at the old weights; the loss functions' gradients are those of the losses they report; lazy normalization gives the same weights; layers that cannot be trained raise.",
  "every stack of Dense, ReLU, Activation, Flatten, Reshape and GlobalAveragePooling2D layers, every size, all weights, inputs and targets (exact real arithmetic)",
  "Derivatives at all points of all networks cannot be sampled; a gradient that is merely correlated with the true one also makes the loss fall in tests.",
  ["keras/layers/dense.py:Dense.backward", "keras/layers/relu.py:ReLU.backward", "keras/layers/activation.py:Activation.backward", "keras/layers/flatten.py:Flatten.backward", "keras/layers/reshape.py:Reshape.backward", "keras/layers/pooling.py:GlobalAveragePooling2D.backward", "keras/losses.py", "keras/activations.py", "keras/models/sequential.py:Sequential.backward", "keras/models/base_model.py:BaseModel.fit_batch"])
p("C66", "Convolution layers are trained along the gradient",
  "A Conv2D layer outputs the strided, padded cross-correlation of its input with its kernel plus the bias, in the shape it reports; in training it moves the kernel and the bias by the learning rate times the partial derivatives of the loss, and passes the exact gradient on to the layer before it; lazy normalization gives the same weights.",
  "every number of images, channels and filters, every size of image and square kernel, both paddings and data formats, any strides, with and without bias and activation, all weights and inputs (exact real arithmetic)",
  "The backward pass is itself built of two convolutions of expanded, padded, flipped tensors; whether the sizes fit and every product lands at the right pixel depends on size, kernel, stride and padding together, and a wrong gradient still lets a network learn.",
  ["keras/layers/convolutional.py:Conv2D.call", "keras/layers/convolutional.py:Conv2D.backward", "keras/layers/convolutional.py:Conv2D.pad_size", "keras/layers/convolutional.py:Conv2D.compute_output_shape", "protocol/aby3/aby3.py:_expand_private", "protocol/aby3/aby3.py:_reverse_private"])
p("C67", "Pooling layers output window averages and maxima and are trained along the gradient",
  "AveragePooling2D and MaxPooling2D output the average and the largest entry of every zero-padded window, in the shape they report, and in training pass on the exact gradient; GlobalMaxPooling2D outputs the largest pixel of every channel, in the shape it reports, and passes on the exact gradient.",
  "every number of images and channels, every size of image and pool, both paddings and data formats, any strides, all inputs (exact real arithmetic; for the maxima all inputs at which the maximum is differentiable)",
  "The gradient is put back together from overlapping patches; whether every share of it lands at the pixel it came from depends on image, pool, stride and padding together, and a wrong gradient still lets a network learn.",
  ["keras/layers/pooling.py:AveragePooling2D", "keras/layers/pooling.py:MaxPooling2D", "keras/layers/pooling.py:GlobalMaxPooling2D", "keras/layers/pooling.py:Pooling2D.compute_output_shape", "protocol/aby3/aby3.py:_maxpool2d_with_argmax_private", "protocol/aby3/aby3.py:_patches2im_private"])
p("C68", "Private logarithms are close to the logarithm",
  "tfe.log of a private positive number, and the base 2, 10 and e logarithms of the fixed-point module, are within a stated small error of the true logarithm, and no server learns anything about the number.",
  "every tensor of positive values in range, every sharing, every draw of randomness, every word width and precision wide enough",
  "The value is a polynomial of degree seven (or two, after a reduction by a power of two) computed with a random rounding at every product; tests try a few numbers at one precision.",
  ["protocol/aby3/aby3.py:_log_private", "protocol/aby3/fp.py:_do_fp_log_private", "protocol/aby3/fp.py:_fp_log2_private", "protocol/aby3/fp.py:_fp_log10_private", "protocol/aby3/fp.py:_fp_ln_private"])
p("C69", "Pond's activation functions are close to the functions they are named after",
  "tfe.sigmoid, tfe.relu, tfe.tanh and tfe.log of a private tensor under the Pond protocol decode to within a stated small error of the function, and with a hiding truncation no server learns anything about the tensor.",
  "every tensor of representable inputs, every sharing, triple, mask and draw, in both interactive fixed-point configurations of the library",
  "The functions are polynomials of high degree evaluated with a rounding at every product and coefficients near the resolution of the encoding; the tests try a handful of small inputs.",
  ["protocol/pond/pond.py:Pond.sigmoid", "protocol/pond/pond.py:Pond.relu", "protocol/pond/pond.py:Pond.tanh", "protocol/pond/pond.py:Pond.log"])
p("C70", "The 'as2019' variants of the private powers are close to the real powers",
  "tfe.exp2 and tfe.exp of a private ABY3 tensor with approx_type='as2019' decode to within a stated small error of 2^x and e^x, and no single server learns anything about the tensor.",
  "every tensor of representable inputs, every sharing and every draw of the truncations",
  "For negative inputs the result is the reciprocal of a power, so it depends on how many bits the reciprocal looks at; the tests try a few numbers near zero.",
  ["protocol/aby3/aby3.py:_exp2_private", "protocol/aby3/aby3.py:_exp_private", "protocol/aby3/fp.py:_fp_recip_private"])
p("C71", "A depthwise convolution layer filters every channel on its own, reports its output shape, and takes its own weights",
  "tfe.keras.layers.DepthwiseConv2D applied to a batch of images gives, for channel c and multiplier m, the correlation of channel c with its m-th kernel plus the bias; compute_output_shape gives the shape of that result; and the list of weights of a layer can be passed to set_weights of the same layer.",
  "every kernel size, stride, padding, multiplier, number of channels, both channel orders, every batch and image size, with or without bias",
  "The layer is built from a full convolution with masked kernels; the tests use multiplier one and a single shape.",
  ["keras/layers/convolutional.py:DepthwiseConv2D"])
p("C72", "Setting weights puts exactly the given weights in every layer and changes nothing else",
  "After model.set_weights(weights) with numpy arrays, private variables or another model's weights, every layer has the weights given for it, batch normalisations have the matching denominator, and nothing else has changed, in particular not the model the weights were taken from; a list that does not fit is refused and leaves the model as it was.",
  "every sequence of layers, every list of weights and every state of the variables",
  "Weights are passed by reference and written in place layer by layer, so what a call changes depends on which lists are shared and on how far it got before it failed; tests set matching weights once and never use the source again.",
  ["keras/engine/base_layer.py:set_weights", "keras/models/sequential.py:set_weights", "keras/models/sequential.py:clone_model", "keras/layers/normalization.py:set_weights", "keras/layers/convolutional.py:DepthwiseConv2D.set_weights", "keras/optimizers.py:apply_gradients", "protocol/pond/pond.py:assign", "protocol/aby3/aby3.py:assign"])
p("C73", "A private tensor written to disk is read back with the same values",
  "After any sequence of tfe.write calls, the tensors obtained from tfe.read open, for every server, to the values of the tensors that the prefixes stand for (everything since the last write that did not append), row after row and over again; a server's files depend on its own shares only; an interrupted write leaves the old or the new contents.",
  "every history of writes with and without append to any prefixes, every placement of the servers on machines, every order and every interruption of the single file writes, every shape and batch",
  "Six files are written without coordination; whether they fit together depends on the whole history, on which of the writes were carried out, and on how records and batches divide; the tests write one tensor and read it once.",
  ["protocol/aby3/aby3.py:_write_private", "protocol/aby3/aby3.py:_read_", "protocol/aby3/aby3.py:write", "protocol/aby3/aby3.py:read", "operations/dataset/write_record.cc:Compute"])
p("C74", "Iterating over a private tensor delivers its rows",
  "The batches of tfe.iterate open, for every server, to rows of the tensor, scaled and shared as the tensor is: in order and wrapping around if the rows are repeated, each exactly once in some order if they are shuffled and not repeated; every row is delivered.",
  "every number of rows, batch size, seed, and sequence of random numbers, with or without repetition and shuffling",
  "The six shares are shuffled independently of each other, so the result is meaningful only if the orders agree for all seeds; the only test is skipped.",
  ["protocol/aby3/aby3.py:_iterate_private", "protocol/aby3/aby3.py:iterate"])
p("C75", "Batch normalisation normalises with the statistics it was given",
  "tfe.keras.layers.BatchNormalization maps an entry x of a channel to gamma * (x - mean) / sqrt(variance + epsilon) + beta with that channel's parameters, after the layer is built and after every set_weights, with gamma and beta left out if scale or center is off; it accepts data of every rank and the axis that Keras uses by default, and can be part of a model that is trained.",
  "every number of samples, channels and pixels, matrices and images in both channel orders, every parameter and epsilon, every sequence of set_weights",
  "The denominator is stored apart from the variance and the parameters are broadcast; that they belong together and to the right channel must hold after every history of assignments, and the tests compare single batches of one shape.",
  ["keras/layers/normalization.py:BatchNormalization"])
p("C76", "Reshape and Flatten deliver the shape they declare and keep the order of the entries",
  "Whenever compute_output_shape of Reshape or Flatten gives a shape, applying the layer gives a tensor of that shape whose samples have the same entries in row-major order (channels last for Flatten), and where it raises ValueError applying the layer raises too; backward restores the shape of the input.",
  "every input shape, target shape and batch",
  "Two separate computations infer the missing dimension, one in the library and one in TensorFlow; whether they agree depends on divisibility, zeros and signs of all dimensions.",
  ["keras/layers/reshape.py:Reshape", "keras/layers/flatten.py:Flatten"])
p("C77", "Every weighted and pooling node of a converted model computes its ONNX operator and declares the shape of its result",
  "A converted MatMul, Gemm, Conv, BatchNormalization, AveragePool, MaxPool, GlobalAveragePool, GlobalMaxPool, ReduceMean or ReduceMax node, applied to a tensor, gives what the ONNX documentation says for the node's attributes (attributes that are absent have their documented defaults) and the node's declared output shape is the shape of that result up to the size of the batch; a node that is not supported is refused at conversion.",
  "every list of attributes, every constant weight, every input shape and tensor",
  "The converter reads some attributes by position, ignores others and hands the rest to layers with their own conventions; whether the result is the operator depends on all attributes and shapes, and the tests convert a few fixed networks.",
  ["convert/nodes.py:MatmulNode", "convert/nodes.py:GemmNode", "convert/nodes.py:Conv2dNode", "convert/nodes.py:BatchnormalizationNode", "convert/nodes.py:AvgpoolNode", "convert/nodes.py:MaxPoolNode", "convert/nodes.py:GlobalAvgpoolNode", "convert/nodes.py:GlobalMaxPoolNode", "keras/layers/pooling.py:GlobalPooling2D"])
p("C78", "Every arithmetic and shape-changing node of a converted model computes its ONNX operator and declares the shape of its result",
  "A converted Add, Sub, Mul, Neg, Relu, Softmax, Reshape, Flatten, Transpose, Unsqueeze, Squeeze, Concat, Split, Slice, Gather or Pad node, applied to tensors of the declared shapes, gives what the ONNX documentation says for the node's attributes and inputs (those that are absent have their documented defaults), and the node's declared output shapes are the shapes of the results up to dimensions declared unknown; a node that is not supported is refused at conversion.",
  "every list of attributes, every constant input, every declared shape and every tensor of that shape",
  "Whether entries end up where the operator says depends on ranks, negative axes, unknown batch sizes and defaults in combination; the tests convert a few fixed networks with one batch size.",
  ["convert/nodes.py:AddNode", "convert/nodes.py:SubNode", "convert/nodes.py:MulNode", "convert/nodes.py:NegativeNode", "convert/nodes.py:ReluNode", "convert/nodes.py:SoftmaxNode", "convert/nodes.py:ReshapeNode", "convert/nodes.py:FlattenNode", "convert/nodes.py:TransposeNode", "convert/nodes.py:ExpandDimsNode", "convert/nodes.py:SqueezeNode", "convert/nodes.py:ConcatNode", "convert/nodes.py:SplitNode", "convert/nodes.py:StrideSliceNode", "convert/nodes.py:GatherNode", "convert/nodes.py:PadNode"])
p("C79", "Training a converted model uses the true gradients of its nodes and of the whole graph",
  "For a converted model, the gradient handed to each input of an Add, Sub, Mul, Neg, Reshape, Flatten, Transpose, Unsqueeze, Squeeze, Concat, Split, Slice, Gather, Stack, Pad, MatMul, Gemm, Conv, AveragePool, MaxPool, GlobalAveragePool, ReduceMean, Relu, Sigmoid, Softmax or BatchNormalization node, and to its weights, has the shape of that input or weight and is the derivative of the loss with respect to it whenever the gradient handed to the node is the derivative with respect to its output; and the gradients returned for the inputs of the model are the derivatives of what the model computes.",
  "every graph, every shape, every value of the inputs, every direction in which they move and every gradient of the outputs",
  "A gradient is a statement about all directions at a point and all points; a finite difference test at a few points with one batch size sees neither broadcasting nor unknown dimensions.",
  ["convert/nodes.py:AddNode.backward", "convert/nodes.py:SubNode.backward", "convert/nodes.py:MulNode.backward", "convert/nodes.py:NegativeNode.backward", "convert/nodes.py:ReshapeNode.backward", "convert/nodes.py:FlattenNode.backward", "convert/nodes.py:TransposeNode.backward", "convert/nodes.py:ExpandDimsNode.backward", "convert/nodes.py:SqueezeNode.backward", "convert/nodes.py:ConcatNode.backward", "convert/nodes.py:SplitNode.backward", "convert/nodes.py:StackNode.backward", "convert/nodes.py:StrideSliceNode.backward", "convert/nodes.py:GatherNode.backward", "convert/nodes.py:PadNode.backward", "convert/nodes.py:MatmulNode.backward", "convert/nodes.py:GemmNode.backward", "convert/nodes.py:Conv2dNode.backward", "convert/nodes.py:AvgpoolNode.backward", "convert/nodes.py:MaxPoolNode.backward", "convert/nodes.py:GlobalAvgpoolNode.backward", "convert/nodes.py:ReluNode.backward", "convert/nodes.py:SigmoidNode.backward", "convert/nodes.py:SoftmaxNode.backward", "convert/nodes.py:BatchnormalizationNode.backward", "convert/convert.py:Converter._build_backward"])
p("C80", "Data split among owners: parts of the same samples stay aligned, and every owner delivers its own samples",
  "When the MNIST data set is split by slicing among data owners, then (vertical split) the i-th batches of all owners of image rows and of the owner of the labels are about the same samples in the same order, for every i, and the rows put side by side are the whole images; (horizontal split) the owner of samples a to b delivers these and no others. Within one pass every sample occurs at most once, and exactly once if the batch size divides the number of samples; a pass has as many batches as the object announces. A data owner hands out the batches of its generator in order. This holds for every slice, also of a slice, for every way of using the objects, and after a process has died at any moment.",
  "every slice, batch size, data, order produced by the seeded shuffle, history of record files on the disk of every owner, crash point, and every interleaving of requests to the iterators of an owner",
  "Tests use one slice and look at the first batch on a clean disk; alignment concerns all batches of a run, all histories of cached files, and crashes while they are written.",
  ["keras/datasets/mnist.py:MnistDataset", "keras/datasets/mnist.py:HMnistDataset", "keras/datasets/mnist.py:VMnistDataset", "keras/datasets/convert.py", "player/data_owner.py:DataOwner"])
p("C81", "A sealed tensor opens to exactly the tensor that was sealed, or not at all",
  "For tensors sealed with the easy-box functions: the receiver opens what the sender sealed to the same tensor, of the same shape and type; opening succeeds only for ciphertexts and authenticators that sealing with the keys of these two parties in these roles produces, and yields the tensor, type and shape the sender gave; the ciphertext depends on nothing but type size and shape as long as the key stream is uniform.",
  "every type, shape and value, every pair of keys, every nonce, every ciphertext and authenticator presented for opening",
  "Tests seal and open one tensor; that nothing else opens is a statement about all ciphertexts, types and shapes.",
  ["primitives/tf_encrypted/primitives/sodium/python/easy_box.py:seal_detached", "primitives/tf_encrypted/primitives/sodium/python/easy_box.py:open_detached", "primitives/tf_encrypted/primitives/sodium/cc/easy_box_kernels.cc", "primitives/tf_encrypted/primitives/sodium/cc/ops.cc"])
p("C82",
  "A cloned model computes what the Keras model computes",
  "clone_model returns a model that computes, up to the approximations of its single layers, what the given Keras model computes: the same layers, connected in the same way, each with its own weights. What the library cannot reproduce is refused.",
  "every Keras model with one input, every number of layers, every connection of them, every configuration and weights",
  "Tests clone a handful of small sequential models; models with shared layers, branches or several outputs are not covered.",
  ["tf_encrypted/keras/models/sequential.py:clone_model", "tf_encrypted/keras/models/sequential.py:model_from_config", "tf_encrypted/keras/models/sequential.py:_instantiate_tfe_layer", "tf_encrypted/keras/models/sequential.py:Sequential.set_weights"])
p("C83",
  "Dividing by a public number, and the average of private inputs",
  "A private tensor divided by a public number is the quotient up to the precision of the fixed-point format, and add_n(inputs) / len(inputs) is the average of the inputs of all owners. Nobody learns anything but the number of owners.",
  "every number of owners, every tensors, every divisor, every sharing and draw, every word width and precision (ABY3, Pond)",
  "Tests divide single tensors by 2; the error depends on the divisor, the size of the sum and the number of owners, and secrecy is a statement about distributions.",
  ["tf_encrypted/protocol/aby3/aby3.py:ABY3.div", "tf_encrypted/protocol/aby3/aby3.py:ABY3.add_n", "tf_encrypted/protocol/aby3/aby3.py:_mul_pow2_private", "tf_encrypted/protocol/pond/pond.py:Pond.div", "tf_encrypted/protocol/pond/pond.py:_reciprocal_public", "tf_encrypted/protocol/pond/pond.py:_sqrt_public", "tf_encrypted/protocol/aby3/aby3.py:_reciprocal_public", "examples/application/simple-average/run.py", "examples/application/federated-learning/run.py"])
p("C84",
  "An operation on the wrong kind of sharing is refused",
  "Private tensors are shared arithmetically or as booleans. An operation applied to tensors of any kind returns a sharing of the result, with the right kind, or raises; it never returns silently something else.",
  "every program of operations, operators or functions, every combination of kinds, every sharing and random numbers (ABY3)",
  "Tests apply operations to the kind they are for; the kind is a run-time tag, and a wrong result of one sharing may be right for another.",
  ["tf_encrypted/protocol/aby3/aby3_tensors.py:ABY3Tensor", "tf_encrypted/protocol/aby3/aby3.py:_add_private_private", "tf_encrypted/protocol/aby3/aby3.py:_negative_private", "tf_encrypted/protocol/aby3/aby3.py:_reduce_sum_private", "tf_encrypted/protocol/aby3/aby3.py:_concat_private", "tf_encrypted/protocol/aby3/aby3.py:_rshift_private", "tf_encrypted/protocol/aby3/aby3.py:_not_private", "tf_encrypted/protocol/aby3/aby3.py:_mul_private_private", "tf_encrypted/protocol/aby3/aby3.py:_transpose_private", "tf_encrypted/protocol/aby3/aby3.py:_gather_private", "tf_encrypted/protocol/aby3/aby3.py:_split_private"])
p("C85",
  "The search through a graph finds exactly the nodes that can be reached",
  "`reachable_nodes` of any tensors and operations, given singly, repeated or in nested lists, ends and returns exactly the nodes from which the given ones are computed, control inputs included; it raises when and only when one of them is neither a tensor nor an operation.",
  "every finite graph, with or without cycles, and every nesting of starting nodes",
  "Tests search a few small acyclic graphs; loops in graphs (while loops) and shared sub-graphs are not tried.",
  ["tf_encrypted/utils.py:reachable_nodes", "tf_encrypted/utils.py:flatten"])
p("C86",
  "A compiled function returns what the plain function returns",
  "Calling a function decorated with `tfe.function` raises what the plain function raises, or returns the same nesting of tensors with the same shares, data types, flags and kinds of sharing.",
  "every function, all arguments and results nested to any depth, every kind of tensor of both families of protocols",
  "Tests compile a few functions of one or two tensors of the default data type.",
  ["tf_encrypted/protocol/protocol.py:function", "tf_encrypted/protocol/protocol.py:unwrap_func", "tf_encrypted/protocol/protocol.py:wrap_func", "tf_encrypted/protocol/protocol.py:input_unwrap", "tf_encrypted/protocol/protocol.py:input_wrap", "tf_encrypted/protocol/pond/pond.py:from_bone", "tf_encrypted/protocol/aby3/aby3.py:from_bone", "tf_encrypted/protocol/aby3/aby3_tensors.py:bone", "tf_encrypted/tensor/__init__.py:factories"])
p("C87",
  "Results of operations can be used where they were asked for",
  "An operation called in eager code or inside of a compiled function returns a tensor that can be used there, whatever was computed before, inside or outside of compiled functions.",
  "every history of calls in eager code and in traces of compiled functions",
  "Tests compile one function and use its result; the cache of operations is shared by everything in the process.",
  ["tf_encrypted/protocol/protocol.py:memoize", "tf_encrypted/protocol/protocol.py:function"])
p("C88",
  "A private prediction is close to the prediction in the clear, and reveals nothing",
  "Running a feed-forward network (Dense or Conv2D layers with or without bias, relu or no activation, MaxPooling2D and AveragePooling2D layers, a sigmoid or softmax at the end if wanted) in ABY3 on private inputs with private weights gives numbers within a stated error of what the network computes on the numbers themselves, hence the same class whenever the margin exceeds the errors; no server learns anything about weights or inputs.",
  "every number and shape of layers and samples, all weights and inputs, all sharings and random draws, every server",
  "Tests compare a few predictions of small trained models with a loose tolerance; they cannot bound the error for all weights, and no test can check secrecy.",
  ["tf_encrypted/keras/layers/dense.py:call", "tf_encrypted/keras/layers/convolutional.py:call", "tf_encrypted/keras/layers/pooling.py:call", "tf_encrypted/keras/models/sequential.py:call", "tf_encrypted/protocol/aby3/aby3.py:_matmul_private_private", "tf_encrypted/protocol/aby3/aby3.py:_conv2d_private_private", "tf_encrypted/protocol/aby3/aby3.py:_maxpool2d_with_argmax_private", "tf_encrypted/protocol/aby3/aby3.py:_avgpool2d_private", "tf_encrypted/protocol/aby3/aby3.py:relu_with_cmp"])
p("C89",
  "Federated training follows gradient descent and shows nobody a single gradient",
  "Training with federated_training (owners of data compute gradients locally, the ABY3 servers average them, the owner of the model decrypts the average and takes a step): while gradients are bounded so that sums and products fit in the words, no round raises and the weights after any number of rounds are those of gradient descent along average gradients that are off by at most 2 + kG units in the last place (k owners, gradients at most G); for L-Lipschitz gradients they differ from exact descent by at most lr*eps*sum_{t<T}(1+lr*L)^t. What a server sees depends only on the numbers of rounds and owners. What the owner of the model gets depends only on the sums of the encoded gradients.",
  "every number of rounds, owners and weights, all gradient functions, learning rates, sharings and random draws, every server",
  "The example trains one model on one dataset with three owners; no test can bound the drift over all gradients and rounds, or check what the parties learn.",
  ["examples/application/federated-learning/run.py:federated_training", "examples/application/federated-learning/run.py:ModelOwner", "examples/application/federated-learning/run.py:DataOwner", "tf_encrypted/protocol/aby3/aby3.py:add_n", "tf_encrypted/protocol/aby3/aby3.py:div"])
p("C90",
  "Private training of a logistic regression follows gradient descent and hides data and weights",
  "Training a logistic regression with fit on private data (ABY3, one Dense(1) layer with bias, BinaryCrossentropy from logits with lazy normalization, SGD with learning rate and momentum): while the numbers fit into the words, the weights, the bias and the momentum terms that the servers hold after any number of batches differ from those of exact gradient descent with momentum on the mean cross entropy by at most noise*(1+K+...+K^(n-1)); noise is lr*A times the error 0.042 of the piecewise linear sigmoid plus a number of units in the last place, K = 1+momentum+lr*A*(kA+1) for k features of size at most A. Apart from the losses that fit reveals on purpose, what a server sees depends on nothing but the number and the shape of the batches.",
  "every number of batches, samples and features, all data, labels in [0,1], start weights, learning rates, momenta, sharings and random draws, every server",
  "Tests train a few steps on one dataset and compare with a loose tolerance; the error of every step feeds into the next gradient, and no test can bound it for all data and all numbers of steps or check what the servers learn.",
  ["examples/models/logistic_regression.py:logistic_regression", "tf_encrypted/keras/models/base_model.py:fit_batch", "tf_encrypted/keras/models/base_model.py:fit", "tf_encrypted/keras/layers/dense.py:Dense", "tf_encrypted/keras/losses.py:BinaryCrossentropy", "tf_encrypted/keras/optimizers.py:SGD", "tf_encrypted/protocol/aby3/aby3.py:sigmoid"])
p("C91",
  "Joint training sees the data of all owners",
  "Joint training on split data: when each of several owners holds some of the samples (horizontal split), every epoch of fit sees the samples of all owners, each at most once; when each of three owners holds some rows of every image (vertical split), every batch consists of whole images with their own labels. The generators that combine the owners' batches end when the data end.",
  "all data sets of MNIST shape, batch sizes, shuffles, ways to split the samples or the rows, numbers of owners, numbers of epochs and steps",
  "Tests look at the first few batches; that an owner is never reached in a whole training, that no sample is seen twice or that every row meets its own image is a statement about all steps of all epochs.",
  ["examples/application/joint-train/horizontal-training.py:horizontal_combine", "examples/application/joint-train/vertical-training.py:vertical_combine", "tf_encrypted/player/data_owner.py:DataOwner"])
p("C92",
  "A layer honours its arguments or refuses them",
  "Whatever arguments a Keras layer is constructed with, either the constructor raises, or the layer works as the arguments ask for according to the documentation of TensorFlow: no parameter is silently ignored or changed, and parameters that are not given have TensorFlow's defaults.",
  "all kinds of layers with a constructor of their own, all sets of keyword arguments with arbitrary values, both settings of the data format of the backend, all documented parameters",
  "Tests construct layers with a few arguments; an argument that is accepted and ignored changes the model without an error and can only be found by looking at every parameter of every layer.",
  ["tf_encrypted/keras/layers/layers_utils.py:default_args_check", "tf_encrypted/keras/engine/base_layer.py:Layer.__init__", "tf_encrypted/keras/layers/dense.py:Dense.__init__", "tf_encrypted/keras/layers/convolutional.py:Conv2D.__init__", "tf_encrypted/keras/layers/convolutional.py:DepthwiseConv2D.__init__", "tf_encrypted/keras/layers/normalization.py:BatchNormalization.__init__", "tf_encrypted/keras/layers/pooling.py:Pooling2D.__init__", "tf_encrypted/keras/layers/relu.py:ReLU.__init__", "tf_encrypted/keras/activations.py:get"])
p("C93",
  "Layer names are unique",
  "A layer has the name it is given, and in one graph the names of all layers differ from each other: a layer that is created without a name gets one that no other layer has. Finding such a name always ends, and a name that the caller wants to avoid is never returned.",
  "all histories of layers of all classes created with and without names, all states of the counters, all lists of names to avoid, counting from zero and from one",
  "A test creates a few layers; whether a number is ever given out twice depends on the whole history of the graph and on the names of classes.",
  ["tf_encrypted/keras/engine/base_layer_utils.py:unique_object_name", "tf_encrypted/keras/engine/base_layer.py:Layer._init_set_name", "tf_encrypted/keras/engine/input_layer.py:InputLayer.__init__", "tf_encrypted/keras/models/base_model.py:BaseModel.__init__"])
p("C94",
  "reduce_max takes the arguments of tf.reduce_max",
  "For a private ABY3 tensor, reduce_max(x, axis, keepdims, method) returns, in shape and in every entry, what tf.reduce_max(x, axis, keepdims) returns, whichever of the two methods is chosen: over all axes or along one, counted from the front or the end, with the axis kept or dropped. A call that cannot be answered raises.",
  "all ranks, shapes and entries, all axes (none, positive, negative, outside the tensor), keepdims true and false, all methods",
  "Tests reduce one matrix along its two axes with the default method; the combinations of rank, axis, sizes that are not powers of two, keepdims and method are unbounded.",
  ["tf_encrypted/protocol/aby3/aby3.py:ABY3.reduce_max", "tf_encrypted/protocol/aby3/aby3.py:_reduce_max_tree_private", "tf_encrypted/protocol/aby3/aby3.py:_reduce_max_network_private", "tf_encrypted/protocol/aby3/aby3.py:_sort_private"])
p("C95",
  "argmax returns positions in the documented shape",
  "argmax(x, axis, output_style) and reduce_max_with_argmax(x, axis, keepdims, output_style) return, beside the maximum of tf.reduce_max, the positions of the largest entries along the axis: as numbers in the shape of tf.argmax(x, axis), or one-hot along the axis in the shape of x. This holds for tensors of any rank and any axis, counted from the front or from the end. A call that cannot be answered raises.",
  "all ranks, shapes and entries, all axes (positive, negative, outside the tensor), keepdims true and false, both output styles, ABY3 and SecureNN",
  "Tests use one matrix and the axes 0 and 1; the constants that are compared have shapes computed from the axis, and broadcasting hides wrong shapes for the sizes tested.",
  ["tf_encrypted/protocol/aby3/aby3.py:ABY3.argmax", "tf_encrypted/protocol/aby3/aby3.py:ABY3.reduce_max_with_argmax", "tf_encrypted/protocol/aby3/aby3.py:_reduce_max_with_argmax_private", "tf_encrypted/protocol/securenn/securenn.py:SecureNN.reduce_max_with_argmax"])
p("C96",
  "Decorated functions run at the player that was named",
  "A function decorated with local_computation, called with any arguments, is run at the player named in the decorator, else by the keyword player_name of the call, else by the attribute player_name of its first argument, and at no other. It is run on the true values of the arguments of the call, positional and keyword, and the call returns what it returns, shared as the options of the decorator say. If no player is named, the named player does not exist, or an option does not exist, the call raises.",
  "all functions, all positional and keyword arguments, all three ways of naming a player and all their combinations, all local and remote configurations, all options, ABY3 and Pond",
  "There are no tests of the decorator with more than one source of the name, of methods, or of keyword arguments; every existing test names the player in the decorator.",
  ["tf_encrypted/protocol/aby3/aby3.py:ABY3.local_computation", "tf_encrypted/protocol/pond/pond.py:Pond.local_computation", "tf_encrypted/config.py:LocalConfig.get_player", "tf_encrypted/config.py:RemoteConfig.get_player"])
p("C97",
  "Input makes a tensor of the shape that was asked for, or refuses",
  "Input(shape, batch_size, ...) and Input(batch_shape=...) return a private tensor of zeros of exactly the shape that was asked for, with shapes given as tuple, number or TensorShape, and the batch size is optional as documented. The first layer of a Sequential model gets an input of the shape given to the layer. Arguments that are not supported, unknown or contradictory raise; none is ignored.",
  "all combinations of shape, batch_size, batch_shape, dtype, sparse, tensor and other keywords, all ranks and sizes, including unknown and negative ones",
  "The test is one call with one shape; the branches depend on the truth value of optional arguments and on combinations of them.",
  ["tf_encrypted/keras/engine/input_layer.py:Input", "tf_encrypted/keras/engine/input_layer.py:InputLayer", "tf_encrypted/keras/models/sequential.py:Sequential.add", "tf_encrypted/keras/engine/base_layer.py:Layer"])
p("C98",
  "A variable starts with the value it was given",
  "Variables and constants made from data hold that data up to one unit of the fixed-point encoding (integers and truth values without scaling exactly), whatever randomness is drawn. Variables made from public or private tensors hold the value of the tensor. Initial values that cannot be used are refused.",
  "all arrays of values that fit, both scales and share types, all random draws, all tensors as initial values, all word sizes and configurations",
  "The tests define a few scaled variables from arrays; a variable made from a tensor takes its scale and share type from the call, so the result depends on combinations that are never tried.",
  ["tf_encrypted/protocol/aby3/aby3.py:ABY3.define_constant", "tf_encrypted/protocol/aby3/aby3.py:ABY3.define_public_variable", "tf_encrypted/protocol/aby3/aby3.py:ABY3.define_private_variable", "tf_encrypted/protocol/pond/pond.py:Pond.define_constant", "tf_encrypted/protocol/pond/pond.py:Pond.define_public_variable", "tf_encrypted/protocol/pond/pond.py:Pond.define_private_variable"])
p("C99",
  "Moving space to the batch and back keeps the data",
  "tfe.space_to_batch and tfe.batch_to_space on public, private and masked tensors give what TensorFlow's operations give on the values, raise exactly when TensorFlow's do, keep the scale and keep public tensors public. Moving to the batch and back with the paddings as crops gives back the data, and so does the other order when nothing is cropped. This holds for all backing tensors: native integers, residue numbers and 128-bit words.",
  "all ranks, sizes, batch sizes, numbers of blocked axes, block sizes, paddings and crops, all shares and values, all kinds of tensors",
  "The tests compare one small tensor per kind with TensorFlow; padding, several blocked axes and the axis of word halves are combinations that are not tried.",
  ["tf_encrypted/protocol/pond/pond.py:Pond.space_to_batch", "tf_encrypted/protocol/pond/pond.py:Pond.batch_to_space", "tf_encrypted/protocol/pond/pond.py:_space_to_batch_core", "tf_encrypted/protocol/pond/pond.py:_batch_to_space_core", "tf_encrypted/tensor/int100.py:space_to_batch", "tf_encrypted/tensor/int128.py:space_to_batch", "tf_encrypted/tensor/native.py:space_to_batch"])
p("C100",
  "A public input reaches all servers in every deployment",
  "define_public_input gives, for every tensor that the player's function returns, a public tensor that holds this data at all servers, in the form in which the function returned it (one tensor or a list), for every player and configuration, local or remote. Functions that return something else are refused.",
  "all return values of the function, all configurations and histories of lookups, all choices of servers and player, both protocols",
  "No test calls define_public_input, and the test suite runs in the local configuration, where all players are on one device.",
  ["tf_encrypted/protocol/aby3/aby3.py:ABY3.define_public_input", "tf_encrypted/protocol/aby3/aby3_tensors.py:ABY3PublicTensor", "tf_encrypted/protocol/pond/pond.py:Pond.define_public_input", "tf_encrypted/protocol/pond/pond.py:PondPublicTensor", "tf_encrypted/config.py:LocalConfig", "tf_encrypted/config.py:RemoteConfig"])
p("C101",
  "Equality of public values in Pond",
  "equal of two public tensors, of a public tensor and a number in either order, or of two numbers returns a public tensor that shows one exactly where the two hold the same number and zero elsewhere, the same at both servers, whatever the scalings of the tensors and in every deployment. Private and masked tensors and other objects are refused.",
  "all public tensors and numbers, all fixed-point configurations and factories that hold them, all configurations of players",
  "The only test compares four unscaled integers with a number in the local configuration.",
  ["tf_encrypted/protocol/pond/pond.py:Pond.equal", "tf_encrypted/protocol/pond/pond.py:_equal_public_public", "tf_encrypted/protocol/pond/pond.py:Pond.lift", "tf_encrypted/protocol/pond/pond.py:PondPublicTensor", "tf_encrypted/tensor/native.py:Tensor.equal", "tf_encrypted/tensor/int100.py:Tensor.equal"])
p("C102",
  "Unwrapping fetches keeps their nesting",
  "unwrap_fetches of any nesting of lists and tuples returns the same nesting, in which every object with to_native is replaced by its native value and every other object is unchanged; if a conversion raises, so does unwrap_fetches.",
  "every nesting of lists and tuples of any depth and length, every outcome of the conversions",
  "Nothing tests it; the depth of the nesting and the outcomes of the conversions are not bounded.",
  ["tf_encrypted/utils.py:unwrap_fetches"])
p("C103",
  "Training follows the last compile",
  "After model.compile(optimizer, loss), every training step uses that optimizer and that loss and updates every layer of the model exactly once; a compile that raises leaves the model as it was; training a model that was not compiled, or whose layers were added later, raises and updates nothing.",
  "every history of add, compile and fit calls, successful or not, every number of layers, every sequence of batches, in and out of debug mode",
  "Tests compile a model once, with valid arguments, before training; what goes wrong depends on the order of the calls over the life of the model.",
  ["tf_encrypted/keras/models/sequential.py:Sequential.compile", "tf_encrypted/keras/models/sequential.py:Sequential.backward", "tf_encrypted/keras/optimizers.py:get", "tf_encrypted/keras/models/base_model.py:BaseModel.fit", "tf_encrypted/keras/models/base_model.py:BaseModel.fit_batch"])
p("C104",
  "Predictions go through all layers of the model",
  "model.predict(x) and model.evaluate(x, y) send every batch through all layers that have been added to the model, once and in the order in which they were added.",
  "every history of add, predict and evaluate calls, every number of layers, all shapes of the batches, in and out of debug mode",
  "Tests add all layers before the first prediction; what goes wrong depends on the order of the calls over the life of the model.",
  ["tf_encrypted/keras/models/sequential.py:Sequential.add", "tf_encrypted/keras/models/sequential.py:Sequential.call", "tf_encrypted/keras/models/base_model.py:BaseModel.predict", "tf_encrypted/keras/models/base_model.py:BaseModel.evaluate"])
p("C105",
  "A layer makes its weights once, and trains the weights it computes with",
  "However often a layer is called, and with inputs of whatever shapes, its weights are made once, by the first call that succeeds; the list of its weights, which is trained, saved and loaded, consists of exactly the weights it computes with, in their order. A call that fails while the layer is built does not change this.",
  "every history of calls, each succeeding, refused for its shape or failing at any weight, every number of weights",
  "Tests build each layer once, without failures; the point at which building fails and the calls after it are not bounded.",
  ["tf_encrypted/keras/engine/base_layer.py:Layer.__call__", "tf_encrypted/keras/engine/base_layer.py:Layer.add_weight", "tf_encrypted/keras/layers/dense.py:Dense.build", "tf_encrypted/keras/layers/convolutional.py:Conv2D.build", "tf_encrypted/keras/layers/normalization.py:BatchNormalization.build"])
p("C106",
  "Evaluation reports the metrics that are asked for",
  "The dictionary returned by evaluating a model has one entry for each metric that was asked for, in whatever order and however often it was named, with the value of that metric on the labels and predictions of all samples, and no other entries. A name that is not a metric is refused.",
  "every list of metric names, every model applied sample by sample, all data and batch sizes for which the loop reaches every sample",
  "Tests ask for one known metric; lists of names, repetitions and misspelt names are not bounded.",
  ["tf_encrypted/keras/models/base_model.py:BaseModel.evaluate"])
out = os.path.join(os.path.dirname(os.path.dirname(os.path.abspath(__file__))), "properties.jsonl")
with open(out, "w") as f:
    for x in P:
        f.write(json.dumps(x) + "\n")
print(len(P))
