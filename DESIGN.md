# Design of the formal model of tf-encrypted

This file was written before the proofs and is updated as the model grows.
Section 5 (status and disagreements with the code) is the part that changes most.

## 1. Method

* `/repo` is read as text. It is never built or run. The tie between code and model
  is the citation on every definition: each `def` carries a comment with file and lines.
* The model is shallow: a Python function becomes a total computable Lean function,
  an exception becomes an `Except`/`Option` value, a random draw becomes an explicit
  argument, mutable state becomes a state argument and a result.
* Tensors. In the protocol areas a tensor of a sort is an element of an additive group
  (`T s`), with entries in `ZMod m` or `BitVec w`, `w` arbitrary. Matrix products and
  convolutions enter as an arbitrary bi-additive map. The tensor area (`Verif/Tensor`,
  `Verif/I128`) has shapes and index lists.
* Randomness: a computation that draws is a decision tree (`Core/Rand.lean`, `RandM`; in
  the ABY3 area the monad `M`, which also logs what each server sees). Correctness is a
  statement about every leaf. Secrecy is equality of the probability distributions (`PMF`)
  of a server's whole view, obtained from a coupling of the two trees. For samplers and
  probabilistic truncation we count draws exactly.
* Three-server and two-server tuples are structures; the "device" on which a value
  lives is modelled where a property depends on it, otherwise dropped (stated in the
  comment of the definition).

File layout (`lean/Verif/<Area>/`): `Model.lean` (definitions with citations),
`Lemmas.lean` (helpers), `Props.lean` (property theorems, one section per property,
with a non-vacuity `example` beside each), and for some areas `Spec.lean` (the
independent specification the property theorems mention).

## 2. Trusted base

* Lean 4.33.0's kernel, and Mathlib as installed.
* Axioms: every theorem of the manifest depends on at most `propext`, `Classical.choice`
  and `Quot.sound` (`#print axioms`; the gate checks it for each one). No own axioms, no
  `sorry`, no `native_decide`, no `bv_decide`. Some finite facts (mask tables, concrete
  witnesses) are evaluated by the kernel with `decide +kernel`.
* My reading of `/repo`, recorded in the citations.
* TensorFlow/NumPy primitives are modelled by their documented meaning: int32/int64
  add/sub/mul wrap modulo 2^w, `right_shift` on signed integers is arithmetic,
  `tf.math.floormod` has the sign of the divisor, element-wise broadcasting, FIFO
  queue resources, `tf.Variable` assign/read.
* PRG output is modelled as an arbitrary function of (key, nonce, shape index);
  ChaCha20/libsodium itself is not modelled.
* IEEE floats are modelled by exact rationals. Every place where rounding of floats
  could change a result is named in the comment of the definition.

## 3. What is modelled and what is not

Modelled: Pond sharing, arithmetic, masks/triples, truncation, encoding; ABY3 sharing,
arithmetic, boolean circuits, conversions, OT, comparisons, truncations, sorting,
reductions, nonces; SecureNN odd ring, private compare, lsb/msb, selection; int100 CRT;
native sampling kernels; bit kernels; 128-bit limbs; memoiser; variables; queues and
serving; Paillier; convert forward/backward, and the converted nodes (gradients of those that are not layers); im2col, pooling, padding, patches2im; SGD, Adam
and AMSgrad; the loops of `fit`, `predict` and `evaluate`; forward and
backward passes of layers, depthwise convolution, batch normalisation, `Reshape` and `Flatten`, setting and copying weights, losses; files of private tensors and iteration over rows; config lookups; protocol nesting; local computations; normalisation for division,
logarithm and square root, and the reciprocal, inverse square root and logarithms computed after it; powers of two
(`exp2`, "mp-spdz" and "as2019"), natural exponentials, softmax, sigmoid and `log`; the polynomial activations of Pond; the split MNIST data set and data owners; sealed tensors (libsodium itself is a parameter).

Device placement is modelled through messages: a server that computes with a share it does not
hold has been sent it. All `tf.device` blocks of pond.py, securenn.py and aby3.py were read for
this; the misplaced ones are in the models (`Pond.misplaced`, the ABY3 cheetah truncation).

Not modelled: TensorFlow graph execution and networking (except where
an assertion about devices decides between success and exception), Keras layer classes
other than the parts named above, dataset pipelines other than those of C80, the C++ memory-level code of
the kernels (pointer arithmetic, thread pools), performance, real floating-point rounding.

## 4. Plan per property

| id | what is modelled | how it is proved |
|----|------------------|------------------|
| C01 | `_share`, `_reconstruct`, dealer `_share` with swap | ring identity for all masks |
| C02 | share-level ops and dealer triples; programs as an inductive expression type with public/private/masked nodes | structural induction: decode of share evaluation = cleartext evaluation |
| C03 | same, randomness as arguments over a finite ring; computations placed on the wrong server send it the share | coupling of runs; the leak of `_matmul_private_public` for every input and draw |
| C04 | `_share`, `_reconstruct` per server, arithmetic and boolean | ring/xor identities; consistency predicate |
| C05 | ABY3 arithmetic ops on six-component sharings, programs as an inductive type | structural induction, invariant consistency ∧ reconstruction |
| C06 | ABY3 boolean ops over `BitVec w` | structural induction |
| C07 | `_share`, resharing message | counting |
| C08 | `_encode`, `_decode` over ℚ with truncation toward zero | inequalities over ℚ |
| C09 | `FixedpointConfig`, `_validate_fixedpoint_config` | the check implies the preconditions of C10's theorem; concrete configs by `decide`/`norm_num` |
| C10 | `_truncate_private_interactive` over ZMod m | division algorithm, no wrap-around argument |
| C11 | `_truncate_private_noninteractive` native and int100 | integer inequalities on signed representatives; cardinality of bad masks |
| C12 | `_truncate_heuristic_private`, secureq8, cheetah | as C11 |
| C13 | `_truncate_local_private`, `mul_trunc2` | as C11 |
| C14 | composition of C02/C05, C08, C10/C12 | combine error bounds |
| C15 | `egcd`, `inverse` | strong induction |
| C16 | CRT decompose/recombine, ops, matmul chunking with int32 wrap-around | CRT theorem; bounds so that int32 never wraps |
| C17 | `crt_mod`, `truncate`, `__rsub__` | rounding argument for alpha |
| C18 | `Generator::Uniform` | count of preimages |
| C19 | samplers of the three factories | exact counts; the claim is false for several of them |
| C20 | `SeededGenerator` block bookkeeping | invariant over the number of rejections |
| C21 | both PPA functions on words | prefix (generate, propagate) invariant by induction on rounds |
| C22 | `_carry_*` loop with bit split | induction on the halving |
| C23 | `_a2b_private`, `_b2a_private` | from C21 and C05/C06 |
| C24 | `_bit_extract_private`, `_msb_private` | from C22 |
| C25 | comparison functions | exact characterisation: right iff the signed difference does not overflow |
| C26 | `_equal_zero_private` | case analysis incl. minimum integer |
| C27 | `_ot`, `mul_ab` | ring identities |
| C28 | `select`, `maximum`, `relu`, `cmp_swap` (ABY3, SecureNN) | from C25/C27 |
| C29 | tree reductions | strong induction on length |
| C30 | the bitonic network, padding, direction | 0-1 principle / monotone maps and induction on stages |
| C31 | `pow`, `prod`, `pow2_from_bits` | induction |
| C32 | `polynomial_piecewise` | induction on breakpoints |
| C33 | nonce counters and draw log of every randomness-consuming op | invariant over op lists; negation for cheetah truncation and graph loops |
| C34 | odd tensor add/sub | case analysis on wrap-around |
| C35 | `_private_compare` | bit-induction |
| C36 | `msb` pipeline | from C34/C35, exact characterisation of failures |
| C37 | bit operators | algebra |
| C38 | `memoize` with keys per op | transparency for injective keys; negation for `transpose` etc. |
| C39 | variables | state machine over assign/read histories |
| C40 | queues as pairs of FIFO resources | refinement to one queue when enqueues are atomic; negation under interleaving |
| C41 | client/server step machine | invariant for one client; negation for two |
| C42 | Paillier functions over ℕ/ZMod | number theory |
| C43 | im2col index arithmetic, conv2d | equality of sums |
| C44 | forward/backward over an abstract node semantics | induction on the node list; negation for fan-out |
| C45 | kernels as loops on words | bit-extensionality |
| C46 | `__fp_normalize` pipeline | from C45 |
| C47 | `__enter__`/`__exit__` state | induction on nested blocks; negation for re-entry |
| C48 | flags | typing judgement over programs |
| C49 | `define_local_computation` argument handling | case analysis; negations |
| C50 | limb encode/decode | bit-vector append lemmas |
| C51 | `exp2_pade` | equality with the polynomial without the leading term; negation |
| C52 | `avgpool2d`, `pad`, `zeros` | sums; negations for the native factory |
| C53 | SGD | induction on gradient list |
| C54 | config lookups | induction on lookups |
| C55 | the messages of the interactive truncation | expected values over the masks, hybrid over the elements |
| C56 | the vector server 2 opens in `private_compare` | it depends only on the position of its zero; negation of the full claim |
| C57 | `patches2im` | equality with the sum over covering windows; negations |
| C58 | Adam, AMSgrad | induction on the history, closed forms of the moments |
| C59 | `_fp_recip_private` | error propagation through the rounded products, induction on rounds |
| C60 | `_fp_inv_sqrt_private`, `approx_sqrt_inv` | as C59, compared with the real square root |
| C61 | `_exp_private` (`mp-spdz`, `infinity`) | C51's bound for `exp2`, rescaling; induction on squarings |
| C62 | `_softmax_private`, `_reduce_max_network_private` | C30 for the maximum, C61, C59; error of the quotient over the reals; the other approximations (`SoftmaxKinds.lean`) by the same lemma with the errors of C61 and C70 |
| C63 | `_sigmoid_private` | C32, then tangents of the exponential bound the logistic function against each line |
| C64 | `fit`, `predict`, `evaluate`, `data_wrap` | the generator's batches as a list (induction); loops as folds over it; negations |
| C65 | layers' `call`/`backward`, losses, `Sequential.backward` | gradients along all curves; chain rule by induction on the stack; negations |
| C66 | `Conv2D.call`/`backward` with `expand`, `reverse`, `pad`, `conv2d`, shape by shape | each convolution of the backward pass as a sum over windows; adjoint of a bilinear map; negations |
| C67 | `AveragePooling2D`, `MaxPooling2D`, `GlobalMaxPooling2D`: `call`, `backward`, shapes | windows as sums and maxima, `patches2im` as the adjoint of the window map, derivative of a maximum with a single largest entry; negations |
| C68 | `_log_private`, `_do_fp_log_private` and the three logarithms over it | polynomial bounds by a verified bisection over ℚ, series of the logarithm, rounding errors product by product; negations |
| C69 | `Pond.sigmoid`, `relu`, `tanh`, `log` as Pond programs | straight-line code with an interval and an error bound per register, checked by a function proved sound for every draw; polynomials against the functions by verified bisection and the alternating series of exp(-x); negations at single inputs |
| C70 | `exp2` and `exp` with `approx_type="as2019"` | the power of the absolute value as in C51, the reciprocal as in C59; the error of a quotient from the error of the divisor; negations at single inputs; secrecy by simulation |
| C71 | `DepthwiseConv2D`: `build`, `set_weights`, `call`, `compute_output_shape` | kernels as a masked full kernel; the sum over input channels collapses to one; negations at single parameters |
| C72 | `set_weights` of layers and models, `assign`, `apply_gradients`, with Python lists as addresses in a heap | induction over the layers with the invariant that every list holds the layer's own variables; negations for lists that do not fit and for shared lists |
| C73 | `write`, `read`, the record kernel; files as lists of records per machine and path | file names are injective; induction over the history of writes; batches as blocks of a list, reshape in row-major order; negations for interrupted writes over all subsets of the six files |
| C74 | `iterate` with `repeat`, the shuffle buffer, `batch` and `reshape` | invariant of the shuffle: delivered and buffered elements are a permutation of those taken; negations for incomplete batches and eager mode |
| C75 | `BatchNormalization`: constructor, `build`, `call`, `set_weights` with broadcasting | invariant (the denominator belongs to the variance) kept by `set_weights`; `call` entry by entry; which shapes can be built for, as an equivalence |
| C76 | `Reshape` and `Flatten`: `compute_output_shape` with its loop against `tf.reshape` | case distinction on the number of unknown dimensions; negations for empty batches and other negative numbers |
| C77 | the nodes with weights and the poolings of `convert/nodes.py` from attributes and inputs to the layer, and the operators as the ONNX documentation defines them (`Convert/Onnx.lean`) | refinement node by node through the theorems about the layers (C51, C66, C71, C75); negations for attributes that are ignored, read by position, or exchanged |
| C78 | the nodes without layers of `convert/nodes.py`: arithmetic, reshaping, transposing, concatenating, splitting, slicing, gathering, padding; the operators in `Convert/OnnxStruct.lean` | entries and shapes by induction over axes or tensors; `Agrees` relates declared and actual shapes; negations for the cases left out |
| C79 | the methods `backward` of those nodes (`Convert/StructBack.lean`) and `_build_backward` over nodes with tensors of reals | derivatives along curves (`Convert/NodeGradSpec.lean`); permutation of entries, bilinearity, sums over indices; chain rule by induction over the nodes in reverse, with the movement of all values built forwards; negations for the cases left out; nodes that wrap layers (`Convert/LayerBack.lean`): tensors are read as functions on finite index types (`Numbered`), forward and backward pass agree there with the layers of C65, whose exactness carries over |
| C80 | `MnistDataset` and its slices, `generator_builder` with the record files on disk, shuffling and batching, `DataOwner` (`Data/Model.lean`); a crash while a file is written | `Schedule` (`Data/Spec.lean`): batch sizes, no sample twice in a pass, all samples if the batch size divides; the shuffle is an arbitrary family of permutations; invariant `Right` of the disk by induction over calls; answers of an owner by induction over the requests |
| C81 | `easy_box.py`, its kernels and shape functions (`Sodium/Model.lean`); elements as bits, memory as bytes; libsodium is a parameter: any key agreement, any key stream, any authenticator, put together as `crypto_box_detached` documents | bytes and elements are inverse to each other; opening characterised by sealing; a permutation of key streams for hiding |
| C82 | `clone_model`, `model_from_config`, `_instantiate_tfe_layer`, `add`, `set_weights` (`Keras/Clone.lean`) for models given as lists of layers with their calls; the layers are a parameter | what Keras computes is an inductive relation over calls; induction over the chain; values are unique because names are |
| C83 | `div`, `mul_pow2`, `add_n` of ABY3, the sharing of a list of inputs (`Aby3/Average.lean`); `div`, `reciprocal`, `sqrt` of Pond (`Pond/Divide.lean`) | simulation lemma for every branch of `div`; induction over the list of owners; error bounds over ℚ; coupling for secrecy |
| C84 | private tensors with their run-time tag, thirteen kinds of operations with the checks of the operators and of the protocol functions (`Aby3/ShareType.lean`) | what the words mean is in `ShareTypeSpec.lean`; induction over programs; the accepted wrong cases by evaluation of a witness |
| C85 | `flatten`, `reachable_nodes` with the queue and the set of visited nodes (`Utils/Graph.lean`), terminating by the number of nodes not yet visited | invariant of the search; reachability is the reflexive transitive closure of the edges (`GraphProps.lean`) |
| C86 | bones and `from_bone` of both families, the table of factories, `unwrap_func`, `wrap_func`, `function` (`Runtime/Function.lean`) | `FunctionSpec.lean` says what the same means; mutual induction over nested values |
| C87 | `memoize` with one cache for eager code and traces (`Runtime/Trace.lean`) | invariant of the cache over histories |
| C88 | networks as lists of linear layers, biases, relu, maxima and averages over windows; sharing of the weights and inputs, `run` (`Aby3/Network.lean`, `NetworkConv.lean`, `NetworkPool.lean`) | `NetworkSpec.lean`: network over ℚ, error and range; induction over the layers with the two-run simulation of C07; a sigmoid or softmax at the end (`NetworkHead.lean`): C62 and C63 composed with the Lipschitz bounds of the two functions |
| C89 | rounds of local gradients, `average`, decryption and step (`Aby3/Federated.lean`) | exact and noisy descent, bounded and smooth gradients as specification in the same file; induction over the rounds, the average of C83 with the added fact that equal sums give equal sharings |
| C90 | `Dense.call` and `backward`, the gradient of the loss, `SGD`, `fit` over shared batches (`Aby3/Train.lean`) | exact descent over the reals in `Aby3/TrainSpec.lean`, shown to be the gradient of the cross entropy; the words of a step are related to the reals by `Close` (C83, C88), the sigmoid by the bound of C63; a step is Lipschitz, induction over the batches; secrecy by simulating two runs |
| C91 | `horizontal_combine`, `vertical_combine` over the owners' iterators (`Data/Joint.lean`) | invariant of the iterators (number of elements delivered), induction over rounds and owners; the schedules of the split data sets (C80) (`Data/Props.lean`) give the samples |
| C92 | the constructors and `default_args_check` with keyword arguments, as functions to the attributes that are read later (`Keras/Args.lean`) | a table of TensorFlow's parameters, defaults and readings (`Keras/ArgsSpec.lean`); case analysis over layers and parameters, lookups in symbolic argument lists (`Keras/ArgsKinds.lean`) |
| C93 | `unique_object_name` with the counters of one graph and the names that constructors pass on (`Keras/Names.lean`) | histories as lists of creations; pigeonhole for the end of the loop, injectivity of decimal numbers and of splitting at the last underscore, induction over histories (`Keras/NamesProps.lean`) |
| C94 | the arguments of `reduce_max`, both methods, `sort` with its transpositions (`Aby3/ReduceMax.lean`), on tensors over any linear order | specification by positions (`Aby3/ReduceMaxSpec.lean`); induction over the comparison tree and the halving of the vector, the two permutations are inverse to each other, first of a sorted list (`Aby3/ReduceMaxLemmas.lean`, `Aby3/ReduceMaxProps.lean`) |
| C95 | the arguments of `argmax` and `reduce_max_with_argmax`, the constants made by `np.eye`, `np.reshape` and `np.tile`, selection with broadcasting (`Aby3/Argmax.lean`) | one invariant of the comparison tree for both styles, over increasing lists of positions; positions in repeated arrays; lower bound of the rank for the negation (`Aby3/ArgmaxLemmas.lean`, `Aby3/ArgmaxProps.lean`) |
| C96 | `local_computation` and the lookup of the player, over the models of `define_local_computation` and of the configurations (`Local/Decorator.lean`) | case analysis over the sources of the name; first player of a name by `findIdx?`; negation from the uniqueness of what a sharing stands for (`Local/DecoratorProps.lean`) |
| C97 | the arguments of `Input` and `InputLayer` with their truth values, and of the first layer of a model (`Keras/InputArgs.lean`) | case analysis over the arguments, `np.zeros` by its list of sizes (`Keras/InputArgsProps.lean`) |
| C98 | the definitions of constants and variables of both protocols, from data and from tensors (`Local/Variables.lean`) | sharing and encoding lemmas of C49 and C08; concrete sharings for the negations (`Local/VariablesProps.lean`) |
| C99 | `space_to_batch` and `batch_to_space` as plans that say where every entry comes from, on shares, residues and word halves (`Tensor/SpaceBatch.lean`) | induction over the blocked axes; linearity entry by entry; mixed-radix division for the round trips (`Tensor/SpaceBatchProps.lean`) |
| C100 | `define_public_input` of both protocols with the devices of its values and the checks of the constructors (`Local/PublicInput.lean`) | devices of local players are equal and of remote ones distinct (C54); induction over the list of inputs (`Local/PublicInputProps.lean`) |
| C101 | `equal` of Pond with `lift`, `dispatch` and the devices of both copies of the result (`Local/EqualPublic.lean`) | in the range words are equal exactly if the integers are (C08); devices of players from C54 (`Local/EqualPublicProps.lean`) |
| C102 | `unwrap_fetches` with the outcome of `to_native` as a parameter (`Utils/Fetches.lean`) | mutual induction over nested lists, compared by index paths (`Utils/FetchesProps.lean`) |
| C103 | `add`, `compile`, `get`, `backward`, `fit_batch` and the training function with its graphs (`Keras/Compile.lean`) | invariant over histories of calls and over the batches (`Keras/CompileProps.lean`) |
| C104 | `add`, `call` and the prediction function with its graphs (`Keras/PredictGraph.lean`) | invariant over histories: the graph of a shape is fixed by its first prediction (`Keras/PredictGraphProps.lean`) |
| C105 | `__call__`, `add_weight` and the common form of `build`, with a point of failure as a parameter (`Keras/Build.lean`) | invariant over histories of calls, induction over the weights (`Keras/BuildProps.lean`) |
| C106 | the argument `metrics` of `evaluate`, with the loop of `Keras/Fit.lean` (`Keras/Metrics.lean`) | induction over the names, and `evaluate_all_partial` of C64 (`Keras/MetricsProps.lean`) |

None of these is considered inexpressible. Floating-point rounding is the part of C08,
C16, C17, C51 and C46 that the model does not carry.

## 5. Disagreements between the code and the properties

Each line is a theorem (in the area of its property) with a concrete witness or an exact
characterisation. The property's claim holds in the model outside these cases.

Arithmetic and encoding
* C09 `validate_ready_false`, `validate_ready_explicit_false`: a validated fixed-point
  configuration may ask for a truncation mask that the factory refuses, so every truncation raises.
* C10 `interactive_heuristic_raises`: the ABY3 preset `fixed64_heuristic` under Pond raises.
* C08 `encode_tf_tensor_raises`: Pond's `_encode` of a `tf.Tensor` raises unless an integer type is
  passed.
* C15 `inverse_correct_false`: `inverse` rejects every negative argument.
* C16 `rsub_false`: reflected subtraction of int100 tensors has the wrong sign, which makes
  non-interactive truncation round down once more. `reduce_sum_false`: long sums overflow.
* C17 `crt_mod_false`: `mod` by a large factor is wrong for int100.
* C50 `to_i128_false` (numbers above 2^53 pass through a double), `encode_decode64_false` (`decode` returns doubles: 2^53+1 cannot be told from 2^53), `abs_least_false`,
  `equal_order_false`, `stack_last_false`, `stack_scalars_false`, `concat_second_last_false`,
  `getitem_ellipsis_false`.

Randomness
* C19 `native_sample_false`, `native_share_leaks_false`: the largest word is never drawn, so
  shares are not exactly uniform. `crt_seeded_false`: seeded int100 draws take every
  residue below 1039, whatever its modulus. `odd_sample_false`.
* C20 `keystream_wraps_false`: the 32-bit block counter wraps.
* C33 `cheetah_reuses_false`, `compiled_twice_reuses_false`, `seed_wraps_false`: nonces are
  reused by the cheetah truncation and by compiled functions.
* C42 `zero_randomness_false`: Paillier may draw a factor that is not invertible.

ABY3
* C07 `broadcast_leaks_false`: a product whose first factor is broadcast reuses its zero
  shares. `cheetah_leaks_false`: the view of server 2
  depends on the truncated value.
* C12 `truncate_cheetah_false`: off by one downwards.
* C21 `ppa_nBits_64_false`, `ppa_nBits_large_false`, `sklansky64_nBits_false`.
* C24 `bitExtract_zero_false`: position 0 raises.
* C25 `less_than_overflow_false`, `less_than_public_raises`; C28 `relu_min_false`.
* C30 `sort_one_raises`, `sort_pad_false`.
* C46 `log_smallest_false`.
* C48 `add_mismatch_accepted_false`, `sub_mismatch_accepted_false`: tensors with different
  scaling are added without an error.
* C59 `recip_relative_false`: the relative error promised in a comment is below the resolution.
* C61 `exp_range_false`, `exp_infinity_range_false`: the documented ranges are wrong; exp(23) is at
  most 5, and exp(-260) with `infinity` is at least 50.
* C62 `softmax_infinity_range_false`: with `approx_type="infinity"`, documented for all numbers, two logits 0 and -260 give the second class more than nine tenths.
* C62 `softmax_one_raises`: the softmax of one class raises with the default way to find the maximum.
* C51 `exp2_pade_false`: the leading coefficient takes no part. `exp2_wraps_false`: the
  exponent is taken modulo 32. `exp2_pade_raises`.

SecureNN
* C34 `odd_add_minus_one_false`; C35 `private_compare_small_prime_false`.
* C36 `is_negative_minus_one_false`, `is_negative_minus_two_false`, `is_negative_max_false`,
  `less_adjacent_false`, `maximum_adjacent_false`, `relu_split_false`, `lsb_sampler_false`.
* C56 `helper_learns_false`: the vector is masked but not permuted.

Runtime
* C38 `protocols_confused_false`, `memo_confuses_false`, `transpose_perm_false`,
  `strided_slice_false`, `stack_axis_false`, `to_private_twice_false`,
  `zeros_after_to_private_false`.
* C39 `use_after_assign_false`, `assign_variable_false`, `assign_raises_false`,
  `half_assigned_false`, `assign_share_type_false`.
* C40 `two_producers_false`, `two_consumers_false`, `crash_mixes_false`.
* C41 `two_clients_false`, `crash_loses_false`.
* C47 `reenter_false`, `stale_name_false`.
* C49 `public_argument_raises`, `share_type_false`, `masked_raises`.
* C54 `local_devices_false`, `duplicate_names_false`, `load_loses_job_false`.

Tensors, graphs, training
* C45 `prefix_ORs_high_false` (outside its callers' use).
* C52 `pond_pad_unscaled_false`, `aby3_pad_public_false`, `pond_avgpool_square_false`,
  `avgpool_unscaled_false`, `maxpool_same_false`, `secureNN_maxpool_false`.
* C57 `patches2im_strides_false`, `patches2im_uncovered_false`.
* C44 `backward_fanout_false`, `backward_unused_false`, `same_name_false`.
* C53 `sgd_two_products_false`: the step is computed twice, and rounded twice.
* C64 `fit_skips_false` (the limit is the number of features, so later samples are never used),
  `fit_ordinary_raises_false` (or an empty batch raises), `fit_epochs_false` (epochs after the first
  train on nothing), `predict_reveal_false` (the flag of the first call is kept: a later
  `reveal=False` opens the predictions), `evaluate_default_false` (the default batch size raises).
* C65 `bce_gradient_false`, `cce_gradient_false` (on probabilities, the default, the gradient is that
  of half the squared error), `flattenFirst_false` (the transposition is not undone),
  `globalAverage_keepdims_false` (wrong shape), `activation_none_raises_false`,
  `frozen_moves_false` (`trainable=False` has no effect).
* C66 `conv_remainder_raises_false` (a layer that predicts cannot be trained if the stride leaves a
  remainder), `conv_strides_false` (unequal strides: a wrong gradient without an exception),
  `conv_shape_false` (unequal strides: the reported shape is wrong).
* C67 `pool_remainder_raises_false` (2 × 2 pools on images of odd height predict but cannot be trained),
  `pool_strides_raise_false`, `pool_strides_false` (pools that are not square, with default strides:
  `backward` raises, or hands the gradient to the wrong pixels), `globalMax_keepdims_false`.
* C68 `log_two_false` (`log` of 2 is more than 4.9: the polynomial is only usable on [0.1, 1.5], which the
  documentation does not say), `fp_log_smallest_false`.
* C69 `sigmoid_false`, `relu_false`, `tanh_false`, `log_false` (sigmoid(8) ≥ 3, relu(10) ≤ 5, tanh(5) ≤ -2,
  log(2) ≥ 4.9 for every draw), `relu_zero` (relu(0) ≥ 0.43), `exact_values` (the two highest coefficients of
  sigmoid and relu are below the resolution of the encoding and become zero).
* C70 `exp2_as_negative_false` (2^-11.75 comes out below -10000 in the default configuration: the power of
  the absolute value needs more bits than the reciprocal looks at), `exp2_as_wraps_false` (2^-32 and 2^32 come
  out as 1), `exp2_as_refused` (many integral bits: AssertionError, also for positive inputs).
* C71 `depthwise_shape_false` (the reported shape is right only for one channel, channels first and equal
  strides), `depthwise_reload_false` (a layer with multiplier above one and several channels refuses the
  weights it holds itself).
* C72 `set_weights_surplus_false`, `set_weights_missing_false` (lists that are too long or miss whole layers
  pass unnoticed), `set_weights_half_false` (IndexError after earlier layers were written),
  `set_weights_empty_false` (IndexError for a model without weights, so it cannot be cloned),
  `copied_broken_false`, `copy_breaks_source_false` (after `b.set_weights(a.weights)` training or setting `a`
  raises), `self_copy_false` (`m.set_weights(m.weights)` raises TypeError).
* C73 `read_remainder_false` (records that do not fill a batch raise instead of starting over),
  `read_shared_list_false` (the caller's shape list is changed with 128 bits), `read_unscaled_false`,
  `read_boolean_false`, `read_bool_false` (flags and type are not stored), `write_crash_false`,
  `append_crash_false` (an interrupted write leaves a mixture of shares that opens to something else).
* C74 `iterate_last_false` (the rows of an incomplete last batch are never delivered),
  `shuffle_epoch_false` (a row can come twice before another comes once), `iterate_eager_false`
  (`iterate` needs a graph and an initialiser that it does not return; its only test is skipped).
* C75 `norm_last_axis_false` (axis -1, the default of `tf.keras`, is rejected), `norm_matrix_false` (matrices raise
  `IndexError` with the default axis 3), `norm_sequence_false` (data of other ranks raise `UnboundLocalError`),
  `norm_train_false` (`backward` is not implemented).
* C76 `reshape_empty_false` (a shape with an unknown dimension is declared for an empty batch, and `call` raises),
  `reshape_negative_false` (other negative numbers count as unknown in the declared shape only).
* C77 `gemm_transA_raises_false` (a transposed input that is not square is refused), `gemm_bias_size_false` (a bias that is not a row is refused), `gemm_bias_column_false` (a column as long as a row is taken for a row), `gemm_transB_raises_false`, `gemm_transB_false`, `gemm_alpha_false`, `gemm_defaults_false` (the first two attributes
  are taken for the transpositions whatever they are called, and `alpha` and `beta` are ignored), `matmul_operands_false`,
  `matmul_rank_false`, `conv_pads_false` (rows are padded below instead of above), `conv_dilations_false`,
  `conv_defaults_false` (`KeyError` for absent attributes), `conv_square_false`, `conv_group_false`,
  `depthwise_declared_false` (the declared number of channels is that of one group), `pool_pads_false`,
  `pool_ceil_false`, `pool_defaults_false`, `norm_epsilon_false` (the first attribute is taken for epsilon),
  `reduce_mean_axes_false` (axes are ignored if `keepdims` is absent), `global_max_false` (a matrix instead of an image).
* C78 `slice_batch_false` (a slice that does not list the batch drops its last sample, because the unknown batch size -1 is
  taken as the end), `slice_declared_false` (the declared size is the end of the slice), `slice_start_false` (a negative step from before the first entry), `pad_value_false`, `pad_mode_false`,
  `squeeze_attribute_false`, `split_attribute_false`, `flatten_axis_false`, `softmax_axis_false` (attributes or inputs that are
  not read), `add_constant_first_false`, `bin_constant_false`, `reshape_zero_false`, `flatten_vector_false`,
  `transpose_default_false`, `unsqueeze_axes_false`, `unsqueeze_attribute_false`, `split_default_false`, `gather_scalar_false`,
  `gather_negative_false`, `gather_default_false`, `pad_attribute_false` (valid models that raise), `add_declared_false`,
  `unsqueeze_declared_false`, `squeeze_declared_false`, `concat_batch_false`, `gather_declared_false` (wrong declared shapes).
* C79 `add_gradient_broadcast_false`, `mul_gradient_broadcast_false` (the gradient of a broadcast operand is not summed back
  to its shape), `add_bias_shape_false`, `add_bias_channels_false` (the gradient of an added constant always has the shape of
  one sample, e.g. [3, 2, 2] for a constant of shape [3, 1, 1]), `concat_gradient_batch_false`,
  `reshape_gradient_unknown_false`, `missing_gradients_false` (Stack passes a keyword that no protocol has),
  `softmax_norm_gradient_false` (`NotImplementedError`), `global_average_gradient_false` (with the channels last and kept
  dimensions the gradient, which has the channels last too, is tiled and transposed as if they were first),
  `global_max_kept_false` (GlobalMaxPool with kept dimensions, the default of ONNX, raises for a gradient of the declared shape),
  `grouped_gradient_false` (`NotImplementedError`). `avg_gradient`,
  `max_gradient`, `conv_gradient` say that training raises if the windows leave out a row or a column of the image.
* C03 `matmul_public_leaks`, `matmul_public_leaks_false`: `_matmul_private_public` of Pond (also
  reached from masked × public and from SecureNN) computes server 1's product on server 0's device
  (pond.py 3151-3152), so server 0 receives both shares of the private matrix. Server 1 is safe, and
  so is server 0 in programs without that product (`program_secrecy_partial`).
* C80 `nested_slice_false` (`ds[100:200][0:10]` is `ds[0:10]`: `__getitem__` of a slice builds a new object from the batch size alone), `open_slice_raises` (`ds[:100]` and `ds[:, :14]` raise `TypeError`), `stepped_slice_false` (`iterations` ignores the step), `change_of_flags_false` (`file_name` is fixed at the first use), `crash_truncates_false` (the file is written in place and its mere existence is what later runs check), `second_provider_false` (all iterators of a `DataOwner` draw from one generator but each begins with the first element).
* C81 `retype_false`, `reshape_false` (the authenticator covers the bytes only: an `int32` tensor opens as `float32`, a 2x3 tensor as 3x2), `reflection_false`, `nonce_reuse_false` (properties of `crypto_box` the wrapper passes on), `bool_false`, `unknown_shape_false` (the shape function compares the value -1 of an unknown dimension with the size).
* C82 `clone_shared_false`, `clone_heads_false` (`inbound_nodes` and `output_layers` are never read: the docstring says "Clone any tf.keras.Model", but every model becomes a chain), `clone_unknown_batch_false` (`AttributeError` or `NotImplementedError` for the usual ways to state an input shape), `clone_no_weights_false` (`weights[0]` of an empty list).
* C83 `average_false` (the sum of 65537 inputs divided by their number is zero or one unit), `div_unscaled_false` ("No flooring is performing if `y` is an integer type"). `Pond.div` raises a `TypeError` for every `float` (`div_float_false`; the second `if` in pond.py:1044 should be `elif`), reveals 0 or one unit when the divisor is an integer above the scaling factor (`div_large_false`), and 0 for integers divided by integers (`div_int_unscaled_false`); the reciprocal of one unit does not fit the native type of int100 (`recip_small_false`).
* C84 `share_types_false` (thirteen operations that take the wrong kind of sharing without an exception), `bool_sum_depends` (`reduce_sum` of a boolean sharing returns different sums for different sharings of the same tensor). `_concat_private` and `_stack_private` assert equal scaling of all tensors but take the share type of the first.
* C86 `tuples_false`, `modulus_false` (factories are looked up by their number of bits: SecureNN's tensors modulo a prime come back as int64), `int100_false` (int100 has no `nbits`), `pond_int128_false` (`to_native` of int128 shares gives doubles), `dict_false`, `variable_false`, `other_protocol_false`.
* C87 `later_call_false`, `other_trace_false`: the cache `nodes` does not know about traces, so tensors leak out of compiled functions.
* C88 `predict_overflow_false`: products are not checked before truncation, so a prediction whose inputs, weights and result are all representable is silently 0 instead of 2^32.
* C91 (joint training): `horizontal_combine` draws `num_samples` batches, not samples, from an owner before it turns to the next. In `horizontal-training.py` all 2340 steps use the first owner's 20000 samples; the other 40000 are never seen (`horizontal_example_false`). A generator that reaches the end of test data raises `RuntimeError` (PEP 479) (`vertical_end_false`, `horizontal_end_false`); `vertical_combine` works for exactly three owners (`vertical_two_false`).
* C92 (arguments of layers): `trainable=False`, `weights=…` and `dtype=…` are accepted by every layer and have no effect (`ignored_false`, `frozen_false`); `activity_regularizer` is checked by the layers that have it as a parameter and ignored by the others (`activity_false`); `input_shape` is used as the shape of a batch (`input_shape_false`); pooling layers use channels_last when no format is given, whatever the backend's setting (`pool_format_false`); `Conv2D(activation=5)` is linear (`conv_activation_false`); `dilation_rate=1`, `[1, 1]` and TensorFlow's default `axis=-1` are refused (`default_refused_false`).
* C93 (names of layers): a layer without a name can get one that another layer was given (`given_name_false`); a class named like `Dense_1` collides with the second `Dense` (`class_name_false`); `InputLayer(name=…)` and `Sequential(name=…)` lose the name, the latter because `BaseModel.__init__` passes it in the position of `trainable` (`input_name_false`, `model_name_false`).
* C94 (reduce_max with `method="network"`): without an axis the call raises UnboundLocalError (`network_all_false`), with `keepdims=True` the result has one axis whatever the rank because `x` was replaced by the flat vector (`network_keepdims_false`), and an axis of size one raises (`network_one_false`).
* C95 (argmax): `output_style="onehot"` with a negative axis returns a tensor with more axes than its argument, or raises (`onehot_negative_false`, `onehot_vector_false`); `output_style="normal"`, and `argmax` of SecureNN, along an axis of size one return a single number or raise (`index_one_false`). The examples in the docstrings of SecureNN's `reduce_max` and `argmax` reduce along axis 1 although they say axis 0.
* C96 (local_computation): keyword arguments of a call of a decorated function, other than `player_name`, are dropped: `scaled(x, times=3, player_name="bob")` computes `scaled(x)` (`keywords_ignored`, `keywords_false`).
* C97 (Input): the batch size is documented as optional, but every call without it raises `NotImplementedError`, also the example in the docstring (`no_batch_size_false`, `docstring_false`); `batch_size` beside `batch_shape` is ignored (`batch_size_ignored_false`).
* C98 (variables from tensors): `define_private_variable` and `define_public_variable` give the new variable the `apply_scaling` and `share_type` of the call, not those of the tensor, so that with default arguments the value changes silently (`private_scale_false`, `private_share_type_false`); ABY3 refuses public tensors, which the documentation allows (`private_public_false`).
* C99 (space_to_batch): over int128 the axis of the two word halves counts as an axis, so a block shape that is too long does not raise but takes words apart (`int128_false`).
* C100 (public inputs of ABY3): in every remote configuration `define_public_input` raises `AssertionError`, as it does not copy the value to the servers (`remote_raises`, `public_input_false`).
* C101 (equality in Pond): in every remote configuration `equal` raises `AssertionError` (`equal_remote_raises`), and with int128 words in all (`equal_int128_false`); tensors of different scalings are compared by their words (`mixed_scales_false`); numbers are rounded first (`rounded_number_false`).
* C102 (unwrapping fetches): `unwrap_fetches` swallows an `AttributeError` from inside `to_native` (`attribute_error_false`) and turns tuples into lists (`tuple_false`).
* C103 (compiling a model): `Sequential.compile` does not discard the training function, so compiling again after training changes nothing for batches of the same shape (`recompile_false`); a `compile` that raises leaves the model without a usable optimizer (`failed_compile_false`); in debug mode a training step that raises may have updated layers (`debug_partial_update_false`).
* C104 (predictions): `add` does not discard the prediction and test functions, so a layer added after a prediction is ignored for batches of the same shape (`late_layer_false`).
* C105 (building layers): a call that fails between two weights leaves the first ones in the list; the next call makes all again, and training and loading go to the wrong variables (`failed_build_false`, `build_twice_false`).
* C106 (metrics): `evaluate(x, y, metrics=["accuracy"])` returns an empty dictionary, without an error (`unknown_metric_false`).

## 6. Mutation testing

`seeded/LOG.jsonl` records edits of the model that imitate realistic bugs, made in a
scratch copy, and which theorems stopped proving. Each edit is one textual replacement in one
definition of a `Model` file (wrong boundary, missed case, swapped argument, dropped update, leaked
share); the whole project is then rebuilt and stopped shortly after the first failing module, so
`theorems_failed` lists the declarations of the first modules that break, often the lemma next to
the edited definition rather than the last theorem that depends on it.

Of the edits in the log that change a claim, eight survived at first, and each led to a stronger theorem
that now fails under it:

* truncation in Pond sends the share of server 0 unmasked: C55 is now about the messages of a run;
* the mask of a truncation is a sum of bits: `ex_drawBits` ties it to the uniform distribution;
* `prod` drops a factor: it had no theorem, `prod_spec` was added;
* a pair of sizes is read backwards: `honoured_partial` has its own reading of pairs;
* argmax over an empty axis raises another exception: `argmax_errors` names it;
* the player named in the decorator is lost: `written_runs_at_named` is about decorators as written;
* new optimizers are not new: `trains_as_compiled_partial` no longer uses the model's counter;
* a failed trace updates layers: `failed_step_updates_nothing` was added.

Edits that are equivalent programs, or repairs of bugs of the code, are listed as such when they
survive; repairs should break the theorem that proves the bug.
