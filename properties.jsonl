{"id": "C01", "title": "Row-major index flattening is an order-preserving bijection", "statement": "For every shape, flattening an in-bounds multi-index gives a number below the element count, unflattening a number below the element count gives an in-bounds index, the two operations are mutually inverse, and the flat position equals the offset computed from the compact strides of the shape.", "quantifier": "all shapes (any rank, any extents, including extent 1 and 0) and all in-bounds indices / flat positions", "why_tests_cant": "the shape space is infinite (rank and extents unbounded); tests only sample a few shapes", "anchors": ["src/libspu/core/shape.h", "src/libspu/core/shape.cc:flattenIndex", "src/libspu/core/shape.cc:unflattenIndex", "src/libspu/core/shape.cc:makeCompactStrides", "src/libspu/core/shape.h:calcFlattenOffset"]}
{"id": "C02", "title": "Index bumping enumerates every element exactly once in row-major order", "statement": "Starting from the all-zero index and repeatedly advancing the index visits every in-bounds index exactly once, in increasing row-major order, and reports exhaustion exactly after the last one.", "quantifier": "all non-empty shapes and all numbers of steps", "why_tests_cant": "needs induction over the number of steps for arbitrary rank/extents", "anchors": ["src/libspu/core/shape.h:bumpIndices", "src/libspu/core/ndarray_ref.cc:NdArrayRef::Iterator::operator++"]}
{"id": "C03", "title": "Linear indexing of a strided view agrees with multi-dimensional indexing", "statement": "Reading element number p of any array view through the linear index operator (including the fast path chosen at construction time) returns the element at the multi-index that is the p-th in row-major order; iterating the view yields the same sequence.", "quantifier": "all shapes, strides (positive, zero, negative), offsets and positions p below the element count", "why_tests_cant": "the fast path is selected by a data-dependent stride test; a wrong acceptance would only show for particular stride patterns", "anchors": ["src/libspu/core/ndarray_ref.cc:can_use_fast_indexing", "src/libspu/core/ndarray_ref.h:NdArrayRef::at", "src/libspu/core/ndarray_ref.h:NdArrayRef::Iterator"]}
{"id": "C04", "title": "Slicing a view addresses exactly the requested elements", "statement": "A slice with start, end and positive step has extent ceil((end-start)/step) on each axis, its element i is element start+i*step of the source, and every element it can read is an element of the source (no out-of-bounds access).", "quantifier": "all views, all start/end/step with 0 <= start <= end <= extent, step >= 1, all indices", "why_tests_cant": "unbounded shape/stride/step space; composition of views cannot be exhausted", "anchors": ["src/libspu/core/ndarray_ref.cc:NdArrayRef::slice", "src/libspu/core/ndarray_ref.cc:NdArrayRef::slice_scalar_at"]}
{"id": "C05", "title": "Transposing and reversing a view only re-index it", "statement": "Transposing by an axis permutation makes element i of the result the source element with permuted index; reversing a set of distinct axes makes element i the source element with mirrored coordinates on these axes; both stay inside the source elements, and doing the inverse transpose / the same reverse again gives back the original elements.", "quantifier": "all views, all axis permutations, all sets of distinct axes, all indices", "why_tests_cant": "arbitrary rank and strides; composition with other views", "anchors": ["src/libspu/core/ndarray_ref.cc:NdArrayRef::transpose", "src/libspu/core/ndarray_ref.cc:NdArrayRef::reverse"]}
{"id": "C06", "title": "Broadcasting repeats source elements", "statement": "Broadcasting a view to a compatible larger shape makes every output element equal to the source element obtained by clamping size-1 axes to index 0. This holds for every view whose size-1 axes have stride 0; it must hold for every view a user can build by slicing.", "quantifier": "all views, all compatible target shapes and axis maps, all output indices", "why_tests_cant": "depends on a stride invariant of size-1 axes that only some view histories break", "anchors": ["src/libspu/core/ndarray_ref.cc:NdArrayRef::broadcast_to", "src/libspu/core/ndarray_ref.cc:NdArrayRef::slice"]}
{"id": "C07", "title": "Reshape keeps the row-major element sequence", "statement": "Reshaping a view to any shape with the same element count preserves the row-major sequence of elements, whether or not the implementation finds a copy-free stride assignment, and the copy-free path never reads outside the source elements.", "quantifier": "all views (any strides), all target shapes with equal element count", "why_tests_cant": "the copy-free path is an intricate greedy axis-matching loop; correctness needs a loop invariant over all stride/shape pairs", "anchors": ["src/libspu/core/ndarray_ref.cc:attempt_nocopy_reshape", "src/libspu/core/ndarray_ref.cc:NdArrayRef::reshape", "src/libspu/core/ndarray_ref.cc:NdArrayRef::clone"]}
{"id": "C08", "title": "Concatenation and padding place every element where specified", "statement": "Concatenating along an axis yields, at index i, the element of the operand whose range contains i on that axis; padding with low/high (possibly negative) edge padding and interior padding yields operand elements at low+i*(interior+1) and the padding value elsewhere.", "quantifier": "all operand lists, axes, padding configurations (negative edges included) and output indices", "why_tests_cant": "combinatorial space of padding configurations", "anchors": ["src/libspu/core/ndarray_ref.cc:NdArrayRef::concatenate", "src/libspu/core/ndarray_ref.cc:NdArrayRef::pad", "src/libspu/core/ndarray_ref.cc:NdArrayRef::expand"]}
{"id": "C09", "title": "Vectorised execution of independent operations is transparent", "statement": "Packing any non-empty list of tensors with one element type into one vector, applying an element-wise function (one that stores its result compactly from the start of a buffer, as kernels do), and unpacking gives exactly the per-tensor results, for any list of shapes and any strides of the operands. A list with different element types is rejected.", "quantifier": "all non-empty lists of tensors of any shapes and all element-wise functions", "why_tests_cant": "list length and shapes unbounded", "anchors": ["src/libspu/core/vectorize.h:vmap", "src/libspu/core/ndarray_ref.h:SimdTrait<NdArrayRef>::pack", "src/libspu/core/ndarray_ref.h:SimdTrait<NdArrayRef>::unpack"]}
{"id": "C10", "title": "Tree reductions equal the sequential fold", "statement": "Reducing a non-empty sequence with the library's log-depth reducers (vector reduce, axis reduce, last-axis associative reduce) equals the left fold of the sequence for every associative and commutative operation; each element is consumed exactly once.", "quantifier": "all non-empty sequences of any length and all associative commutative operations", "why_tests_cant": "length-dependent splitting (odd tails, non power of two) must be right for every length", "anchors": ["src/libspu/core/vectorize.h:vreduce", "src/libspu/kernel/hlo/reduce.cc:TreeReduce", "src/libspu/kernel/hal/utils.h:associative_reduce"]}
{"id": "C11", "title": "Parallel prefix scan equals the sequential scan", "statement": "The recursive odd/even associative scan returns, at position i, the fold of elements 0..i in order, for every associative (not necessarily commutative) operation and every length.", "quantifier": "all lengths and associative operations", "why_tests_cant": "recursion with parity-dependent slicing; needs induction on length", "anchors": ["src/libspu/kernel/hal/utils.h:associative_scan"]}
{"id": "C12", "title": "Share serialisation round-trips for every chunk size", "statement": "Splitting a share into chunks of any positive maximum size (byte count plus chunk size at most 2^64) and reassembling the chunks gives the same type, shape and elements, for real and complex values of any layout, whatever the order in which the chunks of each part arrive; every chunk is non-empty and at most the given size; a message is accepted only if its chunks lie end to end and fill the buffer exactly; memory outside the buffer is not touched as long as the chunks together are not longer than declared.", "quantifier": "all values, all chunk sizes >= 1, all chunk lists", "why_tests_cant": "chunk boundaries depend on size mod chunk size; malformed inputs are unbounded", "anchors": ["src/libspu/core/value.cc:Value::toProto", "src/libspu/core/value.cc:Value::fromProto"]}
{"id": "C13", "title": "Fixed-point encoding is exact on representable values and bounded otherwise", "statement": "Encoding a finite float, double or half gives the integer part (towards zero) of x*2^f saturated at [-2^(k-2), 2^(k-2)-1]; NaN encodes as zero and infinities saturate; encoding is monotone. Decoding the encoding of a number in range gives x cut to f fraction bits exactly, so the error is less than 2^-f and towards zero and there is none if x has at most f fraction bits; decoding a saturated number gives the bound up to the precision of the type. Every integer and boolean of a type not wider than the ring is recovered, a wider type is refused. For arrays, the element at every index is the encoding (decoding) of the element at the same index whatever the strides, and decoding writes nothing outside the destination view.", "quantifier": "ring widths 32, 64, 128; all fraction bits f <= k-2; all three float types and all their values; all integer widths and values; all shapes and strides (destination without aliased elements)", "why_tests_cant": "input space is infinite; monotonicity is a relation over pairs", "anchors": ["src/libspu/core/encoding.cc:encodeToRing", "src/libspu/core/encoding.cc:decodeFromRing"]}
{"id": "C14", "title": "Bit interleave and de-interleave are mutually inverse", "statement": "For every power-of-two width and every stage stride, de-interleaving moves the even-numbered groups of bits to the low half and odd-numbered groups to the high half, interleaving undoes it, and both are permutations of the bits.", "quantifier": "all words of width 2^m for any m, all stage strides", "why_tests_cant": "2^128 words", "anchors": ["src/libspu/core/bit_utils.h:BitIntl", "src/libspu/core/bit_utils.h:BitDeintl", "src/libspu/mpc/utils/circuits.h:odd_even_split"]}
{"id": "C15", "title": "Parallel prefix adders compute addition modulo 2^k", "statement": "The Kogge-Stone and Sklansky boolean adder circuits return x+y mod 2^k, and the carry-out circuit returns the carry out of the k low bits, for all operands at every width.", "quantifier": "all widths k and all pairs of k-bit operands (circuit evaluated over any XOR/AND basis)", "why_tests_cant": "2^(2k) operand pairs with k up to 128, and the circuit is parametric in k", "anchors": ["src/libspu/mpc/utils/circuits.h:kogge_stone", "src/libspu/mpc/utils/circuits.h:sklansky", "src/libspu/mpc/utils/circuits.h:carry_out", "src/libspu/mpc/ab_api.cc:ppa_kogge_stone", "src/libspu/mpc/ab_api.cc:carry_a2b"]}
{"id": "C16", "title": "Waksman network routing realises every permutation", "statement": "For every number of packets n >= 2 and every permutation, the switch settings computed by the routing algorithm make the AS-Waksman network deliver each input packet to its requested output.", "quantifier": "all n and all n! permutations", "why_tests_cant": "factorially many permutations for unbounded n", "anchors": ["src/libspu/mpc/utils/waksman_net.cc", "src/libspu/mpc/utils/waksman_net.h"]}
{"id": "C17", "title": "Permutation helpers obey permutation laws and sorting indices are a stable sort", "statement": "Applying a permutation and then its inverse (either order) is the identity; the inverse-permutation generator returns the group inverse; the sort-permutation generator returns a permutation that puts the keys in ascending signed order and keeps equal keys in original order.", "quantifier": "all lengths, all permutations, all key vectors", "why_tests_cant": "factorial space; stability is a relation over all equal pairs", "anchors": ["src/libspu/mpc/utils/permute.cc:applyInvPerm", "src/libspu/mpc/utils/permute.cc:applyPerm", "src/libspu/mpc/utils/permute.cc:genInversePerm", "src/libspu/mpc/utils/permute.cc:genPermBySort"]}
{"id": "C18", "title": "Secret shuffling applies the agreed permutation", "statement": "The secret inverse-permutation protocol outputs shares of the input vector re-ordered by the inverse of the private permutation for every party count and every randomness; composing the per-party private shuffles yields the permutation that the permutation-share type stands for, for both apply and inverse-apply.", "quantifier": "any number of parties, any vectors, any private permutations, any dealer randomness", "why_tests_cant": "all executions and randomness", "anchors": ["src/libspu/mpc/semi2k/permute.cc", "src/libspu/mpc/semi2k/beaver/beaver_impl/trusted_party/trusted_party.cc:adjustPerm"]}
{"id": "C19", "title": "Additive shares always open to the shared value", "statement": "Sharing a public value, a private value of any party, or a random value and opening it to everyone (or to one party) returns the shared value for any number of parties and any correlated randomness whose zero-shares cancel; likewise for XOR shares.", "quantifier": "any number of parties >= 1, any ring element, any randomness, any owner rank", "why_tests_cant": "all randomness and all party counts", "anchors": ["src/libspu/mpc/semi2k/arithmetic.cc:P2A", "src/libspu/mpc/semi2k/arithmetic.cc:A2P", "src/libspu/mpc/semi2k/arithmetic.cc:V2A", "src/libspu/mpc/semi2k/arithmetic.cc:A2V", "src/libspu/mpc/semi2k/boolean.cc"]}
{"id": "C20", "title": "Local and Beaver-based arithmetic on additive shares opens to the ring result", "statement": "Negation, addition with shared/public operands, multiplication by public, secure multiplication, squaring, matrix multiplication, left shift and the private-by-private product kernels open to the corresponding ring operation on the opened inputs, for any number of parties supported by the kernel, any input shares and any valid correlated randomness, including when a cached opening of an operand is replayed.", "quantifier": "any number of parties, any shares, any valid triples, any cache state", "why_tests_cant": "the claim quantifies over all shares and randomness", "anchors": ["src/libspu/mpc/semi2k/arithmetic.cc:MulAA", "src/libspu/mpc/semi2k/arithmetic.cc:SquareA", "src/libspu/mpc/semi2k/arithmetic.cc:MatMulAA", "src/libspu/mpc/semi2k/arithmetic.cc:MulA1B", "src/libspu/mpc/semi2k/arithmetic.cc:MulVVS"]}
{"id": "C21", "title": "Trusted-dealer adjustment yields valid correlated randomness", "statement": "For every set of PRG seeds, the adjustment sent to one party makes the jointly expanded values a correct multiplication triple / square pair / dot triple / AND triple / truncation pair / random bit / edaBit-style correlation, for any number of parties.", "quantifier": "any number of parties, any PRG outputs, any shapes", "why_tests_cant": "all seeds / counters", "anchors": ["src/libspu/mpc/semi2k/beaver/beaver_impl/trusted_party/trusted_party.cc", "src/libspu/mpc/semi2k/beaver/beaver_impl/beaver_tfp.cc"]}
{"id": "C22", "title": "Opened masked values carry no information", "statement": "In Beaver multiplication the values opened to all parties are, for each fixed choice of secrets, in bijection with the masks: every opened pair is produced by exactly one mask pair, so the opened transcript is distributed independently of the secrets when masks are uniform.", "quantifier": "all secrets, all mask values, all parties", "why_tests_cant": "distributional statement over the whole randomness space", "anchors": ["src/libspu/mpc/semi2k/arithmetic.cc:MulAA", "src/libspu/mpc/aby3/arithmetic.cc:MulAA"]}
{"id": "C23", "title": "Two-party local truncation is off by at most one unit unless a wrap occurs", "statement": "Truncating a 2-party additive sharing by k bits opens to the exact quotient rounded down or rounded up (never further away, and exactly when the quotient is an integer) whenever the local shares do not wrap around; the number of shares for which a wrap occurs is bounded by |x|, i.e. probability at most |x|/2^w.", "quantifier": "all secrets x, all shares, all shift amounts, all ring widths", "why_tests_cant": "error event occurs with tiny probability; tests almost never see it", "anchors": ["src/libspu/mpc/semi2k/arithmetic.cc:TruncA"]}
{"id": "C24", "title": "Probabilistic truncation has at most one unit of error on its documented range", "statement": "With a valid truncation pair, truncation of a value in the documented signed range opens to floor(x/2^k) or floor(x/2^k)+1 for every mask and any number of parties; the two-party variant with wrap correction has the same guarantee.", "quantifier": "all values in range, all masks, all party counts, all shift amounts", "why_tests_cant": "range boundaries and all masks", "anchors": ["src/libspu/mpc/semi2k/arithmetic.cc:TruncAPr", "src/libspu/mpc/semi2k/arithmetic.cc:TruncAPr2", "src/libspu/mpc/semi2k/arithmetic.cc:computeMW"]}
{"id": "C25", "title": "Share conversions preserve the shared value", "statement": "Arithmetic-to-boolean conversion followed by opening, boolean-to-arithmetic conversion (both the random-bit and the per-bit dealer method), sign-bit extraction and equal-to-zero all open to the same value / the sign bit / the zero test of the opened input, for every sharing, number of parties and valid bit count.", "quantifier": "any number of parties supported by the kernel, all shares, all randomness, all bit counts", "why_tests_cant": "all shares and randomness at 128-bit width", "anchors": ["src/libspu/mpc/semi2k/conversion.cc:A2B", "src/libspu/mpc/semi2k/conversion.cc:B2A_Randbit", "src/libspu/mpc/semi2k/conversion.cc:B2A_Disassemble", "src/libspu/mpc/semi2k/conversion.cc:MsbA2B", "src/libspu/mpc/semi2k/conversion.cc:eqz"]}
{"id": "C26", "title": "Declared bit counts of boolean shares are sound", "statement": "After any sequence of boolean operations the shared value stays below 2^(declared bit count), so dropping the higher bits during AND / conversion never changes a result.", "quantifier": "all operation sequences, all values, any number of parties", "why_tests_cant": "the invariant concerns unbounded operation histories", "anchors": ["src/libspu/mpc/semi2k/boolean.cc", "src/libspu/mpc/aby3/boolean.cc"]}
{"id": "C27", "title": "Replicated secret sharing stays consistent and opens correctly", "statement": "In the 3-party replicated protocol, sharing, opening, linear operations, multiplication, multiplication by a boolean bit through 3-party OT, and boolean operations (with shift amounts for which the word shift is defined, see C48) keep the replication invariant (each component held identically by two parties) and open to the expected result, for every randomness.", "quantifier": "all secrets, all PRSS outputs, all 3 parties", "why_tests_cant": "all randomness and shares", "anchors": ["src/libspu/mpc/aby3/arithmetic.cc", "src/libspu/mpc/aby3/ot.cc", "src/libspu/mpc/aby3/boolean.cc", "src/libspu/mpc/aby3/io.cc"]}
{"id": "C28", "title": "Replicated truncation error is bounded", "statement": "The 3-party local truncation opens to floor or floor+1 in the absence of a wrap; the probabilistic truncation protocol errs by at most one unit for every value in its documented range and every randomness.", "quantifier": "all secrets in range, all masks, all shift amounts", "why_tests_cant": "corner cases at range boundaries over all masks", "anchors": ["src/libspu/mpc/aby3/arithmetic.cc:TruncA", "src/libspu/mpc/aby3/arithmetic.cc:TruncAPr"]}
{"id": "C29", "title": "Replicated conversions preserve the value", "statement": "3-party arithmetic-to-boolean, boolean-to-arithmetic (adder based and OT based), sign extraction and zero test keep the replication invariant and open to the expected value for every sharing.", "quantifier": "all shares and randomness", "why_tests_cant": "all shares and randomness at up to 128-bit width", "anchors": ["src/libspu/mpc/aby3/conversion.cc"]}
{"id": "C30", "title": "Pseudo-random zero shares cancel and stay synchronised across any history", "statement": "If all parties issue the same sequence of correlated-randomness requests (including forks), the pairwise streams stay in lock-step, hence the zero-shares derived from them sum (or XOR) to zero for any number of parties and at any point of any history.", "quantifier": "any number of parties, all seeds, all request histories including forks", "why_tests_cant": "unbounded histories", "anchors": ["src/libspu/mpc/common/prg_state.cc", "src/libspu/mpc/common/prg_state.h"]}
{"id": "C31", "title": "Cached operand openings are replayed only for the operand they were created for", "statement": "For any sequence of enable / lookup / store / disable requests, a lookup reports a replay only if an opening for exactly that array (or its transpose, when allowed) was stored since its buffer was enabled, and returns the bytes that were stored; disabling forgets it; storing twice or storing without enabling is rejected.", "quantifier": "all operation sequences, all arrays and buffers", "why_tests_cant": "stateful history property", "anchors": ["src/libspu/mpc/semi2k/beaver/beaver_cache.cc"]}
{"id": "C32", "title": "Odd-even merge sort sorts every input length", "statement": "The iterative comparator network used for secret sorting orders every sequence of every length (not only powers of two) and only permutes the elements.", "quantifier": "all lengths n, all inputs, all total preorders", "why_tests_cant": "0-1 principle tests exist only for fixed n; n is unbounded", "anchors": ["src/libspu/kernel/hal/permute.cc:odd_even_merge_sort"]}
{"id": "C33", "title": "Radix sort on secret keys is a stable multi-key sort", "statement": "Generating the inverse permutation bit by bit (one or two bits at a time) from the bit vectors yields a permutation that stably sorts by the keys, in the requested direction and with the most significant key first; signed keys sort in signed order.", "quantifier": "all lengths, all key vectors, all numbers of keys, all bit counts", "why_tests_cant": "stability and correctness for all inputs", "anchors": ["src/libspu/kernel/hal/permute.cc:_gen_inv_perm_by_bv", "src/libspu/kernel/hal/permute.cc:_gen_inv_perm_s", "src/libspu/kernel/hal/permute.cc:radix_sort"]}
{"id": "C34", "title": "Each merged sort-key group has a single owner", "statement": "When consecutive public/private sort keys are grouped so that one party can sort them locally, all private keys in a group belong to the same party and groups partition the key list in order.", "quantifier": "all key lists with any visibility/owner assignment", "why_tests_cant": "unbounded lists of keys; tests cover a few mixes", "anchors": ["src/libspu/kernel/hal/permute.cc:_find_mergeable_keys"]}
{"id": "C35", "title": "Blocked matrix multiplication equals the plain product", "statement": "Splitting a matrix product into row/column/inner blocks to bound communication returns exactly the unblocked product for every matrix size and every block size.", "quantifier": "all matrix dimensions, all positive block sizes, any commutative ring", "why_tests_cant": "dimension-dependent block boundaries", "anchors": ["src/libspu/kernel/hal/ring.cc:_mmul"]}
{"id": "C36", "title": "Tiled execution of element-wise kernels is transparent", "statement": "For every block size and every shape, the tiles are consecutive blocks of the array in row-major order from the first element to the last, so every element is visited exactly once; running a kernel that works element by element and returns compact arrays on each tile (in any contexts, with any randomness) and concatenating the results gives an array of the operand shape whose every element is related to the operand elements at the same index exactly as after one run of the kernel; if the relation is a function the two results are equal. Operands of different shapes are refused.", "quantifier": "all shapes, all strides, all positive block sizes, any number of operands, all element-wise kernels returning compact arrays of one element type", "why_tests_cant": "tile boundary arithmetic depends on shape and block size", "anchors": ["src/libspu/mpc/utils/tiling_util.h:tiled", "src/libspu/mpc/ab_api.cc"]}
{"id": "C37", "title": "Comparison, equality, selection and bit tricks on ring values have their mathematical meaning", "statement": "Less-than computed from the sign of the difference is correct exactly when the difference does not overflow; the equality fallback is correct for all inputs; mux and clamp select as specified; bit-parity and population count compute their mathematical definitions for every width, prefix-or does so for every power-of-two width.", "quantifier": "all ring values at every width", "why_tests_cant": "2^(2w) pairs", "anchors": ["src/libspu/kernel/hal/ring.cc:_less", "src/libspu/kernel/hal/ring.cc:_equal", "src/libspu/kernel/hal/ring.cc:_mux", "src/libspu/kernel/hal/ring.cc:_prefix_or", "src/libspu/kernel/hal/ring.cc:_bit_parity", "src/libspu/kernel/hal/ring.cc:_popcount"]}
{"id": "C38", "title": "Mersenne-prime field arithmetic is exact and canonical", "statement": "Addition, multiplication, inversion and exponentiation modulo the Mersenne prime return the canonical representative in [0,p) of the mathematical result for all canonical inputs, with no overflow of the machine word.", "quantifier": "all field elements, for every Mersenne exponent supported", "why_tests_cant": "2^127 elements", "anchors": ["src/libspu/mpc/utils/gfmp.h", "src/libspu/mpc/utils/gfmp_ops.cc"]}
{"id": "C39", "title": "Concurrent program execution is deterministic and deadlock-free", "statement": "Executing a straight-line block on any number (>= 1) of worker threads terminates, runs every operation exactly once, runs each operation after its operands were produced, and ends with the same values as sequential execution, for every thread schedule.", "quantifier": "all programs, all thread counts, all interleavings", "why_tests_cant": "schedule space is unbounded", "anchors": ["src/libspu/device/executor.cc:BlockParallelRunner", "src/libspu/device/executor.cc:OpExecTask", "src/libspu/device/executor.cc:SymbolScope"]}
{"id": "C40", "title": "Configuration defaulting is idempotent and never overrides the user", "statement": "Filling in runtime defaults changes only unset fields, always leaves a configuration in which every derived field is set (the number of parallel operations when that mode is on; the offset of the prime-field exponential for the one ring that has a default), and applying it twice equals applying it once.", "quantifier": "all configurations", "why_tests_cant": "product space of all configuration fields", "anchors": ["src/libspu/core/config.cc:populateRuntimeConfig"]}
{"id": "C41", "title": "Type strings round-trip", "statement": "Printing any registered value type to its string and parsing the string back gives an equal type, and the very same type (size and unprinted members included) except for three named classes; types that are not equal print differently.", "quantifier": "all registered types and all field / owner / bit-count parameters", "why_tests_cant": "parameters are unbounded integers", "anchors": ["src/libspu/core/type.cc:Type::toString", "src/libspu/core/type.cc:Type::fromString"]}
{"id": "C42", "title": "One-time masks are never reused by a non-replay request", "statement": "Over any history of correlated-randomness requests, the masks handed out by two different requests are drawn from disjoint parts of the parties' key streams, unless the later request explicitly asks to replay the earlier one.", "quantifier": "all request histories, all key streams, all party counts", "why_tests_cant": "a reused mask produces correct results in every functional test; only the statement over all histories of stream positions exposes it", "anchors": ["src/libspu/mpc/semi2k/beaver/beaver_impl/beaver_tfp.cc:BeaverTfpUnsafe::Dot", "src/libspu/mpc/semi2k/beaver/beaver_impl/beaver_ttp.cc:BeaverTtp::Dot"]}
{"id": "C43", "title": "Streamed dealer adjustments are reassembled exactly", "statement": "Whatever sizes the network delivers the dealer's response in, the client ends up with each adjustment buffer holding exactly the bytes the server computed for it, and rejects responses of the wrong total size without touching memory outside its buffers.", "quantifier": "all response sizes, all fragmentations, all numbers of buffers and server chunk sizes", "why_tests_cant": "tests use small responses that fit one message; fragmentation depends on the transport", "anchors": ["src/libspu/mpc/semi2k/beaver/beaver_impl/beaver_ttp.cc:ProgressiveReader", "src/libspu/mpc/semi2k/beaver/beaver_impl/ttp_server/beaver_server.cc:AdjustAndSend"]}
{"id": "C44", "title": "Random shared values stay in the documented range", "statement": "The jointly sampled random arithmetic value opens to a number in the range promised for comparisons, [-2^(k-2), 2^(k-2)), for every randomness and every supported number of parties.", "quantifier": "all local randomness, all party counts", "why_tests_cant": "the violating draws are a fraction of the sample space and depend on the number of parties", "anchors": ["src/libspu/mpc/semi2k/arithmetic.cc:RandA"]}
{"id": "C45", "title": "In-place updates change exactly the addressed elements", "statement": "Writing a block into an array (update_slice) makes the array read as the new value on the block and as before elsewhere, even when the array was a broadcast view; scattering writes exactly the listed positions, the last write to a position winning; gathering returns exactly the listed elements.", "quantifier": "all arrays, strides, blocks, start positions and index lists", "why_tests_cant": "aliasing through strides only shows for particular view histories", "anchors": ["src/libspu/core/ndarray_ref.cc:NdArrayRef::update_slice", "src/libspu/core/ndarray_ref.cc:NdArrayRef::linear_scatter", "src/libspu/core/ndarray_ref.cc:NdArrayRef::linear_gather"]}
{"id": "C46", "title": "Bit reversal", "statement": "Bit reversal of bits [start, end) maps bit start+k of the value to bit end-1-k for every k, and leaves every other bit unchanged, for every range 0 <= start <= end <= word width that the kernels accept.", "quantifier": "all words, all widths, all accepted ranges", "why_tests_cant": "tests use a few small ranges and never end = word width", "anchors": ["src/libspu/mpc/utils/ring_ops.cc:ring_bitrev_impl", "src/libspu/mpc/semi2k/boolean.cc:BitrevB", "src/libspu/mpc/common/pv2k.cc:BitrevP"]}
{"id": "C47", "title": "Rotating roles are three different parties", "statement": "Kernels of the replicated protocol that draw a public random pivot assign the three roles P0, P1, P2 to three different parties, the same way at every party, for every value of the pivot.", "quantifier": "all 64-bit pivots, all parties", "why_tests_cant": "The bad pivots are 2 of 2^64 values; a random test never hits them.", "anchors": ["src/libspu/mpc/aby3/arithmetic.cc:TruncAPr", "src/libspu/mpc/aby3/arithmetic.cc:TruncAPr2", "src/libspu/mpc/aby3/arithmetic.cc:TruncPrWithMsbKnown", "src/libspu/mpc/aby3/conversion.cc:B2AByOT", "src/libspu/mpc/aby3/conversion.cc:MsbA2B"]}
{"id": "C48", "title": "Boolean shares can be shifted by every amount below the ring width", "statement": "Logical left and right shift and arithmetic right shift of a replicated boolean share by any amount below the ring width open to the shifted value, whatever the declared bit count (and hence the storage width) of the share.", "quantifier": "all shares, all declared bit counts, all amounts below the ring width", "why_tests_cant": "the failing combinations are few pairs of declared width and amount, and the effect of an undefined shift depends on the machine", "anchors": ["src/libspu/mpc/aby3/boolean.cc:RShiftB", "src/libspu/mpc/aby3/boolean.cc:LShiftB"]}
{"id": "C49", "title": "Configurations survive serialisation", "statement": "Writing a runtime configuration to a protocol buffer message and reading it into a fresh object gives the same configuration (the cheetah options under the cheetah protocol); writing what was read gives the same message; a message in which only protocol and ring are set is defaulted like a default-constructed configuration.", "quantifier": "all configurations, all field values", "why_tests_cant": "product space of some thirty fields; a field forgotten in one direction shows only when it is not at its default", "anchors": ["src/libspu/spu.cc:convertFromPB", "src/libspu/spu.cc:convertToPB", "src/libspu/spu.cc:RuntimeConfig::ParseFromString", "src/libspu/spu.h:RuntimeConfig"]}
{"id": "C50", "title": "Cheetah's secret permutation applies the owner's permutation to the shared vector", "statement": "In cheetah, permuting an additively shared vector of at least two elements with one party's private permutation (InvPermAV) terminates and the value opened from the result at position \u03c0(j) is the value opened from the input at position j; permuting with a shared permutation (PermAM) applies the composition of all parties' permutations, InvPermAM applies its inverse, and PermAM followed by InvPermAM restores every value. This holds for every permutation, every length and every additive sharing, given that the secret multiplication returns shares of the element-wise product. A vector of one element throws.", "quantifier": "all lengths \u2265 2, all permutations of all parties, all ring widths, all shares, all protocol states; any number of parties", "why_tests_cant": "The network's topology and settings depend on the length and on the permutation; a column that pairs the wrong rows, or scatters an element to the wrong slot, may show only for particular permutations of particular lengths.", "anchors": ["src/libspu/mpc/cheetah/permute.cc:39-219", "src/libspu/mpc/utils/waksman_net.cc", "src/libspu/mpc/utils/permute.cc:27-38"]}
{"id": "C51", "title": "Bit packing loses nothing, and opening packed shares opens the shares", "statement": "In cheetah's oblivious-transfer utilities, packing any number of elements of b bits into ring words (ZipArray) and unpacking them (UnzipArray) returns the low b bits of every element, including elements that cross a word boundary, and writes only within the \u2308n\u00b7b/w\u2309 words reserved. Opening exclusive-or shares through the packed words (OpenShare with XOR) gives, for every non-empty array, the exclusive or of the shares cut to the declared bits; opening additive shares (ADD) gives the sum modulo 2^b provided each share word is below 2^b. Without that proviso the carry of one packed slot enters the next element, and opening an empty exclusive-or-shared array throws.", "quantifier": "all word widths, all bit counts 1 \u2264 b \u2264 w, all array lengths, all share words", "why_tests_cant": "Whether an element crosses a word depends on index, bit count and width together; a carry between slots needs particular words.", "anchors": ["src/libspu/mpc/cheetah/ot/ot_util.h:27-100", "src/libspu/mpc/cheetah/ot/ot_util.cc:67-119"]}
{"id": "C52", "title": "Cheetah's oblivious-transfer protocols compute their functions", "statement": "Given oblivious transfers that deliver what they promise (a random message by a random choice; the chosen multiple of a correlation as an additive share modulo 2^b, also with the modulus shrinking per level; the chosen one of N messages), the two-party protocols of BasicOTProtocols compute, whatever the random values: AND of boolean shares on the declared bits (BitwiseAnd); two ANDs with a common bit (CorrelatedBitwiseAnd); conversion of one-bit and of packed boolean shares to additive shares (B2A), also into a smaller ring (B2ASingleBitWithSize, for 1 < bit width < ring width), with the outputs reduced to that ring; random additively shared bits (RandBits); multiplication of an additive share by a shared or by a privately held bit (Multiplexer, PrivateMulx). All non-empty inputs with at least one declared bit succeed; AND on shares declared with 0 bits and conversion to a one-bit ring throw.", "quantifier": "all ring widths w > 0, all lengths n > 0, all declared bit counts up to w, all share words, all transfers meeting the specification and all states of them", "why_tests_cant": "Tests use three rings, a few shapes and one randomness; the shrinking modulus in PackedB2A and the packing order of triples hold or fail per bit.", "anchors": ["src/libspu/mpc/cheetah/ot/basic_ot_prot.cc:63-530", "src/libspu/mpc/cheetah/ot/ot_util.cc:67-119"]}
{"id": "C53", "title": "Cheetah's comparison and equality of two private numbers are exact", "statement": "Given oblivious transfers as in C52, CompareProtocol::Compute returns one-bit boolean shares of whether party 0's word is greater (or less) than party 1's, and ComputeWithEq additionally of whether they are equal; EqualProtocol::Compute returns shares of whether they are equal. With all bits the comparison is that of the unsigned words. With a bit width b, equality is on exactly the low b bits, and the comparison is on the low \u2308b/r\u2309\u00b7r bits for digits of r bits, hence on the low b bits if r divides b or both words are below 2^b (otherwise bits above b can decide). The result does not depend on the uninitialised memory that the tree without equality carries in its first column, nor on the random masks; the opened value is exactly 0 or 1.", "quantifier": "all ring widths, all digit sizes r with 2^r \u2208 {2,4,8,16,256}, all bit widths 0 \u2264 b \u2264 w, all lengths n > 0, all words, all contents of uninitialised memory, all transfers meeting OtOk", "why_tests_cant": "The tree has different shapes for each digit count (powers of two or not), and uninitialised memory rarely differs in tests.", "anchors": ["src/libspu/mpc/cheetah/nonlinear/compare_prot.cc:38-458", "src/libspu/mpc/cheetah/nonlinear/equal_prot.cc:38-181"]}
{"id": "C54", "title": "Cheetah's truncation is within one unit, and its sign-bit, equality and mixed kernels are exact", "statement": "Given oblivious transfers as in C52: TruncateProtocol::Compute returns additive shares of \u230av/2^s\u230b + e with e \u2208 {\u22121,0,1}, where v is the signed or unsigned value as requested, for every value whose sign agrees with the hint in the metadata; without a hint and with the heuristic this holds for all signed values in [\u22122^(w\u22122), 2^(w\u22122)) and s \u2264 w\u22122 (TruncA). A shift by 0 is the identity. The cases excluded are real: shift 1 with the hint \"negative\" throws, shift w\u22121 in the heuristic shifts by a negative amount, false hints and values beyond a quarter of the ring give wrong results, and both errors \u00b11 occur. MsbA2B returns a boolean share whose low bit is bit nbits\u22121 of the value (the top bit if nbits = 0, then the other bits are zero); EqualAA and EqualAP return shares of exactly 0 or 1 telling whether the low nbits bits agree; MulA1B, MulA1BV, AndBB and B2A return the product, conjunction and conversion, also of empty arrays.", "quantifier": "all ring widths w \u2265 4, all shifts, signs, lengths, shares, contents of uninitialised memory and transfers meeting OtOk", "why_tests_cant": "Failures of truncation depend on a few of the 2^w ways to share a value; tests draw shares at random.", "anchors": ["src/libspu/mpc/cheetah/nonlinear/truncate_prot.cc:32-297", "src/libspu/mpc/cheetah/arithmetic.cc:36-206", "src/libspu/mpc/cheetah/boolean.cc:23-39", "src/libspu/mpc/cheetah/conversion.cc:60-73"]}
{"id": "C55", "title": "Ferret's oblivious transfers deliver exactly the chosen message from correlated blocks", "statement": "Given correlated transfers (the receiver's block equals the sender's, or differs by the sender's Delta where the choice is one), YaclFerretOt meets the specification of transfers that C52-C54 assume: SendCAMCC/RecvCAMCC yield outputs whose difference is the correlation where the choice is non-zero and 0 elsewhere, modulo 2^bit_width; the collapsed variant does so modulo the width that decreases from level to level, also for batches of eight that cross a level; SendRMRC/RecvRMRC and SendRMCC/RecvRMCC give the receiver the message of its choice, within the width; SendCMCC/RecvCMCC for N in {2,4,8,16,256} give it the chosen message modulo 2^bit_width. Sender and receiver agree on the number of words exchanged: none is missing or left over. For other N between 2 and 256 the checks pass but the claim does not hold: where log2 N rounded down is 5, 6 or 7 every call throws, and for N = 3 messages 0 and 2 are encrypted with the same pad.", "quantifier": "all hash functions, correlations, choices, messages, lengths, word widths and bit widths", "why_tests_cant": "The packing depends on width, length and position of the batch together; tests use a few combinations, and reuse of a pad cannot be seen in correct output.", "anchors": ["src/libspu/mpc/cheetah/ot/yacl/ferret.cc:179-465", "src/libspu/mpc/cheetah/ot/yacl/ferret.cc:519-788", "src/libspu/mpc/cheetah/ot/yacl/ferret.cc:866-932", "src/libspu/mpc/cheetah/ot/yacl/mitccrh_exp.h:37-193"]}
{"id": "C56", "title": "The pool of correlated transfers never uses one of them twice and never fails", "statement": "For YaclFerretOTeAdapter with 2\u00b7reserve \u2264 n and reserve \u2264 pre_n \u2264 n (true of the constants in the code whenever the library reserves at most 470016): over any sequence of requests of any sizes, including those served in place and those needing two extensions, every request succeeds, no copy leaves a buffer, no uninitialised element is handed out, and every output of the extension is in exactly one place: handed out once, used as a seed once, or still held. If the extension preserves the correlation (the receiver's block is the sender's plus Delta times its lowest bit), so does everything handed out, and send_cot/recv_cot turn it into the correlation for the chosen bits; the seeds prepared by OneTimeSetup have it. Hence the transfers of C55 over these pools meet the specification assumed in C52-C54. With a larger reserve (n = 5, reserve = 4) a request can leave the buffer.", "quantifier": "all sequences of requests, sizes, extensions, initial memory contents, Delta and choices", "why_tests_cant": "A correlated transfer that is used twice gives correct outputs and leaks; the in-place and worst-case paths need requests around ten million elements in particular states of the pool.", "anchors": ["src/libspu/mpc/cheetah/ot/yacl/yacl_ote_adapter.cc:28-255", "src/libspu/mpc/cheetah/ot/yacl/yacl_ote_adapter.h:50-144"]}
{"id": "C57", "title": "BufferedIO is an exact byte stream in each direction", "statement": "For any buffer size above zero and any interleaving of send_data, flush and recv_data by the two parties over a link that delivers messages in order: sending never overflows the buffer and appends to the stream; a flush, and every receive, pushes all that the party sent; a receive returns exactly the next bytes of the other party's stream if they were pushed, regardless of how they were cut into messages, and waits otherwise. What a party received is always a beginning of what the other sent.", "quantifier": "all buffer sizes, schedules, lengths and contents", "why_tests_cant": "Errors at the boundaries of the 1 MiB buffer and of received messages depend on the whole history of lengths.", "anchors": ["src/libspu/mpc/cheetah/ot/yacl/ferret.cc:34-122"]}
{"id": "C58", "title": "Switching between the ring modulo 2^k and a product of RLWE moduli rounds to the nearest integer", "statement": "For odd pairwise coprime moduli q_1..q_L below 2^61 with product Q, an odd gamma coprime to them and 2 <= k <= 128: setting up the helper succeeds; ModulusUpAt maps x to the residues of the nearest integer to Q x / 2^k provided Q mod 2^k + q_l does not exceed the machine word (which all moduli used by the program satisfy, and without which it can be wrong); CenteralizeAt gives the residues of the representative of x in (-2^(k-1), 2^(k-1)]; ModulusDownRNS maps the residues of X to the nearest integer to 2^k X / Q - d modulo 2^k for some 0 <= d < L/gamma, hence to the nearest integer to 2^k X / Q outside that window; up then down is the identity. Inv2k inverts every odd word.", "quantifier": "all ring elements, moduli, gamma and bit lengths 2..128", "why_tests_cant": "Rounding errors and word overflows occur only for ring elements close to a boundary that depends on the product of the moduli.", "anchors": ["src/libspu/mpc/cheetah/rlwe/modswitch_helper.cc:41-411", "src/libspu/mpc/cheetah/arith/cheetah_mul.cc:124-130", "src/libspu/mpc/cheetah/arith/cheetah_dot.cc:118-152"]}
{"id": "C59", "title": "Cheetah's private multiplication shares the product exactly for all but a negligible fraction of the masks", "statement": "MulOLE of arrays x and y of any length gives two arrays whose sum modulo 2^k is x*y element by element up to an error of -1, 0 or 1, and MulShare does the same for (x0+x1)*(y0+y1), for all inputs and masks. There is a set of at most Q/2^48 of the Q masks (Q/2^10 when errors in the last bit are allowed), the same for all inputs, outside which both are exact. For every ring of 32, 64, 128 bits and every message length the moduli chosen by the program meet the bounds this needs. An error of one unit does occur for some input and mask.", "quantifier": "all array lengths, numbers of slots, inputs, masks, rings and message lengths", "why_tests_cant": "One mask in 2^48 or fewer gives a wrong product; array layouts over several polynomials and moduli depend on the length.", "anchors": ["src/libspu/mpc/cheetah/arith/cheetah_mul.cc:124-139", "src/libspu/mpc/cheetah/arith/cheetah_mul.cc:339-474", "src/libspu/mpc/cheetah/arith/cheetah_mul.cc:523-765", "src/libspu/mpc/cheetah/arith/simd_mul_prot.cc:55-290"]}
{"id": "C60", "title": "Cheetah's multiplication kernels share the product, never reuse a triple, and cover every element when tiled", "statement": "If the private multiplication is right up to e units (C59: e = 1 always, e = 0 outside a negligible set of masks), then MulAA returns shares of x*y up to 2e units for arrays of every length, on the triple-based and on the direct path; MulAV returns shares of x*y up to e units for either owner; SquareA shares of x^2 up to 2e units. Any sequence of requests to the triple cache, with changes of the ring in between, succeeds and hands both parties matching triples; if the random elements drawn are pairwise distinct, so are all elements of triples handed out, that is no random element is handed out twice. The slices made for parallel evaluation are non-empty, at most as many as instances, and concatenate to the whole array, so the tiled evaluation is right whenever the evaluation of every slice is.", "quantifier": "all arrays and lengths, all shares and randomness, all sequences of requests, all numbers of instances", "why_tests_cant": "Cache contents depend on the history of requests; the boundaries between triples left over, appended and dropped occur only for particular sequences of lengths and rings.", "anchors": ["src/libspu/mpc/cheetah/arithmetic.cc:208-360", "src/libspu/mpc/cheetah/state.cc:28-187"]}
{"id": "C61", "title": "SPDZ2k's MAC check accepts honest openings and catches a changed value whatever the other parties send", "statement": "For every number of parties, ring of w bits and parameters k, s with k+s <= w: if all shares and masks are authenticated modulo 2^(k+s) then BatchOpen yields a value congruent to the shared one modulo 2^k and BatchMacCheck accepts, for all public coins. If some opened value differs modulo 2^k from the shared one, then the values of the honest party's key (s bits) and of the coins for which the honest party accepts are at most a fraction (s+5)/2^(s+2) of all, for every choice of the other parties' MAC shares and of their contributions, which may depend on the coins. commit_and_open returns true exactly if every other party's opening hashes, with its rank, to its commitment, places the own message at the own rank, accepts honest openings, and two accepted openings of the same commitments agree unless they exhibit a hash collision. The public seed is a bijective function of each party's own seed.", "quantifier": "all numbers of parties, all w, k, s with k+s <= w, all lengths, values, shares, keys, coins and strategies of the other parties", "why_tests_cant": "The bound is a count over all keys and coins (2^64 times 2^(64 n)); tests run honest parties only, and the zero divisors of the ring (errors divisible by large powers of two) are the hard case.", "anchors": ["src/libspu/mpc/spdz2k/beaver/beaver_tfp.cc:220-329", "src/libspu/mpc/spdz2k/beaver/beaver_tinyot.cc:659-766", "src/libspu/mpc/spdz2k/commitment.cc:25-88"]}
{"id": "C62", "title": "SPDZ2k's arithmetic kernels keep values authenticated; multiplication is checked, matrix multiplication is not, and inputs cannot be revealed", "statement": "For every number of parties, ring and parameters k + s <= w, and for the randomness dealt by the trusted first party: P2A, V2A, RandA, NegateA, AddAP, AddAA, MulAP, LShiftA, MatMulAP return authenticated shares of the specified value, generating missing MACs; in an honest run MulAA passes its checks and returns authenticated shares of x*y, A2P and A2V reveal x modulo 2^k; whatever is added to the openings of MulAA, what it returns is authenticated for the product of the changed factors (so that only its checks, C61, protect the product). TruncA returns floor(x/2^bits) - e + c*2^(k-bits) with e in {0,1}, c in {-1,0,1}, where c = 0 unless x - r wraps around, which happens for exactly x+1 (x >= 0) or -x-1 (x < 0) of the 2^k masks. MatMulAA authenticates (X + d) * Y if d is added to its opening, and every later opening accepts it: it checks no MACs. A2P of a secret made by Spdz2kIo::toShares aborts in an honest run for all but a fraction (s+5)/2^(s+2) of keys and coins unless the secret is zero.", "quantifier": "all numbers of parties, all w, k, s with k+s <= w, all lengths and matrix dimensions, values, shares, keys, randomness, errors", "why_tests_cant": "Tests run honest parties on values that were shared with P2A; the attack on MatMulAA leaves no trace in a test, and the errors of truncation depend on 2^k masks.", "anchors": ["src/libspu/mpc/spdz2k/arithmetic.cc:45-625", "src/libspu/mpc/spdz2k/beaver/trusted_party.cc:100-267", "src/libspu/mpc/spdz2k/beaver/beaver_tfp.cc:47-218", "src/libspu/mpc/spdz2k/io.cc:47-128"]}
{"id": "C63", "title": "SPDZ2k's boolean kernels compute on authenticated bits, except for small shapes and zero operands; some openings show more than the bit", "statement": "For every number of parties, k, s, w with 1 + s <= w and compact arrays whose last dimension is at least 2: P2B, NotB, XorBB, XorBP, AndBB, AndBP, BitrevB, LShiftB, RShiftB, ARShiftB return authenticated shares of the bits of p mod 2^k, 2^nbits - 1 - x, x xor y, x and y, the reversed bits, (x << b) mod 2^k, x >> b and the arithmetic shift of the k-bit number, B2P opens exactly the shared numbers and passes its MAC check, A2Bit, Bit2A and B2A return authenticated shares of the least significant bit, of that bit as an arithmetic share and of the number. What makeBShare writes is what getShare reads exactly when the last dimension is not 1, or nbits < k and there is more than one element or one bit: in an array of one element every bit is read as the last one written (so that B2P(P2B(p)) = 2^bitwidth(p) - 1), and when the last dimension is 1 and nbits = k every bit is read as the first one. P2B and AndBP of a public array that is zero everywhere divide by zero. When bits are opened with the masks of the trusted first party, the opened value modulo 2^(s+1) is the sum of the two bits of an XOR plus 0 or 2, so it shows both bits if it is 0 or 4. MSB begins by opening its argument modulo 2^k to all parties.", "quantifier": "all numbers of parties, shapes, w, k, s, numbers of bits, values, shares, keys, dealt randomness, uninitialised buffers", "why_tests_cant": "The tests use one shape with many elements, random operands that are never all zero, and look at results only, not at what is opened.", "anchors": ["src/libspu/mpc/spdz2k/boolean.cc:36-572", "src/libspu/mpc/spdz2k/value.cc:41-203", "src/libspu/mpc/spdz2k/conversion.cc:141-347", "src/libspu/core/shape.cc:32-46", "src/libspu/core/ndarray_ref.cc:118-153", "src/libspu/core/ndarray_ref.h:415-480", "src/libspu/mpc/spdz2k/beaver/trusted_party.cc:107-126"]}
{"id": "C64", "title": "SecureNN's share conversion and most significant bit are right except for stated random values and values of large magnitude; the helper learns how large the secret is", "statement": "For every word width k with 15 <= k <= 128, all shares and all random values: ShareConvert turns shares modulo 2^k of a into shares of a modulo 2^k - 1, unless the common mask r0 + r1 is zero modulo 2^k, or the flag is set, rank 2 drew 1 as the first share of the comparison and a0 + r0 overflows; in the latter case, and for a zero mask with the flag not set, the result is a + 1. The private comparison returns flag xor (x > r) unless the flag is set and r = 2^k - 1; its branch for that case can return the wrong answer. Msb returns shares modulo 2^k of bit k-1 of the value shared modulo 2^k - 1, unless the opened value 2a + x is zero modulo 2^k - 1; then it can return 1 for zero. Msb_a2b finds bit k-2 of its argument, which is the sign exactly for arguments in [-2^(k-2), 2^(k-2)). If rank 2 finds a zero at position i in ShareConvert then a + 1 < 2^(i+1) or (-a mod 2^k) < 2^(i+1). Iterations of the loop that run one after the other compute the comparison; two iterations that run at the same time share w_total, and rank 2 can then deny 0 < 1.", "quantifier": "all widths 15..128, shares, masks, random values, bit positions; orders of the two iterations", "why_tests_cant": "The bad random values have probability about 2^-k, the tests use values of small magnitude and fewer than 50000 elements, and they look at results only, not at what the helper receives.", "anchors": ["src/libspu/mpc/securenn/arithmetic.cc:547-1190", "src/libspu/mpc/securenn/conversion.cc:188-200"]}
{"id": "C65", "title": "SecureNN kernels compute on what is shared and keep rank 2's share zero and the generators in step; rank 2 can read the operands of AND, truncation and bit conversion", "statement": "For every width, all shares and all random streams, starting from generators of neighbours that are in step: every program of V2A (any owner), P2A, NegateA, AddAA, AddAP, MulAA, MulAP, LShiftA and TruncAPr calls runs, each register is shared by ranks 0 and 1 alone (rank 2 holds zero), its value is the plain result modulo 2^w (a truncated value in [-2^(w-2), 2^(w-2)) is rounded down or up, exactly for multiples), and the generators are in step again, although ranks draw different halves of the pairs. MatMulAA is the product of matrices. MulAA multiplies what ranks 0 and 1 hold: a product with a value from RandA opens to (r - r_2) * y and not r * y. Boolean programs, A2B, B2A, B2A_Randbit and the final A2B of Msb_a2b keep the value that is shared. Rank 2 can compute both operands of AndBB, the operand of TruncAPr and the operand of B2A_Randbit from the masks that it knows and the words that are opened to all. AndBB uses the same mask for all elements if the array of masks fits into one ring element, so that the xor of any two elements is public; in larger arrays every element has its own mask.", "quantifier": "all widths (powers of two up to 128 for boolean circuits), programs, shares, random streams and counters", "why_tests_cant": "Tests look at opened results for a few values and never at what a party can derive from what it sees; desynchronised generators would show only in some sequences of kernels.", "anchors": ["src/libspu/mpc/securenn/arithmetic.cc:30-545", "src/libspu/mpc/securenn/boolean.cc", "src/libspu/mpc/securenn/conversion.cc:39-200", "src/libspu/mpc/securenn/io.cc"]}
{"id": "C66", "title": "Visibility inference: a well-typed compiled program shows nothing about its secret inputs; where inference is wrong it reveals them", "statement": "For every program (operations, if, case, while, reduce, sort, nested arbitrarily) without an explicit reveal: if no loop or reduction operand is passed from a secret to a public type and each reduction body returns the types it takes, then two runs on inputs that agree on the public ones show the same to everybody (all values of public type, including those inside regions), fail or end alike, and agree on all results whose inferred visibility is public. Inference of loop-free code is monotone, and inference of a loop whose loop-free body keeps secret carries secret ends after at most one round more than there are carries, with the least visibilities that do. The condition is needed: the inferred type of a loop or reduction can be public although an operand is secret, and the compiled program then reveals the operand; for a loop that swaps a secret and a public carry inference never ends; and a reduction with four accumulators can have a result of public type that depends on a secret.", "quantifier": "all programs, nesting depths, tensors, inputs, visibilities and numbers of loop rounds", "why_tests_cant": "Tests compare the inferred types of a few modules; noninterference is about pairs of runs, and a reveal that the compiler inserts changes no result.", "anchors": ["src/libspu/dialect/pphlo/transforms/visibility_inference.cc", "src/libspu/dialect/pphlo/transforms/visibility_inference.h:43-103", "src/libspu/dialect/pphlo/transforms/hlo_legalize_to_pphlo.cc:205-230,337-384,578-639", "src/libspu/kernel/hlo/control_flow.cc", "src/libspu/kernel/hlo/casting.cc:31-37", "src/libspu/dialect/pphlo/IR/types.cc:91-97"]}
{"id": "C67", "title": "Inserted deallocations never free a value that is still needed, and free each value once", "statement": "For every program with nested regions, all kernels (which may run their regions any number of times and change the state of the context), all inputs, and both sequential and parallel mode: the program with the FreeOps of the deallocation pass gives the same results and the same state as the program without, or fails where it fails; no FreeOp finds its value missing. A value defined by an operation of a block is freed exactly once, directly after its last use, if that use is as an operand of an operation of the same block, and never otherwise (block arguments, captured values, returned values). The number of values in the scope of a block is never larger than without the pass.", "quantifier": "all programs, kernels, inputs, states and scopes", "why_tests_cant": "A use after free needs a particular pattern of captures and repeated operands; tests run few programs and the executor's erase of a missing key is silent.", "anchors": ["src/libspu/dialect/pphlo/transforms/insert_deallocation.cc", "src/libspu/device/executor.cc:30-150", "src/libspu/device/pphlo/pphlo_executor.cc:213-235,1141-1160"]}
{"id": "C68", "title": "The compiler's peephole rewrites keep the meaning of a program, except for two that are wrong", "statement": "For every program, all inputs and every sequence of applications of the rewrite patterns (decomposition, sign bit, division by a root, division by a broadcast, conversion push down, truncation reduction, mixed type lowering with a float operand, select, folders and canonicalisation), anywhere in the program: each element the program defines keeps its value and its type. sqrt(x)+c with 0 <= c <= machine epsilon changes by at most sqrt(eps) or c. But sqrt(x)-d is replaced by sqrt(x+eps) for every d >= 0, an error as large as d; and lowering mul(convert(i), j) with an integer j turns a float program into an integer one, so that a later division truncates.", "quantifier": "all expressions, inputs, positions and sequences of rewrites", "why_tests_cant": "Patterns fire in combinations and contexts no test enumerates; the two wrong ones need a negative constant and a masked conversion.", "anchors": ["src/libspu/dialect/pphlo/transforms/decompose_patterns.td:21-67", "src/libspu/dialect/pphlo/transforms/decompose_ops.cc:30-51", "src/libspu/dialect/pphlo/transforms/rewrite_signbit.cc:38-103", "src/libspu/dialect/pphlo/transforms/optimize_sqrt_plus_eps.cc:29-80", "src/libspu/dialect/pphlo/transforms/rewrite_div_sqrt_patterns.cc:26-96", "src/libspu/dialect/pphlo/transforms/optimize_denominator_with_broadcast.cc:26-51", "src/libspu/dialect/pphlo/transforms/reduce_truncation.cc:28-82", "src/libspu/dialect/pphlo/transforms/lower_mixed_type_op.cc:33-76", "src/libspu/dialect/pphlo/transforms/optimize_select.cc:57-122", "src/libspu/dialect/pphlo/IR/fold.cc", "src/libspu/dialect/pphlo/IR/canonicalization_patterns.td:20-24"]}
{"id": "C69", "title": "A product with a constant is close to the product; for small constants the sign is lost, integers stay integers and the executor can hang", "statement": "For every ring width, number of fraction bits, constant and value in the safe range, and every truncation that is off by at most one: the executor's product with a positive constant below four units is off by at most one unit plus a relative error of two units; with any other constant by one unit and one unit times the number. For a constant of magnitude below four units (and only then) the sign is ignored; an integer operand gives an integer result, off by up to a half; for a magnitude below 2^-63 the loop that finds the power of two never ends, and for one below 2^(f-K-1) the shift is at least as wide as the ring.", "quantifier": "all ring widths, fraction bits, constants, values and truncations", "why_tests_cant": "The separate path is taken only for constants below 2^(2-f), and its failures need negative, very small or integer operands.", "anchors": ["src/libspu/device/pphlo/pphlo_executor.cc:150-158,299-345", "src/libspu/core/encoding.cc:52-117", "src/libspu/kernel/hal/polymorphic.cc:94-118"]}
{"id": "C70", "title": "Lowered if and case take the branch StableHLO prescribes, except a secret case with a negative index", "statement": "For every number of branches, all their results and every index: a case on a public index as compiled, and the case kernels for public and secret indices, give the results of the branch with the number of the index, or of the last branch if there is none. A case on a secret index as compiled does so for every index that is not negative; for a negative one it gives the results of the first branch. A secret if gives the results of the branch of its condition.", "quantifier": "all branches, results and indices", "why_tests_cant": "Out of range indices are the interesting ones, and there are as many as integers; the public and the secret lowering are different code and no test compares them.", "anchors": ["src/libspu/dialect/pphlo/transforms/decompose_ops.cc:53-122", "src/libspu/dialect/pphlo/transforms/inline_secret_control_flow.cc:27-221", "src/libspu/kernel/hlo/control_flow.cc:31-113"]}
{"id": "C71", "title": "Integer power is exact where it fits, except for powers of zero; corrected integer division is exact", "statement": "For every ring width that is a power of two and every base and exponent: if the power that StableHLO defines (0 for a negative exponent unless the base is 1 or -1) fits in the signed range, the kernel returns it, for every exponent if the base is not zero and for exponents below the ring width if it is; zero to the power of a positive multiple of the ring width is 1. Integer division returns the quotient rounded towards zero whenever the fixed-point quotient it starts from is within one of it and twice the divisor fits.", "quantifier": "all ring widths 2^t with t >= 2, all bases, exponents, dividends and divisors; all approximate quotients within one", "why_tests_cant": "There are 2^128 pairs in FM64; the kernel reads six bits of the exponent, and no test raises zero to a power of 64 or more.", "anchors": ["src/libspu/kernel/hal/polymorphic.cc:336-396", "src/libspu/kernel/hal/polymorphic.cc:422-450"]}
{"id": "C72", "title": "Casts between integers and fixed point and all roundings are exact; the cast is undefined from 31 fraction bits on", "statement": "For every ring width and every number of fraction bits below it: casting an integer that fits gives the same number; floor gives the largest integer not above the number for every word; ceiling, rounding half away from zero and rounding half to even give the integer the rule prescribes for every word to which one can be added without overflow; casting to integers rounds towards zero for every word if there are fewer than 31 fraction bits. With 31 or more fraction bits, casting to integers and rounding half away from zero execute undefined behaviour.", "quantifier": "all widths, fraction bits and words", "why_tests_cant": "Ties and negative numbers are single points among 2^64 words; the undefined shift only exists for configurations that the cast tests do not use.", "anchors": ["src/libspu/kernel/hal/type_cast.cc:26-61", "src/libspu/kernel/hal/fxp_base.cc:383-401", "src/libspu/kernel/hlo/basic_unary.cc:94-150"]}
{"id": "C73", "title": "The error of Goldschmidt division is bounded; divisors of 2^f and more give zero; integer division is exact for small quotients only", "statement": "For every ring width that is a power of two, every number of fraction bits f with 8 <= f < width/2 and every truncation with an error of at most d units (u = d/2^f at most 1/256) on words below a bound R: dividing a by b with 0 < |b| < 2^f, when the quotient and the dividend fit R, gives a/b up to |a/b|(1/10000 + 9u) + u(1 + 1/|b|) with the default two iterations, and up to |a/b|/10^8 + 12u|a/b| + u(1 + 1/|b|) when f >= 30 (u at most 1/1024). The reciprocal of b has the error |1/b|(1/10000 + 9u) + u with two iterations under the same conditions. A divisor of 2^f or more in magnitude gives zero up to one truncation error, as does zero. Secret integer division is exact whenever the error of the quotient so bounded is below one; in FM64 with 18 fraction bits: for divisors below 2^18, dividends below 2^24 and quotients up to 7000. Outside, it is wrong: 600000/300000 = 1 and 1000000/3 = 333328.", "quantifier": "all widths, fraction bits, truncations with bounded error, dividends and divisors; all iteration counts for the general bound", "why_tests_cant": "The tests compare a handful of quotients with a tolerance; a bound for all operands needs the analysis of the iteration with rounding in every step.", "anchors": ["src/libspu/kernel/hal/fxp_base.cc:105-265", "src/libspu/kernel/hal/polymorphic.cc:422-450"]}
{"id": "C74", "title": "Reductions over axes and windows, arg-max and scatter compute what they should; where the initial value is lost", "statement": "For every shape, every set of axes of non-zero extent and every associative and commutative reducer (also on tuples): Reduce gives at each index the fold of the elements that agree with it on the other axes, and the executor's reduce op combines that with the initial value exactly if axis number 0 is among the reduced axes; over an axis of extent zero it fails. For every window shape, stride and dilation that fit: the reduce-window op gives at n the fold of the elements n*stride + w*dilation, combined with the initial value exactly if some dilation is not 1. So both are the fold when the initial value is neutral. ArgMax (general and 1x2x2x1 path) gives the maximum of each window and a mask with exactly one mark, on a place that holds the maximum. If the windows end exactly at the last element, the gradient of max-pooling (ArgMax and MaxPoolScatter), and SelectAndScatter with >=, + and 0, send every source element to exactly one place of its window that holds the maximum, and the result is the sum of what arrives. Otherwise scatter fails; with another initial value or scatter function the result is wrong; ties are not resolved to the first place.", "quantifier": "all ranks, shapes, axes, windows, strides, dilations, reducers and contents", "why_tests_cant": "Tests use a few small shapes and neutral initial values; the index arithmetic of transposition, windows and padding has to agree for every rank and extent.", "anchors": ["src/libspu/kernel/hlo/reduce.cc:31-528", "src/libspu/kernel/hlo/select_and_scatter.cc:26-221", "src/libspu/kernel/hlo/utils.cc:37-116", "src/libspu/device/pphlo/pphlo_executor.cc:834-965"]}
{"id": "C75", "title": "dot_general, tensordot and convolution are the contractions of the specification; where a layout is ignored", "statement": "For all operands and all well-formed dimension numbers with at least one contracting dimension and a batch that is not empty: legalising, canonicalising and executing dot_general gives, at batch coordinates b and remaining coordinates p and q, the sum over the contracting coordinates of the products. Without a contracting dimension it is always refused. tensordot gives the same contraction without batch. Convolution2D gives at (n, a, b, o) the sum over i, j, c of input[n, a*sh+i, b*sw+j, c]*kernel[i, j, c, o], and refuses every other result shape; one spatial dimension likewise. With any order of the dimensions of input, kernel and output the convolution is the same up to that order, unless input and kernel are in standard order and the output is not: then the order of the output is ignored, and with coinciding extents the result is silently wrong.", "quantifier": "all ranks, shapes, dimension numbers, strides, layouts and contents over any commutative ring", "why_tests_cant": "Tests try a few layouts; transposes, reshapes and the im2col expansion have to agree for every rank, order and extent.", "anchors": ["src/libspu/dialect/pphlo/IR/canonicalization.cc:23-518", "src/libspu/dialect/pphlo/transforms/hlo_legalize_to_pphlo.cc:729-770", "src/libspu/kernel/hlo/basic_binary.cc:73-113", "src/libspu/kernel/hlo/convolution.cc:24-108", "src/libspu/kernel/hal/ring.cc:613-671", "src/libspu/device/pphlo/pphlo_executor.cc:353-470"]}
{"id": "C76", "title": "Dynamic slices and updates select and replace the right elements obliviously; which indices are revealed", "statement": "For every shape, slice size and vector of start indices, each public or secret: DynamicSlice returns the elements of the operand from the start on that is obtained by clamping each index to [0, extent - size]. This holds for the public path, for the one-hot product and for the oblivious read, provided, if some index is secret, that the slice is not empty, that no public index is negative, and, without oblivious reads, that the index type holds all numbers below the extents; outside of these conditions it fails or (narrow index type) adds up several elements. DynamicUpdateSlice replaces exactly the elements of the clamped window, with public and with secret start; it reveals a secret index if and only if the first index is public. FilterByMask keeps exactly the elements with non-zero mask, in order.", "quantifier": "all ranks, shapes, sizes, indices (also out of range), visibilities, index types and contents over any commutative ring", "why_tests_cant": "The secret path unrolls into products with shifted unit vectors, recursively over the axes; tests cover a few shapes, and not the mixed visibilities, negative indices or narrow types where it goes wrong.", "anchors": ["src/libspu/kernel/hlo/indexing.cc:314-418", "src/libspu/kernel/hlo/indexing.cc:518-915", "src/libspu/kernel/hal/utils.cc:19-39", "src/libspu/kernel/hal/constants.cc:105-111", "src/libspu/mpc/aby3/oram.cc:144-240"]}
{"id": "C77", "title": "Gathers select the elements the StableHLO specification names, through rewriting, with public and with secret start indices", "statement": "For every operand, tensor of start indices and set of attributes that is well-formed by the StableHLO specification: the gather kernel (non-empty operand and result, no batching dimensions) returns in every place the element named by the specification, with out-of-range start indices clamped, and reads inside of the operand only. The rewriting of the front end (batching dimensions become index vectors; the operand, the start indices and the result are transposed and reshaped) keeps the meaning of the gather, provided that a gather with batching dimensions does not already count as simplified, that its index vector dimension is last, implied, or movable without a change of shape, and that the index type holds the batch extents. The loop of dynamic slices and updates to which a gather with secret start indices is expanded computes the gather, provided the slice is not the whole operand and the index type holds the number of index vectors (and, without oblivious reads, the extents). Outside of these conditions the program is refused, reads out of bounds, or is wrong (narrow index type).", "quantifier": "all ranks, shapes, attributes, start indices (also out of range and negative), index types and contents", "why_tests_cant": "Seven attribute lists interact, and the rewriting composes transpositions, reshapes and index arithmetic; tests cover a few attribute combinations, and not batching dimensions with moved vector dimensions or narrow index types.", "anchors": ["src/libspu/kernel/hlo/indexing.cc:38-312", "src/libspu/kernel/hlo/indexing.cc:422-516", "src/libspu/compiler/front_end/hlo_importer.cc:71-372", "src/libspu/dialect/pphlo/transforms/expand_secret_gather.cc:31-669"]}
{"id": "C78", "title": "Cheetah's homomorphic matrix products give shares of the product for all shapes and packings", "statement": "For all matrices with positive extents, all estimates of costs and all three ways of packing results (interleaved, as single coefficients, not at all): blocks of both matrices, placed in polynomials of degree N and multiplied modulo X^N + 1, have the entries of the product of the matrices at the places that are read; packing and unpacking bring every entry to its place; and DotOLE, BatchDotOLE and MatMulAA give the parties shares of the product. If the rounding of the encoding (K 2^k 2^(k-1) / 2Q for K columns), the noise and 2 L / gamma are together below 1, an entry of DotOLE is off by at most 1 and one of MatMulAA by at most 2, and it is exact unless its mask is near a point where the rounding changes; the masks of different entries are different. For the moduli of the program and up to 2^13 columns the error without noise is at most 2^-16. For an inner extent of 0 MatMulAA returns memory that was not written.", "quantifier": "all shapes, batch sizes, matrices over Z/2^k, masks, cost estimates, degrees 2^n, and noise within a bound", "why_tests_cant": "The place of a coefficient depends on three extents, the chosen block shape and the packing; tests run a few shapes with tolerance for errors and do not distinguish rare wrap-arounds from wrong coefficients.", "anchors": ["src/libspu/mpc/cheetah/arith/matmat_prot.cc:51-704", "src/libspu/mpc/cheetah/arith/cheetah_dot.cc:117-152", "src/libspu/mpc/cheetah/arith/cheetah_dot.cc:317-824", "src/libspu/mpc/cheetah/rlwe/packlwes.cc:39-442", "src/libspu/mpc/cheetah/rlwe/lwe_ct.cc:548-606", "src/libspu/mpc/cheetah/arithmetic.cc:420-457"]}
{"id": "C79", "title": "Oblivious reads of aby3 return the addressed row for every table size, index and randomness", "statement": "For every number of rows n > 0, all seeds, keys, correlated words and masks, and any function in the place of AES: the distributed point function reads no vector past its end and gives two parties equal leaves except at the target, where the flags differ; OramOneHotAA gives the three parties three two-party additive sharings, and OramOneHotAP gives parties 1 and 0 one, of the vector that is 1 at the position of the secret index X (X modulo the next power of two of n) and 0 elsewhere; OramReadOA and OramReadOP with any offset up to n return a replicated sharing of row (position + offset) mod n of the secret or public table, or of zeros if the position is not in the table; hence a slice of rows at an index that fits opens to rows X, X+1, ... of the table. No draw leaves the pseudo-random streams of neighbours out of step. An offset above n >= 2 indexes a vector with a negative number.", "quantifier": "all table sizes, widths 8 to 128, indices, tables, offsets, shares, seeds, keys and pseudo-random words", "why_tests_cant": "The tree is cut on its last layer in a way that depends on n, and every layer depends on fresh keys; tests try a few sizes with random seeds, and an error for particular key bits or sizes would show up rarely.", "anchors": ["src/libspu/mpc/aby3/oram.cc:30-598", "src/libspu/mpc/aby3/oram.h:87-190", "src/libspu/mpc/kernel.cc:264-292", "src/libspu/kernel/hlo/indexing.cc:731-760"]}
{"id": "C80", "title": "Quick sort sorts and quick select selects, whatever the shuffle and the random bits", "statement": "For every number of operands and keys, every length, every threshold >= 0, every shuffle and all random bits, quick sort (partition rounds, then a merge network over all remaining intervals at once) ends, never reads or writes outside of an operand, returns exactly the input records, and orders them by their keys in the given direction; it is not stable. For all 0 < k_lo <= k_hi <= n, every vector and shuffle, with or without tie-breaking random numbers, the secret top-k ends after at most 2n+1 rounds and returns k_hi distinct positions with their values such that none of the others comes before any of them, the first k_lo are the k_lo best, the last of either group is the worst of its group, and the values from place k_lo on are in order; the variant by sorting network and the public variant (for any nth_element that keeps its contract) give the same selection guarantee.", "quantifier": "all operand counts, lengths, keys and values in the comparable range, thresholds, shuffles, random bits and k_lo, k_hi", "why_tests_cant": "The control flow depends on the data, the shuffle and random bits: intervals of every size and nesting, and batches of intervals of different lengths in one merge network; tests use a few inputs with one random shuffle each and cannot show that a bad shuffle never leads to an unsorted result or an endless loop.", "anchors": ["src/libspu/kernel/hal/permute.cc:46-91", "src/libspu/kernel/hal/permute.cc:302-770", "src/libspu/kernel/hal/permute.cc:1758-1850"]}
{"id": "C81", "title": "Sorting and top-k along a dimension act on every line separately, whichever method is chosen", "statement": "For every number of operands of any one shape without an empty dimension and every dimension, hal::permute returns operands of the same shape whose lines along that dimension are, through every place, what the line function makes of the input lines through that place. simple_sort1d, for every configured method, every set of kernels a protocol offers and all visibilities of the keys, either refuses (a stable sort by keys that are not all public without the kernels of radix sort) or returns the records in key order, stably if requested; hence SimpleSort sorts every line. TopK returns for every line along the last dimension the k_hi best values and their places in the line. If the sorted dimension is not empty but another one is, sorting throws.", "quantifier": "all shapes, dimensions, operand counts, methods, kernel sets, visibilities, coins, keys in the comparable range", "why_tests_cant": "The method depends on the protocol and the configuration, and the lines are found by a transposition and two reshapes: tests use a few shapes, mostly one- and two-dimensional, and do not cover all methods times dimensions times visibilities.", "anchors": ["src/libspu/kernel/hal/permute.cc:93-193", "src/libspu/kernel/hal/permute.cc:1518-1756", "src/libspu/kernel/hlo/sort.cc:20-44", "src/libspu/kernel/hlo/rank.cc:24-122"]}
{"id": "C82", "title": "LowMC: the cipher, its inverse and its evaluation on xor-shares agree", "statement": "For every output of the pseudo-random generator, every key and every block: rank_of_matrix is the rank over GF(2); invert_matrix returns the inverse of every matrix of full rank; LowMC::encrypt is the LowMC permutation structure (key whitening, S-box layer in algebraic form, linear layer, constant, round key); a cipher built with need_decrypt decrypts what it encrypted, and one built without it reads outside an empty vector when asked to decrypt; encryption is injective exactly if all linear layers have full rank. For every number of parties, every sharing of input and key, correct AND triples and every array with an axis, the semi2k kernel's output shares open, element by element, to that encryption under the shared key; the kernel has a result exactly for arrays with an axis and at most 2^30 (32-bit) or 2^40 (64/128-bit) elements. Several inputs are combined share-wise, injectively up to 128 bits in all. The declared bit count of the result is the maximum of three widths, sound if the input declares all bits.", "quantifier": "all generators, keys, blocks, party counts, sharings, triples, shapes, numbers of inputs", "why_tests_cant": "The matrices are drawn from a seed: a test sees a handful of the 2^(w*w) matrices, so singular matrices, rank computations with late pivots, and the declared bit counts that depend on a party's own random key share are practically never observed.", "anchors": ["src/libspu/mpc/utils/lowmc_utils.cc:24-115", "src/libspu/mpc/utils/lowmc.cc:30-370", "src/libspu/mpc/semi2k/lowmc.cc:48-391"]}
{"id": "C83", "title": "Group-by: the leading rows are the distinct keys in order with the exact sums or averages of their groups", "statement": "For every nonempty table of fewer than 2^(w-1) rows whose key columns are all public or all private with one owner, every number of key and payload columns, every visibility of the payloads (one visibility and owner) and every protocol capability: GroupByAgg for sums returns, in its first G rows, every distinct key tuple exactly once in ascending signed lexicographic order, and beside it the ring sum of each payload over the rows with that key, where G is the number of distinct tuples; key columns keep their visibility. For averages the operands of the division are exactly that sum (integers scaled by 2^f) and the group size scaled by 2^f, and with unsafe_output_order_drop_rest exactly the G leading rows are returned. Every call on a nonempty table that is not rejected satisfies these conditions (aggregation is sum or average, not the prefix-sum mode, output order, at most one bit-count hint); an empty table is returned as it is whatever the aggregation.", "quantifier": "all tables, numbers of columns, visibilities, key data types, parallel loop orders, random permutations, averaging kernels", "why_tests_cant": "Group boundaries depend on the joint pattern of equal rows over all key columns; tests fix a few tables. Correctness of every group needs the sortedness of rows under ties, the position of every end mark after the second permutation, and the differences of prefix sums modulo 2^w.", "anchors": ["src/libspu/kernel/hal/group_by_agg.cc:37-210", "src/libspu/kernel/hlo/group_by_agg.cc:27-146", "src/libspu/mpc/common/pv2k.cc:954-1055", "src/libspu/kernel/hal/permute.cc:1270-1316"]}
{"id": "C84", "title": "Two-party exponentiation over a Mersenne prime: result, error and exact failure set", "statement": "For semi2k with two parties: (a) ProbConvRing2k turns a sharing of an integer into a sharing modulo p-1 of the same integer exactly when one of the two signed shares is negative; of the 2^w sharings of X exactly 2(X+1) (X >= 0) or 2(|X|-1) (X < 0) are converted wrongly. (b) MulPriv and MulPrivModMP return shares of the product of the two private values, and the dealer's adjusted elements satisfy what they need. (c) WrapBitModMP returns a sharing of 1{h0+h1 >= p} for h < (p-1)/2, ConvMP a ring sharing of floor(h/2^n) with an error of at most one. (d) ExpA: whenever one scaled share is negative and the input lies in the documented range 47-offset-2fxp <= x*scale/2^24 <= 125-2fxp-offset (FM128), the opened result differs from 2^fxp * 2^(x*scale/2^24) by at most 2 units plus the relative error 2d+d^2 of two factors rounded with relative error d to multiples of 2^(fxp-23); scale/2^24 is log2(e) up to 2^-25.", "quantifier": "all shares, all dealer randomness, all fractional bit counts 2..63, all offsets with offset+fxp < 128, all roundings within the stated bound", "why_tests_cant": "The failure of the conversion has probability about 2^-70, the range depends jointly on fxp, offset and the precision of roundf, and the error bound has to hold for all 2^128 sharings.", "anchors": ["src/libspu/mpc/semi2k/exp.cc:30-93", "src/libspu/mpc/semi2k/prime_utils.cc:25-200", "src/libspu/mpc/semi2k/beaver/beaver_impl/beaver_tfp.cc:137-170", "src/libspu/spu.h:408-416"]}
{"id": "C85", "title": "Cheetah's convolution protocol returns the convolution for every block shape that holds the kernel", "statement": "Conv2DProtocol: (a) if the input is cut into blocks that are not larger than the input, not smaller than the kernel and fit into a polynomial, then encoding the input and the kernels, multiplying modulo X^N+1, extracting coefficients (all others are lost) and parsing returns at (p,q,o) the sum over channels and kernel cells of input(p*sh+i, q*sw+j, c)*kernel_o(i,j,c), over any ring, for all strides; the number of rows and columns is the number of positions of the kernel. (b) With coefficients scaled to the ciphertext modulus on either side, the decoded result is exact modulo 2^k if C*kh*kw*2^(2k-1)/(2Q) + L/gamma < 1/2; for the moduli of the matrix products this is the case for up to 2^13 products per entry. (c) The chosen block lies in the input and fits; if a channel fits into a polynomial, the block has all rows and columns, so (a) and (b) hold for every valid input. If no channel fits, a block is found too and no other block that fits (with at most N/(kh*kw) channels) gives fewer blocks, but it may be smaller than the kernel and the protocol divides by zero; a stride of zero does so too; a block remembered for a larger degree makes an instance of smaller degree fail.", "quantifier": "all extents, strides, channel and kernel counts, all block shapes, polynomial degrees, all tensors, rings of 32, 64 and 128 bits", "why_tests_cant": "Blocks overlap by the kernel size minus one, are of different size at the border, and strides shift the first position of each block; errors show only for special combinations of seven extents. Exactness has to hold for all 2^k-valued tensors.", "anchors": ["src/libspu/mpc/cheetah/arith/conv2d_prot.cc:66-451", "src/libspu/mpc/cheetah/arith/conv2d_helper.cc:27-191", "src/libspu/mpc/cheetah/arith/tensor_encoder.cc:40-136", "src/libspu/mpc/cheetah/arith/conv2d_prot.h:31-37"]}
{"id": "C86", "title": "SPDZ2k's adders, comparisons, A2B and MSB are correct on authenticated shares, with the exact conditions", "statement": "For authenticated boolean shares in arrays whose last dimension is larger than one, with any key, triples, masks and coins: (a) add_bb opens to x+y mod 2^k and has min(max(nbits)+1, k) valid bits; (b) add_bp opens to x+p mod 2^k if p needs at least as many bits as the share has valid bits, or one less than k while the share has k, and throws if p needs fewer; (c) bitle_bb and bitlt_bb return one-bit shares of x<=y and x<y for operands of any two widths, for rings of 2^m bits; (d) A2B returns k-bit shares of the k low bits of the arithmetic share; (e) MSB returns one-bit shares of bit k-1; (f) A2B throws if and only if the number that it opens, x-r mod 2^k, is zero for all elements, and MSB if and only if x+r mod 2^(k-1) is. All results carry valid MACs for every bit.", "quantifier": "all party counts, keys, shares, MACs, triples, masks, coins, array shapes (last dimension > 1), valid-bit counts, ring widths, numbers of data and statistical bits with k+s <= w", "why_tests_cant": "The circuits pack two gates into one array only if the numbers of valid bits agree, which depends on the operands; the tests use uniform 64-bit operands, for which all arrays have full width. The failures of A2B and MSB have probability 2^-(kn) per call.", "anchors": ["src/libspu/mpc/spdz2k/conversion.cc:96-139", "src/libspu/mpc/spdz2k/conversion.cc:214-254", "src/libspu/mpc/spdz2k/conversion.cc:327-535", "src/libspu/mpc/utils/circuits.h:68-96", "src/libspu/mpc/utils/circuits.h:220-274", "src/libspu/core/value.h:105-155"]}
{"id": "C87", "title": "SWIFT's arithmetic kernels are correct on shares, its triple check misses at most one challenge, and joint message passing detects and names correctly", "statement": "With consistently seeded streams and any masks: (a) sharing, joint sharing, p2a, v2a, toShares give shares of the value, and a2p, a2v, fromShares return it at every party; (b) negate, add, mul with public values and matrices, left shift below the width commute with opening; (c) mul_aa, mat_mul_aa and the batched inner product give shares of the product mod 2^k for 32- and 64-bit fields without raising an alarm, and throw for other fields; (d) whatever is added to the messages that build the two triples before the challenge is drawn, a wrong product passes the check for at most one of the 2^k challenges, also for matrices checked by one challenge; (e) trunc_a by d (1 <= d < k) gives floor(x/2^d) or one less if x-r does not wrap, where one more is also possible if the shift by the width in Trgen evaluates to 1; (f) in joint message passing a tampered message makes every honest party that returns name a party, and never the corrupted one; but the receiver keeps the tampered message, a false alarm of a sender leaves an honest party waiting, and honest parties may name different parties; (g) rand_a is not a share unless two independent words coincide, and its products open differently at different parties.", "quantifier": "all values, masks, share layouts, challenges, additive errors, array and matrix sizes, hash functions (injective where stated), single corrupted parties", "why_tests_cant": "The tests run honest parties only, never multiply a value from rand_a, and compare truncation with a tolerance. The bound on challenges and the statements on a corrupted party quantify over all deviations.", "anchors": ["src/libspu/mpc/experimental/swift/arithmetic.cc:51-206", "src/libspu/mpc/experimental/swift/arithmetic.cc:212-723", "src/libspu/mpc/experimental/swift/arithmetic.cc:725-1207", "src/libspu/mpc/experimental/swift/arithmetic.cc:1212-1858", "src/libspu/mpc/experimental/swift/arithmetic.cc:1860-2135", "src/libspu/mpc/experimental/swift/io.cc:60-120"]}
{"id": "C88", "title": "SWIFT's boolean kernels and conversions are correct on shares, and its cut-and-choose passes exactly what the shuffle lets through", "statement": "With consistently seeded streams and any masks: (a) p2b, b2p, xor, and with public values, shifts below the width, bit reversal ending below the width, interleaving and de-interleaving commute with opening, and the declared number of bits stays right; (b) and_bb of arrays of any length gives a boolean share of the conjunction with the fresh draws as masks, no honest triple is rejected and nothing is reported; (c) whatever is added to the third value of the 3N+3 triples, and_pre goes on exactly if, after the public shuffle, the three opened triples are right and the three triples of every bucket are off by the same word, and then element j is off by that word; (d) the shuffle is a permutation of the triples and every permutation comes from exactly one sequence of draws; hence for a single element a party that spoils three of the six triples alike gets a wrong conjunction accepted for 36 of 720 sequences of draws; (e) a2b, msb_a2b and b2a give shares of the same word, of its sign bit, of the same ring element; b2a only exists for 32- and 64-bit fields and throws for others.", "quantifier": "all words, masks, share layouts, array lengths, draws, additive errors of triples, widths (powers of two up to 128 for circuits)", "why_tests_cant": "The tests use honest parties and random inputs; (c) and (d) are about all errors and all arrangements, and the others about all share layouts, of which a test sees the ones its generator produces.", "anchors": ["src/libspu/mpc/experimental/swift/boolean.cc:47-212", "src/libspu/mpc/experimental/swift/boolean.cc:214-599", "src/libspu/mpc/experimental/swift/boolean.cc:601-769", "src/libspu/mpc/experimental/swift/boolean.cc:771-919", "src/libspu/mpc/experimental/swift/conversion.cc:46-293"]}
{"id": "C89", "title": "The exponentials and sigmoids of secret fixed-point numbers: error bounds where they hold, and where they stop holding", "statement": "With truncation off by at most d units on the values it meets: (a) exp_taylor with n > 0 iterations is within ((1+d/2^f)^(2^(n+1)-1) - 1) times M^(2^n) of (1+x/2^n)^(2^n), where M >= 1 bounds |1+x/2^n|; for |x| <= 2^n it lies between e^x(1-x^2/2^n) and e^x up to that error times max(1, e^x); with n = 0 it throws; at x = -2^(n+1) it is about 1 instead of 0; (b) exp2_pade is, for -32 <= x < 32, within 2^floor(x)(1/5000 + (3d/2+6)/2^f) + d/2^f of 2^x; from 32 on it wraps: adding 32 to a non-negative argument does not change the result; its polynomial is not 1 at 0 nor 2 at 1; (c) exp in Pade mode is e^c with relative error below 2(1/5000+(3d/2+6)/2^f) + 2((d+23)/2^f+3e-6) plus d units, where c is x clamped to the encoded limit 22.18...; the clamp keeps exp2_pade inside its range for 8 to 40 fraction bits; (d) the sigmoid with the default parameters of FM64 is within 1/50 of 1/(1+e^-x) for -8 <= x <= 256, but that of 512 is 0.4999... and that of 600 is 0; (e) sigmoid_mm1 is within d units of 1/2 + x/8, and sigmoid_seg3 is 0 below -4, 1 above 4, and within d units of 1/2 + x/8 between.", "quantifier": "all words, ring sizes, fraction bits, iteration numbers, truncation functions with a bounded error, arguments in the stated ranges", "why_tests_cant": "Tests compare some arguments, all of moderate size, with libm up to a tolerance, and never meet the arguments at which the approximation folds back.", "anchors": ["src/libspu/kernel/hal/fxp_approx.cc:178-203", "src/libspu/kernel/hal/fxp_approx.cc:206-316", "src/libspu/kernel/hal/fxp_approx.cc:451-486", "src/libspu/kernel/hal/fxp_approx.cc:711-768", "src/libspu/core/config.cc:64-116"]}
{"id": "C90", "title": "Polynomials and the logarithm of secret fixed-point numbers", "statement": "With truncation off by at most d units on the values it meets: (a) polynomial with coefficients c, c_1, ..., c_n at x with |x| <= M, M >= 1, whose powers are computed by doubling, is within d/2^f + sum |c_i| M^i ((1+d/2^f)^(i-1) - 1) of c + sum c_i x^i; with one coefficient it is that coefficient, with none it throws; (b) for at least 8 fraction bits and every x with 0 < x < 2^(f+1), log in the default (minmax) mode is within 11e-6 + 12d/2^f + (9+f)/2^f + f e-9 of the natural logarithm of x; (c) log1p is within the same bound of log(1+x) for -1 < x < 2^(f+1) - 1; (d) outside that range nothing is checked and the result is unrelated: with 18 fraction bits the logarithm of 0 is about -15.55 and that of 2^19 is about 10.79 instead of 13.17.", "quantifier": "all words, ring sizes 2^t, fraction bits, coefficient lists, truncation functions with a bounded error, arguments in the stated ranges", "why_tests_cant": "Tests compare a few arguments with libm up to a tolerance; the bound covers every word of the range, both errors of the truncation and every number of fraction bits.", "anchors": ["src/libspu/kernel/hal/fxp_base.cc:30-68", "src/libspu/kernel/hal/fxp_approx.cc:32-80", "src/libspu/kernel/hal/fxp_approx.cc:495-532"]}
{"id": "C91", "title": "The reciprocal square root and the square root of secret fixed-point numbers: error bounds, the range, and a wrong sign hint", "statement": "With at least 8 fraction bits, a ring of at most 128 bits and a truncation off by at most d units on the values it meets (below 2^(3f)): (a) for 0 < x < 2^(f-1) if f is even, and only 0 < x < 2^(f-3) if f is odd, rsqrt is within rho/sqrt(x) + d/2^f of 1/sqrt(x), where rho = 2e-4 + 500d/2^f + 6/2^f + 2^-floor(f/2), or 8e-3 + 20d/2^f + 6/2^f + 2^-floor(f/2) in the low-accuracy mode; (b) from the end of that range on it is a truncated zero: with 17 fraction bits that of 2^14 is 0; (c) in the same range, if e = rho + d sqrt(x)/2^f <= 1/4 and d(sqrt(x)+1/sqrt(x))/2^f <= 1/8, sqrt is within 2 e^2 sqrt(x) + 5d(x+2)/2^(f+1) of the square root; (d) the polynomial handed to the truncation with the hint that it is positive is below -1 on the whole interval [1/4, 1/2] it is used on, in both modes; on Cheetah, which relies on the hint, there are shares of the sum for x = 1 whose truncation is off by 2^(64-f).", "quantifier": "all words, ring sizes, fraction bits, both accuracy modes, truncation functions with a bounded error, arguments in the stated ranges", "why_tests_cant": "Tests compare a few arguments with the default 18 fraction bits, which is even, up to a tolerance; the shares for which the hint matters have a probability of about 2^-26 per element.", "anchors": ["src/libspu/kernel/hal/fxp_approx.cc:565-709", "src/libspu/kernel/hal/fxp_base.cc:30-68", "src/libspu/mpc/cheetah/nonlinear/truncate_prot.cc:32-120"]}
{"id": "C92", "title": "The angle of a secret point is the argument of the complex number, within a bound; where it is wrong", "statement": "For every ring width that is a power of two, every number of fraction bits f with 8 <= f < width/2, every truncation whose error is at most d units for numbers below R (with 4*2^(3f) <= R <= 2^(width-1)) and every point (x, y) with coordinates below 2^f in magnitude and not too close to the origin (the error of the ratio of the smaller to the larger coordinate is at most 1/16): f_atan2 on secrets does not fail and its result differs from the argument of the complex number x + iy, in (-pi, pi], by at most 9e-6 (f <= 20) or 1.1e-7 (f > 20), plus 101/100 of the error of the ratio, plus 17d+21 units for the polynomial, plus two units and 2e-15 for the constants pi and pi/2. With the default two iterations, f <= 20 and a larger coordinate B of at least 20d units the bound is 1.2e-4 + 28d*2^-f + 1.1*d*2^-f/B + 24*2^-f. From 2^f on the angle is wrong (the point (2^18, 2^18) with 18 fraction bits has angle one unit); for the point of one unit by one unit the angle is 0.46 instead of 0.79; the polynomial for f > 20 is off by 4e-8 at one, not 1.5e-9 as stated beside it.", "quantifier": "all ring widths 2^t, all f, all truncations with the stated error, all pairs of words in the stated range, all configured numbers of iterations", "why_tests_cant": "The bound must hold for every point of the plane and every rounding pattern of the truncation protocol; tests try a few points of moderate size, and never coordinates of 2^f or of a few units, where the angle is wrong.", "anchors": ["src/libspu/kernel/hal/fxp_approx.cc:833-917", "src/libspu/kernel/hal/fxp_base.cc:30-68", "src/libspu/kernel/hal/fxp_base.cc:105-217"]}
{"id": "C93", "title": "The arc cosine and arc sine of secret fixed-point numbers, within a bound", "statement": "For every ring width that is a power of two (at most 128), every number of fraction bits f >= 8, every truncation whose error is at most d units for numbers below R (with 4*2^(3f) <= R <= 2^(width-1) and 256*d^2 <= 2^f), both settings of enable_lower_accuracy_rsqrt with an inverse square root of relative error at most 1/4, and every x with |x| <= 1, the ends included: f_acos on secrets does not fail and its result differs from arccos x by at most 9e-5 (f <= 20) or 2.6e-7 (f > 20), plus 2.1 times the error of the square root between zero and one, plus 3d + 16 units and 1e-15; f_asin differs from arcsin x by at most one unit and 1e-15 more. The square root of zero is within 3d units of zero although its inverse square root does not exist. The polynomials are off by more than 6.7e-5 and 7e-8 at zero, not 5e-5 and 2e-8 as stated beside them.", "quantifier": "all ring widths 2^t, all f, all truncations with the stated error, all words between -1 and 1, both accuracies of the inverse square root", "why_tests_cant": "The bound must hold for every argument and every rounding pattern of the truncation protocol; the tests try a few arguments with a tolerance of a percent.", "anchors": ["src/libspu/kernel/hal/fxp_approx.cc:919-982", "src/libspu/kernel/hal/fxp_approx.cc:560-725"]}
{"id": "C94", "title": "The sine and cosine of secret angles, within a bound that grows with the angle; large angles are wrong", "statement": "For every ring width, every number of fraction bits f >= 8, every truncation whose error is at most d units (d*2^-f <= 1/256) for numbers below R (with 4*2^(3f) <= R <= 2^(width-1)) and every angle x with (|x| + 4)(2^-f + 1e-15) <= 1/64: the result of f_sine on secrets differs from sin x by at most 1.26e-4 + (16d + 19)*2^-f + (|x| + 4)(2^-f + 1e-15). For every x with (|x| + 8)(2^-f + 1e-15) <= 1/64 the result of f_cosine differs from cos x by at most the same with |x| + 9 instead of |x| + 4. The reduction of the angle subtracts a multiple of 2 pi up to d*2^-f + (|x| + 4)(2^-f + 1e-15) and leaves an angle of at most 3.4; the five Chebyshev polynomials are computed with errors of at most 5, 16, 43 and 108 times d units. For large angles the result is no sine: with 18 fraction bits in words of 64 bits the sine of 355000 is more than 3 and that of 2^20 more than 12000.", "quantifier": "all ring widths, all f, all truncations with the stated error, all words in the stated range", "why_tests_cant": "The bound must hold for every angle and every rounding pattern of the truncation protocol; tests try a few angles near zero, where neither the error of the reduction, which grows with the angle, nor its failure is visible.", "anchors": ["src/libspu/kernel/hal/fxp_approx.cc:351-380", "src/libspu/kernel/hal/fxp_approx.cc:409-447", "src/libspu/kernel/hal/fxp_approx.cc:766-788", "src/libspu/kernel/hal/fxp_base.cc:321-327", "src/libspu/kernel/hal/fxp_base.cc:383-390"]}
{"id": "C95", "title": "The hyperbolic tangent of a secret, within about half a percent for every argument the clamp can compare", "statement": "For every ring width, every number of fraction bits f >= 8, every truncation whose error is at most d units (23000*d <= 2^f) for numbers below R (with 8*2^(2f) <= R <= 2^(width-1)) and every word x with |x| + 5*2^f < 2^(width-1) as an integer: the result of f_tanh differs from tanh x by at most 0.0053 + (235d + 34)*2^-f. For words nearer to the ends of the ring this fails: with 18 fraction bits in words of 64 bits the result for 2^63 - 2^18 is below -1; and results exceed 1: that for five is more than one.", "quantifier": "all ring widths, all f, all truncations with the stated error, all words in the stated range", "why_tests_cant": "The bound must hold for every argument and every rounding pattern of nine truncated products whose errors a recurrence amplifies; tests compare a few arguments with a tolerance.", "anchors": ["src/libspu/kernel/hal/fxp_approx.cc:351-380", "src/libspu/kernel/hal/fxp_approx.cc:382-407", "src/libspu/kernel/hal/fxp_approx.cc:548-552", "src/libspu/kernel/hal/ring.cc:466-480"]}
{"id": "C96", "title": "The error function of a secret follows the formula of the Handbook, saturates at three and is odd bit by bit", "statement": "For every ring width 2^t, every number of fraction bits f >= 14 with 2f < 2^t, every truncation whose error is at most d units (d*2^-f <= 1/2000) for numbers below R (with 16384*2^(2f) <= R <= 2^(2^t-1)), every configured number of iterations n > 0 of the reciprocal for which (11/10)^n * 31d*2^-f <= 1/2, and every word x but the smallest: f_erf on a secret succeeds; if |x| < 3 the result differs from sign(x) * (1 - 1/(1 + 0.278393|x| + 0.230389|x|^2 + 0.000972|x|^3 + 0.078108|x|^4)^4), equation 7.1.27 of the Handbook of Mathematical Functions, by at most (52d + 18)*2^-f + 1e-7 + 1.62 times the error of the reciprocal of C73; if |x| >= 3 it is exactly 1 or -1 with the sign of x. For every word but zero and the smallest, every truncation and every f the result for -x is minus the result for x, as words.", "quantifier": "all ring widths, all f >= 14, all truncations with the stated error, all words but the smallest; the symmetry for all widths, f and truncations (as functions)", "why_tests_cant": "The bound must hold for every argument and every rounding pattern through a polynomial, two squarings up to 11000 and a reciprocal of that; tests compare a few arguments with a tolerance.", "anchors": ["src/libspu/kernel/hal/fxp_approx.cc:790-832", "src/libspu/kernel/hal/fxp_base.cc:30-68", "src/libspu/kernel/hal/fxp_base.cc:219-236", "src/libspu/kernel/hal/fxp_base.cc:276-283", "src/libspu/kernel/hal/fxp_base.cc:375-381"]}
{"id": "C97", "title": "The binary logarithm of a secret, close to log2 x for every positive number below 2^f", "statement": "For every ring width 2^t, every number of fraction bits f >= 8 with 2f < 2^t, every truncation whose error is at most d units (d*2^-f <= 1/2000) for numbers below R (with 64*2^(2f) <= R <= 2^(width-1)), every number n > 0 of division iterations with (11/10)^n * 31d*2^-f <= 1/2, and every number x with 0 < x < 2^f: f_log2 succeeds and its result differs from log2 x by at most 6e-6 + (26d + 2)*2^-f + 1.03 times the relative error of the division of C73. From 2^f on this fails: with 18 fraction bits in words of 64 bits the result for 2^18 is below 13.2 instead of 18.", "quantifier": "all ring widths, all f, all truncations with the stated error, all iteration counts, all positive words below 2^(2f)", "why_tests_cant": "The bound must hold for every word and every rounding pattern of the normalisation, the two cubics and the division; tests compare a few arguments with a tolerance.", "anchors": ["src/libspu/kernel/hal/fxp_approx.cc:84-119", "src/libspu/kernel/hal/fxp_approx.cc:125-149", "src/libspu/kernel/hal/fxp_approx.cc:534-540"]}
{"id": "C98", "title": "The natural logarithm of a secret, and of one plus a secret, through the binary logarithm", "statement": "Under the conditions of C97, with (64 + f)*2^(2f) <= R and a bound B of C97 of at most one: for every number x with 0 < x < 2^f, f_log in the mode LOG_PADE succeeds and its result differs from the natural logarithm of x by at most 0.7*B + f*(2^-f + 1e-8) + d*2^-f; for every x with -1 < x < 2^f - 1, f_log1p in that mode succeeds and its result differs from log(1 + x) by at most the same.", "quantifier": "all ring widths, all f, all truncations with the stated error, all iteration counts, all words in the stated range", "why_tests_cant": "The bound must hold for every word and every rounding pattern; the tests use the default mode on a few arguments.", "anchors": ["src/libspu/kernel/hal/fxp_approx.cc:489-524", "src/libspu/kernel/hal/fxp_approx.cc:526-532"]}
{"id": "C99", "title": "The power of two secret fixed-point numbers, with its sign", "statement": "For every ring width 2^t and f >= 8 fraction bits with 2f + 1 < 2^t and f + 34 <= 2^t, every truncation with error at most d units (d*2^-f <= 1/256) below R ((64 + f)*2^(2f) <= R, 2^(f+33) <= R <= 2^(width-1)) for which the limits of C89 hold and its relative error p is at most 1/2, every base x with 0 < |x| < 2^(f+1) and every exponent y with |y log|x|| <= 21: let e = |y| * (error of the logarithm of C90) + d*2^-f be at most one; then power succeeds and its result differs from |x|^y, negated if x is negative and y rounded down is odd, by at most |x|^y ((1 + 2e) p + 2e) + d*2^-f. For integral y this is x^y itself. Outside the conditions it fails: with 18 fraction bits in words of 64 bits, zero to the power 1/8 comes out above 1/7, one half to the power 33 above 1/2 and 100 to the power 5 below 3.", "quantifier": "all ring widths, all f, all truncations with the stated error, all bases and exponents in the stated range", "why_tests_cant": "The bound must hold for every pair of words and every rounding pattern through a logarithm, a product and an exponential; tests compare a few pairs with a tolerance.", "anchors": ["src/libspu/kernel/hal/polymorphic.cc:336-420", "src/libspu/kernel/hal/fxp_approx.cc:312-316"]}
{"id": "C100", "title": "The remainder of secrets: right within a truncation away from integral quotients, exact on small integers", "statement": "Under the conditions of C73 on width, fraction bits, truncation and iterations, for fixed-point numbers a and b with b not zero, below 2^f and both small enough for the products (4|a|*2^(2f), 4|b|*2^(2f) < R and the quotient condition of C73) and an error E of the quotient of C73 of at most one: Remainder succeeds, and its result differs by at most d*2^-f from a - k*b, where k is some number within E of a/b, rounded towards zero. If a/b is further than E from the integers around it (zero excepted), k is a/b rounded towards zero. For integers under the conditions of C73 the result is the remainder with the sign of the dividend. At integral quotients it fails: with 18 fraction bits in words of 64 bits the remainder of six by three is three and of one by one is one.", "quantifier": "all ring widths, all f, all truncations with the stated error, all iteration counts, all pairs of words in the stated range", "why_tests_cant": "Whether the rounded quotient is the right integer depends on the rounding pattern of the division; tests use a few pairs with fractional quotients.", "anchors": ["src/libspu/kernel/hlo/basic_binary.cc:53-71", "src/libspu/kernel/hal/polymorphic.cc:151-206"]}
