# Formal model of secretflow/spu — design

Lean 4.33.0 + Mathlib (installed copy).  Sources: `/verif/lean/Verif/`.
Subject: `/repo` (C++), read as text.  All paths below are relative to `/repo/src/libspu`.

## Trusted base

* Lean kernel, plus the three standard axioms `propext`, `Classical.choice`, `Quot.sound`
  (each theorem's actual dependency is a subset).
  No own axioms, no `sorry`, no `native_decide`, no `bv_decide`.
* The transcription C++ -> Lean is by hand; every model definition cites file and lines.
* Not modelled (trusted): the network (`yacl::link`) beyond "allReduce/rotate/gather/send deliver what was sent",
  AES/PRG quality (PRG streams are arbitrary functions), the C++ compiler and memory allocator,
  `int64_t` overflow of *shapes and offsets* (shapes are mathematical naturals), floating-point rounding
  (reals are rationals), OpenMP/`pforeach` (element-wise loops with disjoint writes).
* `yacl::crypto::FillPRand` is trusted to be a function of (seed, counter) that returns consecutive key-stream
  elements starting at the block `counter` and advances the counter by the number of blocks used.
* Ring values (`uint32/64/128`) are modelled either as elements of an arbitrary commutative ring
  (identities that use ring laws only) or as `BitVec w` / `ZMod (2^w)` / naturals mod `2^w` for arbitrary `w`.

## Modelling conventions

* Undefined behaviour / out-of-bounds access is a distinct outcome (`Option`/`Except`), never a default value.
* Shares: a sharing among `n` parties is a function/list of the parties' local values; "opening" is sum / xor
  over parties.  A kernel is the function from all parties' local inputs and randomness to all local outputs.
* Property theorems live in `Verif/Props/*.lean`; helper lemmas in the modules they belong to.
  Beside each property theorem an `example` instantiates its hypotheses on a concrete non-trivial case.

## Plan per property

| id | what is modelled | proof method |
|----|------------------|--------------|
| C01 | `flattenIndex`, `unflattenIndex`, `makeCompactStrides`, `calcFlattenOffset` on lists of naturals | induction on rank (mixed radix) |
| C02 | `bumpIndices` / iterator increment | refinement: bump = successor on flat index |
| C03 | `can_use_fast_indexing`, `at(pos)`, `Iterator` | induction on rank |
| C04 | `slice`, `slice_scalar_at` on (buffer, shape, strides, offset) with `Option` reads | refinement to index maps |
| C05 | `transpose`, `reverse` | same |
| C06 | `broadcast_to`; strided slice leaves a non-zero stride on a size-1 axis => negation with witness + partial theorem under the stride-0 invariant | same + counterexample |
| C07 | `attempt_nocopy_reshape` loops, `reshape`, `clone` | loop invariant |
| C08 | `concatenate`, `pad`, `expand` | refinement; `expand` to an empty shape writes out of bounds => negation |
| C09 | `SimdTrait<NdArrayRef>::pack/unpack`, `vmap` | list induction |
| C10 | `vreduce`, `TreeReduce`, `associative_reduce` | strong induction on length |
| C11 | `associative_scan` | strong induction on length |
| C12 | `toProto`, `fromProto` incl. memory effects | list induction; negation for malformed input |
| C13 | `encodeToRing`, `decodeFromRing` over rationals | arithmetic |
| C14 | `BitIntl`, `BitDeintl`, `odd_even_split` at width `2^m` | `testBit` extensionality, induction on stages |
| C15 | `kogge_stone`, `sklansky`, `carry_out` circuits | prefix-carry semantics, induction on stages |
| C16 | AS-Waksman topology + routing | induction on n |
| C17 | permutation helpers, `genPermBySort` | list permutations |
| C18 | `SecureInvPerm`, `PermAM`, `InvPermAM` | n-party algebra |
| C19–C22, C27 | semi2k / ABY3 kernels | ring algebra over `Fin n → R` |
| C23, C24, C28 | truncation | integer arithmetic with explicit wrap |
| C25, C29 | conversions | reduction to C15 and ring algebra |
| C26 | nbits bookkeeping | invariant by induction over operations |
| C30 | PRSS state machine incl. fork | invariant by induction over histories |
| C31 | Beaver cache | invariant by induction over histories |
| C32 | odd-even merge sort network | 0-1 free inductive proof on network structure |
| C33 | radix sort | stable-sort composition |
| C34 | `_find_mergeable_keys` | negation with witness + partial |
| C35 | `_mmul` blocking | sum splitting |
| C36 | `tiled` | partition of index range |
| C37 | ring-level comparison/bit tricks | `BitVec`/`testBit` reasoning |
| C38 | gfmp | modular arithmetic |
| C39 | parallel executor as labelled transition system | invariants over all interleavings |
| C40 | `populateRuntimeConfig` | case analysis |
| C41 | type strings | parser/printer round trip |
| C42 | key-stream positions (ghost log) of every dealer request over all histories | invariant; negation for `Dot` with an `Init` descriptor |
| C43 | server chunking + client `ProgressiveReader` | induction over fragments; negation for two buffers over several chunks |
| C44 | `RandA` | arithmetic; negation for >= 2 parties |
| C45 | `update_slice`, `linear_gather`, `linear_scatter`, `eliminate_zero_stride` | loop invariants; negation for scatter into a broadcast vector |
| C46 | `ring_bitrev_impl` | bit extensionality; undefined for `end = w` |
| C47 | roles from the public pivot | 64-bit arithmetic; negation for two pivots |
| C48 | aby3 boolean shifts | storage width vs. ring width; negation for amounts >= storage width |
| C49 | runtime configuration | message field by field; equality of what is read; defaulting |
| C50 | cheetah secret permutation | a column of the Waksman network is a bijection of rows; delivery by composition |
| C51 | cheetah bit packing and opening | the packed words as a stream of bits; slots without carry |
| C52 | cheetah protocols from oblivious transfer | specification of the transfers; word identities of triples; congruence modulo 2^b |
| C53 | cheetah comparison and equality | associative combination of digit comparisons as tree invariant; uninitialised column quantified |
| C54 | cheetah truncation and kernels | wrap bit modulo 2^shift; integer floor with error; carry of the low parts |
| C55 | Ferret oblivious transfers | correlated transfers as specification; packing as in C51; pad of message k from the bits of k |
| C56 | pool of correlated transfers | conservation as a permutation; labels and their erasure; correlation carried along |
| C57 | buffered byte streams | refinement of ideal streams by both ends and the queues; schedules by induction |
| C58 | modulus switch between 2^k and RLWE moduli | digit sum modulo Q by CRT; rounding as a centred remainder modulo gamma |
| C59 | private multiplication | writes of array parts against one target function; cancellation of two roundings; even spread of masks |
| C60 | multiplication kernels and triple cache | invariant of the cache over runs; multiset containment; tiles against the whole array |
| C61 | SPDZ2k MAC check and commitments | counting over keys and coins; congruences modulo powers of two |
| C62 | SPDZ2k arithmetic kernels and dealer | closure of authenticated values under linear maps; integers for truncation |
| C63 | SPDZ2k boolean kernels | places of writes and reads; parity as a ring homomorphism; one bit at a time |
| C64 | SecureNN share conversion and MSB | comparison in ZMod 131, carries in ZMod (2^k - 1); interleavings for the loop |
| C65 | SecureNN kernels: programs, conversions, generators in step, what rank 2 learns | environment for the semi2k circuits; induction over programs; explicit reconstruction functions for the leaks |
| C66 | visibility inference | noninterference by induction over programs (pairs of runs); monotone iteration; witnesses |
| C67 | insertion of deallocations | agreement of scopes on values still used, induction over programs |
| C68 | peephole rewrites of the compiler | one lemma per pattern, congruence, induction over the sequence of steps; witnesses |
| C69 | products with small constants | loop as a relation, exact error bounds over the rationals; negations |
| C70 | lowering of if and case | induction over the branches |
| C71 | integer power and division | loop invariant on x^(y mod 2^k), parity; case analysis of the correction |
| C72 | casts and rounding | exact arithmetic on integers and rationals, bits of floor and fraction |
| C73 | fixed-point and integer division | error recursion of Goldschmidt iteration over the rationals; witnesses |
| C74 | reductions, windows, arg-max, scatter | bijections of indices, folds over trees, uniqueness of the window of a place |
| C75 | dot_general, tensordot, convolution | index bijections of transpose and reshape; sums over enumerated indices |
| C76 | dynamic slice and update, filter | induction over the axes; products with unit vectors; positions |
| C77 | gather, its simplification and expansion | index algebra of seven attribute lists; loop invariant; composition of the rewritings |
| C78 | Cheetah matrix products: encoding, packing, protocol | injective placement, butterfly induction, rational error bounds |
| C79 | oblivious reads of aby3 | layer invariant of distributed point functions; bit-wise Beaver identities; rotated unit vectors |
| C80 | quick sort and quick select | interval invariant; two-pointer loop invariant; batched merge network; termination measure |
| C81 | sorting and top-k along a dimension, choice of the method | axis permutation with its inverse; line-wise assembly; case analysis of the dispatch |
| C82 | LowMC cipher and its kernel on shares | linear algebra over ZMod 2; share-wise bits |
| C83 | group-by sums and averages | simulation on C33; runs of a sorted sequence; differences of prefix sums |
| C84 | exponentiation over a Mersenne prime | signed share arithmetic; ZMod p; floor and real bounds; counting |
| C85 | Cheetah convolution: blocks, encoding, parsing, choice of blocks | interval arithmetic of overlapping slices; place of every cell; disjoint boxes; error bounds |
| C86 | SPDZ2k adders, comparisons, A2B, MSB | basic block with valid-bit tracking; induction on rounds; composition with C63 |
| C87 | SWIFT arithmetic, joint message passing, truncation | values of replicated shares through every step; error-propagation lemma for the sacrifice; bit sums |
| C88 | SWIFT boolean kernels, cut-and-choose, conversions | xor group and the product of C87; error tracking; Fisher-Yates; gates of C15 |
| C89 | exponentials and sigmoids | error propagation through squarings; Taylor bounds for exp and 2^t; splitting words into floor and fraction; C37, C73 |
| C90 | polynomials and the logarithm of secret fixed-point numbers | error propagation over the doubling of powers, Bernstein certificate for log(1+t), position of the highest bit |
| C91 | square roots of secret fixed-point numbers, range, sign hint | Bernstein certificates for p^2 v, bits through de-interleaving and reversal, one Goldschmidt step with errors; C54 for the hint |
| C92 | `f_atan2` on secrets against `Complex.arg` | certificates in the Bernstein basis, mean value theorem, C73, C90 |
| C93 | `f_acos`, `f_asin` on secrets against `Real.arccos`, `Real.arcsin` | certificates in the Bernstein basis, C91 extended to zero |
| C94 | `f_sine`, `f_cosine` on secrets against `Real.sin`, `Real.cos` | rotation of the Taylor polynomial, certificates in the Bernstein basis, Pell identities for the Chebyshev polynomials, C72 |
| C95 | `f_tanh` against `Real.tanh` | certificates in the Bernstein basis, errors of the Chebyshev recurrence, C37 |
| C96 | `f_erf` on secrets against the formula of the Handbook | C90 with larger arguments, C73, error chain through the squarings |
| C97 | binary logarithm of a secret | rational bound by the sign of a derivative, then rounding errors |
| C98 | natural logarithm of a secret through the binary one | C97, error of the rounded constant |
| C99 | power of secret fixed-point numbers | C89 and C90 combined, parity of the floor |
| C100 | remainder of secrets | C73 and C72, integers around the quotient |

### Gates, circuits and conversions (C15, C25, C26)

`Model/Gates.lean` models the `ab_api.cc` circuits over an abstract set of boolean-share kernels (`Gates`); a kernel is a
state-transforming function that may throw (`M σ`).  `vmap` packs its operands into one array, which throws when element
types (declared bit counts) differ: `vand2` keeps that check.  `Model/Circuits.lean` models `circuits.h` over
`CircuitBasicBlock`; there the vectorised branch is the flag `simd`, without a type check (the blocks have no types).
`Model/Semi2kConv.lean` gives the semi2k kernels on one element; randomness comes from an `Env`.
`Model/Semi2kSys.lean` builds an `Env` from the PRSS state of all parties (C30) and the dealer (C21), and
`sysEnv_ok` proves that each session delivers the correlations the conversions need.
Not modelled: element-wise parallel loops (each kernel is shown for one element), shapes, message transport.

### Replicated sharing (C26-C29, C46-C48)

`Model/Aby3.lean` models the arithmetic kernels of `mpc/aby3`.  Every kernel is written for all three parties at once; a
received message is the sender's value.  Correlated randomness comes from an `Env`: `prss v cnt d` performs the script
`d i` of `fillPrssPair` calls at party `i`.  `EnvOk3` asks that scripts that fit together yield equal words at neighbours;
`aby3_sysEnv_ok` proves it for every session state reached from `PrgState` (C30).  Kernels that draw several words per
element from one request are modelled on arrays, the others on one element.
`Model/Aby3Bool.lean` gives the boolean kernels; a share carries its declared bit count and its storage width
(`calcBShareBacktype`), values are `BitVec` of the storage width, and shifts check C++'s rule (promotion to 32 bits).
`Model/Aby3Conv.lean` gives A2B, MSB, B2A (adder and OT), equality; the byte-wise AND tree of `eqz` works on the bytes of
the array in memory.  `Model/Aby3Prog.lean` runs programs of kernel calls over registers.
Not modelled: the CUDA branch of `MatMulAA`, the debugging mask of `P2A`, byte layout of messages.

### Vectorisation, reductions, scan (C09-C11)

`Model/Vectorize.lean` models `pack`/`unpack`/`vmap` on the buffers and views of `Model/NdArray.lean`.  The reducers work
on the list of slices along the reduced axis, the scan on the matrix `{M, N}` it reshapes to; slices, `pad` and
`concatenate` act on columns there (their array-level meaning is C04 and C08).

### Sorting (C17, C18, C32-C34)

`Model/SortNet.lean` models `odd_even_merge_sort` with its three nested loops, the index lists `lidx`/`ridx`, the packed
compare-and-swap (`gather`, `mux`, `scatter`) and the comparator `_cmp_keys` of `simple_sort1d`; a row is the tuple of one
element of every operand.  The theorem is over clear values; that the secret-shared kernels compute the same ring values
is C25-C29.

`Model/Perm.lean` models the public/private permutation kernels of `pv2k.cc` and `permute_util`, including the writes to
the output array (a parallel loop runs its iterations in any order); the standard library sort is trusted to sort by the
comparator it is given, stably where `stable_sort` is called.  `Model/Shuffle.lean` models the share-level shuffles of
semi2k (n parties) and aby3; `genRandomPerm`/`ReplayShuffle` are trusted to give permutations and `Beaver::PermPair` to
give the correlation C42 states.  `Model/Radix.lean` is the radix sort of `hal/permute.cc` on plaintexts with
visibilities: its secret kernels act on plaintexts as C18, C11 and C25-C29 prove.

### Concurrent execution (C39)

`Model/Executor.lean` models `BlockParallelRunner` as a transition system whose steps are chosen by a schedule, with
spurious wakeups. Atomic steps: one critical section of the queue mutex or of the symbol-table mutex, evaluation of
`ready()`, `notify_all` under the event mutex. The event mutex itself is explicit state. Kernels are functions of the
plaintext values they read: every task has its own forked context, so message interleavings between tasks are not
modelled. Exceptions inside a kernel, and nested regions beyond the values they capture, are not modelled.

### Plain ring algorithms (C35, C37, C38)

`Model/Mmul.lean` models `_mmul` with its slices, block kernel calls and strided write-back; the block sizes, which the code
computes with `double` square roots, are parameters. `Model/HalRing.lean` models the derived operations of `hal/ring.cc` on
plaintext words (the secret kernels they call are the subject of C20-C31). `Model/Gfmp.lean` models the scalar functions of
`gfmp.h` on machine words, including the 128-bit schoolbook product; primality of the three moduli is proved by Lucas-Lehmer.

### Types and configuration (C40, C41, C49)

`Model/Types.lean` models `Type::toString`/`fromString`, the type registry and every concrete type class with its printed
details; strings are lists of characters, `std::stoul`/`stoll` and the magic-enum casts are modelled on the strings they can
meet. `Model/Config.lean` models `populateRuntimeConfig` and the conversions between `RuntimeConfig` and its protocol buffer
message; enums are integers, the protobuf wire format itself is trusted.

### Serialisation of values (C12)

`Model/Value.lean` models `Value::toProto`/`fromProto` on top of the array and type models: strided or compact arrays, real
and complex parts, `size_t` wrap-around, the uninitialised destination buffer, and the unchecked `memcpy`. Undefined behaviour
and exceptions are distinguished. Protocol buffer encoding is trusted; negative extents in a message are not modelled.

### Plaintext encoding (C13)

`Model/Encoding.lean` models `encodeToRing`/`decodeFromRing` with exact IEEE 754 semantics: a finite number is `m * 2^e`, and every
conversion or product is `rnd`, round to nearest with ties to even, gradual underflow and overflow to infinity.  The element function
and the array loop are separate: `encodeFloat`, `decodeFloat`, `encodeInt`, `decodeInt`, `decodeBool`, and `encodeArr`, `decodeArr` with the
element function as parameter.  The specification is over the rationals: `fxp k q`, the integer part of `q` held in range.

Not modelled: the sign of zero, bitset buffers, the choice of `DataType`/`PtType` (C41), `half_float::half` beyond its rounding (conversions of
`half` are assumed to round to nearest, arithmetic of a half with an integer is assumed to be done in `float`).  The parallel loop is run in order.

### Tiled execution (C36)

`Model/Tiling.lean` models both overloads of `tiled` (any number of operands): the search of the slicing dimension, the number of tiles, the index odometer
with its carry, slicing through `View.slice` (C04), the kernel call in a forked context and the `memcpy` of the results from their data pointers.  A kernel is an
arbitrary function of the context number and the operands; `Elementwise n R fn` says that its results are compact and that elements at the same index are
related by `R`, so kernels with randomness are covered (`R` can be "is a sharing of").

Not modelled: `int64_t` overflow, element sizes (results of different types), exceptions thrown by a tile while others are running, the communication of the
forked contexts (C36 is per party).

### Waksman networks (C16)

`Model/Waksman.lean` follows `mpc/utils/waksman_net.cc`: column count, switch positions, `get_as_waksman_routing` with its loop over the two half-rounds
(`route_left`, the search for the next unrouted packet with `max_unrouted` moving down, the intermediate permutations and their inverses),
`construct_as_waksman_inner` with the odd wire, the fixed switch of the even case and the straight edges of an inner network that is narrower than its columns.
Row and column arithmetic of `size_t` is modelled in ℕ (values below 2^64 since they index vectors); `assert` failures and out-of-range accesses are `none`.
Recursion and loops take fuel; the theorems show that the fuel given (number of columns; twice the number of packets plus two) suffices for every input.
`Spec/Waksman.lean` says what it means for a packet to travel: at each column the pair of successors of its row, chosen by the setting recorded at this row or
the one above (exactly one of the two), equal successors being a wire. The tests' checker works in the same way.

### C50 — permuting with a Waksman network (cheetah)

`Model/CheetahPerm.lean` follows `cheetah/permute.cc`: the loop over the rows of a column that collects the two inputs of each switch, their
targets, the wires and the settings (`collect`); the selected top output `lhs + (rhs - lhs) * flag` with the flag held by the owner alone
(`flagShare`, `routeTop`); the bottom output as the sum minus the top; the scatter into the next column; the loop over the columns; `PermAM`,
`InvPermAM`, `InvPermAV`.  The topology and the settings are those of `Model/Waksman.lean` (C16).  The proof shows that a column of the network is a
bijection of the rows (a delivery prefix of an injective total route is injective), that the pairs collected are exactly the switches, and that
every row is written with the value of the row the packet comes from.  Not modelled: `mul_aa` of cheetah (a parameter with specification `ProdOk`).

### C51 — bit packing and opening of shares (cheetah)

`Model/CheetahZip.lean` follows `makeBitsMask`, `ZipArray`, `UnzipArray` (`ot_util.h`) and `OpenShare` (`ot_util.cc`).  The specification reads the packed
words as one stream of bits (`streamBit`): bit `i·b + k` of the stream is bit `k` of element `i`.  The exclusive-or opening acts bit by bit on the stream;
the additive opening is used packed only when `b + 1` divides the word width, and then each slot has one spare bit for the carry, which is where the
proviso on the share words comes from.  Not modelled: the network exchange inside `allReduce`.

### C52 — protocols from oblivious transfer (cheetah)

`Model/CheetahOt.lean` follows `basic_ot_prot.cc` for both parties at once over a record `Ot` of transfers; a transfer is a joint operation in
`StateT σ Option`, so random values are whatever the state yields.  `Spec/CheetahOt.lean` (`OtOk`) says what each transfer must deliver, in terms of sizes and
outputs only; the theorems hold for every record meeting it (`Ok Inv`: no exception, invariant kept, result as stated).  `Props/CheetahOtIdeal.lean` gives a
functionality meeting `OtOk` and runs all protocols on it.  Values are compared with bitwise AND of the plain values (`valB`), sums modulo the ring (`valA`)
and the low bits (`lowBits`).

### C53 — comparison and equality (cheetah)

`Model/CheetahCmp.lean` follows `compare_prot.cc` and `equal_prot.cc`: digits, leaf transfers, the tree on flat arrays for a power of two of digits, and its
continuation for other digit counts.  Uninitialised array elements are universally quantified functions (`junk`).  The invariant of the tree is `cmb`, the
(comparison, equality) pair of a range of digits under the associative combination `comb`; for the tree without equality the pair of column 0 is only known in its
first component, which suffices since column 0 is never the upper operand.  `cmb_digits` identifies the combination of all digits with the comparison of numbers.

### C54 — truncation and kernels built from oblivious transfer (cheetah)

`Model/CheetahTrunc.lean` follows `truncate_prot.cc` and the kernels of `arithmetic.cc` that need only transfers.  The wrap bit (does the sum of the shares exceed the
ring) is computed by one of three protocols; each is shown to yield additive shares of it modulo 2^shift (`computeWrap_ok`), which is enough because the result is shifted left by
w − shift.  `core_sum` turns this into the sum of the separately shifted shares; the remaining error is the carry of the low parts and the low bit that party 0 adds.
Value, shift and error are integers in the statement (`BitVec.ofInt`, floor division), not helpers of the model.

### C55 — oblivious transfers from correlated transfers (Ferret)

`Model/Ferret.lean` runs sender and receiver of `ferret.cc` together over a list of words for the channel; words that are missing or left over are `none`.  `Spec/Ferret.lean` states what
correlated transfers deliver (`CotOk`).  `loops_ok` shows once for all batched loops that what is packed is unpacked unchanged (from C51).  For one of N messages, `padAt_eq` identifies the pad of
message k with what the receiver computes from the keys of the bits of k.  `c55_ferret` assembles `OtOk`, the hypothesis of C52-C54.  Hash functions are uninterpreted: secrecy is not claimed.

### C56 — the pool of correlated transfers

`Model/FerretCot.lean` follows `YaclFerretOTeAdapter::rcot` and the bootstrapping over elements of any type; memory not yet written is arbitrary, and a copy outside a buffer is `none`.  Two lists that
only the specification reads record the seeds used and everything the extension returned.  The invariant `Pool` says that what was handed out, used as seeds and is still held is a permutation of everything
made; it carries along any property of the list of things made.  Instantiated with labels (number of the call, position) it gives that nothing is used twice (`c56_once`), and `c56_erase` shows that the
labels do not influence the run.  Instantiated with the correlation it gives `CotOk`, and with C55 `OtOk`.  The joint state assumes that both parties make the same requests.

### C57 — buffered byte streams

`Model/BufferedIO.lean` models both ends of `BufferedIO` and the queues of messages between them.  `Spec/BufferedIO.lean` states the ideal streams (`IoStep`): sent, pushed and received bytes.
`IoRel` relates a state to its streams: sent = pushed + buffer, pushed = received + rest of the last message + queue.  Each operation preserves it; `c57_run` is the consequence for schedules.
A waiting receive is `none`: its own flush has then already happened in the program, so the other party may in fact see more than the schedule says.  C55 uses a list of words for such a stream.

### C58 — modulus switch

`Model/ModSwitch.lean` models `ModulusSwitchHelper` with natural numbers reduced at every machine width.  The specification (`Spec/ModSwitch.lean`) is the nearest integer in the rationals.
`init_ok` characterises all constants (`Inv2k` by x^(2^(n-1)) = 1 modulo 2^n; limbs; inverses in `ZMod`).  Downwards: the digit sum D satisfies D = gamma 2^k X modulo Q by the Chinese remainder theorem and 0 <= D < L Q, so with s = (gamma 2^k X - D)/Q the two residues computed by the code are s modulo gamma and modulo 2^k, and removing the centred remainder and dividing by gamma is rounding s/gamma.
Not modelled: SEAL itself (Barrett reduction, NTT tables, `get_primes`), allocation, the element type dispatch.

### C59 — private multiplication

`Model/CheetahMul.lean` models both parties of `MulOLE` and `MulShare`: encoding jobs (modulus x split), the mask in residue layout, the response, decryption into the residue layout, and the switch down.  An out-of-bounds slice or a slot value that is not reduced is `none`, so success is part of the theorems.
One element: the masked product Z and the mask R satisfy Z + R = V modulo Q with V = near(Q x / 2^k) * centred(y), and 2^k V / Q is within B = 2^k Y / (2 Q) of x*centred(y).  The two roundings cancel up to floor(1 + e - f), f the fractional part of the mask's own rounding, |e| <= B + 2 L/gamma, so the error is at most one unit and vanishes when the mask is at least B + L/gamma away from a rounding point (`Clear`).  Since 2^k is invertible modulo the odd Q, masks are spread evenly over these fractional parts (`c59_masks`).
Not modelled: BFV encryption, noise flooding, `mod_switch_to_inplace`, truncation of ciphertexts, the NTT (products are taken slot by slot), the transport (C57 covers byte streams), `MulThenReshareInplaceOneBit` (unused).

### C60 — multiplication kernels

`Model/CheetahArith.lean` models `MulAA`, `MulAV`, `SquareA` and the triple cache `CheetahMulState` for both parties at once, over a protocol record `Prot`.  The invariant `CacheOk` says that both caches have the same size and ring and hold triples with c = a*b up to the error; it holds for new caches and is kept by every request.
Reuse: as multisets, elements handed out plus elements held afterwards are contained in elements held before plus elements drawn (`caTakeBeaver_le`); over a run this gives `c60_no_reuse`.
Tiling: the last worker's slice starts where the loop ended; it is non-empty because (workers - 1) * workload < n, which needs the limit of 48 instances and the 2048 elements per worker.  `c60_dispatch` is stated for any relation that is preserved by concatenation.
Not modelled: shapes (the kernels flatten), the lock (requests are a sequence), `TiledDispatchOTFunc` with several inputs (the list elements may be tuples).

### C61 — SPDZ2k MAC check

`Model/Spdz2kMac.lean` models `BatchOpen`, `BatchMacCheck` and `commit_and_open` of one party, the other parties' messages being parameters.  `Spec/Spdz2kMac.lean` defines congruence modulo 2^m in the ring of w bits and what it means for shares to be authenticated.
Soundness: acceptance forces 2^(k+s) to divide key * U - D, where U is the linear combination of the errors and D does not depend on the key (`c61_sound`).  If 2^(k+m) is the largest power (up to m = s) dividing U, at most 2^m keys fit (`spKeys`); U is divisible by 2^(k+t-1) for at most a fraction 2^-t of the coins because an error is not divisible by 2^k (`spCoins`, by an injection); `spCount` sums over m.
The honest key share is c + key with the key in [0, 2^s): c = 0 for TinyOT, and for the trusted first party c is minus the sum of the other shares.
Not modelled: `yacl::link::AllGather` (the received strings are parameters, so a party may send different openings to different parties), the PRG that expands the public seed, `size_t key = spdz_key_` in beaver_tinyot.cc:694 (a 64-bit copy of the 128-bit key; s is at most 64 in every configuration, so no bit is lost).

### C62 — SPDZ2k arithmetic

`Model/Spdz2kArith.lean` models the kernels as functions of the data of all parties; `allReduce` of MulAA and MatMulAA takes an additional summand for what dishonest parties add.  The dealer `TrustedParty` is modelled by `adjust`: the first party's share is changed so that the sum becomes the target.  `Spec/Spdz2kArith.lean` says what authenticated arrays and matrices are.
Authenticated values are closed under linear maps (`authAdd`, `authSmul`, `authPub`, `authSum`); every kernel is put together from these.  Truncation is reduced to integers by `signed_unique` and `trunc_int`.
`c62_reveal_input` is an instance of `c61_sound`: the MACs of zeros authenticate the mask only, so the input itself is the error.
Not modelled: shapes and strides, `CastRing` (the value in the large ring is a parameter), BeaverTinyOt's generation of triples, the unused `SingleCheck` and `BatchCheck`.

### C63 — SPDZ2k boolean shares

`Model/Spdz2kBool.lean` keeps the buffers: a share is its number of valid bits and, for each party, a function from places to pairs.  `makeB` performs the writes of `makeBShare` one after the other at the places given by the strides of a compact array of shape (r, c), `getPair` reads as `getShare` does, in both of its branches.  All kernels go through these two functions.
`Spec/Spdz2kBool.lean`: a bit is the parity of a value authenticated modulo 2^(s+1); `BitShares` says which numbers the buffers hold.
`makeB_places` gives the final buffer (injectivity of the places); `get_ok`, `switch_ok`, `makeB_ok` reduce every kernel to one bit, where parity is a ring homomorphism to ZMod 2.
Simplifications: arrays are compact; dimensions before the last are merged; numbers of shifted bits are non-negative; the capacity check of `calcBShareBacktype` (at most 128 bits) never fails as nbits <= k <= 64.

### C64 — SecureNN: share conversion and most significant bit

`Model/Securenn.lean`: `ShareConvert`, `Msb` and their private comparison for one element, word by word as in the loops (`addM1`, `subM1` are the two idioms for arithmetic modulo 2^k - 1), with mixed-type expressions evaluated in max(k, 64) bits; all random values are parameters.  `raceRun` is the loop of the private comparison over two elements with the variable `w_total` that the iterations share.
`Spec/Securenn.lean`: the value shared modulo 2^k - 1 and bits of numbers.
The comparison is reduced to ZMod 131, where the sum of the two messages for bit i is the scaled number of differences above i plus (r_i - x_i + 1); words are mapped to ZMod (2^k - 1), where an overflow counts 1.
Simplifications: one iteration of the inner loop is indivisible in `raceRun`; `_u[idx] %= p` in the last branch changes `u` for both parties in the same way and is part of the parameter.

### C65 — SecureNN kernels

`Model/SnnKernels.lean`: three parties with the two counters of their `PrgState`; `draw` lets each party draw from its own stream, from its successor's, from both or from none, which is what decides whether later draws still agree.  MulAA, MatMulAA, V2A, P2A, RandA, TruncAPr, B2A_Randbit are written out; the boolean kernels, A2B and B2A are those of semi2k (same code) over the environment `snnEnv`, whose triples come from rank 2.  `andView`, `truncView`, `randbitView` are what rank 2 holds during a kernel; `andOpen` and `maskPlace` are the indexing of the array of masks in AndBB.
`Spec/SnnKernels.lean`: generators in step, sharings with a zero at rank 2, plain semantics of programs.
Simplifications: one element (arrays for MatMulAA and the masks); counters count draws, all parties of a draw draw the same number of bytes; shifts by the width or more are not excluded.

### C66 — visibility inference

`Model/Visibility.lean`: programs in SSA form with regions; `infer` is the inference with the loop of `inferWhile` (as many rounds as allowed, `none` if it does not end) and the two passes of `inferReduce`; `run` executes the program that the legalisation makes of it and records what everybody can see: values whose type is public, operands that are converted from a secret to a public type (which the executor does by revealing), values that the program asks to reveal.  A secret condition runs all branches, a secret loop condition fails.
`Spec/Visibility.lean`: inputs that agree on public values, runs that look alike, the typing condition.
Simplifications: numbering by scope instead of a map keyed by SSA values; a reduction is a left fold over entries and a sort evaluates the whole table of the comparator (so what is seen inside is an upper bound); values are lists of entries; region arguments are visible only if they are results or operands of something public.

### C67 — insertion of deallocations

`Model/Dealloc.lean`: blocks with operations of arbitrary kind, operands, results and regions; `addDealloc` is the pass (`freesAfter` is the loop over the operands, including the order of insertion and the check against FreeOps already inserted); `run` is the sequential executor with scopes.  Kernels are arbitrary functions of operand values and of their regions as functions.
Simplifications: `run` fails if a FreeOp finds nothing to free (the code ignores it), which makes the theorem stronger; the order of execution in parallel mode is that of C39 and not modelled again.

### C68 — peephole rewrites

`Model/Rewrites.lean`: expressions over elements that carry their type at run time (as `spu::Value` does), tensors as functions of the position, all shape operations as one reindexing constructor; `Root` lists the patterns, `Step` closes them under contexts, `SqrtEps` and `Mixed` are the two patterns as written that are not sound.  The static types the patterns consult are an arbitrary relation assumed right about the run (`TypesRight`).
Simplifications: integers do not wrap and floats are reals (the encoding of floats is the subject of C13 and products with small constants of C69); values used several times are copied; the bit cast that `stripConvertOps` skips is left out; the patterns on regions (C66, C70) and on sort, gather and convolution are not here.

### C69 — products with small constants

`Model/SmallConst.lean`: `FindTwoK` is the loop as a relation from a state to the value returned (so that not ending is the absence of a value), `Exec` the three ways a product is executed.  The truncation is any function with the bound of C23, C24, C28, C54 (`Truncates`), undefined for shifts as wide as the ring (`x >> bits` in `ring_arshift_impl`).
Simplifications: `1 / fValue` and `n / N` are exact; the constant is encoded exactly up to dropping the fraction (C13).

### C70 — lowering of if and case

`Model/CaseLower.lean`: branches as the tensors they return over a commutative ring; `nested` the chain of ifs, `masked` the sum of masked results (shared by the pass and the kernel), `secretCase` with the pass's clamp, `kernelPublic` and `kernelSecret`.
Simplifications: comparisons and masks are exact (C37); shapes are left out (a mask has one element and is broadcast).

### C71 — integer power and division

`Model/IntPow.lean`: `power` and `idiv` over words of the ring with the ring functions of `Model/HalRing.lean`; the fixed-point quotient inside `idiv` is a parameter.
Simplifications: one element; the data type of an integer is not modelled (the kernels work on the whole ring).

### C72 — casts and rounding

`Model/Rounding.lean`: `int2fxp`, `fxp2int`, `floor`, `ceil`, `roundAfz`, `roundRnte` over words; the or of the low bits uses the model of `vreduce` (C10).
`Spec/Rounding.lean`: the rational a word stands for, rounding towards zero, to nearest with ties away from zero or to even.
Simplifications: one element; arithmetic shifts of shares are exact (C48); encodings of the constants 1.0 and 0.5 are exact (C13).

### C73 — fixed-point division

`Model/FxpDiv.lean`: normalisation by the reversed highest bit, initial guess, Goldschmidt iteration, division, reciprocal, and integer division on top (with the correction of C71 and the casts of C72).
`Spec/FxpDiv.lean`: truncation with bounded error.
Simplifications: one element; truncation is one function of the word (a randomised truncation is covered by fixing its randomness, if equal words get equal results in a run); nothing known about signs, so the branches for public signs are not modelled; the iteration count is an argument.

### C74 — reductions, windows, arg-max, scatter

`Model/Ten.lean`: tensors as functions, with the shape operations in the meaning proved for strided arrays in C04–C08.
`Model/ReduceWin.lean`: `TreeReduce` along an axis, `Reduce`, `expandWindow`, `ReduceWindow` with and without dilation, `ArgMax` and its 1x2x2x1 version, `ScatterWindow`, `MaxPoolScatter`, `SelectAndScatter`, and how the executor calls them.
`Spec/Ten.lean`: all indices of a shape, places of a window, numbers of windows, fibres, folds.
`Lemmas/Ten.lean`, `Window.lean`, `ReduceAx.lean`: enumeration of indices, folds over trees, windows, the bijection behind `Reduce`.
Simplifications: several operands are one tensor of tuples; the reducer acts element by element and has no errors; extents of a window are positive; `ArgMax` and `SelectAndScatter` without padding, as the executor calls them after padding has been made explicit.

### C75 — contractions

`Model/Contract.lean`: the matrix product, `hlo::DotGeneral`, the canonicalisation of `dot_general` and its legalisation, `_tensordot`, `Convolution2D` by im2col, one spatial dimension, the normalisation of the order of dimensions.
`Spec/Contract.lean`: well-formed dimension numbers and the sums of the StableHLO specification.
Simplifications: elements of a commutative ring, without the truncation after a product of fixed-point numbers; strides of a convolution are given explicitly; padding, dilation and reversal, which the legalisation turns into separate operations, are not part of it; the canonicalisation is applied once (a second application changes nothing) and `NormalizeConv1D` is covered by the identical code of the executor.

### C76 — dynamic slices and updates

`Model/DynSlice.lean`: `DynamicSlice` with pruning, clamping, one-hot masks, padding, shifted slices and matrix products, the oblivious read; `DynamicUpdateSlice` with clamped and flattened indices and its list of revealed indices; `FilterByMask`.
`Spec/DynSlice.lean`: clamped start and shifted index as in the StableHLO specification.
Simplifications: comparison, clamp and the one-hot vector of the oblivious read are the functions they compute (C10, C47, C74; the aby3 DPF is not modelled); the positions in `DynamicUpdateSlice` are integers (they are below 2^63); a slice that begins before the buffer is `none`.

### C77 — gather

`Model/Gather.lean`: the kernel with its iteration spaces and index functors.
`Model/GatherExpand.lean`: `GeneralGatherSimplifier` of the front end and the expansion of secret gathers, executed with the dynamic slices and updates of C76.
`Spec/Gather.lean`: `full_start_index`, `full_batching_index`, `full_offset_index` and the constraints of the StableHLO specification.
Simplifications: HLO instructions and the helper functions of XLA (`MakeOperandStartIndexPermutations`, `TransformStartIndices`, `ElideDegenerateDims`, `ExpandFirstDimIntoNDims`), which are not in the repository, are what they compute; the functors' reused buffers are created anew; building the loop and running it are one function; the start indices are the same integers before and after the rewriting (they are secret or public as they were).

### C78 — Cheetah's matrix products

`Model/CheetahDot.lean`: block shapes, the three indexers, encoding, products, parsing, both packings, function by function.
`Model/CheetahDotOLE.lean`: both parties' protocol over the modulus switching of C58.
`Spec/CheetahDot.lean`: products modulo X^N + 1, the substitution X -> X^g, the product of matrices, what a loss of moduli may do (`Drops`), and what shares are.
Method: an entry of a block product is one coefficient because the placements are injective modulo N with the sign of the wrap-around (`negMul_block`); packing is an induction over the levels of a butterfly on coefficients; values are lifted from residues to integers with the error carried as a rational.
Simplifications: a ciphertext is what it decrypts to (for `CastAsRLWE` a pair of polynomials under the key); NTT, key switching and serialisation compute what they should; noise is any function within a bound (`EnvOk`), which rounding alone meets (`c78_env`); the cost estimate is an arbitrary function; the moduli are the largest primes of their sizes, computed outside of Lean (primality is not used).

### C79 — oblivious reads of aby3

`Model/Aby3Oram.lean`: triples (`genOramBeaverPrim/Helper`), `OramDpf::gen` layer by layer, `onehotB2A`, the four kernels, and the reads of one slice.
`Spec/Aby3Oram.lean`: unit vectors, two-party sharings, and what a read returns, without reference to trees.
Method: on every layer the two parties agree off the path and differ in the flag on it (`dpfLayer_ok`, bit by bit with the correction word opened by Beaver ANDs); the number of nodes and the prefix of the target are loop invariants; the sum of all flags is 1 or -1 and its own inverse, which gives the conversion to ring elements; the rotation of a unit vector is a bijection of the rows.
Simplifications: AES is an arbitrary function of key and block; keys and seeds (`SecureRandSeed`, `SecureRandU128`) are arbitrary parameters; flags are `Bool`; vectors are functions with their sizes carried along; rank 2's uninitialised vector of `OramOneHotAP` is left out (`OramReadOP` does not read it); `ring_mmul` is the sum it computes.

### C80 — quick sort and quick select

`Model/QuickSort.lean`: `Swap`, the two-pointer scans, one `Partition` round over all intervals, `mergesort` over intervals of different lengths, `QuickMergesort`, the comparator with the appended random bit, `TwoWayPartition`, `HandleSmallArray`, `QuickSelectTopk`, `topk_1d` in its three variants.
`Spec/QuickSort.lean`: what a top-k selection is, and the contract of `std::nth_element`.
Method: (1) a swap list read as a function is an involution, so records are kept (`perm_of_invol`); (2) the two pointers leave every place left of the pivot on the small side (`TP`, `twoPtr_spec`); (3) invariant of rounds (`QS`): intervals are disjoint, and any two places that are not in a common interval are in order; a partition replaces an interval by two that are (`sep_step`); (4) every layer of the merge network over all intervals acts on each interval as the layer of that interval's own length does (`mergeLayer_ok`), so C32's network theorem applies to each; (5) a measure (`work`) bounds the rounds of quick select. A comparator may answer anything on ties: both answers are allowed by `Decides`.
Simplifications: the comparison results are opened by the code, so they are plain; the unshuffled copy and the visibility conversions are the identity; `quick_sort_threshold` is at least 0 (a negative value is accepted by the configuration, and is not covered).

### C81 — sorting along a dimension

`Model/SortDim.lean`: `permute`, `_inverse_index`, `TopkApply`, `TopK`, `_check_method_require`, `select_sort_method`, `simple_sort1d`, `sort1d` with a public comparator, `SimpleSort`; `Spec/SortDim.lean`: the line through a place, sorted lines (one rearrangement for all operands), the contract of `std::sort`.
Method: the exchange of dimension d with the last one is a permutation of the axes with d at its end (`Moved`); places of the result are `placed p (J ++ [k])` with J the index of the line; the network (C32), quick sort (C80) and the standard library give `SortedLines`.
Simplifications: plain values; the radix sort is a parameter; visibilities are one flag per operand.

### C82 — LowMC

`Model/LowMC.lean`: `bit_parity`, `dot_product_gf2`, `generate_round_keys`, `get_data_complexity`, `rank_of_matrix`, `invert_matrix`, constructor, `set_key`, `encrypt`, `decrypt`, the packed S-box layer and `encrypt` of the semi2k kernel, the combination of several inputs. `Spec/LowMC.lean`: vectors and matrices over ZMod 2, S-box in algebraic form, the cipher.
Method: an echelon-form invariant for the rank (span of rows preserved, pivots strictly decreasing), a tracked product for the inverse; words are vectors over ZMod 2, dot products are `mulVec`; opening shares is a sum over the parties, the S-box layer uses C20's AND.
Simplifications: `FillPRand` is an arbitrary function of the counter; the rejection loop has fuel; AND triples are one per packed lane; plain cipher on one word at a time.

### C83 — group-by aggregation

`Model/GroupBy.lean`: `GroupMarkP/V` with end marks, `_group_mark`, `_circular_right_shift_1d`, `apply_inv_permute_1d` with its checks, `private_groupby_sum_1d`, `private_groupby_avg_1d`, `_all_pub_or_pri_with_same_owner`, `GroupByAgg`; the permutations come from the radix-sort model (C33). `Spec/GroupBy.lean`: rows, groups, totals; no permutations.
Method: keys of one visibility give a permutation of that visibility that ignores the sign of the data type (`c83_sortPerm`, a simulation argument on top of C33); `Lemmas/GroupBy.lean` treats a sorted sequence with end marks abstractly: the marks moved to the front enumerate the runs, differences of prefix sums are run sums.
Simplifications: all columns have `N` rows by type; the averaging kernel is a parameter; data types other than the integer/fixed-point flag are not tracked (the dtype of an average depends on the payloads before it, its ring value does not).

### C84 — exponentiation over a Mersenne prime

`Model/ExpPrime.lean`: `ProbConvRing2k`, `MulPriv`, `MulPrivModMP`, the dealer's `MulPriv` for rings and for the prime field, `WrapBitModMP`, `ConvMP`, `ExpA::proc`, on top of the field arithmetic of C38. One array element, both parties. `Spec/ExpPrime.lean`: "exactly one share negative", and what the rounded floating-point powers have to satisfy.
Method: integer arithmetic of signed shares; ring identities in `BitVec` and `ZMod p`; order of 2 modulo p - 1 (Fermat); floor arithmetic for the truncation; real powers for the final bound.
Simplifications: `roundf(pow(2, frac) * 2^fxp)` is an arbitrary function within a relative error, multiple of `2^(fxp - 23)` (a `float` has 24 significant bits); the clamping in `exp_prime` (`fxp_approx.cc:204-228`) is not modelled.

### C85 — Cheetah's two-dimensional convolution

`Model/CheetahConv.lean`: `IsValidMeta`, `GetSubTensorShape` (search and the static table), `Conv2DHelper` (slices, `InputIndexer`, `KernelIndexer`, `GetResultCoefficients`), `SlicedTensor::at`, `Tensor2Poly`, `EncodeInput`, `EncodeKernels`, `Compute`, `ExtractLWEsInplace`, `ParseResult`. `Spec/CheetahConv.lean`: the convolution as a triple sum.
Method: one-dimensional interval arithmetic of overlapping slices (`Lemmas/CheetahConv.lean`: every position of the kernel is in exactly one slice), a place for every cell so that the product modulo X^N+1 has the convolution at `resCoeff` (`compute_conv`), the loops of `ParseResult` write disjoint boxes that cover the result (`parseResult_eq`), and the rational error bound of C58.
Simplifications: batch 1 (the code asks for it); polynomials are functions on coefficients, products are taken directly instead of by NTT; lost coefficients are an arbitrary value; encryption, noise and the exchange of ciphertexts are not modelled here; `parallel_for` is sequential.

### C86 — SPDZ2k: adders, comparisons, A2B, MSB

`Model/Spdz2kConv.lean`: the basic block of `MakeSPDZBasicBlock`, `SimdTrait<Value>::pack/unpack` with the test on valid bits, `kogge_stone` and `carry_out` with `vmap`, `AddBB`, `AddBP`, `BitLEBB`, `BitLTBB`, `A2B`, `MSB` with all openings, MAC checks and random bits. The spec is that of C63 (`BitShares`: every bit is authenticated).
Method: `Props/Spdz2kCircuits.lean` states what a basic block must satisfy when valid bits are tracked (`Weak`: values for a whole array, and the number of valid bits after each gate) and proves the two circuits for every such block by induction on rounds; `Props/Spdz2kConv.lean` shows that the kernels of C63 are such a block and composes.
Simplifications: as for C63; the back type of shares is not modelled (header of the model file); MAC failure is `none`; parties are honest (the theorems are about correctness, C61 is about detection).

### C87 — SWIFT: arithmetic shares

`Model/Swift.lean`: `JointMessagePassing` twice (`JMP.run` with one corrupted party; `jmp` for parties that follow the code, linked by `c87_jmp_model`), `Sharing`, `JointSharing`, the linear kernels, replicated-share products (`RssMul_semi`), `MulPre`/`MatMulPre`/`DotProductPre` over the doubled field with the sacrifice check, `MulAA`, `MatMulAA`, `DotProductAA`, `LShiftA`, `Trgen`, `TruncA`. The three products are one definition (`mulWith`, `mulPre`) over a bilinear map, with scaling by the challenge and reduction to the smaller ring as parameters.
Spec (`Spec/Swift.lean`): the layout of the nine words (`Layout`), the shared value (`Shares`), consistency of streams (`Paired`, which is C30).
Method: values of replicated shares are tracked through every step (`Rep`); `mulPre_any` gives the result and the check for arbitrary errors of the two triples, from which correctness (errors zero) and the bound on challenges follow; bit sums for truncation.
Simplifications: links reliable; streams are arguments; the digest is an arbitrary function of the message; a party is corrupted in one `JointMessagePassing` at a time; the value of `1 << k` (undefined in C++) is a parameter `ub`; shapes of truncated arrays are flat.

### C88 — SWIFT: boolean shares and conversions

`Model/SwiftBool.lean`: the kernels of `boolean.cc` with their declared bit counts, `AndPre` with `permute`, `verifyByOpen` and `verifyByOther`, `AndBB` for arrays, and `A2B`, `MsbA2B`, `B2A`. The adder is `add_bb` of `Model/Circuits.lean` (C15).
Spec (`Spec/SwiftBool.lean`): the layout with exclusive or (`BLayout`, `BShares`), the shuffle as a product of transpositions, the error of a triple.
Method: words with exclusive or are made an additive group (`BX`), for which `AndBB` is the product of C87 with conjunction as the bilinear map (`andBB_eq`), so that `mulWith_ok` applies; an error-tracking lemma for the preprocessing (`andPre_any`); Fisher-Yates by induction on the places; the gates interface of C15 for the adder; `B2A` composes C87.
Simplifications: as for C87; the two adders of `A2B` and `B2A` are modelled for one element (`AndBB` with `N = 1`); `ring_assign` into a strided view is assignment.

### C89 — exponentials and sigmoids

`Model/ExpApprox.lean`: `exp_taylor`, `exp2_pade_normalized`, `exp2_pade` with its five conditional multiplications by 2^(2^i), `exp_pade`, `f_exp` with its clamp, the three sigmoids. The truncation `T b` by `b` bits is a parameter, as in C73.
Spec: the real exponential and power of Mathlib; rational values of words (`Spec/FxpDiv.lean`); the polynomial `expPoly` with the exact coefficients; the piecewise line `seg3`.
Method: error propagation through repeated squaring by induction (`squares_close`); `(1+x/m)^m` against `e^x` from both sides (`one_add_pow_exp`); the polynomial against `2^t` by the Taylor bound of Mathlib on an interval (`expPoly_close`); the word split into floor and fraction (`split_word`) and the product of the conditional factors (`scale_fold`); clamping from C37; the reciprocal from C73.
Simplifications: shares are replaced by words, comparisons and multiplexers by those of C37; sign hints to truncation are dropped.

### C90 — polynomials and the logarithm

`Model/PolyApprox.lean`: `polynomial` with its loop of powers, `log_minmax_normalized`, `log_minmax`, `f_log1p`; also `f_rsqrt` and `f_sqrt`. The truncation is a parameter, as in C73 and C89.
Spec: sums of powers of rational numbers; the natural logarithm of Mathlib.
Method: each power is within `M^i((1+d/2^f)^(i-1) - 1)` of the exact one, by induction over the doubling loop (`powers_ok`); the polynomial of degree 8 against `log(1+t)` by a certificate in the Bernstein basis for the derivative of their difference (`logPoly_close`); the position of the highest bit from C37 (`ones_prefixOr`) and the reversed bit as a power of two (`logFactor`).
Simplifications: shares are replaced by words; `std::log(2)` is the double nearest to log 2.

### C91 — square roots

`Model/PolyApprox.lean`: `rsqrt_init_guess` with both polynomials, `rsqrt_comp`, `rsqrt_np2`, `f_rsqrt`, `f_sqrt` with its one iteration.
Spec: the real square root of Mathlib on the values of words.
Method: `p(v)^2 v` is within 3e-4 (12e-3) of 1 on [1/4, 1/2] by a certificate in the Bernstein basis (`rsqFull_sq`, `rsqLow_sq`); the polynomial on words by C90; the powers of two bit by bit through de-interleaving (C14), parity (C37) and reversal (C46) (`comp_word`, `comp_close`); one Goldschmidt step with an error in every product (`goldschmidt`).
Simplifications: as in C90; `std::sqrt(2)` is the double nearest to the root.

### C92: the angle of a secret point

`Model/Atan2.lean` models `f_atan2` on secrets (`fxp_approx.cc:833-917`): the absolute values by selection, the ratio of the smaller to
the larger coordinate by `div_goldschmidt_general` with a divisor declared positive, the polynomial of `AtanApproxLocal` and the three
re-mappings.  Specification: `Complex.arg`.  Modelled: both coefficient arrays as the floats they hold, the doubles `M_PI` and `M_PI_2`.
Not modelled: `_common_type` and the casts, `vmap`, the hints about signs other than that the divisor is positive (proved true), public
operands (computed with `std::atan2`).  `Props/AtanPoly.lean` and `Props/AtanPolyL.lean` are generated certificates: for an auxiliary
polynomial Q, |Q'(v)(1+v^2) - 1| and |P(v) - Q(v)| are bounded on subintervals of [0, 1] by nonnegativity of the coefficients in the
Bernstein basis, checked by `ring` and `positivity`; the mean value theorem does the rest.

### C93: arc cosine and arc sine of a secret

`Model/Acos.lean` models `acos_minimax` and `f_asin` on secrets (`fxp_approx.cc:919-982`): the absolute value by selection, the polynomial
in it, the square root of one minus it, their product and the reflection for negative numbers.  Specification: `Real.arccos`,
`Real.arcsin`.  Modelled: both coefficient arrays as the floats they hold, the doubles `M_PI` and `M_PI_2`.  Not modelled: the hint
`SignType::Positive` of the product (the truncation is taken as one that needs no hint; near one the square root can be a unit below
zero, where the hint is false), `_prefer_a`, public operands (computed with `std::acos`, `std::asin`).  `Props/AcosPoly.lean` is a
generated certificate as in C92.  The square root of zero needs its own proof, because the inverse square root of zero is not
approximated by anything: `rsqrt_zero` computes what it is.

### C94: sine and cosine of a secret

`Model/Trig.lean` models `sin_chebyshev` and `cos_chebyshev` (`fxp_approx.cc:409-447`) with `compute_chebyshev_polynomials`: the reduction
of the angle with `f_floor` (C72), the scaling, the recurrence for the odd Chebyshev polynomials, the inner product with the coefficients
followed by one truncation.  Specification: `Real.sin`, `Real.cos`.  Modelled: the coefficients as the floats they hold, the doubles `M_PI`,
`2 * M_PI`, `1 / (2 * M_PI)`, `M_PI / 2`.  Not modelled: the reshaping to one row and the concatenation (element by element the product of
matrices is the inner product of `dot`), public operands (computed with `std::sin`).
`Props/SinPoly.lean` is generated: with Q the Taylor polynomial of degree 21, Q cos - Q' sin and Q sin + Q' cos have derivatives bounded by
Q'' + Q, a single power; the polynomial of the code is compared with Q by nonnegative coefficients in the Bernstein basis.

### C95: hyperbolic tangent of a secret

`Model/Tanh.lean` models `tanh_chebyshev` (`fxp_approx.cc:382-407`) on the definitions of `Model/Trig.lean` and the clamp of C37.
Specification: `Real.tanh`.  Not modelled: the reshaping to one row, as for C94.  `Props/TanhPoly.lean` is generated: a polynomial G close to
exp(-10 v) (its derivative is close to -10 G), then P (1 + G) close to 1 - G, both by nonnegative coefficients in the Bernstein basis on
subintervals.  `tt_cos` gives the bound of the Chebyshev polynomials; the errors of the recurrence are carried through nine rounds.

### C96: error function of a secret

`Model/Erf.lean` models `f_erf`, `ErfImpl` (`fxp_approx.cc:790-832`) and `reciprocal_goldschmidt_positive` (`fxp_base.cc:219-236`) on the
definitions of C37, C73 and C90.  Specification: equation 7.1.27 of the Handbook, cited in the source, as a rational function; the error of
that equation against the integral is outside the model.  Not modelled: public operands (computed with `std::erf`).
The symmetry `c96_odd` takes the truncation as a function; for a probabilistic truncation it holds for equal randomness.

### C97: binary logarithm of a secret

`Model/Log2.lean` models `log2_pade_normalized` and `log2_pade` (`fxp_approx.cc:84-149`) on the division of C73 and the bit count of C37.
Specification: `Real.logb 2`.  Not modelled: the shapes and the check that the type is fixed point.
`Props/Log2Poly.lean` is generated: the derivative of P/Q - log2 x is bounded on subintervals through nonnegative coefficients in the
Bernstein basis, and Q stays positive.  `Props/Log2.lean` adds the errors of the truncated cubics, of the division and the power of two.

### C98: natural logarithm of a secret through the binary one

`Model/LogPade.lean` models `f_log` in the mode `LOG_PADE` and `f_log1p` on it (`fxp_approx.cc:489-532`).  Specification: `Real.log`.
Not modelled here: the other modes (minmax is C90; Newton is not covered) and the public branch.

### C99: power of secret fixed-point numbers

`Model/FxpPow.lean` models the fixed-point branch of `power` (`polymorphic.cc:399-420`) on the logarithm of C90 and the exponential of C89.
Specification: `Real.rpow`, for integral exponents `zpow`.  Not modelled: the branch where both are public.  The word of the exponent
shifted right by f gives the parity of its floor (`bit_floor`); the errors of logarithm and product enter through the exponential.

### C100: remainder of secrets

`Model/Remainder.lean` models `Remainder` (`basic_binary.cc:53-71`) on the division of C73 and the rounding of C72.  Specification: the
quotient rounded towards zero (`TowardZero`), for integers `Int.tmod`.  Not modelled: the checks of the data types and public operands.

## Findings: places where the code does not satisfy the property

* C06 `broadcast_to` keeps the stride of a size-1 axis; after a strided `slice` that stride is not 0, so the
  broadcast view reads wrong elements or outside the buffer (`c06_broadcast_after_strided_slice_*`).
* C42 `BeaverTfpUnsafe::Dot` / `BeaverTtp::Dot` with an `Init` replay descriptor take the replay branch, which does not
  advance the stream counter; both operand masks then come from the same key-stream blocks and the opened values
  reveal `X - Y` (`c42_dot_init_reuses_mask`, `c42_dot_init_leaks`).
* C44 `RandA` shifts each party's word right by two; the sum of two or more such words leaves the documented range
  `[-2^(k-2), 2^(k-2))` (`c44_out_of_range`).
* C43 for responses with two adjustment buffers (`TruncPr`) larger than one chunk: the server interleaves the chunks of
  both adjustments while the client fills its buffers one after the other, so the buffers are silently swapped around
  (`c43_interleaved_chunks`); a part crossing a buffer boundary makes `copy_to_buffer` read past the received part
  (`c43_overrun`).
* C08 `expand` to a shape without elements writes one element into an empty buffer and its loop
  `while (bytes_copied != num_bytes)` cannot stop; `pad` inherits this when the padded or cropped result is empty
  (`c08_expand_empty`, `c08_pad_empty`).  An empty axis with interior padding gets extent `low + high - interior`
  (`c08_pad_empty_operand`).
* C45 `linear_scatter` into a broadcast vector (stride 0) changes every element; `update_slice` guards against this
  with `eliminate_zero_stride`, `linear_scatter` does not (`c45_scatter_broadcast`).
* C46 `ring_bitrev_impl` computes `(U)1 << end`; `BitrevB` and `BitrevP` accept `end` equal to the word width, where this
  shift is undefined (on x86 the mask becomes 0 minus a power of two shifted, and the result is `in | reversed`)
  (`c46_bitrev_full_width_undefined`).
* C47 aby3 kernels with rotating roles compute `(pivot + 1) % 3` and `(pivot + 2) % 3` in 64 bits; for the pivots
  `2^64 - 1` and `2^64 - 2` the sum wraps (2^64 is 1 modulo 3), two roles fall on one party, and the kernel waits for
  itself (`c47_roles_collide`, `c47_pivot_wrap`).
* C44 aby3 `RandA` shifts three words right by two; their sum leaves the documented range
  (`c44_aby3_rand_counterexample`).
* `TruncAPr2` (semi2k, aby3) and `TruncPrWithMsbKnown` (aby3) shift by `k - bits`, which is undefined for `bits = 0`.
* C48 aby3 `RShiftB` shifts words of the storage type of its operand; an amount below the ring width but not below
  `max(32, storage width)` is undefined (`c48_rshift_undefined`; on x86 a 20-bit value shifted by 40 becomes the value
  shifted by 8).  `LShiftB` has the same defect for shares with no declared bits (`c48_lshift_undefined`).
* C46 aby3 `BitrevB` has the same `1 << end` as semi2k (`c46_aby3_full_undefined`).
* `bitDecompose` of the aby3 OT conversion writes a `std::vector<bool>` from a parallel loop (the code says "not
  thread-safe"); the model is sequential.
* C09 `SimdTrait::unpack` ignores offset and strides of the array it cuts; a kernel that returns a broadcast constant is
  read outside its buffer (`c09_broadcast_result`).
* C10 `associative_reduce` documents "an associative binary Function" but reorders operands, so it also needs
  commutativity (`c10_needs_commutative`); for a last axis of length 1 it returns the input with that axis kept, although
  it drops the axis otherwise.
* C17 `MergeKeysP`/`MergeKeysV` write `_out[0]` before their loop, also for arrays without elements
  (`c17_mergeKeys_empty`).
* C34 `_find_mergeable_keys` does not set `pre_owner` when the previously visited key is secret, so
  `[private A, private B, secret]` puts keys of A and B into one group (`c34_two_owners`); `_merge_keys` then throws
  (`c33_two_owners_throw`).
* C33 `_bit_decompose` without `valid_bits` uses the declared bit count of a boolean share; the top declared bit of a
  signed key (say `x & 15`, 4 bits) is then read as its sign and 8 sorts before 7 (`c33_declared_bits`).
* C33 `GenInvPermP`/`GenInvPermV` compare signed words whatever the data type; public or private unsigned keys of
  `2^(w-1)` and above sort before small ones (`c33_unsigned_private`), while secret unsigned keys sort correctly.
* C39 `OpExecTask::run` waits only if the operation has operands, so an operation without operands that captures values in
  a nested region can look them up before they are produced (exception in a worker thread), and can overtake earlier
  operations with side effects; `concurrency = 0` runs no operation and the lookup of the results throws.
* C37 `_less` is the sign of the difference: wrong whenever the difference overflows (`c37_less` is an equivalence);
  `_popcount` with 0 bits reduces an empty vector (`c37_popcount_zero`); the `_prefix_or` loop is too short for a width
  that is not a power of two (`c37_prefixOr_width3`).
* C38 `add_inv(0)` is `p`, which is not canonical (`c38_neg_zero`).
* C40 with `EXP_PRIME` in a ring other than FM128 the offset stays 0, which the code calls unsupported
  (`c40_offset_unset`).
* C41 aby3 `OShrTy` and `OPShrTy` share the id `aby3.OShr`: a printed `OShrTy` is read back as `OPShrTy`, of half the size,
  and `operator==` does not see it (`c41_oshr`). `spdz2k::BShrTy::fromString` does not set `k_`, so the type read back has
  size 0 (`c41_spdz2k_bshr`). `has_mac` of `spdz2k::AShrTy` is neither printed nor compared (`c41_spdz2k_ashr`).
  `cheetah::PShrTy` is never registered (`c41_cheetah_pshr`).
* C49 cheetah options set under another protocol are dropped; reading into an object that already has a third-party
  configuration keeps the old one (`c49_stale_ttp`); defaulting leaves `share_max_chunk_size` at 0 for a configuration
  that came from a message without it (`c49_defaults`).
* C12 `fromProto` copies each chunk before comparing sizes: a chunk longer than declared is written past the buffer
  (`c12_overrun`). The byte count of the buffer wraps modulo 2^64, so a message without chunks for 2^61 elements of 8 bytes is
  accepted with an empty buffer (`c12_size_wrap`). `chunksCount` overflows for chunk sizes near 2^64 and the message has no
  data (`c12_chunk_wrap`). The last of an odd number of chunks of a complex value is ignored (`c12_odd_complex`).
* `tiled` (mpc/utils/tiling_util.h:130-137) copies the result of a tile with one `memcpy` from its data pointer, without checking that the result is compact or has the element type of the first tile. A kernel that returns a strided view gives a wrong tensor (`c36_strided_result`). No kernel dispatched through `TILED_DISPATCH` was seen to do so.
* **Permuting a single element (C16).** `generate_as_waksman_topology` asserts more than one packet and `get_as_waksman_routing` computes `width - 1` with width 0; cheetah `SecureInvPerm` only rules out 0 packets (`permute.cc:77`), so `perm_am` / `inv_perm_av` on a one-element vector fail (`c16_single_packet_fails`).
* **Packed additive opening (C51).** `OpenShare` with `ADD` packs slots of `nbits + 1` bits with a mask of `nbits + 1` bits; a share word with bits at or above `nbits` makes the sum of a slot carry into the next element (`c51_open_add_carry`). Only the tests call it with `ADD`, on masked words.  Opening an empty array by exclusive or throws (`c51_open_empty`), because `UnzipArray` refuses an empty span.
* **Zero declared bits (C52).** `BShrTy` allows a bit count of 0 (the type of a public-like boolean share), and `PackedB2A` treats it as one bit, but `BitwiseAnd` on such shares throws in `AndTriple` (`c52_and_zero_bits`).  `B2ASingleBitWithSize` refuses a bit width of 1 (`c52_b2aSized_one`), although `SingleB2A` itself is right for it.
* **Comparison beyond the requested bits (C53).** `CompareProtocol` cuts the words into digits of `compare_radix` bits and, unlike `EqualProtocol`, does not mask the last digit to the requested bit width: with bit width 1 and radix 4 the words 2 and 0 compare as different (`c53_beyond`).  Callers in `truncate_prot.cc` and `arithmetic.cc` mask the words first.
* **Shape of the equality share (C53).** `CompareProtocol::DoCompute` discards the result of `keep_eq->reshape(inp.shape()).as(boolean_t)` (`compare_prot.cc:162`), so `ComputeWithEq` returns the equality as a one-dimensional array, whatever the shape of the input.
* **Truncation by one bit with hint "negative" throws (C54).** `TruncateProtocol` sends signed negative values through `MSB0ToWrap`, which converts the wrap bit with `B2ASingleBitWithSize`; that refuses a width of 1.  `TruncA` with `bits = 1` and `SignType::Negative` therefore always throws (`c54_truncA_negative_one`); so do `bits = 1` with an unknown sign when the heuristic is off and with unsigned positive values.
* **Heuristic truncation by w−1 bits is undefined (C54).** `TruncateProtocol::Compute` accepts `shift < w`, but the heuristic evaluates `1 << (w - 2 - shift)`; for `shift = w - 1` the amount wraps around (`c54_truncA_all_but_one`).
* **Bits above the result of `MsbA2B` (C54).** With `nbits` between 1 and w−1 the kernel returns a share typed as one bit whose other bits are not zero (`c54_msb_garbage`: 503 instead of 1); only the low bit is meaningful.
* **Numbers of messages that pass the check but do not work (C55).** `SendCMCC`/`RecvCMCC` accept 2 ≤ N ≤ 256. `MITCCRHExp` has cases only for 1, 2, 3, 4 and 8 keys, so N from 32 to 255 always throws (`c55_unsupported`); N = 3 encrypts messages 0 and 2 with the same pad (`c55_three`).
* **Sender and receiver of the emp variant can disagree on packing (found by reading, not modelled).** In `ot/emp/ferret.cc` the sender of `SendChosenMsgChosenChoice` packs only if this makes a full batch shorter (:784-788, 825-832), the receiver for N > 2 always unpacks (:870-878). For N = 4, 64-bit words and `bit_width` = 63 a full batch is 32 words either way, sent as they are but unpacked as a bit stream. The yacl variant (C55) decides on both sides by `bit_width` alone.
* **Comparison radix 5, 6 and 7 (C55).** `CompareProtocol` and `EqualProtocol` accept `compare_radix` from 1 to 8 and use one of 2^radix messages; by `c55_unsupported` the values 5, 6 and 7 always throw.
* `ModulusUpAt` (modswitch_helper.cc:115) adds two 64-bit words, one below q_l and one up to Q mod 2^64; the sum wraps when Q mod 2^64 + q_l > 2^64 (`c58_up_wraps`: moduli of 60, 36 and 44 bits and the ring element -1). None of the moduli sets in use is affected (`c58_moduli`). Line 158 has the same shape in 128 bits.
* cheetah_mul.cc:288-292 compares a new 45-bit plain modulus with earlier ones truncated to `uint32_t`, so the check can never fire; the moduli differ anyway because they come sorted from one search (by reading).
* Multiplication in Cheetah is not exact: `c59_not_exact` gives, for the 64-bit ring with the program's four 45-bit moduli, x = 11642558788483891201, y = 2^63 and a mask for which the shares add up to x*y + 1. The fraction of such masks is at most 2^-48 (2^-10 with `enable_mul_lsb_error`), `c59_rate`.
* **SPDZ2k MatMulAA checks no MACs** (arithmetic.cc:530-569): X - A and Y - B are opened with `allReduce` and used without `BatchMacCheck`, and the MACs of X and Y are never read.  A party that adds d to the opening turns the product into (X + d) * Y with valid MACs, and every later check accepts it (`c62_matmul_forgery`, for all d, keys and coins).  MulAA does check (`c62_mulAA_err` with C61).
* **SPDZ2k inputs cannot be revealed directly** (arithmetic.cc:134-151 A2P, 153-190 A2V, 587-625 TruncA): these kernels read the stored MAC share with `getMacShare` instead of `GetMacShare`, but `Spdz2kIo::toShares` stores zeros and `has_mac = false`.  An honest run that reveals (or truncates) an input before any other operation fails the MAC check except for a negligible fraction of keys and coins (`c62_reveal_input`).
* **SPDZ2k boolean shares of one element are destroyed** (value.cc:41-77, 79-123 with core/shape.cc:38-44, ndarray_ref.cc:132-134): a compact array of one element has stride 0 and a fast-indexing stride of 0, so `_res[i * k + j]` is the same place for all bits.  The last bit overwrites all others: `b2p(p2b(4))` is 7 (`c63_one_element`, `c63_one_element_p2b`).  When nbits = k and the last dimension is 1 (e.g. shape (3, 1)), `getShare` multiplies the stride 0 of the last dimension by 2 and reads the first bit for every bit (`c63_last_dim_one`).
* **SPDZ2k p2b and and_bp divide by zero on zero operands** (boolean.cc:36-70, 441-517, value.cc:46): for a public array that is zero everywhere `maxBitWidth` is 0, so nbits = 0 and `makeBShare` evaluates `% nbits` (`c63_p2b_zero`, `c63_and_zero`).  A2B and MSB call p2b on an opened random value, so they crash with probability 2^-k per element for arrays of one element.
* **SPDZ2k opens bits with a mask of one bit** (beaver_tfp.cc:251-270, trusted_party.cc:107-126): BatchOpen(x, mac, 1, s) asks for coins with k = 1 bits instead of s, so the opened value is v + 2r with r in {0,1}.  For the XOR of two bits v is their integer sum; the opened value 0 or 4 (probability 1/4 for random bits, as in Bit2A and B2A) tells every party both bits (`c63_bit_leak`).  BeaverTinyOt uses full masks.
* **SPDZ2k MSB opens its input** (conversion.cc:346-347): the kernel starts with BatchOpen and BatchMacCheck of its argument, whose result is not used: all parties learn x modulo 2^k (`c63_msb_opens`).
* By reading (SPDZ2k): `BeaverTinyOt::AuthArrayRef` keeps its check coefficients in `std::vector<int>` and draws them with the common `genPubl`, which all parties can predict; `Spdz2kIo::fromShares` of boolean shares combines arrays whose shape is multiplied by nbits, so it only works for one bit; broadcast boolean shares (stride 0) are misread like one-element arrays.
* **SecureNN's private comparison does not permute its entries** (arithmetic.cc:716, 1133): ranks 0 and 1 send the masked entries in the order of the bits, so rank 2 sees at which bit x and r differ first, and x - r is the secret.  In ShareConvert a zero at position i tells it that a or -a is below 2^(i+1) (`c64_convert_leak`); in Msb the same holds for 2a modulo 2^k - 1.  The protocol of the paper shuffles the entries with a common permutation.
* **SecureNN's Msb_a2b computes bit k-2** (conversion.cc:191-193): the argument is doubled before the conversion, so the sign is right exactly for values in [-2^(k-2), 2^(k-2)) (`c64_msb_a2b_iff`); 2^62 in a 64-bit ring is found to be negative.
* **Shared loop variables in SecureNN** (arithmetic.cc:673-674, 1089-1090): `w` and `w_total` are declared outside of the function that `pforeach` runs in parallel (for more than 50000 elements), which is a data race; an interleaving makes rank 2 deny 0 < 1 (`c64_race`).  Msb_opt declares them inside.
* **Corner cases of SecureNN's comparison** (arithmetic.cc:698-710, 739-740): the branch for r = 2^k - 1 uses words modulo 2^k where shares modulo 131 are needed and marks bit 1 instead of bit 0 (`c64_compare_last`); a zero mask and a carry lost when adding three words make ShareConvert return a + 1 (`c64_convert_zero_mask`, `c64_convert_lost`); Msb returns 1 for zero when the opened word is 2^k - 1 (`c64_msb_wrong`).  All have probability about 2^-k.
* **Rank 2 reads secrets in SecureNN** (boolean.cc:165-213, arithmetic.cc:205-254, conversion.cc:122-159): AndBB, TruncAPr and B2A_Randbit open the masked operand to all three ranks, but rank 2 generated or reconstructed the mask.  It can compute both operands of every AND, every truncated value and every converted bit (`c65_and_leak`, `c65_trunc_leak`, `c65_b2a_leak`).  MulAA and MatMulAA exchange the masked operands between ranks 0 and 1 only.
* **SecureNN's AndBB reuses its mask in small arrays** (boolean.cc:157-210 with core/shape.cc:38-44): the masks are in an array of ring elements that is read in units of the smaller type; if it has one ring element, its stride is 0 and all elements use the first unit.  Everyone learns the xor of any two elements (`c65_and_mask_reuse`), for example of 8 one-byte values in a 64-bit ring.  semi2k reads its masks through a span and is not affected.
* **SecureNN's RandA gives rank 2 a share that MulAA ignores** (arithmetic.cc:101-114, 323-366): the product of a random value and y opens to (r - r_2) * y (`c65_mul_rand`).
* **Visibility inference reveals secret loop carries** (visibility_inference.cc:143-169): `inferWhile` iterates the body from the operands' visibilities but never joins with them.  If the body overwrites a secret carry by something public, the carry gets public type, `materializeInputs` converts the secret operand, and `hlo::Cast` from secret to public is a reveal (`c66_while_reveals`).  The same for a reduction whose body ignores its input (`c66_reduce_reveals`).  If the body swaps a secret and a public carry the compiler does not end (`c66_while_diverges`).
* **`inferReduce` stops after one correction** (visibility_inference.h:43-103): results of a reduction with four accumulators can be typed public although they depend on a secret (`c66_reduce_chain`).
* `optimize_sqrt_plus_eps.cc:30-32` tests `epsilon >= v` without a lower bound, so `sqrt(x) + c` with any negative constant `c` is compiled to `sqrt(x + eps)` (`c68_sqrt_eps_wrong`).
* `lower_mixed_type_op.cc:64-66` does not look at the type of the operand that is not a conversion.  The masks of `inline_secret_control_flow.cc:118-131` are such operands: a branch that returns `convert(int)` is multiplied by its mask as an integer although the operation is declared to be a float, and the runtime, which goes by the type of the value, then divides integers (`c68_mixed_int_wrong`) or rejects `sqrt` of it.
* `pphlo_executor.cc:310-340`: for a constant of magnitude below `2^(2-f)` the product is computed with its absolute value and the sign is never put back: `x * -2^-17` gives `x * 2^-17` (`c69_sign_lost`).
* The same code takes the type of the result from the other operand.  After `LowerMixedTypeOp` that may be an integer: `500000 * 1e-6` is an integer, so never a half (`c69_int`).
* `findTwoK` (`pphlo_executor.cc:150-158`) shifts a `uint64_t` until it is at least `1/c`; for `c < 2^-63` it becomes zero and the loop never ends, so a product with `1e-30` hangs the executor.  Before that, for `c < 2^(f-K-1)`, the shift amount `f + k` reaches the width of the ring (`c69_none`).
* `inline_secret_control_flow.cc:75-84` clamps the index of a secret `case` to `[0, n-1]`, so a negative index takes the first branch; StableHLO, the lowering for public indices and the kernel `hlo::Case` all take the last (`c70_secret_negative`).
* `polymorphic.cc:365-374` keeps only log2(width) bits of an integer exponent; the comment argues for |x| > 1 and |x| = 1 only.  For x = 0 and y a positive multiple of the width (`0^64` in FM64) the result is 1 (`c71_zero`).
* `type_cast.cc:54` computes `(1 << fxp_bits) - 1` in `int`; with 31 or more fraction bits (the tests of `fxp_approx` run with 40) every cast from fixed point to integers and `Round_AFZ` is undefined behaviour (`c72_fxp2int_undefined`).  On x86 the shift count wraps, and -0.5 with 40 bits would become -1.
* `fxp_base.cc:191-197` normalises by reversing the highest bit within `2f` bits; divisors of `2^f` or more give the factor zero and the quotient zero (`c73_large`).  With the defaults of FM64 every division by 262144 or more is zero, and integer division (`polymorphic.cc:422-450`), which corrects by one at most, gives 600000/300000 = 1.
* Integer division corrects the fixed-point quotient by one only, while the relative error of two iterations is about 1/10000: 1000000/3 gives 333328 (`c73_idiv_wrong`).
* `pphlo_executor.cc:846-848` tests `axis == 0` where it means that the extent is 0: the initial value of a reduction is used only if axis number 0 is reduced (`c74_reduceOp_init`), and reducing an axis of extent 0 throws (`c74_reduce_empty`).
* `ReduceWindow` leaves out the initial value without dilation and uses it with dilation (`c74_window_init`); wrong for initial values that are not neutral.
* `ScatterWindow` (`select_and_scatter.cc:66-110`) fails if the windows do not end at the last element (`c74_scatter_edge`), adds a non-zero initial value once per place (`c74_scatter_init`) and lets unselected places take part as 0, which is wrong for scatter functions other than addition; ties are resolved by the order of the tree (`c74_select_tie`).
* The 1x2x2x1 version of `ArgMax` (`reduce.cc:371-478`) is chosen by the window shape only and takes the strides of the two middle axes only; strides of the first and last axis, and dilation, are not looked at.
* `NormalizeDimensionOrder` (`canonicalization.cc:384-386`) gives up when input and kernel are in standard order, also if the output is not; `Convolution2D` ignores the dimension numbers of the output. If the extents coincide, e.g. as many output features as batch entries, the result is silently transposed (`c75_convolution_output_order`); otherwise it throws.
* `dot_general` without contracting dimension (outer product) is refused by the executor (`c75_dotGeneral_outer`), and so is an empty batch (`concatenate` of nothing).
* `NormalizeConv1D` (`canonicalization.cc:458-470`) joins its layout tests by `&&` where `||` is meant.
* `SecretDynamicSlice` (`indexing.cc:799-801`) clamps a public index from above only: with another index secret, a negative public index makes the slice begin before the operand (`c76_negative_public_index`), where `DynamicSlice` with public indices clamps it to 0.
* `SecretDynamicSliceImpl` compares the secret index with `hal::iota` in the type of the index, whose numbers wrap: a `uint8` index into 300 elements returns the sum of two of them (`c76_narrow_index`).
* A secret dynamic slice of size 0 throws (`concatenate` of nothing, `c76_empty_secret_slice`).
* `DynamicUpdateSlice` (`indexing.cc:528, 549-555`) looks at the visibility of the first start index only: if it is public, secret indices after it are revealed, with a log message (`c76_update_leak`).
* `GeneralGatherSimplifier` takes a gather with batching dimensions for simplified if its other attributes are (`hlo_importer.cc:357-367`); the legalisation drops the batching dimensions (`hlo_legalize_to_pphlo.cc:1225-1266`) and the kernel reads beyond its index table (`c77_batched_simplified`).
* For a gather with batching dimensions whose index vector dimension is not last, `CreateTranspose` is given the shape of its operand (`hlo_importer.cc:141-149`): the program is refused unless the shapes agree (`c77_vector_not_last`).
* Batch numbers and the loop counter have the element type of the start indices: with `i8` indices and 200 index vectors the loop ends at once and the gather is 0 (`c77_narrow_counter`).
* `DeleteDimensions` (`expand_secret_gather.cc:47-59`) collects the numbers of the dimensions in place of their extents: a secret gather whose slice is the whole operand is refused (`c77_whole_operand`).
* `GatherLoopBody` compares the rank of the canonical start indices with the original index vector dimension: without the simplifier, vector dimension 2 is refused (`c77_vector_dim_2`).
* The gather of an empty operand is the operand, whatever the result shape (`c77_empty_operand`); `forEachIndex` visits an index space with an extent 0 once, so that an empty result is written out of bounds (`hlo/utils.h:32-57`; excluded by hypothesis in `c77_gather`).
* `MatMulAA` and `MatMulAV` return an array that was not written when an operand is empty (`arithmetic.cc:422-424, 461-463`); for an inner extent of 0 the result is not empty and should be 0 (`c78_matMulAA_inner_zero`).
* An oblivious read of aby3 does not treat an index outside of a table of n rows like the public path (which clamps) unless the caller clamps: indices are reduced modulo the next power of two, and positions that are then still not in the table read zeros (`c79_rows` and its examples). A direct call of `oramread` with an offset above n is undefined behaviour (`c79_offset_ub`).
* `_oramonehot` converts a private index to a share only when the table is secret (`ring.cc:670-681`); for a private index and a public table `oram_onehot_sp` throws on its `IsA` check (read in the code, not modelled).
* `hlo::TopK` on an input without elements returns copies of the input (`rank.cc:83-88`): the last dimension is not reduced to k, the checks of k are skipped, and the index result has the input's element type (read in the code, not modelled).
* The public and the secret top-k agree on the selected values only up to order inside the first k_lo places (`c80_topk_public` against `c80_topk_select`), and on positions only up to ties.
* Sorting along a dimension throws if that dimension has elements but another dimension is empty, instead of returning the empty operands (`c81_no_lines`): `permute` returns early only if the sorted dimension itself is empty and otherwise concatenates an empty list of lines.
* `LowMC::decrypt` overwrites the ciphertext it is given: `auto c = ciphertext` shares the buffer and the first two `ring_xor_` write into it (`c82_roundtrip`).
* A `LowMC` built without `need_decrypt` reads outside an empty vector when asked to decrypt (`c82_no_inverse`), and its linear layers are not tested for full rank, so encryption may map different blocks to one (`c82_injective` and the example beside `c82_bitcount_low`).
* The semi2k LowMC kernel types the round-key shares as public values and restores the input's type after every linear layer: the declared bit count of the result then depends on the party's own key share and can be smaller than the width of the result (`c82_bitcount_low`); it is right if the input declares all bits (`c82_bitcount`).
* The LowMC kernel fails on scalars: `to_shape[0]` of a shape without axes (`c82_scalar`).
* Group-by: the rows behind the groups are differences of inner prefix sums, not dummy zeros (the comments in `private_groupby_sum_1d` speak of zero); whoever opens the whole column learns single payload entries (`c83_rest_rows`).
* `GroupByAgg` accepts any aggregation, mode and secret keys when the table is empty (`c83_empty`), although the same call throws for a nonempty table (`c83_accepts`). Private payloads of two owners pass its visibility check and throw later, inside the permutation.
* `ProbConvRing2k`: the header promises success with probability greater than `1 - |x|/2^k`; exactly `2(x + 1)` of the `2^k` sharings of a non-negative number fail (`c84_bad_count`), so even 0 fails for two sharings. `in our case p > 2^shr_width` needs `fxp >= 2` for FM128 (`exp.cc` only checks `fxp < 64`).
* `WrapBitModMP`: the comment asks for `h < p/2`; for `h = (p - 1)/2` the bit is wrong (`c84_wrap_bit_half`). The computation needs `h < (p - 1)/2`.
* `ExpA`: the documented lower end of the range, `(47 - offset - 2 fxp)/log2(e)`, lets the exponent be negative for `fxp > 23`; it is right only because `std::roundf` converts to `float` and returns multiples of `2^(fxp - 23)` (`c84_exp_fm128` uses this granularity). Replacing `roundf` by the more precise `round` would break it.
* `Conv2DProtocol::GetSubTensorShape` minimises the number of ciphertexts without asking that a block is at least as large as the kernel. If a channel does not fit into a polynomial, the block may be too small, the window `block - kernel + 1` is zero and `Conv2DHelper` divides by zero (`c85_block_too_small`; the same shape with degree 8192: input 128x128, kernel 65x1).
* The table of `GetSubTensorShape` is `static` and keyed by `Meta` only. An instance of a smaller polynomial degree gets the blocks of a larger one and throws in `EncodeInput` (`c85_memo`). The reverse is harmless (`c85_memo_smaller`).
* `IsValidMeta` accepts strides of zero, by which `GetResultCoefficients` divides (`c85_stride_zero`). `SlicedTensor::at` compares `zero_pad_extents_[i]` with zero instead of with the index; padding is recognised anyway by the test on `extents_`.
* `AddBP` of SPDZ2k throws when the public operand needs fewer bits than the share has valid bits (`c86_add_bp_narrow`): `and_bp` shrinks G to the width of the public operand, and the first `vmap` of `kogge_stone` packs P and G of different types, which `SimdTrait<Value>::pack` refuses. E.g. adding 1 to a 3-bit share. The unit test uses uniform numbers of the full width. A public array of zeros throws already in `and_bp`.
* `A2B` and `MSB` of SPDZ2k throw if the masked value that they open is zero for every element (`c86_a2b_zero`, `c86_msb_zero`), since `p2b` of zeros makes a share of zero bits. The probability is 2^-(kn) and 2^-((k-1)n); for one call on few elements of a small ring this is not negligible.
* SWIFT `RandA` does not make a share (`c87_randA_inconsistent`): `P1` and `P2` both take γ from the second stream of their second draw (`arithmetic.cc:639`, `:644`), which are different streams, so γ differs unless two random words coincide. Opening works; a product with such a value opens to different numbers at different parties (`c87_randA_mul_wrong`), and every call logs an inconsistency among honest parties.
* SWIFT `JointMessagePassing` only logs: after a detected inconsistency the receiver goes on with the tampered message (`c87_jmp_continues`); a corrupted sender that reports a false inconsistency to its co-sender blocks it in `AllGather` (`c87_jmp_hang`); the broadcast of digests is point to point, so honest parties can name different trusted parties (`c87_jmp_split`).
* SWIFT `Trgen` evaluates `ring2k_t(1) << k` in every call (last iteration of the loop over `P`), which is undefined. If it yields 0 the pair is right; if it yields 1 (x86 for 32 and 64 bits, when not folded) `r` is off by one for a quarter of all masks and the result of a truncation can be one too large (`c87_trunc_error`). A truncation by zero bits shifts by `k` too.
* SWIFT's `AndPre` uses `OPEN_SIZE = BUCKET_SIZE = 3` whatever the number of elements (`boolean.cc:44-45`). For one element a party that adds the same error to three of the six triples is not detected in one of twenty runs, and the conjunction is then wrong (`c88_cheat`, `c88_cheat_odds`).
* SWIFT's `B2A` and every product exist only for FM32 and FM64 (`c88_b2a_field`, `c87_mulAA_field`): a ring twice as large is needed.
* `exp_taylor` (the default for secrets) computes (1+x/2^n)^(2^n), which is even around -2^n: `exp(-512)` is about 1 with the default n = 8 (`c89_taylor_far`), and the default sigmoid of 512 is a half and that of 600 is 0 (`c89_sigmoid_far`).
* `exp2_pade` only looks at five bits of the integer part and the sign, so `2^32` comes out as 1 and `2^33` as 2 (`c89_exp2_wrap`); `f_exp` clamps first, but `f_exp2` itself does not.
* `f_log` does not check its range: from 2^(f+1) on the normalising factor is 0 and the result is that of another number (`c90_log_range`). The comment in the code states the range.
* `rsqrt_comp` reverses `(f/2)*2` bits: with an odd number of fraction bits the range of `f_rsqrt` and `f_sqrt` ends at 2^(f-3) instead of 2^(f-1), beyond which they are 0 (`c91_rsqrt_beyond`, `c91_rsqrt_odd`).
* `rsqrt_init_guess` (`fxp_approx.cc:580-592`) passes `SignType::Positive` for the result of a polynomial whose constant term is added only afterwards; that result lies below -1 (`c91_hint_sign`). Cheetah, which derives the wrap from the hint, is then off by 2^(k-f) for some shares (`c91_hint_wrong`); ABY3's `TruncAPr` also uses the hint; the other protocols ignore it.
* **C92** (`fxp_approx.cc:858-903`): `f_atan2` on secrets does not check or scale its operands. If a coordinate is 2^f or more the ratio is a truncated zero and the angle is a multiple of pi/2 (`c92_range`: the point (2^18, 2^18) with 18 fraction bits has angle 2^-18); for coordinates of a few units the ratio is inaccurate (angle 0.46 instead of 0.79 for one unit by one unit). `kAtanCoefficientLarge` (`fxp_approx.cc:843-847`) is documented with a maximal error of 1.48e-9, but the array holds floats and the polynomial is off by more than 4e-8 at one (`c92_atan_large_error`).
* **C93** (`fxp_approx.cc:929-937`): the polynomials for the arc cosine are documented with maximal errors of 5e-5 and 2e-8. They are off by more than 6.7e-5 and 7e-8 at zero (`c93_acos_error`): the first coefficient of the first array is too small by that much, and the second array holds floats. Secrets beyond one are not rejected.
* **C94** (`fxp_approx.cc:421-433`): `f_sine` and `f_cosine` on secrets do not check the range of the angle. The error of the reduction grows with the angle (the encoded constants 2 pi and 1/(2 pi) are off by up to a unit each), and for large angles the floor is off by more than one period, so that the polynomial is evaluated outside its domain: with 18 fraction bits the sine of 355000 is 3.6, that of 2^20 is 12449 (`c94_range`). Results outside [-1, 1] can overflow later computations.
* **C95** (`fxp_approx.cc:394-398`): `f_tanh` clamps its argument with comparisons that overflow near the ends of the ring: with 18 fraction bits in words of 64 bits the result for 2^63 - 2^18 (about 3.5e13) is -1.0027 instead of 1. The polynomial has an error of up to 0.005, so results leave [-1, 1]: that for five is 1.0027 (`c95_range`).
* **C97** (`fxp_approx.cc:134-139`): `f_log2` does not check its argument: from 2^f on the reversed top bit falls outside the 2f bits kept and the factor is zero. With 18 fraction bits the logarithm of 2^18 is 13.19 instead of 18 (`c97_log2_range`).
* **C99** (`polymorphic.cc:410`): `power` calls `exp_pade` without the clamp of `f_exp`: with 18 fraction bits in words of 64 bits one half to the power 33 is 0.50005 and 100 to the power 5, which fits in the ring, is 2.33. Zero to the power 1/8 is 0.143, since the logarithm of zero is only -15.5 (`c99_power_range`).
* **C100** (`basic_binary.cc:59-70`): `Remainder` rounds an approximate quotient towards zero, so it is one too small where the quotient is an integer and its approximation lies below: with 18 fraction bits the remainder of 6 by 3 is 3 and of 1 by 1 is 1 (`c100_rem_integral`).
