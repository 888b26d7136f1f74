{
 "claims": [
  {
   "property": "C01",
   "status": "proved",
   "theorems": [
    "Spu.Props.c01_pos_lex",
    "Spu.Props.c01_flatten",
    "Spu.Props.c01_unflatten",
    "Spu.Props.c01_compact_strides",
    "Spu.Props.c01_inBounds"
   ],
   "note": ""
  },
  {
   "property": "C02",
   "status": "proved",
   "theorems": [
    "Spu.Props.c02_bump_enumerates"
   ],
   "note": ""
  },
  {
   "property": "C03",
   "status": "proved",
   "theorems": [
    "Spu.Props.c03_linear_index",
    "Spu.Props.c03_iterate",
    "Spu.Props.c03_iterate_end"
   ],
   "note": ""
  },
  {
   "property": "C04",
   "status": "proved",
   "theorems": [
    "Spu.Props.c04_slice",
    "Spu.Props.c04_slice_succeeds",
    "Spu.Props.c04_slice_scalar"
   ],
   "note": ""
  },
  {
   "property": "C05",
   "status": "proved",
   "theorems": [
    "Spu.Props.c05_transpose",
    "Spu.Props.c05_reverse",
    "Spu.Props.c05_reverse_twice",
    "Spu.Props.c05_transpose_rejects"
   ],
   "note": ""
  },
  {
   "property": "C06",
   "status": "partial",
   "theorems": [
    "Spu.Props.c06_broadcast_partial",
    "Spu.Props.c06_broadcast_after_strided_slice_wrong",
    "Spu.Props.c06_broadcast_after_strided_slice_oob",
    "Spu.Props.c06_history",
    "Spu.Props.c06_broadcast_history_partial"
   ],
   "note": "The full statement is false of the code: a strided slice that leaves a size-1 axis keeps a nonzero stride and broadcasting it then reads wrong or out-of-range elements (negation proved with a witness). The partial theorem needs size-1 axes to carry stride 0. c06_history: every view built by the view operations with unit-step slices keeps stride 0 on unit axes, so broadcasting it is correct."
  },
  {
   "property": "C07",
   "status": "proved",
   "theorems": [
    "Spu.Props.c07_reshape",
    "Spu.Props.c07_reshape_rejects"
   ],
   "note": ""
  },
  {
   "property": "C08",
   "status": "partial",
   "theorems": [
    "Spu.Props.c08_concat",
    "Spu.Props.c08_expand_partial",
    "Spu.Props.c08_expand_empty",
    "Spu.Props.c08_pad_partial",
    "Spu.Props.c08_pad_shape",
    "Spu.Props.c08_pad_empty",
    "Spu.Props.c08_pad_empty_operand"
   ],
   "note": "Concatenation is proved for all operand lists. Padding is proved for every non-empty result and every split of the parallel loop; for an empty result the code never succeeds (expand writes one element into an empty buffer and its doubling loop cannot stop), and an empty axis with interior padding can get a negative extent."
  },
  {
   "property": "C09",
   "status": "proved",
   "theorems": [
    "Spu.Props.c09_vmap1",
    "Spu.Props.c09_vmap2",
    "Spu.Props.c09_containers",
    "Spu.Props.c09_type_mismatch",
    "Spu.Props.c09_broadcast_result"
   ],
   "note": "Unary and binary vmap over NdArrayRef (views with any strides) and over containers. c09_broadcast_result shows why the compactness clause is needed: unpack ignores offset and strides of the result."
  },
  {
   "property": "C10",
   "status": "proved",
   "theorems": [
    "Spu.Props.c10_vreduce",
    "Spu.Props.c10_treeReduce",
    "Spu.Props.c10_associativeReduce",
    "Spu.Props.c10_needs_commutative",
    "Spu.Props.c10_empty"
   ],
   "note": "All three reducers equal the left fold for associative commutative operations; c10_needs_commutative shows that associativity alone is not enough although the header of associative_reduce asks for no more."
  },
  {
   "property": "C100",
   "status": "proved",
   "theorems": [
    "Spu.Props.c100_rem",
    "Spu.Props.c100_rem_exact",
    "Spu.Props.c100_rem_int",
    "Spu.Props.c100_rem_integral",
    "Spu.Props.intDiv_tdiv"
   ],
   "note": "The specification is the quotient of rationals rounded towards zero, for integers Int.tmod of Lean. Finding: the division rounds down, so at integral quotients the quotient is one too small and the remainder is the divisor."
  },
  {
   "property": "C11",
   "status": "proved",
   "theorems": [
    "Spu.Props.c11_scan",
    "Spu.Props.c11_fuel"
   ],
   "note": "Scan of every row of an M x N matrix; the recursion is given enough fuel (c11_scan) and more fuel does not change the result (c11_fuel)."
  },
  {
   "property": "C12",
   "status": "proved",
   "theorems": [
    "Spu.Props.c12_roundtrip",
    "Spu.Props.c12_roundtrip_registered",
    "Spu.Props.c12_accept",
    "Spu.Props.c12_safe",
    "Spu.Props.c12_wrong_total",
    "Spu.Props.c12_overrun",
    "Spu.Props.c12_chunk_wrap",
    "Spu.Props.c12_size_wrap",
    "Spu.Props.c12_odd_complex"
   ],
   "note": "The last four theorems are findings: an over-long chunk is copied past the buffer before sizes are compared; chunk sizes near 2^64 lose the data; the buffer size wraps; an odd chunk of a complex value is ignored."
  },
  {
   "property": "C13",
   "status": "proved",
   "theorems": [
    "Spu.Props.c13_float",
    "Spu.Props.c13_special",
    "Spu.Props.c13_mono",
    "Spu.Props.c13_decode_exact",
    "Spu.Props.c13_roundtrip",
    "Spu.Props.c13_saturated",
    "Spu.Props.c13_int",
    "Spu.Props.c13_int_wide",
    "Spu.Props.c13_bool",
    "Spu.Props.c13_array",
    "Spu.Props.c13_decode_array"
   ],
   "note": "IEEE rounding modelled exactly (ties to even, subnormals, overflow); f > k-2 is not covered (kScale overflows for f >= k-1); sign of zero and bitset buffers not modelled"
  },
  {
   "property": "C14",
   "status": "proved",
   "theorems": [
    "Spu.Props.c14_deintl",
    "Spu.Props.c14_deintl_large_stride",
    "Spu.Props.c14_inverse",
    "Spu.Props.c14_permutation"
   ],
   "note": "for every width dividing into 2^(m+1)-bit blocks up to 128 bits, every stride"
  },
  {
   "property": "C15",
   "status": "proved",
   "theorems": [
    "Spu.Props.c15_ppa_kogge_stone",
    "Spu.Props.c15_add_bb",
    "Spu.Props.c15_add_bb_rejects",
    "Spu.Props.c15_ppa_sklansky",
    "Spu.Props.c15_carry_a2b",
    "Spu.Props.c15_carry_a2b_top",
    "Spu.Props.c15_kogge_stone",
    "Spu.Props.c15_sklansky",
    "Spu.Props.c15_odd_even_split",
    "Spu.Props.c15_carry_out"
   ],
   "note": "ab_api circuits over any correct gates with declared bit counts (instance: c26_semi2k_gates), circuits.h over any correct basic blocks; every width that is a power of two up to 128 (the Kogge-Stone adders: every width above 1). carry_a2b for a power of two and for w-1, the only caller's value; carry_out for every k."
  },
  {
   "property": "C16",
   "status": "proved",
   "theorems": [
    "Spu.Props.c16_waksman_routes",
    "Spu.Props.c16_settings_at_upper_rows",
    "Spu.Props.c16_single_packet_fails"
   ],
   "note": "For every n >= 2 and every permutation of 0..n-1: topology and routing are computed without failing assertion, and following the settings through all columns every packet arrives at its requested output; settings are recorded exactly at the upper row of each switch. n = 1 fails (recorded as finding)."
  },
  {
   "property": "C17",
   "status": "proved",
   "theorems": [
    "Spu.Props.c17_applyInvPerm",
    "Spu.Props.c17_applyPerm",
    "Spu.Props.c17_defined_iff",
    "Spu.Props.c17_round_trip",
    "Spu.Props.c17_compose",
    "Spu.Props.c17_genInversePerm",
    "Spu.Props.c17_genPermBySort",
    "Spu.Props.c17_genInvPerm",
    "Spu.Props.c17_stable_unique",
    "Spu.Props.c17_mergeKeys",
    "Spu.Props.c17_mergeKeys_empty"
   ],
   "note": "applyPerm/applyInvPerm in any order of the parallel loop; defined exactly on permutation vectors; stable signed sort both directions; std::stable_sort is modelled by a stable sort and shown unique; merge_keys numbers the runs; merge_keys on empty arrays is undefined (finding)."
  },
  {
   "property": "C18",
   "status": "proved",
   "theorems": [
    "Spu.Props.c18_secureInvPerm",
    "Spu.Props.c18_permAM",
    "Spu.Props.c18_invPermAM",
    "Spu.Props.c18_unshuffle",
    "Spu.Props.c18_permAP",
    "Spu.Props.c18_randPerm",
    "Spu.Props.c18_permAM3",
    "Spu.Props.c18_invPermAM3",
    "Spu.Props.c18_permAP3",
    "Spu.Props.c18_randPerm3"
   ],
   "note": "For any number of parties (semi2k) and for the three-party protocol (aby3), any width and length. The random permutations are arbitrary permutations drawn from the pairwise or private generators; that genRandomPerm/ReplayShuffle yields a permutation is assumed."
  },
  {
   "property": "C19",
   "status": "proved",
   "theorems": [
    "Spu.Props.c19_a2p_agree",
    "Spu.Props.c19_p2a_a2p",
    "Spu.Props.c19_v2a_a2v",
    "Spu.Props.c19_io_roundtrip",
    "Spu.Props.c19_p2b_b2p",
    "Spu.Props.c19_b2p_agree"
   ],
   "note": "semi2k, any party count >= 1; randomness is any family with matching PRSS streams (established by C30)"
  },
  {
   "property": "C20",
   "status": "proved",
   "theorems": [
    "Spu.Props.c20_local_ops",
    "Spu.Props.c20_mul",
    "Spu.Props.c20_square",
    "Spu.Props.c20_mul_bit",
    "Spu.Props.c20_mul_private",
    "Spu.Props.c20_matmul_public",
    "Spu.Props.c20_matmul",
    "Spu.Props.c20_local_bool",
    "Spu.Props.c20_shift_bool",
    "Spu.Props.c20_and",
    "Spu.Props.c31_mul_after_history",
    "Spu.Props.c31_square_after_history",
    "Spu.Props.c31_dot_after_history",
    "Spu.Props.c20_back_type",
    "Spu.Props.c20_and_declared"
   ],
   "note": "MulA1B and MulVVS are two-party kernels, as in the code"
  },
  {
   "property": "C21",
   "status": "proved",
   "theorems": [
    "Spu.Props.c21_mul",
    "Spu.Props.c21_square",
    "Spu.Props.c21_dot",
    "Spu.Props.c21_and",
    "Spu.Props.c21_trunc",
    "Spu.Props.c21_truncPr",
    "Spu.Props.c21_randBit",
    "Spu.Props.c21_eqz",
    "Spu.Props.c21_permPair",
    "Spu.Props.c21_mulPriv",
    "Spu.Props.c21_history"
   ],
   "note": "Trusted-first-party dealer with replay descriptors"
  },
  {
   "property": "C22",
   "status": "proved",
   "theorems": [
    "Spu.Props.c22_mul_open_hides",
    "Spu.Props.c22_open_bijective",
    "Spu.Props.c22_input_shares_hide"
   ],
   "note": "semi2k"
  },
  {
   "property": "C23",
   "status": "proved",
   "theorems": [
    "Spu.Props.c23_two_party",
    "Spu.Props.c23_wrap_count",
    "Spu.Props.c23_shares_enumerated",
    "Spu.Props.c23_many_party"
   ],
   "note": "Also covers the dealer-pair variant used for other party counts (floor or floor-1)."
  },
  {
   "property": "C24",
   "status": "proved",
   "theorems": [
    "Spu.Props.c24_truncPr",
    "Spu.Props.c24_truncPr_error",
    "Spu.Props.c24_truncPr2",
    "Spu.Props.c24_truncPr2_error"
   ],
   "note": "Requires bits <= w-2 (TruncAPr; larger shifts are undefined in C++) and bits <= w (TruncAPr2)."
  },
  {
   "property": "C25",
   "status": "proved",
   "theorems": [
    "Spu.Props.c25_a2b",
    "Spu.Props.c25_msb_a2b",
    "Spu.Props.c25_msb_a2b_rejects",
    "Spu.Props.c25_equal_aa",
    "Spu.Props.c25_equal_ap",
    "Spu.Props.c25_b2a_randbit",
    "Spu.Props.c25_b2a_disassemble",
    "Spu.Props.c25_b2a",
    "Spu.Props.sysEnv_ok",
    "Spu.Props.start_ok"
   ],
   "note": "Any number of parties (sign extraction: two, otherwise it refuses), all shares, all randomness satisfying the correlations; sysEnv_ok shows that every session started from any seeds satisfies them."
  },
  {
   "property": "C26",
   "status": "proved",
   "theorems": [
    "Spu.Props.c26_semi2k_gates",
    "Spu.Props.c26_programs",
    "Spu.Props.c26_aby3_gates",
    "Spu.Props.c26_aby3_programs"
   ],
   "note": "semi2k: all programs of boolean kernels, any party count. aby3: all programs of arithmetic, boolean and conversion kernels. Per-element shift amounts included (lshiftv/rshiftv). Programs that reach undefined behaviour (C46, C48) do not return in the model."
  },
  {
   "property": "C27",
   "status": "proved",
   "theorems": [
    "Spu.Props.c27_to_shares",
    "Spu.Props.c27_from_shares",
    "Spu.Props.c27_a2p",
    "Spu.Props.c27_a2v",
    "Spu.Props.c27_p2a",
    "Spu.Props.c27_v2a",
    "Spu.Props.c27_negate",
    "Spu.Props.c27_addAP",
    "Spu.Props.c27_addAA",
    "Spu.Props.c27_mulAP",
    "Spu.Props.c27_mulAA",
    "Spu.Props.c27_mul",
    "Spu.Props.c27_matMulAP",
    "Spu.Props.c27_matMulAA",
    "Spu.Props.c27_randA",
    "Spu.Props.c27_lshift",
    "Spu.Props.c27_mulA1B",
    "Spu.Props.c26_aby3_gates",
    "Spu.Props.c27_b2p",
    "Spu.Props.c27_b2v",
    "Spu.Props.c27_from_shares_b",
    "Spu.Props.c27_make_bit_secret",
    "Spu.Props.c26_aby3_programs"
   ],
   "note": "every kernel alone and every program of kernels. Shift amounts for which the C++ shift is defined (C48 for the others)."
  },
  {
   "property": "C28",
   "status": "proved",
   "theorems": [
    "Spu.Props.c28_truncA",
    "Spu.Props.c28_truncAPr",
    "Spu.Props.c28_truncAPr_finished",
    "Spu.Props.c28_truncAPr_hint",
    "Spu.Props.c28_truncAPr_hint_finished",
    "Spu.Props.c28_truncAPr2",
    "Spu.Props.c28_truncAPr2_finished"
   ],
   "note": "TruncA: quotient rounded down or up when the component of party 0 does not wrap. TruncAPr: floor or floor+1 (exact on multiples); with a sign hint: floor or floor-1; TruncAPr2: floor or floor+1. For all shift amounts for which the shifts in the kernels are defined (0 < bits < w for the last two, bits <= w-2 for TruncAPr). `_finished`: for every randomness, if the kernel finishes; the unconditional forms exclude the two public pivots of C47 with which no kernel with rotating roles finishes."
  },
  {
   "property": "C29",
   "status": "proved",
   "theorems": [
    "Spu.Props.c29_a2b",
    "Spu.Props.c29_msb_a2b",
    "Spu.Props.c29_b2a_ppa",
    "Spu.Props.c29_b2a_ot",
    "Spu.Props.c29_b2a_ot_finished",
    "Spu.Props.c29_b2a",
    "Spu.Props.c29_b2a_finished",
    "Spu.Props.c29_eqz",
    "Spu.Props.c29_equal_aa",
    "Spu.Props.c29_equal_ap",
    "Spu.Props.c29_equal_finished",
    "Spu.Props.c26_aby3_programs"
   ],
   "note": "rings of 8..128 bits (power of two). `_finished`: for every randomness, if the kernel finishes; the unconditional forms exclude the two public pivots of C47. The bit decomposition of the OT based conversion is modelled as sequential (its std::vector<bool> is written from several threads, see DESIGN)."
  },
  {
   "property": "C30",
   "status": "proved",
   "theorems": [
    "Spu.Props.c30_lockstep",
    "Spu.Props.c30_lockstep_scripts",
    "Spu.Props.c30_zero_shares",
    "Spu.Props.c30_fork_consumes"
   ],
   "note": ""
  },
  {
   "property": "C31",
   "status": "proved",
   "theorems": [
    "Spu.Props.c31_lookup",
    "Spu.Props.c31_store_rejected",
    "Spu.Props.c31_mul_after_history",
    "Spu.Props.c31_square_after_history",
    "Spu.Props.c31_dot_after_history"
   ],
   "note": ""
  },
  {
   "property": "C32",
   "status": "proved",
   "theorems": [
    "Spu.Props.c32_network_sorts",
    "Spu.Props.c32_sort_by_keys"
   ],
   "note": "c32_network_sorts: for every length and every comparator that decides a total preorder (Decides), the rows come out ordered and as a permutation of the input rows. c32_sort_by_keys: instantiates it with the multi-key ring comparator of simple_sort1d for keys in [-2^(w-2), 2^(w-2)) (the range in which the sign of the difference is the order)."
  },
  {
   "property": "C33",
   "status": "partial",
   "theorems": [
    "Spu.Props.c33_byBv1",
    "Spu.Props.c33_byBv2",
    "Spu.Props.c33_secret",
    "Spu.Props.c33_genInvPerm",
    "Spu.Props.c33_radixSort",
    "Spu.Props.c33_declared_bits",
    "Spu.Props.c33_unsigned_private",
    "Spu.Props.c33_two_owners_throw"
   ],
   "note": "Stable multi-key sort for all lengths, keys, directions, visibilities and shuffles, provided secret keys fit the bit count in use and public/private unsigned keys are below 2^(w-1). Without these the code sorts wrongly: a signed boolean share with few declared bits has its top declared bit read as sign (c33_declared_bits), unsigned public/private keys are compared as signed words (c33_unsigned_private)."
  },
  {
   "property": "C34",
   "status": "partial",
   "theorems": [
    "Spu.Props.c34_partition",
    "Spu.Props.c34_owner",
    "Spu.Props.c34_owner_partial",
    "Spu.Props.c34_two_owners"
   ],
   "note": "The groups partition the list in order and secret keys are alone (c34_partition). A single owner per group holds for groups that are not followed by a secret key (c34_owner) and for lists where no private key directly precedes a secret one (c34_owner_partial); in general the code violates it: [private A, private B, secret] puts A and B in one group (c34_two_owners), after which the sort throws (c33_two_owners_throw)."
  },
  {
   "property": "C35",
   "status": "proved",
   "theorems": [
    "Spu.Props.c35_mmul",
    "Spu.Props.c35_tiling"
   ],
   "note": "all matrices, all positive block sizes, any semiring, any (possibly strided) kernel result; no out-of-bounds write. The sqrt-computed block sizes are arbitrary positive naturals (c35_tiling shows positivity)."
  },
  {
   "property": "C36",
   "status": "proved",
   "theorems": [
    "Spu.Props.c36_tiles",
    "Spu.Props.c36_tiled",
    "Spu.Props.c36_transparent",
    "Spu.Props.c36_shape_mismatch",
    "Spu.Props.c36_strided_result"
   ],
   "note": "kernels must return compact arrays: c36_strided_result shows a wrong result otherwise; element sizes and int64 overflow not modelled; tiles are run in order"
  },
  {
   "property": "C37",
   "status": "proved",
   "theorems": [
    "Spu.Props.c37_less",
    "Spu.Props.c37_equal",
    "Spu.Props.c37_or",
    "Spu.Props.c37_mux",
    "Spu.Props.c37_clampLower",
    "Spu.Props.c37_clampUpper",
    "Spu.Props.c37_clamp",
    "Spu.Props.c37_sign",
    "Spu.Props.c37_abs",
    "Spu.Props.c37_parity",
    "Spu.Props.c37_parity_other",
    "Spu.Props.c37_popcount",
    "Spu.Props.c37_popcount_zero",
    "Spu.Props.c37_prefixOr",
    "Spu.Props.c37_prefixOr_width3",
    "Spu.Props.c37_eqz",
    "Spu.Props.c37_highestOneBit",
    "Spu.Props.c37_mask",
    "Spu.Props.c37_bitdeintl"
   ],
   "note": "negative theorems: c37_popcount_zero (0 bits reduces an empty vector), c37_prefixOr_width3 (loop too short when the width is not a power of two; such rings do not occur)."
  },
  {
   "property": "C38",
   "status": "proved",
   "theorems": [
    "Spu.Props.c38_mul",
    "Spu.Props.c38_add",
    "Spu.Props.c38_neg",
    "Spu.Props.c38_neg_zero",
    "Spu.Props.c38_sub",
    "Spu.Props.c38_mod",
    "Spu.Props.c38_inv",
    "Spu.Props.c38_div",
    "Spu.Props.c38_exp",
    "Spu.Props.c38_fm32",
    "Spu.Props.c38_fm64",
    "Spu.Props.c38_fm128",
    "Spu.Props.mulNarrow_ok",
    "Spu.Props.mulWide_ok",
    "Spu.Props.mersenne31",
    "Spu.Props.mersenne61",
    "Spu.Props.mersenne127"
   ],
   "note": "negative theorem: c38_neg_zero (add_inv(0) = p is not canonical; subtraction still canonicalises)."
  },
  {
   "property": "C39",
   "status": "proved",
   "theorems": [
    "Spu.Props.c39_safe",
    "Spu.Props.c39_order",
    "Spu.Props.c39_side_effects",
    "Spu.Props.c39_final",
    "Spu.Props.c39_progress",
    "Spu.Props.c39_bounded",
    "Spu.Props.c39_completes",
    "Spu.Props.c39_captured_race",
    "Spu.Props.c39_side_effect_race",
    "Spu.Props.c39_no_threads"
   ],
   "note": "All schedules, thread counts >= 1 and spurious wakeups; blocks in SSA form. c39_bounded bounds the number of moves (plus three per spurious wakeup), c39_progress excludes deadlock, c39_final gives equality with the sequential run. Outside straight-line blocks: an operation without operands whose nested region uses a value of the block does not wait for it (c39_captured_race), nor for earlier side effects (c39_side_effect_race); concurrency 0 runs nothing (c39_no_threads)."
  },
  {
   "property": "C40",
   "status": "proved",
   "theorems": [
    "Spu.Props.c40_total",
    "Spu.Props.c40_keeps",
    "Spu.Props.c40_others",
    "Spu.Props.c40_complete",
    "Spu.Props.c40_idempotent",
    "Spu.Props.c40_offset_unset"
   ],
   "note": "c40_offset_unset is a finding: EXP_PRIME outside FM128 keeps offset 0."
  },
  {
   "property": "C41",
   "status": "proved",
   "theorems": [
    "Spu.Props.c41_roundtrip",
    "Spu.Props.c41_roundtrip_exact",
    "Spu.Props.c41_distinct",
    "Spu.Props.c41_oshr",
    "Spu.Props.c41_spdz2k_bshr",
    "Spu.Props.c41_spdz2k_ashr",
    "Spu.Props.c41_cheetah_pshr"
   ],
   "note": "c41_roundtrip_exact excludes aby3 OShrTy, spdz2k BShrTy and spdz2k AShrTy with MAC; the last four theorems state what happens there and that cheetah PShrTy is not registered."
  },
  {
   "property": "C42",
   "status": "partial",
   "theorems": [
    "Spu.Props.c42_masks_fresh_partial",
    "Spu.Props.c42_dot_init_reuses_mask",
    "Spu.Props.c42_dot_init_leaks",
    "Spu.Props.c42_not_fresh"
   ],
   "note": "False of the code: a matrix-triple request with an Init replay descriptor does not advance the stream counter, so the A and B masks (and later requests) share key-stream positions (negation and leak proved). The partial theorem covers all histories without such requests."
  },
  {
   "property": "C43",
   "status": "partial",
   "theorems": [
    "Spu.Props.c43_frames",
    "Spu.Props.c43_one_buffer",
    "Spu.Props.c43_one_buffer_unchunked",
    "Spu.Props.c43_buffers_partial",
    "Spu.Props.c43_interleaved_chunks",
    "Spu.Props.c43_overrun",
    "Spu.Props.c43_accept_sound",
    "Spu.Props.c43_wrong_size_rejected",
    "Spu.Props.c43_error_rejected"
   ],
   "note": "Proved for every one-buffer response (all fragmentations, arbitrary bytes) and for several buffers within one chunk. False for the two-buffer (truncation pair) response larger than one 32 MiB chunk: c43_interleaved_chunks (silently misassembled), c43_overrun (out-of-bounds read)."
  },
  {
   "property": "C44",
   "status": "partial",
   "theorems": [
    "Spu.Props.c44_rand_range_partial",
    "Spu.Props.c44_out_of_range",
    "Spu.Props.c44_aby3_rand_counterexample"
   ],
   "note": "False of the code for two or more parties: each party shifts its own word, the sum leaves the range (negation proved at every width >= 4). aby3: three shifted words leave the range as well (c44_aby3_rand_counterexample)."
  },
  {
   "property": "C45",
   "status": "partial",
   "theorems": [
    "Spu.Props.c45_update_slice",
    "Spu.Props.c45_gather",
    "Spu.Props.c45_scatter_partial",
    "Spu.Props.c45_scatter_broadcast"
   ],
   "note": "update_slice and gather proved in full; scatter proved for vectors without aliasing, refuted for broadcast vectors, which the code does not materialise first."
  },
  {
   "property": "C46",
   "status": "partial",
   "theorems": [
    "Spu.Props.c46_bitrev",
    "Spu.Props.c46_bitrev_full_width_undefined",
    "Spu.Props.c46_aby3_partial",
    "Spu.Props.c46_aby3_full_undefined"
   ],
   "note": "Holds for end < word width; for end = word width the argument checks pass but (U)1 << end is undefined (semi2k and aby3)."
  },
  {
   "property": "C47",
   "status": "partial",
   "theorems": [
    "Spu.Props.c47_roles_partial",
    "Spu.Props.c47_roles_collide",
    "Spu.Props.c47_pivot_wrap"
   ],
   "note": "Holds for every pivot below 2^64-2 (c47_roles_partial). Violated by the code for the pivots 2^64-1 and 2^64-2: the 64-bit additions wrap and two roles fall on one party (c47_roles_collide), so the kernel cannot finish (c47_pivot_wrap)."
  },
  {
   "property": "C48",
   "status": "partial",
   "theorems": [
    "Spu.Props.c48_shifts_partial",
    "Spu.Props.c48_rshift_undefined",
    "Spu.Props.c48_lshift_undefined"
   ],
   "note": "Violated by the code: right shift of a boolean share by an amount below the ring width but not below the storage width of the share is undefined (c48_rshift_undefined). Holds for every other amount (c48_shifts_partial)."
  },
  {
   "property": "C49",
   "status": "proved",
   "theorems": [
    "Spu.Props.c49_roundtrip",
    "Spu.Props.c49_stable",
    "Spu.Props.c49_defaults",
    "Spu.Props.c49_stale_ttp"
   ],
   "note": "c49_stale_ttp is a finding about reading into a used object."
  },
  {
   "property": "C50",
   "status": "proved",
   "theorems": [
    "Spu.Props.c50_invPermAV",
    "Spu.Props.c50_permAM",
    "Spu.Props.c50_invPermAM",
    "Spu.Props.c50_unshuffle",
    "Spu.Props.c50_single_fails"
   ],
   "note": "The secret product mul_aa is a parameter required to return shares of the element-wise product (ProdOk; C04/C05 prove such statements for the products modelled there; cheetah's own product runs on homomorphic encryption and is not modelled). linear_gather/linear_scatter are modelled on flat indices; an index out of range is none."
  },
  {
   "property": "C51",
   "status": "proved",
   "theorems": [
    "Spu.Props.c51_zip_unzip",
    "Spu.Props.c51_zip_in_bounds",
    "Spu.Props.c51_open_xor",
    "Spu.Props.c51_open_add",
    "Spu.Props.c51_open_add_carry",
    "Spu.Props.c51_open_empty"
   ],
   "note": "The statement is proved as worded, with its proviso. The spans are functions from indices; writing outside the span or violating an SPU_ENFORCE is none. allReduce is taken as the exact element-wise reduction of both parties' words."
  },
  {
   "property": "C52",
   "status": "proved",
   "theorems": [
    "Spu.Props.c52_and",
    "Spu.Props.c52_corrAnd",
    "Spu.Props.c52_singleB2A",
    "Spu.Props.c52_b2aSized",
    "Spu.Props.c52_packedB2A",
    "Spu.Props.c52_b2a",
    "Spu.Props.c52_randBits",
    "Spu.Props.c52_multiplexer",
    "Spu.Props.c52_privateMulx",
    "Spu.Props.c52_and_zero_bits",
    "Spu.Props.c52_b2aSized_one",
    "Spu.Props.idealOt_ok"
   ],
   "note": "The oblivious transfers are a parameter specified by OtOk (Spec/CheetahOt.lean); idealOt_ok shows that the specification can be met. Secrecy is not part of this property. Both parties' programs are composed into one joint computation."
  },
  {
   "property": "C53",
   "status": "proved",
   "theorems": [
    "Spu.Props.c53_compare",
    "Spu.Props.c53_compareEq",
    "Spu.Props.c53_compare_full",
    "Spu.Props.c53_compare_low",
    "Spu.Props.c53_equal",
    "Spu.Props.c53_beyond"
   ],
   "note": "Over the transfers specified by OtOk (C52). The flat arrays only: that ComputeWithEq returns its equality share with a one-dimensional shape is in DESIGN.md, Findings."
  },
  {
   "property": "C54",
   "status": "proved",
   "theorems": [
    "Spu.Props.c54_trunc",
    "Spu.Props.c54_trunc_heuristic",
    "Spu.Props.c54_truncA",
    "Spu.Props.c54_truncA_hint",
    "Spu.Props.c54_msb",
    "Spu.Props.c54_equalAA",
    "Spu.Props.c54_equalAP",
    "Spu.Props.c54_mulA1B",
    "Spu.Props.c54_mulA1BV",
    "Spu.Props.c54_andBB",
    "Spu.Props.c54_b2a",
    "Spu.Props.c54_truncA_negative_one",
    "Spu.Props.c54_truncA_all_but_one",
    "Spu.Props.c54_error_occurs",
    "Spu.Props.c54_false_hint",
    "Spu.Props.c54_heuristic_beyond",
    "Spu.Props.c54_msb_garbage"
   ],
   "note": "Over the transfers specified by OtOk (C52); the tiling of TiledDispatchOTFunc is C36."
  },
  {
   "property": "C55",
   "status": "proved",
   "theorems": [
    "Spu.Props.c55_camcc",
    "Spu.Props.c55_collapse",
    "Spu.Props.c55_rmrc",
    "Spu.Props.c55_rmcc",
    "Spu.Props.c55_cmcc",
    "Spu.Props.c55_ferret",
    "Spu.Props.c55_unsupported",
    "Spu.Props.c55_three"
   ],
   "note": "Correctness, not secrecy, of the transfers. The hash functions are arbitrary parameters; the correlated transfers are assumed as CotOk. The channel between the parties is a list of words; that BufferedIO is an exact byte stream is C57, the two are not composed formally."
  },
  {
   "property": "C56",
   "status": "proved",
   "theorems": [
    "Spu.Props.c56_rcot",
    "Spu.Props.c56_conserve",
    "Spu.Props.c56_good",
    "Spu.Props.c56_once",
    "Spu.Props.c56_erase",
    "Spu.Props.c56_setup",
    "Spu.Props.c56_cot",
    "Spu.Props.c56_ferret",
    "Spu.Props.c56_start",
    "Spu.Props.c56_sizes",
    "Spu.Props.c56_large_reserve"
   ],
   "note": "The extension itself (FerretOtExt*_cheetah, FerretCotHelper, Softspoken) is in the yacl library, outside the repository: it is a parameter, its correctness a hypothesis, and reserve \u2264 470016 is not checked. Sender and receiver are one joint state making the same requests."
  },
  {
   "property": "C57",
   "status": "proved",
   "theorems": [
    "Spu.Props.c57_send",
    "Spu.Props.c57_flush",
    "Spu.Props.c57_recv",
    "Spu.Props.c57_wait",
    "Spu.Props.c57_prefix",
    "Spu.Props.c57_start",
    "Spu.Props.c57_run"
   ],
   "note": "The link (Communicator, yacl) is assumed reliable and in order; lengths are natural numbers, so overflow of the int parameter is outside the model. The destructor's flush is not modelled."
  },
  {
   "property": "C58",
   "status": "proved",
   "theorems": [
    "Spu.Props.c58_inv2k",
    "Spu.Props.init_ok",
    "Spu.Props.c58_up",
    "Spu.Props.c58_centre",
    "Spu.Props.c58_down",
    "Spu.Props.c58_down_exact",
    "Spu.Props.c58_round_trip",
    "Spu.Props.c58_moduli",
    "Spu.Props.c58_up_wraps"
   ],
   "note": "SEAL's modular arithmetic, base conversion and prime search are represented by what they are documented to compute; arrays coefficient by coefficient. The precondition of c58_up is necessary (c58_up_wraps: u + v wraps in 64 bits for moduli of 60, 36, 44 bits), and holds for the moduli in use (c58_moduli; the moduli were recomputed outside Lean)."
  },
  {
   "property": "C59",
   "status": "proved",
   "theorems": [
    "Spu.Props.c59_mulOLE",
    "Spu.Props.c59_mulShare",
    "Spu.Props.c59_mask_unique",
    "Spu.Props.c59_masks",
    "Spu.Props.c59_moduli",
    "Spu.Props.c59_rate",
    "Spu.Props.c59_not_exact"
   ],
   "note": "SEAL is represented slot by slot as exact arithmetic modulo each plain modulus; noise growth, encryption and serialisation are not modelled. With a message width hint the bound Y must hold for the evaluator's inputs. c59_not_exact exhibits, with the program's moduli for the 64-bit ring, an input and a mask for which the result is off by one."
  },
  {
   "property": "C60",
   "status": "proved",
   "theorems": [
    "Spu.Props.c60_makeSure",
    "Spu.Props.c60_takeBeaver",
    "Spu.Props.c60_takeAll",
    "Spu.Props.c60_no_reuse",
    "Spu.Props.c60_mulWithBeaver",
    "Spu.Props.c60_mulDirectly",
    "Spu.Props.c60_mulAA",
    "Spu.Props.c60_mulAV",
    "Spu.Props.c60_squareA",
    "Spu.Props.c60_tiles",
    "Spu.Props.c60_dispatch",
    "Spu.Props.c60_prot"
   ],
   "note": "The kernels are proved over an abstract multiplication protocol; c60_prot shows that the protocol of C59 meets the assumption with e = 1 for all masks and e = 0 outside the bad masks. The two threads of mulDirectly and SquareA run on separate channels and are modelled one after the other."
  },
  {
   "property": "C61",
   "status": "proved",
   "theorems": [
    "Spu.Props.c61_complete",
    "Spu.Props.c61_sound",
    "Spu.Props.c61_commit",
    "Spu.Props.c61_binding",
    "Spu.Props.c61_honest",
    "Spu.Props.c61_coin"
   ],
   "note": "Probability is counting: the bound is on the number of pairs (key, coins). That the coins are uniform and unknown when the values are opened is the modelled use of genPublCoin (PRG idealised); that the key is uniform given what the others hold is an assumption of the statement."
  },
  {
   "property": "C62",
   "status": "proved",
   "theorems": [
    "Spu.Props.c62_key",
    "Spu.Props.c62_deal",
    "Spu.Props.c62_dealMul",
    "Spu.Props.c62_dealCoin",
    "Spu.Props.c62_dealTrunc",
    "Spu.Props.c62_dealDot",
    "Spu.Props.c62_zero",
    "Spu.Props.c62_p2a",
    "Spu.Props.c62_v2a",
    "Spu.Props.c62_randA",
    "Spu.Props.c62_negate",
    "Spu.Props.c62_addAP",
    "Spu.Props.c62_addAA",
    "Spu.Props.c62_mulAP",
    "Spu.Props.c62_lshift",
    "Spu.Props.c62_mulAA_err",
    "Spu.Props.c62_mulAA",
    "Spu.Props.c62_matMulAP",
    "Spu.Props.c62_matMulAA",
    "Spu.Props.c62_matmul_forgery",
    "Spu.Props.c62_a2p",
    "Spu.Props.c62_a2v",
    "Spu.Props.c62_toShares",
    "Spu.Props.c62_fromShares",
    "Spu.Props.c62_reveal_input",
    "Spu.Props.c62_trunc",
    "Spu.Props.c62_trunc_wraps"
   ],
   "note": "The statement describes what the code does, including two defects that are proved as such: c62_matmul_forgery (MatMulAA opens without checking) and c62_reveal_input (A2P ignores that an input has no MACs). The randomness is that of the trusted first party; TinyOT's generation is not modelled."
  },
  {
   "property": "C63",
   "status": "proved",
   "theorems": [
    "Spu.Props.c63_p2b",
    "Spu.Props.c63_b2p",
    "Spu.Props.c63_not",
    "Spu.Props.c63_xor_bb",
    "Spu.Props.c63_xor_bp",
    "Spu.Props.c63_and_bb",
    "Spu.Props.c63_and_bp",
    "Spu.Props.c63_bitrev",
    "Spu.Props.c63_lshift",
    "Spu.Props.c63_rshift",
    "Spu.Props.c63_arshift",
    "Spu.Props.c63_a2bit",
    "Spu.Props.c63_bit2a",
    "Spu.Props.c63_b2a",
    "Spu.Props.c63_layout",
    "Spu.Props.c63_one_element",
    "Spu.Props.c63_last_dim_one",
    "Spu.Props.c63_one_element_p2b",
    "Spu.Props.c63_p2b_zero",
    "Spu.Props.c63_and_zero",
    "Spu.Props.c63_bit_leak",
    "Spu.Props.c63_msb_opens"
   ],
   "note": "The statement describes what the code does, with its defects proved as such (one-element arrays, last dimension one, zero public operands, openings). Multiplication triples and masks are hypotheses (Triple, AuthArr), met by what the trusted first party deals (c62_deal, c62_dealMul). BitIntlB, BitDeintlB, AddBB for more than one bit, A2B and the rest of MSB are not modelled here."
  },
  {
   "property": "C64",
   "status": "proved",
   "theorems": [
    "Spu.Props.c64_convert",
    "Spu.Props.c64_convert_zero_mask",
    "Spu.Props.c64_convert_lost",
    "Spu.Props.c64_compare",
    "Spu.Props.c64_compare_last",
    "Spu.Props.c64_msb",
    "Spu.Props.c64_msb_wrong",
    "Spu.Props.c64_msb_a2b",
    "Spu.Props.c64_msb_a2b_iff",
    "Spu.Props.c64_convert_leak",
    "Spu.Props.c64_race_seq",
    "Spu.Props.c64_race"
   ],
   "note": "The statement describes what the code does, with its defects proved as such. The zero mask with the flag set ends in the last branch of the comparison and is not described. Msb_opt (not compiled by default) and the final A2B are not part of this model."
  },
  {
   "property": "C65",
   "status": "proved",
   "theorems": [
    "Spu.Props.c65_env_ok",
    "Spu.Props.c65_boolean",
    "Spu.Props.c65_a2b",
    "Spu.Props.c65_b2a",
    "Spu.Props.c65_b2a_randbit",
    "Spu.Props.c65_v2a",
    "Spu.Props.c65_p2a",
    "Spu.Props.c65_open",
    "Spu.Props.c65_io",
    "Spu.Props.c65_mul",
    "Spu.Props.c65_mul_rand",
    "Spu.Props.c65_matmul",
    "Spu.Props.c65_trunc",
    "Spu.Props.c65_msb",
    "Spu.Props.c65_program",
    "Spu.Props.c65_and_leak",
    "Spu.Props.c65_trunc_leak",
    "Spu.Props.c65_b2a_leak",
    "Spu.Props.c65_and_mask_reuse",
    "Spu.Props.c65_and_mask_fresh"
   ],
   "note": "The statement describes what the code does, with its defects proved as such. c65_msb inherits the hypotheses of C64 on random values. MatMulAA_simple has the same arithmetic with communicated instead of generated triples and is not modelled separately."
  },
  {
   "property": "C66",
   "status": "proved",
   "theorems": [
    "Spu.Props.c66_noninterference",
    "Spu.Props.c66_monotone",
    "Spu.Props.c66_while_converges",
    "Spu.Props.c66_while_reveals",
    "Spu.Props.c66_reduce_reveals",
    "Spu.Props.c66_while_diverges",
    "Spu.Props.c66_reduce_chain"
   ],
   "note": "Noninterference is proved under the typing condition; that the compiler does not establish it is proved by witnesses. select_and_scatter, reduce_window and multi-output intrinsics are not modelled."
  },
  {
   "property": "C67",
   "status": "proved",
   "theorems": [
    "Spu.Props.c67_same",
    "Spu.Props.c67_once",
    "Spu.Props.c67_memory"
   ],
   "note": "MLIR's Liveness is modelled for regions with one block (the executor accepts no others); the list of users is the current one, so a FreeOp that was just inserted keeps a repeated operand alive."
  },
  {
   "property": "C68",
   "status": "proved",
   "theorems": [
    "Spu.Props.c68_keeps",
    "Spu.Props.c68_sqrt_eps_close",
    "Spu.Props.c68_sqrt_eps_wrong",
    "Spu.Props.c68_mixed_int_wrong"
   ],
   "note": "Ideal integers and reals; the statement records the two patterns that are wrong, with proofs that they are."
  },
  {
   "property": "C69",
   "status": "proved",
   "theorems": [
    "Spu.Props.c69_pos",
    "Spu.Props.c69_exists",
    "Spu.Props.c69_sign_lost",
    "Spu.Props.c69_int",
    "Spu.Props.c69_none",
    "Spu.Props.c69_other"
   ],
   "note": "Arithmetic in double is taken as exact; the statement records where the code is wrong, with proofs."
  },
  {
   "property": "C70",
   "status": "proved",
   "theorems": [
    "Spu.Props.c70_public",
    "Spu.Props.c70_kernel",
    "Spu.Props.c70_secret",
    "Spu.Props.c70_secret_negative",
    "Spu.Props.c70_if"
   ],
   "note": "The statement records the wrong branch for negative secret indices, with a proof."
  },
  {
   "property": "C71",
   "status": "proved",
   "theorems": [
    "Spu.Props.c71_ring",
    "Spu.Props.c71_power",
    "Spu.Props.c71_zero",
    "Spu.Props.c71_idiv"
   ],
   "note": "The statement records the wrong powers of zero, with a proof. How good the fixed-point quotient is, is C72."
  },
  {
   "property": "C72",
   "status": "proved",
   "theorems": [
    "Spu.Props.c72_int2fxp",
    "Spu.Props.c72_fxp2int",
    "Spu.Props.c72_fxp2int_undefined",
    "Spu.Props.c72_floor",
    "Spu.Props.c72_ceil",
    "Spu.Props.c72_afz",
    "Spu.Props.c72_rnte"
   ],
   "note": "The statement records the undefined behaviour, with a proof."
  },
  {
   "property": "C73",
   "status": "proved",
   "theorems": [
    "Spu.Props.c73_div",
    "Spu.Props.c73_recip",
    "Spu.Props.c73_two",
    "Spu.Props.c73_three",
    "Spu.Props.c73_large",
    "Spu.Props.c73_idiv",
    "Spu.Props.c73_idiv_default",
    "Spu.Props.c73_idiv_wrong"
   ],
   "note": "The statement records where the code is wrong, with proofs."
  },
  {
   "property": "C74",
   "status": "proved",
   "theorems": [
    "Spu.Props.c74_reduce",
    "Spu.Props.c74_reduce_empty",
    "Spu.Props.c74_reduceOp",
    "Spu.Props.c74_reduceOp_neutral",
    "Spu.Props.c74_reduceOp_init",
    "Spu.Props.c74_window",
    "Spu.Props.c74_window_neutral",
    "Spu.Props.c74_window_init",
    "Spu.Props.c74_argmax",
    "Spu.Props.c74_argmax_fast",
    "Spu.Props.c74_scatter",
    "Spu.Props.c74_maxpool",
    "Spu.Props.c74_select_scatter",
    "Spu.Props.c74_scatter_edge",
    "Spu.Props.c74_scatter_init",
    "Spu.Props.c74_select_tie"
   ],
   "note": "The statement records where the code is wrong, with proofs."
  },
  {
   "property": "C75",
   "status": "proved",
   "theorems": [
    "Spu.Props.c75_dotGeneral",
    "Spu.Props.c75_dotGeneral_outer",
    "Spu.Props.c75_dotGeneral_vectors",
    "Spu.Props.c75_tensordot",
    "Spu.Props.c75_conv2d",
    "Spu.Props.c75_conv2d_shape",
    "Spu.Props.c75_conv1d",
    "Spu.Props.c75_convolution",
    "Spu.Props.c75_convolution_output_order"
   ],
   "note": "The statement records where the code is wrong, with proofs."
  },
  {
   "property": "C76",
   "status": "proved",
   "theorems": [
    "Spu.Props.c76_dynamicSlice",
    "Spu.Props.c76_index_type",
    "Spu.Props.c76_negative_public_index",
    "Spu.Props.c76_empty_secret_slice",
    "Spu.Props.c76_narrow_index",
    "Spu.Props.c76_dynamicUpdateSlice",
    "Spu.Props.c76_update_reveals",
    "Spu.Props.c76_update_leak",
    "Spu.Props.c76_filterByMask"
   ],
   "note": "The statement records where the code is wrong, with proofs."
  },
  {
   "property": "C77",
   "status": "proved",
   "theorems": [
    "Spu.Props.c77_gather",
    "Spu.Props.c77_unbatch",
    "Spu.Props.c77_simplify",
    "Spu.Props.c77_secretGather",
    "Spu.Props.c77_frontEnd",
    "Spu.Props.c77_public",
    "Spu.Props.c77_secret",
    "Spu.Props.c77_empty_operand",
    "Spu.Props.c77_whole_operand",
    "Spu.Props.c77_vector_dim_2",
    "Spu.Props.c77_batched_simplified",
    "Spu.Props.c77_vector_not_last",
    "Spu.Props.c77_narrow_counter"
   ],
   "note": "The statement records where the code is wrong, with proofs."
  },
  {
   "property": "C78",
   "status": "proved",
   "theorems": [
    "Spu.Props.c78_blocks",
    "Spu.Props.c78_subShape",
    "Spu.Props.c78_dotOLE",
    "Spu.Props.c78_batchDotOLE",
    "Spu.Props.c78_matMulAA",
    "Spu.Props.c78_matMulAA_inner_zero",
    "Spu.Props.c78_moduli",
    "Spu.Props.c78_env",
    "Spu.Props.c78_program"
   ],
   "note": "Noise and key switching are bounded functions of the environment; the statement records the wrong case (inner extent 0) with a proof."
  },
  {
   "property": "C79",
   "status": "proved",
   "theorems": [
    "Spu.Props.c79_dpf",
    "Spu.Props.c79_pos",
    "Spu.Props.c79_onehotAA",
    "Spu.Props.c79_onehotAP",
    "Spu.Props.c79_readOA",
    "Spu.Props.c79_readOP",
    "Spu.Props.c79_offset_ub",
    "Spu.Props.c79_rows",
    "Spu.Props.c79_slice"
   ],
   "note": "Correctness only; what the opened words reveal is not claimed. The statement records what happens to indices outside of the table."
  },
  {
   "property": "C80",
   "status": "proved",
   "theorems": [
    "Spu.Props.c80_quick_sort",
    "Spu.Props.c80_not_stable",
    "Spu.Props.c80_topk_select",
    "Spu.Props.c80_topk_network",
    "Spu.Props.c80_topk_public"
   ],
   "note": "Values are in the range for which the ring comparison is exact. The shuffle is an arbitrary permutation (its kernels are C18)."
  },
  {
   "property": "C81",
   "status": "proved",
   "theorems": [
    "Spu.Props.c81_permute",
    "Spu.Props.c81_no_lines",
    "Spu.Props.c81_topk_apply",
    "Spu.Props.c81_topk",
    "Spu.Props.c81_sort1d",
    "Spu.Props.c81_simple_sort"
   ],
   "note": "Radix sort enters as a hypothesis (it sorts stably; proved in C33 under the conditions stated there); std::sort and std::stable_sort as their contract. The failure for an empty dimension is c81_no_lines."
  },
  {
   "property": "C82",
   "status": "proved",
   "theorems": [
    "Spu.Props.c82_rank",
    "Spu.Props.c82_invert",
    "Spu.Props.c82_dot",
    "Spu.Props.c82_construct",
    "Spu.Props.c82_set_key",
    "Spu.Props.c82_encrypt",
    "Spu.Props.c82_roundtrip",
    "Spu.Props.c82_no_inverse",
    "Spu.Props.c82_injective",
    "Spu.Props.c82_shares",
    "Spu.Props.c82_bitcount",
    "Spu.Props.c82_bitcount_low",
    "Spu.Props.c82_scalar",
    "Spu.Props.c82_complexity",
    "Spu.Props.c82_kernel",
    "Spu.Props.c82_kernel_defined",
    "Spu.Props.c82_remap",
    "Spu.Props.c82_multi_shares",
    "Spu.Props.c82_multi_injective",
    "Spu.Props.c82_multi_collide"
   ],
   "note": "The generator is arbitrary; the rejection loop for full-rank matrices is bounded by fuel in the model (termination is probabilistic). AND triples are assumed correct (C20 uses the same assumption). Nothing is claimed about the cipher's strength. Negative facts proved: the declared bit count can be too small and differ between parties (c82_bitcount_low), scalars fail (c82_scalar), decrypt overwrites its argument (c82_roundtrip)."
  },
  {
   "property": "C83",
   "status": "proved",
   "theorems": [
    "Spu.Props.c83_sortPerm",
    "Spu.Props.c83_groupBySum",
    "Spu.Props.c83_groupByAvg",
    "Spu.Props.c83_aggSum",
    "Spu.Props.c83_aggAvg",
    "Spu.Props.c83_accepts",
    "Spu.Props.c83_empty",
    "Spu.Props.c83_rest_rows"
   ],
   "note": "Values are plaintexts with visibilities as in C33; the division (mul and reciprocal_goldschmidt_positive) is an arbitrary kernel with an element-wise postcondition. Shape checks are expressed by types. The rows behind the groups are not specified; c83_rest_rows proves that they are not zero and depend on single payload entries."
  },
  {
   "property": "C84",
   "status": "proved",
   "theorems": [
    "Spu.Props.ExpPrime.c84_prob_conv",
    "Spu.Props.ExpPrime.c84_bad_share_nonneg",
    "Spu.Props.ExpPrime.c84_bad_share_neg",
    "Spu.Props.ExpPrime.c84_bad_count",
    "Spu.Props.ExpPrime.c84_bad_count_neg",
    "Spu.Props.ExpPrime.c84_deal_ring",
    "Spu.Props.ExpPrime.c84_mul_priv",
    "Spu.Props.ExpPrime.c84_deal_mp",
    "Spu.Props.ExpPrime.c84_mul_priv_mp",
    "Spu.Props.ExpPrime.c84_wrap_bit",
    "Spu.Props.ExpPrime.c84_wrap_bit_half",
    "Spu.Props.ExpPrime.c84_conv_mp",
    "Spu.Props.ExpPrime.c84_exp_int",
    "Spu.Props.ExpPrime.c84_exp",
    "Spu.Props.ExpPrime.c84_exp_fm128",
    "Spu.Props.ExpPrime.c84_scale",
    "Spu.Props.ExpPrime.c84_base"
   ],
   "note": "The floating-point computation of 2^frac is a parameter with a stated error bound and granularity; the value of the constant scale is roundf(M_LOG2E * 2^24) computed by hand and proved to be within 1/2 of 2^24*log2(e). The dealer's random generator is assumed to return field elements below p. The comment's bound h < p/2 is one too large (c84_wrap_bit_half) and the header's failure probability |x|/2^k is too small (c84_bad_count)."
  },
  {
   "property": "C85",
   "status": "proved",
   "theorems": [
    "Spu.Props.Cconv.c85_blocks",
    "Spu.Props.Cconv.c85_extent",
    "Spu.Props.Cconv.c85_conv2d",
    "Spu.Props.Cconv.c85_subShape",
    "Spu.Props.Cconv.c85_subShape_whole",
    "Spu.Props.Cconv.c85_subShape_search",
    "Spu.Props.Cconv.c85_program",
    "Spu.Props.Cconv.c85_program_whole",
    "Spu.Props.Cconv.c85_block_too_small",
    "Spu.Props.Cconv.c85_memo",
    "Spu.Props.Cconv.c85_memo_smaller",
    "Spu.Props.Cconv.c85_stride_zero",
    "Spu.Props.Cconv.c85_moduli"
   ],
   "note": "Batch size 1, plaintext polynomials (encryption is that of C78). The statement says when the protocol fails; the three failures are proved with witnesses."
  },
  {
   "property": "C86",
   "status": "proved",
   "theorems": [
    "Spu.Props.SpdzC.c86_add_bb",
    "Spu.Props.SpdzC.c86_add_bp",
    "Spu.Props.SpdzC.c86_add_bp_narrow",
    "Spu.Props.SpdzC.c86_bit_le",
    "Spu.Props.SpdzC.c86_bit_lt",
    "Spu.Props.SpdzC.c86_a2b",
    "Spu.Props.SpdzC.c86_a2b_zero",
    "Spu.Props.SpdzC.c86_msb",
    "Spu.Props.SpdzC.c86_msb_zero"
   ],
   "note": "The statement says when the kernels throw; the failures are proved for all such inputs. Arrays whose last dimension is one are excluded (C63 shows that their layout is wrong)."
  },
  {
   "property": "C87",
   "status": "proved",
   "theorems": [
    "Spu.Props.Swift.c87_a2p",
    "Spu.Props.Swift.c87_a2v",
    "Spu.Props.Swift.c87_v2a",
    "Spu.Props.Swift.c87_jointSharing",
    "Spu.Props.Swift.c87_jointSharing_self",
    "Spu.Props.Swift.c87_io",
    "Spu.Props.Swift.c87_fromShares",
    "Spu.Props.Swift.c87_p2a",
    "Spu.Props.Swift.c87_negateA",
    "Spu.Props.Swift.c87_addAP",
    "Spu.Props.Swift.c87_addAA",
    "Spu.Props.Swift.c87_mulAP",
    "Spu.Props.Swift.c87_matMulAP",
    "Spu.Props.Swift.c87_lshiftA",
    "Spu.Props.Swift.c87_mulAA",
    "Spu.Props.Swift.c87_matMulAA",
    "Spu.Props.Swift.c87_dotAA",
    "Spu.Props.Swift.c87_mulAA_field",
    "Spu.Props.Swift.c87_sacrifice",
    "Spu.Props.Swift.c87_sacrifice_mat",
    "Spu.Props.Swift.c87_randA_open",
    "Spu.Props.Swift.c87_randA_inconsistent",
    "Spu.Props.Swift.c87_randA_mul_wrong",
    "Spu.Props.Swift.c87_jmp_honest",
    "Spu.Props.Swift.c87_jmp_model",
    "Spu.Props.Swift.c87_jmp_detect",
    "Spu.Props.Swift.c87_jmp_ttp",
    "Spu.Props.Swift.c87_jmp_continues",
    "Spu.Props.Swift.c87_jmp_hang",
    "Spu.Props.Swift.c87_jmp_split",
    "Spu.Props.Swift.c87_trgen",
    "Spu.Props.Swift.c87_truncA",
    "Spu.Props.Swift.c87_trunc_error",
    "Spu.Props.Swift.c87_truncA_value"
   ],
   "note": "The statement includes the defects found (rand_a, joint message passing, the undefined shift in Trgen), which are proved. Security is covered only as far as (d) and (f) say; masking of openings is not treated."
  },
  {
   "property": "C88",
   "status": "proved",
   "theorems": [
    "Spu.Props.Swift.c88_b2p",
    "Spu.Props.Swift.c88_p2b",
    "Spu.Props.Swift.c88_xorBB",
    "Spu.Props.Swift.c88_xorBP",
    "Spu.Props.Swift.c88_andBP",
    "Spu.Props.Swift.c88_lshiftB",
    "Spu.Props.Swift.c88_rshiftB",
    "Spu.Props.Swift.c88_arshiftB",
    "Spu.Props.Swift.c88_bitrevB",
    "Spu.Props.Swift.c88_bitdeintlB",
    "Spu.Props.Swift.c88_bitintlB",
    "Spu.Props.Swift.c88_andPre",
    "Spu.Props.Swift.c88_shuffle",
    "Spu.Props.Swift.c88_shuffle_unique",
    "Spu.Props.Swift.c88_cheat",
    "Spu.Props.Swift.c88_cheat_odds",
    "Spu.Props.Swift.c88_andBB",
    "Spu.Props.Swift.c88_sound",
    "Spu.Props.Swift.c88_a2b",
    "Spu.Props.Swift.c88_msb",
    "Spu.Props.Swift.c88_b2a",
    "Spu.Props.Swift.c88_b2a_field"
   ],
   "note": "Conjunctions are treated for arrays; the adders of a2b and the bits of b2a for one element at a time. The odds of (d) assume uniform draws below 6, 5, 4, 3, 2; the code takes a w-bit word modulo these."
  },
  {
   "property": "C89",
   "status": "proved",
   "theorems": [
    "Spu.Props.c89_taylor_poly",
    "Spu.Props.c89_taylor_exp",
    "Spu.Props.c89_taylor_far",
    "Spu.Props.c89_taylor_zero",
    "Spu.Props.c89_exp2",
    "Spu.Props.c89_exp2_wrap",
    "Spu.Props.c89_exp2_jump",
    "Spu.Props.c89_limit",
    "Spu.Props.c89_pade",
    "Spu.Props.c89_sigmoid",
    "Spu.Props.c89_sigmoid_far",
    "Spu.Props.c89_mm1",
    "Spu.Props.c89_seg3"
   ],
   "note": "Words of the ring and a truncation with bounded error stand for the shares; EXP_PRIME is C84. The bound of (d) is for 64 bits, 18 fraction bits, 8 iterations and 2 rounds of the reciprocal. Float constants are the nearest single-precision values, encoded with rounding towards zero as in C13."
  },
  {
   "property": "C90",
   "status": "proved",
   "theorems": [
    "Spu.Props.c90_polynomial",
    "Spu.Props.c90_polynomial_short",
    "Spu.Props.c90_poly_const",
    "Spu.Props.c90_log",
    "Spu.Props.c90_log1p",
    "Spu.Props.c90_log_range",
    "Spu.Props.logPoly_close"
   ],
   "note": "Words of the ring and a truncation with bounded error stand for the shares, as in C89. The mode LOG_MINMAX, which is the default, is modelled; the Pade and Newton modes are not."
  },
  {
   "property": "C91",
   "status": "proved",
   "theorems": [
    "Spu.Props.c91_rsqrt",
    "Spu.Props.c91_rsqrt_beyond",
    "Spu.Props.c91_rsqrt_odd",
    "Spu.Props.c91_sqrt",
    "Spu.Props.c91_hint_sign",
    "Spu.Props.c91_hint_wrong",
    "Spu.Props.rsqFull_sq",
    "Spu.Props.rsqLow_sq",
    "Spu.Props.comp_word"
   ],
   "note": "Words of the ring and a truncation with bounded error, whatever the sign of its argument, stand for the shares, as in C89; the effect of the sign hint is stated separately on the model of Cheetah's truncation (C54). The branch that forks the context computes the same words and is not modelled."
  },
  {
   "property": "C92",
   "status": "proved",
   "theorems": [
    "Spu.Props.c92_atan2",
    "Spu.Props.c92_atan2_two",
    "Spu.Props.c92_atan_local",
    "Spu.Props.c92_atan_large_error",
    "Spu.Props.c92_range",
    "Spu.Props.arg_remap",
    "Spu.Props.atanP_close",
    "Spu.Props.atanPL_close"
   ],
   "note": "The specification is Complex.arg of Mathlib. atanP_close and atanPL_close bound the polynomials against Real.arctan: a polynomial of higher degree whose derivative times 1 + v^2 is close to one, and certificates with nonnegative coefficients in the Bernstein basis. The bound of the ratio is that of C73. Findings: no range check, so that coordinates of 2^f and more give a wrong angle; no accuracy for coordinates of a few units; the accuracy stated for kAtanCoefficientLarge is not reached, because the array holds floats."
  },
  {
   "property": "C93",
   "status": "proved",
   "theorems": [
    "Spu.Props.c93_acos",
    "Spu.Props.c93_asin",
    "Spu.Props.c93_acos_error",
    "Spu.Props.acosP_close",
    "Spu.Props.acosPL_close",
    "Spu.Props.root_unit",
    "Spu.Props.rsqrt_zero",
    "Spu.Props.sqrt_zero_close"
   ],
   "note": "The specification is Real.arccos and Real.arcsin of Mathlib. The polynomials are bounded against arccos of 1 - s^2 over s = sqrt(1 - v) by certificates in the Bernstein basis; the square root is that of C91, extended to zero. Finding: the accuracies stated beside the coefficient arrays are not reached. Not covered: arguments beyond one, which the code does not reject."
  },
  {
   "property": "C94",
   "status": "proved",
   "theorems": [
    "Spu.Props.c94_sine",
    "Spu.Props.c94_cosine",
    "Spu.Props.c94_range",
    "Spu.Props.reduce_close",
    "Spu.Props.cheb_five",
    "Spu.Props.sin_dot",
    "Spu.Props.sinP_close",
    "Spu.Props.sinQ_close"
   ],
   "note": "The specification is Real.sin and Real.cos of Mathlib. sinQ_close compares the Taylor polynomial with the sine through Q'' + Q; the polynomial of the code is compared with it by certificates in the Bernstein basis. Finding: no range check; the product with the encoded 1/(2 pi) is off by more than a period for large angles, the angle is not reduced and the polynomial is evaluated outside its domain."
  },
  {
   "property": "C95",
   "status": "proved",
   "theorems": [
    "Spu.Props.c95_tanh",
    "Spu.Props.c95_range",
    "Spu.Props.cheb_nine",
    "Spu.Props.tanh_dot",
    "Spu.Props.tanhP_close",
    "Spu.Props.tanh_clamp",
    "Spu.Props.tt_cos"
   ],
   "note": "The specification is Real.tanh of Mathlib. The word after the scaling can exceed one by a truncation error, so the polynomials are compared with those at the nearest number in [-1, 1]. Finding: the comparison of the clamp overflows near the ends of the ring and flips the sign of the result; the polynomial is about 1.003 at five, so results are not in [-1, 1]."
  },
  {
   "property": "C96",
   "status": "proved",
   "theorems": [
    "Spu.Props.c96_erf",
    "Spu.Props.c96_odd",
    "Spu.Props.erfImpl_close",
    "Spu.Props.erf_poly",
    "Spu.Props.erf_chain",
    "Spu.Props.handbookP_bounds",
    "Spu.Props.recipPos_eq"
   ],
   "note": "The specification is the formula that the comment above f_erf cites, with its decimal coefficients; how far that formula is from the error function itself (the Handbook says 5e-4) is not proved. f >= 14 because the fourth power reaches 11088 and the reciprocal of C73 needs arguments below 2^f."
  },
  {
   "property": "C97",
   "status": "proved",
   "theorems": [
    "Spu.Props.c97_log2",
    "Spu.Props.c97_log2_range",
    "Spu.Props.log2Norm_close",
    "Spu.Props.cubic_close",
    "Spu.Props.quot_close",
    "Spu.Props.log2_close'",
    "Spu.Props.log2_deriv"
   ],
   "note": "The specification is Real.logb 2 of Mathlib. The error of the quotient of cubics is proved on all of [1/2, 1] by the sign of a derivative, not sampled. Finding: from 2^f on the factor of the normalisation is masked away, without an error: the logarithm of 2^18 comes out as 13.19."
  },
  {
   "property": "C98",
   "status": "proved",
   "theorems": [
    "Spu.Props.c98_log",
    "Spu.Props.c98_log1p"
   ],
   "note": "The specification is Real.log of Mathlib. The constant log 2 is a float, rounded again to f bits: this costs f*(2^-f + 1e-8), as the binary logarithm is at most f in magnitude."
  },
  {
   "property": "C99",
   "status": "proved",
   "theorems": [
    "Spu.Props.c99_power",
    "Spu.Props.c99_power_int",
    "Spu.Props.c99_power_range",
    "Spu.Props.expPade_close",
    "Spu.Props.bit_floor",
    "Spu.Props.shr_and_bit"
   ],
   "note": "The specification is the real power (rpow) of Mathlib, for integral exponents the integer power (zpow). Finding: power calls exp_pade without the clamp of f_exp, so results below 2^-32 or above 2^32 wrap around (one half to the power 33 gives 0.50005); powers of zero with small exponents are far from zero."
  }
 ]
}
