{
 "claims": [
  {
   "property": "C01",
   "status": "proved",
   "theorems": [
    "Shell.c01_import_export"
   ],
   "note": "All widths, all moduli accepted by Create."
  },
  {
   "property": "C02",
   "status": "proved",
   "theorems": [
    "Shell.c02_create"
   ],
   "note": "Exact acceptance condition, error status, and every precomputed constant. For modulus 1 the code stores inv_r = modulus (not below it) and inv_r_barrett truncates; the theorem states the bounds with that exception."
  },
  {
   "property": "C03",
   "status": "proved",
   "theorems": [
    "Shell.c03_arithmetic",
    "Shell.c03_extended_ranges"
   ],
   "note": "Holds for all stored words up to and including the modulus."
  },
  {
   "property": "C04",
   "status": "partial",
   "theorems": [
    "Shell.c04_no_ub_partial",
    "Shell.c04_fma16",
    "Shell.c04_fma16_ntt",
    "Shell.c04_violated"
   ],
   "note": "False as stated: FusedMulAddInPlace on Uint16 multiplies two full words as signed int. Proved: every other member, all other widths, the exact condition for 16 bits, absence for moduli 1 mod 256, and a concrete violation."
  },
  {
   "property": "C05",
   "status": "partial",
   "theorems": [
    "Shell.c05_reachable_le",
    "Shell.c05_negate",
    "Shell.c05_equality_partial",
    "Shell.c05_negate_canonical_iff",
    "Shell.c05_equality_violated"
   ],
   "note": "Negation of residues proved. Equality is false as stated: 0 and Negate(0) differ under operator==; proved on canonical words together with the violation."
  },
  {
   "property": "C06",
   "status": "proved",
   "theorems": [
    "Shell.c06_barrett",
    "Shell.c06_barrett_bigint_bound"
   ],
   "note": ""
  },
  {
   "property": "C07",
   "status": "proved",
   "theorems": [
    "Shell.c07_modExp",
    "Shell.c07_inverse",
    "Shell.c07_inverse_fast"
   ],
   "note": ""
  },
  {
   "property": "C08",
   "status": "proved",
   "theorems": [
    "Shell.c08_batch"
   ],
   "note": ""
  },
  {
   "property": "C09",
   "status": "partial",
   "theorems": [
    "Shell.c09_transcribe_partial",
    "Shell.c09_errors",
    "Shell.c09_round_trip",
    "Shell.c09_ub_violations"
   ],
   "note": "Proved for positive chunk widths and sizes whose bit counts fit an int; zero or negative widths and overflowing sizes are shown to be undefined behaviour in the code."
  },
  {
   "property": "C10",
   "status": "partial",
   "theorems": [
    "Shell.c10_round_trip",
    "Shell.c10_rejects",
    "Shell.c10_deserialized_range_partial",
    "Shell.c10_noncanonical"
   ],
   "note": "Round trip and rejection proved. Deserialize does not check the range: words up to 2^log_modulus-1 are accepted (counterexample proved)."
  },
  {
   "property": "C11",
   "status": "proved",
   "theorems": [
    "Shell.c11_values",
    "Shell.c11_construct",
    "Shell.c11_compare",
    "Shell.c11_arith",
    "Shell.c11_bitwise",
    "Shell.c11_shift",
    "Shell.c11_div"
   ],
   "note": ""
  },
  {
   "property": "C12",
   "status": "proved",
   "theorems": [
    "Shell.c12_count_ones",
    "Shell.c12_bit_length",
    "Shell.c12_leading_zeros"
   ],
   "note": ""
  },
  {
   "property": "C13",
   "status": "proved",
   "theorems": [
    "Shell.c13_init_succeeds_iff",
    "Shell.c13_tables",
    "Shell.c13_composite_witness"
   ],
   "note": "For prime moduli. The witness shows that primality is not checked: a composite modulus is accepted with an invalid root."
  },
  {
   "property": "C14",
   "status": "proved",
   "theorems": [
    "Shell.c14_forward",
    "Shell.c14_forward_bad_lengths"
   ],
   "note": "Also covers shorter power-of-two lengths and the out-of-range read for longer ones."
  },
  {
   "property": "C15",
   "status": "proved",
   "theorems": [
    "Shell.c15_inverse",
    "Shell.c15_inverse_canonical",
    "Shell.c15_inverse_bad_lengths",
    "Shell.c15_short_vector_witness"
   ],
   "note": "At the length of the tables; the witness shows that for shorter vectors the inverse transform silently returns wrong values."
  },
  {
   "property": "C16",
   "status": "proved",
   "theorems": [
    "Shell.c16_convert",
    "Shell.c16_ring_operations"
   ],
   "note": ""
  },
  {
   "property": "C17",
   "status": "proved",
   "theorems": [
    "Shell.c17_length_errors"
   ],
   "note": ""
  },
  {
   "property": "C18",
   "status": "proved",
   "theorems": [
    "Shell.c18_substitute",
    "Shell.c18_rejects",
    "Shell.c18_compose"
   ],
   "note": ""
  },
  {
   "property": "C19",
   "status": "proved",
   "theorems": [
    "Shell.ctx_of_params",
    "Shell.sample_ok",
    "Shell.c19_decrypt",
    "Shell.c19_decrypt_small",
    "Shell.c19_encrypt_noisy",
    "Shell.c19_roundtrip",
    "Shell.c19_zero_plaintext_modulus",
    "Shell.c19_wrap_witness",
    "Shell.c19_words",
    "Shell.c19_words_total",
    "Shell.c19_measureError",
    "Shell.c19_words_dimension_witness"
   ],
   "note": "Over residue vectors; ctx_of_params shows that the word-level transforms refine them. c19_decrypt holds for every ciphertext, the round trip under the no-wrap bound. c19_words: end to end on stored words with the real samplers."
  },
  {
   "property": "C20",
   "status": "proved",
   "theorems": [
    "Shell.c20_add",
    "Shell.c20_sub",
    "Shell.c20_components",
    "Shell.noisy_exists"
   ],
   "note": ""
  },
  {
   "property": "C21",
   "status": "proved",
   "theorems": [
    "Shell.c21_absorb",
    "Shell.c21_fused",
    "Shell.c21_mul",
    "Shell.c21_circuit"
   ],
   "note": "c21_circuit is an induction over arbitrary computations."
  },
  {
   "property": "C22",
   "status": "partial",
   "theorems": [
    "Shell.c22_lazy_eq_eager_partial",
    "Shell.c22_shrinking_witness",
    "Shell.c22_merge_empty"
   ],
   "note": "False in general: accumulating a ciphertext with fewer components than the accumulator reads out of bounds (proved for every such pair). Proved for non-decreasing component counts."
  },
  {
   "property": "C23",
   "status": "proved",
   "theorems": [
    "Shell.c23_export_exact",
    "Shell.c23_no_overflow",
    "Shell.c23_length_errors"
   ],
   "note": ""
  },
  {
   "property": "C24",
   "status": "partial",
   "theorems": [
    "Shell.c24_switch_modulus_partial",
    "Shell.c24_switch_key_partial",
    "Shell.c24_decrypt_same_partial",
    "Shell.c24_incompatible",
    "Shell.c24_larger_modulus_witness"
   ],
   "note": "Proved for a new modulus not larger than the old; for larger ones the switch is accepted but wrong (witness)."
  },
  {
   "property": "C25",
   "status": "partial",
   "theorems": [
    "Shell.c25_substitute_partial",
    "Shell.c25_bad_power",
    "Shell.c25_key_add",
    "Shell.c25_null",
    "Shell.c25_power_overflow_witness"
   ],
   "note": "Proved while the product of the powers fits an int; at the largest ring dimension it overflows (proved)."
  },
  {
   "property": "C26",
   "status": "proved",
   "theorems": [
    "Shell.c26_base_decompose",
    "Shell.c26_bad_bases",
    "Shell.c26_refines"
   ],
   "note": "c26_refines ties the word-level loop of gadget.h to the residue-level digits."
  },
  {
   "property": "C27",
   "status": "partial",
   "theorems": [
    "Shell.c27_create",
    "Shell.c27_relinearize_partial",
    "Shell.c27_noise_partial",
    "Shell.c27_decrypt_partial",
    "Shell.c27_too_long",
    "Shell.c27_shorter_rejected",
    "Shell.c27_wide_base"
   ],
   "note": "Proved for ciphertexts with exactly as many components as the key has parts and decomposition bases below 2^31. The claim that shorter ones are accepted is false: c27_shorter_rejected shows that every shorter ciphertext is rejected. c27_wide_base: a key with a wider base is created, and applying it shifts an int out of range (undefined behaviour) in the error estimate."
  },
  {
   "property": "C28",
   "status": "partial",
   "theorems": [
    "Shell.c28_create",
    "Shell.c28_galois_partial",
    "Shell.c28_rejects",
    "Shell.c28_automorphism_partial",
    "Shell.c28_wide_base"
   ],
   "note": "Proved for decomposition bases below 2^31. c28_wide_base: applying a key with a wider base is undefined behaviour (shift of an int in the error estimate)."
  },
  {
   "property": "C29",
   "status": "partial",
   "theorems": [
    "Shell.c29_polynomial",
    "Shell.c29_polynomial_rejects",
    "Shell.c29_equality",
    "Shell.c29_ciphertext_partial",
    "Shell.c29_key_partial",
    "Shell.c29_relinearization",
    "Shell.c29_galois",
    "Shell.c29_public",
    "Shell.c29_aux_partial",
    "Shell.c29_empty_ciphertext_violated",
    "Shell.c29_key_violated",
    "Shell.c29_aux_violated"
   ],
   "note": "Proved for polynomials, relinearization, Galois and public keys without restriction. The code violates it for keys with an auxiliary modulus and other than one component (c29_aux_violated), keys with log_t >= log_modulus (c29_key_violated) and empty ciphertexts."
  },
  {
   "property": "C30",
   "status": "proved",
   "theorems": [
    "Shell.c30_create",
    "Shell.c30_apply",
    "Shell.c30_noise",
    "Shell.c30_decrypt",
    "Shell.c30_rejects",
    "Shell.c30_galois_create",
    "Shell.c30_galois",
    "Shell.c30_same_modulus"
   ],
   "note": "For distinct prime moduli and a plaintext modulus not divisible by the auxiliary one; c30_same_modulus shows what happens otherwise (the code does not reject it). The factor fixed by the moduli is 1: the noisy plaintexts are congruent modulo t."
  },
  {
   "property": "C31",
   "status": "partial",
   "theorems": [
    "Shell.c31_onehot_partial",
    "Shell.c31_expand_partial",
    "Shell.c31_expand_ciphertext",
    "Shell.c31_compressed",
    "Shell.c31_compressed_rejects",
    "Shell.c31_normalizer",
    "Shell.c31_keys_sub",
    "Shell.c31_keys_create",
    "Shell.c31_rejects",
    "Shell.c31_early_return",
    "Shell.c31_single_entry_witness",
    "Shell.c31_missing_key_witness",
    "Shell.c31_levels_witness"
   ],
   "note": "Decomposition bases below 2^31 (see C28). Proved whenever the number of inputs differs from the requested number of outputs (or no level is requested). Otherwise the claim is false: c31_early_return and c31_single_entry_witness show that nothing is expanded. c31_missing_key_witness: an expander with too few keys has undefined behaviour. c31_levels_witness: 31 levels pass the argument checks for an even number of ciphertexts and the program ends with an exception."
  },
  {
   "property": "C32",
   "status": "proved",
   "theorems": [
    "Shell.c32_accepts",
    "Shell.c32_smallest",
    "Shell.c32_substitution",
    "Shell.c32_levels",
    "Shell.c32_generator_create",
    "Shell.c32_generator_sub"
   ],
   "note": ""
  },
  {
   "property": "C33",
   "status": "proved",
   "theorems": [
    "Shell.c33_balanced",
    "Shell.c33_small",
    "Shell.c33_import",
    "Shell.c33_convert",
    "Shell.c33_refines"
   ],
   "note": ""
  },
  {
   "property": "C34",
   "status": "proved",
   "theorems": [
    "Shell.c34_create_iff",
    "Shell.c34_rejects",
    "Shell.c34_noisy",
    "Shell.c34_decrypt",
    "Shell.c34_noise"
   ],
   "note": ""
  },
  {
   "property": "C35",
   "status": "proved",
   "theorems": [
    "Shell.c35_replay",
    "Shell.c35_lengths",
    "Shell.c35_decrypt"
   ],
   "note": ""
  },
  {
   "property": "C36",
   "status": "partial",
   "theorems": [
    "Shell.c36_create_rejects",
    "Shell.c36_seed_sizes",
    "Shell.c36_stream_partial",
    "Shell.c36_chacha_partial",
    "Shell.c36_hkdf_partial",
    "Shell.c36_interleaving",
    "Shell.c36_refill_error",
    "Shell.c36_refill_overflow",
    "Shell.c36_chacha_nonce",
    "Shell.c36_hkdf_salt"
   ],
   "note": "The block functions (HKDF, ChaCha20) are parameters. Partial: the statement holds up to 2^31 - 1 refills; c36_refill_overflow proves that the next one is a signed overflow in the code."
  },
  {
   "property": "C37",
   "status": "proved",
   "theorems": [
    "Shell.c37_linearizable",
    "Shell.c37_no_ub",
    "Shell.c37_ranges",
    "Shell.c37_real_time",
    "Shell.c37_progress"
   ],
   "note": "All schedules of any number of threads; mutex modelled as atomic acquire/release."
  },
  {
   "property": "C38",
   "status": "partial",
   "theorems": [
    "Shell.c38_rejects",
    "Shell.c38_bits",
    "Shell.c38_sample_partial",
    "Shell.c38_range_partial",
    "Shell.c38_small_modulus_violated"
   ],
   "note": "Proved for 2*variance <= modulus; c38_small_modulus_violated is a counterexample for a smaller modulus (no check in the code)."
  },
  {
   "property": "C39",
   "status": "proved",
   "theorems": [
    "Shell.c39_rejects",
    "Shell.c39_sample",
    "Shell.c39_values",
    "Shell.c39_patterns",
    "Shell.c39_uniform",
    "Shell.c39_stable"
   ],
   "note": ""
  },
  {
   "property": "C40",
   "status": "proved",
   "theorems": [
    "Shell.c40_candidate",
    "Shell.c40_candidate_uniform",
    "Shell.c40_first_accepted",
    "Shell.c40_residues",
    "Shell.c40_polynomial"
   ],
   "note": ""
  },
  {
   "property": "C41",
   "status": "partial",
   "theorems": [
    "Shell.c41_lookup",
    "Shell.c41_base",
    "Shell.c41_iterative_partial",
    "Shell.c41_sample_partial",
    "Shell.c41_rejects",
    "Shell.c41_iterations_overflow"
   ],
   "note": "Proved for at most 30 iterations; c41_iterations_overflow: undefined from 31 on. The floating-point weights are parameters."
  },
  {
   "property": "C42",
   "status": "proved",
   "theorems": [
    "Shell.c42_crt",
    "Shell.c42_rejects",
    "Shell.c42_narrow"
   ],
   "note": "Needs a big integer type that holds Q times each modulus; c42_narrow shows that holding Q is not enough."
  },
  {
   "property": "C43",
   "status": "partial",
   "theorems": [
    "Shell.c43_operations",
    "Shell.c43_forms",
    "Shell.c43_create",
    "Shell.c43_create_iff",
    "Shell.c43_create_rejects",
    "Shell.c43_unique",
    "Shell.c43_rejects_partial",
    "Shell.c43_rejects_dimension",
    "Shell.c43_negate_ignores_mismatch",
    "Shell.c43_add_mixed_forms_witness"
   ],
   "note": "The arithmetic is proved in full. The code violates the rejection part: Negate discards the status of NegateInPlace and returns the unchanged polynomial (c43_negate_ignores_mismatch); Add and Sub accept operands in different forms (c43_add_mixed_forms_witness)."
  },
  {
   "property": "C44",
   "status": "proved",
   "theorems": [
    "Shell.c44_substitute",
    "Shell.c44_rejects"
   ],
   "note": ""
  },
  {
   "property": "C45",
   "status": "proved",
   "theorems": [
    "Shell.c45_modReduceLsb",
    "Shell.c45_c46_rejects",
    "Shell.c45_zero_t"
   ],
   "note": ""
  },
  {
   "property": "C46",
   "status": "proved",
   "theorems": [
    "Shell.c46_modReduceMsb",
    "Shell.c45_c46_rejects"
   ],
   "note": ""
  },
  {
   "property": "C47",
   "status": "proved",
   "theorems": [
    "Shell.c47_approx",
    "Shell.c47_approx_balanced",
    "Shell.c47_switch",
    "Shell.c47_scale",
    "Shell.c47_approxModReduceMsb",
    "Shell.c47_approxModReduceLsb",
    "Shell.c47_extend",
    "Shell.c47_scaleAndReduce",
    "Shell.c47_rejects"
   ],
   "note": "The floating-point estimate is a parameter with error bound epsilon (EstimateWithin); C80 proves the bound for double arithmetic."
  },
  {
   "property": "C48",
   "status": "partial",
   "theorems": [
    "Shell.c48_encode",
    "Shell.c48_encode_rejects",
    "Shell.c48_decode",
    "Shell.c48_decode_rejects",
    "Shell.c48_decode_bound",
    "Shell.c48_roundtrip",
    "Shell.c48_large_t"
   ],
   "note": "Proved for t at most the first modulus; the contexts accept larger t and then decoding is wrong (c48_large_t)."
  },
  {
   "property": "C49",
   "status": "partial",
   "theorems": [
    "Shell.c49_encode_scaled",
    "Shell.c49_encode_unscaled",
    "Shell.c49_encode_rejects",
    "Shell.c49_encode_level",
    "Shell.c49_decode",
    "Shell.c49_decode_rejects",
    "Shell.c49_roundtrip"
   ],
   "note": "The floating-point estimate is a parameter with error bound epsilon (proved for double arithmetic in C80). Scaled encoding at a lower level is rejected by the code although its documentation admits it (c49_encode_level)."
  },
  {
   "property": "C50",
   "status": "partial",
   "theorems": [
    "Shell.c50_root",
    "Shell.c50_create",
    "Shell.c50_create_overflow",
    "Shell.c50_create_rejects",
    "Shell.c50_ring",
    "Shell.c50_rotate",
    "Shell.c50_swap",
    "Shell.c50_unique",
    "Shell.c50_encode_bgv",
    "Shell.c50_decode_bgv",
    "Shell.c50_roundtrip_bgv",
    "Shell.c50_homomorphic",
    "Shell.c50_encode_bfv",
    "Shell.c50_decode_bfv",
    "Shell.c50_roundtrip_bfv",
    "Shell.c50_decode_crt",
    "Shell.c50_rejects"
   ],
   "note": "Everything is proved for log_n up to 14; at log_n = 15 Create overflows an int (c50_create_overflow)."
  },
  {
   "property": "C51",
   "status": "proved",
   "theorems": [
    "Shell.c51_gadget",
    "Shell.c51_context",
    "Shell.c51_decomposeAll",
    "Shell.c51_create_rejects",
    "Shell.c51_decompose_rejects",
    "Shell.c51_wide_base",
    "Shell.c51_short_gadget"
   ],
   "note": "c51_context takes the constants from a generated RNS context (C54); c51_wide_base and c51_short_gadget are the undefined cases."
  },
  {
   "property": "C52",
   "status": "partial",
   "theorems": [
    "Shell.c52_galois_create",
    "Shell.c52_galois_apply",
    "Shell.c52_rotate",
    "Shell.c52_galois_rejects",
    "Shell.c52_galois_create_rejects",
    "Shell.c52_from_components",
    "Shell.c52_deserialize_length",
    "Shell.c52_short_key",
    "Shell.c52_relin_create",
    "Shell.c52_relin_apply_partial",
    "Shell.c52_relin_out_of_bounds",
    "Shell.c52_relin_wrong",
    "Shell.c52_relin_rejects",
    "Shell.c52_relin_create_rejects"
   ],
   "note": "Galois keys in full. Relinearization for ciphertexts of degree at most 2 (or equal to the gadget dimension); for degree 3 and more the property is false: the code indexes the key by the ciphertext degree in place of the gadget dimension (c52_relin_out_of_bounds, c52_relin_wrong). A deserialized Galois key with too few components is read out of bounds (c52_short_key)."
  },
  {
   "property": "C53",
   "status": "proved",
   "theorems": [
    "Shell.c53_circuit",
    "Shell.c53_growth",
    "Shell.c53_bgv_slots",
    "Shell.c53_bgv_coefficients",
    "Shell.c53_bgv_crt",
    "Shell.c53_without_pad",
    "Shell.c53_setPad_empty",
    "Shell.c53_rejects",
    "Shell.c53_rejects_more",
    "Shell.c53_rejects_without_pad",
    "Shell.c53_same_modulus",
    "Shell.c53_empty",
    "Shell.c53_negate",
    "Shell.c53_add",
    "Shell.c53_sub",
    "Shell.c53_addPlain",
    "Shell.c53_subPlain",
    "Shell.c53_absorb",
    "Shell.c53_absorb_scalar",
    "Shell.c53_fused",
    "Shell.c53_mul"
   ],
   "note": "For ciphertexts with components; operations on ciphertexts without components are undefined behaviour (c53_empty, c53_setPad_empty)."
  },
  {
   "property": "C54",
   "status": "partial",
   "theorems": [
    "Shell.c54_residues",
    "Shell.c54_inverses_partial",
    "Shell.c54_bfv",
    "Shell.c54_bfv_total",
    "Shell.c54_rejects",
    "Shell.c54_rejects_create",
    "Shell.c54_duplicates",
    "Shell.c54_create",
    "Shell.c54_createForBfv",
    "Shell.c54_createForBgvFF",
    "Shell.c54_createForBfvFF",
    "Shell.c54_createForBfvFF_total",
    "Shell.c54_rejects_even",
    "Shell.c54_create_iff",
    "Shell.c54_createForBgvFF_iff"
   ],
   "note": "The inverses need distinct primes that do not divide t; Create checks neither (c54_duplicates)."
  },
  {
   "property": "C55",
   "status": "proved",
   "theorems": [
    "Shell.c55_decrypt",
    "Shell.c55_bgv_roundtrip",
    "Shell.c55_bfv_roundtrip",
    "Shell.c55_bgv_public_roundtrip",
    "Shell.c55_sampleUniform",
    "Shell.c55_sampleError",
    "Shell.c55_key_sample",
    "Shell.c55_encrypt_polynomial",
    "Shell.c55_encrypt_bgv",
    "Shell.c55_encrypt_bfv",
    "Shell.c55_public_key",
    "Shell.c55_public_encrypt_bgv",
    "Shell.c55_public_encrypt_bfv",
    "Shell.c55_decrypt_rejects",
    "Shell.c55_raw_decrypt"
   ],
   "note": "The code draws from the generators are arguments: the theorems hold for every outcome."
  },
  {
   "property": "C56",
   "status": "partial",
   "theorems": [
    "Shell.c56_substitute_partial",
    "Shell.c56_substitute_no_overflow",
    "Shell.c56_substitute_overflow",
    "Shell.c56_modReduce_bgv",
    "Shell.c56_modReduce_bfv",
    "Shell.c56_key_modReduce"
   ],
   "note": "Substitution needs power * k < 2^31, else the code overflows an int (c56_substitute_overflow); that covers every history for log_n up to 14."
  },
  {
   "property": "C57",
   "status": "proved",
   "theorems": [
    "Shell.c57_mul",
    "Shell.c57_absorb",
    "Shell.c57_level",
    "Shell.c57_decrypt",
    "Shell.c57_circuit",
    "Shell.c57_slots",
    "Shell.c57_encoding",
    "Shell.c57_fresh",
    "Shell.c57_message_mod"
   ],
   "note": "Below the top level Mul and AbsorbInPlace always fail (c57_level)."
  },
  {
   "property": "C58",
   "status": "proved",
   "theorems": [
    "Shell.c58_export",
    "Shell.c58_no_overflow",
    "Shell.c58_rejects",
    "Shell.c58_no_room",
    "Shell.c58_absorb_lazily",
    "Shell.c58_inner_product",
    "Shell.c58_lazy_rejects",
    "Shell.c58_galois_with_pad",
    "Shell.c58_with_pad_rejects"
   ],
   "note": "The generic code path; the SIMD code of the 32-bit and 64-bit specialisations is C59."
  },
  {
   "property": "C59",
   "status": "partial",
   "theorems": [
    "Shell.c59_scalar",
    "Shell.c59_simd32",
    "Shell.c59_simd64_partial",
    "Shell.c59_two_lanes",
    "Shell.c59_short",
    "Shell.c59_fusedMulAdd"
   ],
   "note": "Proved for lane counts divisible by four. With two 64-bit lanes (128-bit vectors) the property is false (c59_two_lanes)."
  },
  {
   "property": "C60",
   "status": "partial",
   "theorems": [
    "Shell.c60_polynomial",
    "Shell.c60_polynomial_rejects",
    "Shell.c60_wide_shift",
    "Shell.c60_constant",
    "Shell.c60_equality",
    "Shell.c60_ciphertext",
    "Shell.c60_encrypts",
    "Shell.c60_galois",
    "Shell.c60_galois_create",
    "Shell.c60_galois_rejects",
    "Shell.c60_pending_lost"
   ],
   "note": "Round trips for 2 to 2^15 coefficients. Violations proved: log_n of 31 or more is undefined behaviour (c60_wide_shift), constants do not survive (c60_constant), pending lazy products are dropped (c60_pending_lost). The double error estimate is modelled in C96."
  },
  {
   "property": "C61",
   "status": "partial",
   "theorems": [
    "Shell.c61_create_partial",
    "Shell.c61_accessors_partial",
    "Shell.c61_can_switch_partial",
    "Shell.c61_encryption_partial",
    "Shell.c61_wide_parameters",
    "Shell.c61_no_noise"
   ],
   "note": "For log_n and log_t in the int range; above it the code truncates (c61_wide_parameters), and a plaintext modulus as large as the modulus is accepted (c61_no_noise). The double-valued error bounds are modelled in C96."
  },
  {
   "property": "C62",
   "status": "partial",
   "theorems": [
    "Shell.c62_wrap",
    "Shell.c62_unwrap_partial",
    "Shell.c62_centred_unique",
    "Shell.c62_result_partial",
    "Shell.c62_round_trip_partial",
    "Shell.c62_exact",
    "Shell.c62_round_trip_wide_partial",
    "Shell.c62_narrow"
   ],
   "note": "For odd moduli that fit the signed type, or the unsigned type of its width when the arithmetic is unsigned; c62_exact proves that for all other combinations the property is false (c62_narrow is an instance)."
  },
  {
   "property": "C63",
   "status": "proved",
   "theorems": [
    "Shell.c63_polynomial",
    "Shell.c63_word_partial",
    "Shell.c63_no_wrap_partial",
    "Shell.c63_polynomial_partial",
    "Shell.c63_rejects",
    "Shell.c63_iterations_overflow"
   ],
   "note": "c63_polynomial has no bound on the iterations: it takes them from NumIterations, over real numbers. The _partial theorems treat SampleWithIterations with a number of iterations given by the caller, at most 30; with 31 and more it is undefined behaviour (c63_iterations_overflow)."
  },
  {
   "property": "C64",
   "status": "partial",
   "theorems": [
    "Shell.c64_combination",
    "Shell.c64_levels",
    "Shell.c64_iterations",
    "Shell.c64_few_iterations",
    "Shell.c64_final_partial",
    "Shell.c64_undershoot",
    "Shell.c64_overshoot",
    "Shell.c64_accepts"
   ],
   "note": "Doubles are idealised as real numbers. From one iteration on the deviation is at least the requested one and the final weight is the least possible; it is not equal to it (c64_overshoot), and with no iteration it is below it (c64_undershoot)."
  },
  {
   "property": "C65",
   "status": "partial",
   "theorems": [
    "Shell.c65_computation",
    "Shell.c65_decrypt",
    "Shell.c65_encrypt_partial",
    "Shell.c65_encrypt_public_partial",
    "Shell.c65_relinearize_partial",
    "Shell.c65_switch_partial",
    "Shell.c65_lazy_partial",
    "Shell.c65_fresh_witness",
    "Shell.c65_plaintext_witness",
    "Shell.c65_aux_partial",
    "Shell.c65_aux_small"
   ],
   "note": "Doubles are idealised as real numbers. The propagation through all operations is proved in full (c65_computation, c65_decrypt). That fresh ciphertexts, absorbed plaintexts, key switching and modulus switching stay within the estimated bounds is only true with high probability: the theorems assume the sampled polynomials have the assumed size, and c65_fresh_witness and c65_plaintext_witness show samples and plaintexts that do not. The probabilities are bounded in C83 (fresh ciphertexts), C106 (key switching) and C107 (modulus switching of two components; for three, c107_product_witness shows a fresh product that no longer decrypts)."
  },
  {
   "property": "C66",
   "status": "partial",
   "theorems": [
    "Shell.c66_computation_partial",
    "Shell.c66_substitute",
    "Shell.c66_monomial",
    "Shell.c66_absorb_rns",
    "Shell.c66_decrypt",
    "Shell.c66_decrypt_crt",
    "Shell.c66_encrypt_partial",
    "Shell.c66_encrypt_public_partial",
    "Shell.c66_galois_partial",
    "Shell.c66_relin_partial",
    "Shell.c66_modReduce_partial",
    "Shell.c66_lazy_partial",
    "Shell.c66_lazy_witness",
    "Shell.c66_export_t",
    "Shell.c66_fresh_witness",
    "Shell.c66_scalar_witness",
    "Shell.c66_plain_growth",
    "Shell.c66_plain_witness",
    "Shell.c66_gadget_base",
    "Shell.c66_galois_base_partial",
    "Shell.c66_without_pad",
    "Shell.c66_bfv_computation_partial",
    "Shell.c66_bfv_decrypt",
    "Shell.c66_bfv_mul_partial",
    "Shell.c66_bfv_absorb_partial",
    "Shell.c66_bfv_modReduce_partial"
   ],
   "note": "Doubles are idealised as real numbers; BFV estimates are those of c66_bfv_*. The code violates the property in several ways, each proved: the estimates use log_t squared in place of t (c66_export_t, c66_fresh_witness), absorbing an integer scalar z multiplies the estimate by z/2 (c66_scalar_witness), adding a plaintext leaves the estimate unchanged (c66_plain_witness), and the first lazily absorbed product is not counted (c66_lazy_witness). Proved: propagation through every other operation, and fresh encryptions, key switching and modulus reduction for samples of the assumed size and t at most log_t squared."
  },
  {
   "property": "C67",
   "status": "partial",
   "theorems": [
    "Shell.c67_refines",
    "Shell.c67_unchanged_partial",
    "Shell.c67_history_partial",
    "Shell.c67_polynomial_partial",
    "Shell.c67_bfv_absorb_partial",
    "Shell.c67_mixed_violated",
    "Shell.c67_scale_violated",
    "Shell.c67_bfv_level_violated",
    "Shell.c67_longer_violated",
    "Shell.c67_approx_violated"
   ],
   "note": "Proved for ciphertexts whose components have one form and dimension and for well-formed polynomials of the dimension of the moduli. The code violates the property elsewhere, each proved: AbsorbInPlace after SetPadComponent with a pad in coefficient form multiplies the first component and fails (c67_mixed_violated); ScaleAndReduceRnsBasisInPlace multiplies by t before it checks the auxiliary polynomial (c67_scale_violated); BFV AbsorbInPlace below the top level fails and leaves the first component in coefficient form (c67_bfv_level_violated); conversions of polynomials longer than the ring and approximate modulus reduction with an auxiliary part of another dimension fail midway (c67_longer_violated, c67_approx_violated)."
  },
  {
   "property": "C68",
   "status": "proved",
   "theorems": [
    "Shell.c68_moduli",
    "Shell.c68_context",
    "Shell.c68_inverse",
    "Shell.c68_modulus_switch",
    "Shell.c68_rns_moduli",
    "Shell.c68_rns_context",
    "Shell.c68_rns_finite_field",
    "Shell.c68_rns_width",
    "Shell.c68_limits"
   ],
   "note": "Two observations: the shipped plaintext modulus 17 does not admit finite field encoding at the shipped dimension (c68_rns_finite_field), and the set announced as a 60-bit modulus has 59 bits (c68_rns_width)."
  },
  {
   "property": "C69",
   "status": "partial",
   "theorems": [
    "Shell.c69_print_partial",
    "Shell.c69_internal",
    "Shell.c69_internal_violated",
    "Shell.c69_injective",
    "Shell.c69_length"
   ],
   "note": "Missing: std::internal with showbase in hexadecimal, where the code pads before the 0x instead of after it (c69_internal, c69_internal_violated). Printing of one absl::uint128 is modelled by its specification."
  },
  {
   "property": "C70",
   "status": "partial",
   "theorems": [
    "Shell.c70_create_partial",
    "Shell.c70_create_overflow",
    "Shell.c70_distance",
    "Shell.c70_range",
    "Shell.c70_beyond_cut_off"
   ],
   "note": "Missing: deviations whose cut-off 8*ceil(s) does not fit an int, where Create has undefined behaviour (c70_create_overflow). Also observed: samples may exceed the cut-off by one (c70_beyond_cut_off). Doubles are idealised as reals."
  },
  {
   "property": "C71",
   "status": "proved",
   "theorems": [
    "Shell.c71_distance",
    "Shell.c71_joint",
    "Shell.c71_deviation"
   ],
   "note": "Doubles are idealised as reals; the words of the generator are taken to be independent and uniform. That requests between the base and the first level get the deviation of the base is recorded under C64."
  },
  {
   "property": "C72",
   "status": "proved",
   "theorems": [
    "Shell.c72_call",
    "Shell.c72_history",
    "Shell.c72_mul",
    "Shell.c72_substitute",
    "Shell.c72_switch",
    "Shell.c72_program"
   ],
   "note": "error_ is idealised as a real number. A history is assumed not to contain the lazy call that reads out of bounds (recorded under C22)."
  },
  {
   "property": "C73",
   "status": "partial",
   "theorems": [
    "Shell.c73_unchanged_partial",
    "Shell.c73_longer_witness",
    "Shell.c73_lazy_witness"
   ],
   "note": "Missing: sums with a longer ciphertext whose polynomials have another length, which leave zero components behind (c73_longer_witness), and lazy absorption of polynomials that do not fit, which has already changed the error estimate (c73_lazy_witness)."
  },
  {
   "property": "C74",
   "status": "proved",
   "theorems": [
    "Shell.c74_create",
    "Shell.c74_relinearize",
    "Shell.c74_galois",
    "Shell.c74_circuit"
   ],
   "note": "error_ is idealised as a real number. Wider bases and shorter ciphertexts are recorded under C27 and C28."
  },
  {
   "property": "C75",
   "status": "proved",
   "theorems": [
    "Shell.levelled_sound",
    "Shell.c75_circuit",
    "Shell.c75_circuit_crt"
   ],
   "note": "Relinearization keys are of degree 2: for higher degrees the code is wrong (C52)."
  },
  {
   "property": "C76",
   "status": "proved",
   "theorems": [
    "Shell.c50_encode_unscaled",
    "Shell.bfv_levelled_sound",
    "Shell.c76_circuit"
   ],
   "note": "Relinearization keys are of degree 2: for higher degrees the code is wrong (C52). Floating point estimates are a parameter with an error below one half; C80 proves it for double arithmetic."
  },
  {
   "property": "C77",
   "status": "partial",
   "theorems": [
    "Shell.c77_polynomial",
    "Shell.c77_self_values",
    "Shell.c77_rns_polynomial",
    "Shell.c77_rns_ciphertext",
    "Shell.c77_symmetric",
    "Shell.c77_uint256",
    "Shell.c77_scalar_partial",
    "Shell.c77_scalar_self",
    "Shell.c77_scalar_violated"
   ],
   "note": "Violated when a polynomial is multiplied in place by a reference to one of its own coefficients: the later elements are multiplied by its square."
  },
  {
   "property": "C78",
   "status": "proved",
   "theorems": [
    "Shell.poly_levelled_sound",
    "Shell.c78_circuit"
   ],
   "note": "Relinearization keys are of degree 2: for higher degrees the code is wrong (C52)."
  },
  {
   "property": "C79",
   "status": "proved",
   "theorems": [
    "Shell.bfv_poly_levelled_sound",
    "Shell.c79_circuit"
   ],
   "note": "Relinearization keys are of degree 2: for higher degrees the code is wrong (C52). Floating point estimates are a parameter with an error below one half; C80 proves it for double arithmetic."
  },
  {
   "property": "C80",
   "status": "proved",
   "theorems": [
    "Shell.c80_rounding",
    "Shell.c80_cast",
    "Shell.c80_within",
    "Shell.c80_range",
    "Shell.c80_uint256",
    "Shell.c80_margin_witness",
    "Shell.c80_switch",
    "Shell.c80_decode",
    "Shell.c80_circuit",
    "Shell.c80_poly_circuit"
   ],
   "note": "IEEE 754 binary64 with round to nearest, ties to even; the exponent is not bounded in the model, c80_range shows that the bounds are not reached."
  },
  {
   "property": "C81",
   "status": "proved",
   "theorems": [
    "Shell.c81_create",
    "Shell.c81_encrypt",
    "Shell.c81_rejects",
    "Shell.c81_total",
    "Shell.c81_circuit",
    "Shell.c81_wire"
   ],
   "note": "error_ is idealised as a real number; on the wire it is an uninterpreted number."
  },
  {
   "property": "C82",
   "status": "proved",
   "theorems": [
    "Shell.c82_create",
    "Shell.c82_apply",
    "Shell.c82_circuit"
   ],
   "note": "error_ is idealised as a real number."
  },
  {
   "property": "C83",
   "status": "proved",
   "theorems": [
    "Shell.c83_error",
    "Shell.c83_secret",
    "Shell.c83_public",
    "Shell.c83_program"
   ],
   "note": "For uniformly distributed and independent bytes from the generator; the estimates themselves are real numbers. Plaintexts must have the size B_plaintext assumes (C65 shows that not all have)."
  },
  {
   "property": "C84",
   "status": "proved",
   "theorems": [
    "Shell.c84_capacity",
    "Shell.innerProduct_covered",
    "Shell.c84_rns"
   ],
   "note": "Worst-case capacities, not averages: the statement holds for every key and every error that can be drawn."
  },
  {
   "property": "C85",
   "status": "proved",
   "theorems": [
    "Shell.c85_context",
    "Shell.c85_context_bfv",
    "Shell.c85_secret",
    "Shell.c85_encrypt",
    "Shell.c85_encrypt_bfv",
    "Shell.c85_switching",
    "Shell.c85_session",
    "Shell.c85_session_bfv",
    "Shell.c85_rejects"
   ],
   "note": "The model bounds the draws of a rejection sampler by a fuel parameter; running out of it is the only exception in the theorems."
  },
  {
   "property": "C86",
   "status": "proved",
   "theorems": [
    "Shell.c86_bgv",
    "Shell.c86_bfv"
   ],
   "note": "Relinearization keys have no serialization in the RNS layer and are taken over unchanged. Galois keys created from a generator that was already used cannot be reproduced from their seed; the theorem is for keys created from a fresh generator, as the library documents."
  },
  {
   "property": "C87",
   "status": "proved",
   "theorems": [
    "Shell.c87_residue",
    "Shell.c87_pad",
    "Shell.c87_error",
    "Shell.c87_key",
    "Shell.c87_encrypt",
    "Shell.c87_uniform",
    "Shell.c87_rns_error",
    "Shell.c87_rns_key",
    "Shell.c87_bgv",
    "Shell.c87_bfv",
    "Shell.c87_bfv_pad",
    "Shell.c87_public_key",
    "Shell.c87_ternary",
    "Shell.c87_ternary_limit",
    "Shell.c87_rns_ternary"
   ],
   "note": "Probabilities are exact: the number of byte tapes of a given length on which the call returns the value, divided by the number of tapes. The rejection loop of uniform sampling is cut off after an arbitrary number of tries; c87_residue bounds the effect. That the keyed generators deliver uniformly distributed bytes is a cryptographic assumption and not modelled."
  },
  {
   "property": "C88",
   "status": "partial",
   "theorems": [
    "Shell.c88_error",
    "Shell.c88_bgv",
    "Shell.c88_bfv",
    "Shell.c88_bfv_pad",
    "Shell.c88_public_bgv",
    "Shell.c88_public_bfv",
    "Shell.c88_program",
    "Shell.c88_bfv_program"
   ],
   "note": "The theorems are complete for the operations the statement lists. It is partial like C66: the BGV estimates use the square of the logarithm of t in place of t, so plaintext moduli above that are excluded (c66_export_t, c66_fresh_witness), BGV plaintext additions and scalars break the estimates (c66_plain_witness, c66_scalar_witness), and key switching, which the canonical-embedding norm does not bound for all ciphertexts, is the subject of C105."
  },
  {
   "property": "C89",
   "status": "partial",
   "theorems": [
    "Shell.c89_polynomials_partial",
    "Shell.c89_ciphertexts_partial",
    "Shell.c89_accepted_partial",
    "Shell.c89_detach_append",
    "Shell.c89_replace",
    "Shell.c89_replace_rejects",
    "Shell.c89_unchecked_violated",
    "Shell.c89_substitute_large_violated",
    "Shell.c89_unchecked_ciphertext_violated",
    "Shell.c89_no_component_violated"
   ],
   "note": "Partial because the library leaves to the caller that vectors, moduli and tables have the dimension of the polynomial: the witnesses show the undefined behaviour otherwise (out-of-bounds access, division by a zero plaintext modulus, signed overflow of 2n at n = 2^30, a ciphertext without components). The conversion of the floating-point estimate of a basis conversion to an integer is an arbitrary function here and its range is not checked (C80 covers it)."
  },
  {
   "property": "C90",
   "status": "proved",
   "theorems": [
    "Shell.c90_program",
    "Shell.c90_determined",
    "Shell.c90_nearestQuotient",
    "Shell.c90_exactQuotient"
   ],
   "note": "A simulation between the store of C89 and a machine on integer polynomials. The basis conversions are not among the calls (C47 to C50 cover single calls); RingCall.Proper states what the library leaves to the caller."
  },
  {
   "property": "C91",
   "status": "partial",
   "theorems": [
    "Shell.c91_expand_keys",
    "Shell.c91_expand_generator",
    "Shell.c91_create",
    "Shell.c91_compressed",
    "Shell.c91_estimate",
    "Shell.c91_estimate_keys",
    "Shell.c91_estimate_generator",
    "Shell.c91_onehot_keys_partial",
    "Shell.c91_onehot_generator_partial"
   ],
   "note": "The end-to-end theorems exclude queries of a single entry with compression, which the code does not expand (c31_single_entry_witness), and for the generator the last level, which it cannot do (c32_levels). Bases of 2^31 and more are excluded as in C74."
  },
  {
   "property": "C92",
   "status": "proved",
   "theorems": [
    "Shell.c92_program",
    "Shell.c92_session"
   ],
   "note": "A simulation between a store of words and a machine on integer polynomials, and a second one modulo the plaintext modulus. IdealCall.Proper states what the library leaves to the caller; c22_shrinking_witness and c25_power_overflow_witness show what happens otherwise. Parsing and component access are in the model but not among the calls of the machine."
  },
  {
   "property": "C93",
   "status": "partial",
   "theorems": [
    "Shell.c93_program_keys_partial",
    "Shell.c93_program_generator_partial",
    "Shell.c93_select_keys_partial",
    "Shell.c93_select_generator_partial"
   ],
   "note": "Partial exactly where C91 is: queries of a single entry with compression are not expanded by the code (c31_single_entry_witness), and with the key for the generator the last level cannot be done (c32_levels)."
  },
  {
   "property": "C94",
   "status": "partial",
   "theorems": [
    "Shell.c94_session_partial",
    "Shell.c94_power_witness"
   ],
   "note": "Missing, because the code violates it: keys of base 2^31 and more (c27_wide_base), ciphertexts with fewer components than the key has parts (c27_shorter_rejected; the machine of the theorem rejects them), and relinearization of ciphertexts under another power of s, which the code does not detect (c94_power_witness)."
  },
  {
   "property": "C95",
   "status": "partial",
   "theorems": [
    "Shell.c95_defined_partial",
    "Shell.c95_created_key",
    "Shell.c95_parsed_key",
    "Shell.c95_unchecked_violated"
   ],
   "note": "Missing, because the code does not check it (c95_unchecked_violated): transforming an empty vector or one longer than the NTT tables, substituting in polynomials that are neither empty nor of the dimension of the tables, lazy sums whose summands get shorter, substituting in a ciphertext without components or with a product of powers that is not an int, and applying a key to a ciphertext with empty or too long polynomials."
  },
  {
   "property": "C96",
   "status": "partial",
   "theorems": [
    "Shell.c96_converts",
    "Shell.c96_relative",
    "Shell.c96_constants",
    "Shell.c96_relinearize",
    "Shell.c96_public_key_partial",
    "Shell.c96_public_key_violated",
    "Shell.c96_rns_create_violated",
    "Shell.c96_rns_constants",
    "Shell.c96_program",
    "Shell.c96_switch_modulus",
    "Shell.c96_aux",
    "Shell.c96_expand",
    "Shell.c96_roundings",
    "Shell.c96_session",
    "Shell.c96_rns_bgv_rules",
    "Shell.c96_rns_bfv_rules",
    "Shell.c96_gadget_usable",
    "Shell.c96_rns_bgv_objects",
    "Shell.c96_rns_bfv_objects",
    "Shell.c96_rns_bgv_session",
    "Shell.c96_rns_bfv_session",
    "Shell.c96_rounds_witness"
   ],
   "note": "Missing, because the code violates it: 72 * dimension * variance overflows an int in the public B_publickey_encryption (c96_public_key_violated), and 72 * dimension in RnsErrorParams::Create with log_n of 25 and more (c96_rns_create_violated). Overflow and underflow of doubles are the subject of C104."
  },
  {
   "property": "C97",
   "status": "proved",
   "theorems": [
    "Shell.c97_program",
    "Shell.c97_substitute_proper"
   ],
   "note": "For ring degree 2^15 the product of two powers can overflow an int (c56_substitute_overflow); programs that run into it are excluded by BgvProper, and for n <= 2^14 there are none (c97_substitute_proper). Relinearization keys are of degree 2 (C52)."
  },
  {
   "property": "C98",
   "status": "partial",
   "theorems": [
    "Shell.c98_program_partial",
    "Shell.c98_substitute_proper",
    "Shell.c67_bfv_level_violated"
   ],
   "note": "Missing, because the code violates it: a product in place of a reduced ciphertext with a plaintext for its moduli fails but leaves a component in coefficient form (c67_bfv_level_violated); such calls are excluded by BfvInPlaceProper. As in C97, programs in which the product of two powers overflows an int are excluded, and for n <= 2^14 there are none (c98_substitute_proper)."
  },
  {
   "property": "C99",
   "status": "proved",
   "theorems": [
    "Shell.c99_source_rotate",
    "Shell.c99_source_swap",
    "Shell.c99_program"
   ],
   "note": "SlotProgram states what the library leaves to the caller, as in C97: objects exist, integers fit a word, and the product of two powers fits an int."
  },
  {
   "property": "C100",
   "status": "partial",
   "theorems": [
    "Shell.c100_program_partial",
    "Shell.c99_source_rotate",
    "Shell.c99_source_swap",
    "Shell.c67_bfv_level_violated"
   ],
   "note": "Missing, because the code violates it: a product in place of a reduced ciphertext with a plaintext for its moduli fails but leaves a component in coefficient form (c67_bfv_level_violated); such calls are excluded by BfvInPlaceProper, as in C98."
  },
  {
   "property": "C101",
   "status": "proved",
   "theorems": [
    "Shell.c101_program",
    "Shell.c101_slots",
    "Shell.c60_polynomial",
    "Shell.c60_ciphertext"
   ],
   "note": "For the machines of C97 and C99; messages are objects of the model, not bytes of protocol buffers (as in C60)."
  },
  {
   "property": "C102",
   "status": "partial",
   "theorems": [
    "Shell.c102_program_partial",
    "Shell.c102_slots_partial",
    "Shell.c67_bfv_level_violated"
   ],
   "note": "Missing, because the code violates it, as in C98 and C100: a product in place of a reduced ciphertext with a plaintext for its moduli fails but leaves a component in coefficient form (c67_bfv_level_violated)."
  },
  {
   "property": "C103",
   "status": "partial",
   "theorems": [
    "Shell.c103_session_partial",
    "Shell.c103_pending_witness",
    "Shell.c94_power_witness"
   ],
   "note": "Missing, because the code violates it: products that FusedAbsorbAddInPlaceLazily collected before a save are lost by it, while Error() still counts them (c103_pending_witness; the theorem has this behaviour in its machine, as it has that ciphertexts without components are saved and not loaded, c29_empty_ciphertext_violated); and keys applied to a ciphertext under another power of the secret, as in C94 (c94_power_witness)."
  },
  {
   "property": "C104",
   "status": "partial",
   "theorems": [
    "Shell.c104_round",
    "Shell.c104_rns_bgv_partial",
    "Shell.c104_rns_bfv_partial",
    "Shell.c104_rns_bgv_exact_partial",
    "Shell.c104_rns_bfv_exact_partial",
    "Shell.c104_program_partial",
    "Shell.c104_bgv_sticky",
    "Shell.c104_bfv_sticky",
    "Shell.c104_overflow_violated"
   ],
   "note": "Missing, because the code violates it: estimates that leave the range. Six squarings of a fresh ciphertext with 40-bit plaintexts, all of which succeed, make Error() infinite, and AbsorbInPlace of the scalar 0, which succeeds as well, makes it a NaN (c104_overflow_violated)."
  },
  {
   "property": "C105",
   "status": "proved",
   "theorems": [
    "Shell.c105_gadget",
    "Shell.c105_galois",
    "Shell.c105_relin",
    "Shell.c105_switching",
    "Shell.c105_program",
    "Shell.c105_bfv_switching",
    "Shell.c105_bfv_program"
   ],
   "note": "For BGV plaintext moduli up to the square of their logarithm, which is what the estimates use (c66_export_t); for BFV all of them, without products of ciphertexts (C66). Relinearization keys of degree 2."
  },
  {
   "property": "C106",
   "status": "proved",
   "theorems": [
    "Shell.c106_relin",
    "Shell.c106_galois",
    "Shell.c106_program"
   ],
   "note": "The masks come from any seed; the errors are what is drawn. Products of ciphertexts or with plaintext polynomials come before key switching in the circuits: the estimates of products bound canonical-embedding sizes, the one of key switching is proved for coefficients, which is the norm that decides decryption."
  },
  {
   "property": "C107",
   "status": "proved",
   "theorems": [
    "Shell.c107_key",
    "Shell.c107_small_variance",
    "Shell.c107_switch",
    "Shell.c107_program",
    "Shell.c107_product_witness"
   ],
   "note": "Coefficients, the norm that decides decryption; ciphertexts of two components: for three the code violates the property, c107_product_witness runs a product of fresh ciphertexts, not relinearized, that no longer decrypts after SwitchModulus although twice Error() is below the modulus; both moduli of one word size. How short a key has to be for B_scale to be enough is part of the statement, and c107_key gives the probability that Sample returns a longer one: negligible for variances up to about 40 and the usual numbers of coefficients."
  },
  {
   "property": "C108",
   "status": "proved",
   "theorems": [
    "Shell.c108_reduce",
    "Shell.c108_decrypt",
    "Shell.c108_rotated",
    "Shell.c108_relinearized",
    "Shell.c108_key",
    "Shell.c108_program",
    "Shell.c108_levels",
    "Shell.c108_level_program",
    "Shell.c108_bfv_reduce",
    "Shell.c108_bfv_decrypt",
    "Shell.c108_bfv_program",
    "Shell.c108_bfv_levels",
    "Shell.c108_bfv_level_program"
   ],
   "note": "Under a condition on Error() that the statement names: after a rotation or the relinearization of a product it holds for all short keys (c108_rotated, c108_relinearized), for fresh ciphertexts it depends on the key (the example shows one that meets it) and the estimate is heuristic without it (C66). Products of reduced ciphertexts are not covered: the noise of roundings is bounded in coefficients, and Error() of a product assumes the size in the canonical embedding (C66)."
  }
 ]
}