{
 "claims": [
  {
   "property": "C01",
   "status": "proved",
   "theorems": [
    "Props.C01_secret_key_round_trip",
    "Props.C01_secret_key_encoding"
   ],
   "note": "all byte strings; keys 0 and >= r included"
  },
  {
   "property": "C02",
   "status": "proved",
   "theorems": [
    "Props.C02_public_key_is_multiple"
   ],
   "note": ""
  },
  {
   "property": "C03",
   "status": "proved",
   "theorems": [
    "Props.C03_key_modulo_order"
   ],
   "note": ""
  },
  {
   "property": "C04",
   "status": "proved",
   "theorems": [
    "Props.C04_sign",
    "Props.C04_sign_hashed",
    "Props.C04_short_panics"
   ],
   "note": "Total: the search loop of the map is proved to end (Spec.exists_usable), so no hypothesis on it remains."
  },
  {
   "property": "C05",
   "status": "proved",
   "theorems": [
    "Props.C05_sign_verify",
    "Props.C05_sign_verify_hashed"
   ],
   "note": "Stronger than stated: multiples of r are included unless the message point is infinity. Bilinearity of the pairing is proved, not assumed. keccak256 is any function to 32 bytes."
  },
  {
   "property": "C06",
   "status": "proved",
   "theorems": [
    "Props.C06_exactly_one",
    "Props.C06_exactly_one_hashed",
    "Props.C06_wrong_message",
    "Props.C06_wrong_key",
    "Props.C06_any_key",
    "Props.C06_key_plus_small_order",
    "Props.C06_infinity_signature",
    "Props.C06_signatures_affine",
    "Props.C06_keys_affine"
   ],
   "note": "For signatures of order dividing r. verify does not normalise its arguments; the last two theorems show that everything made by the interface is in affine form."
  },
  {
   "property": "C07",
   "status": "proved",
   "theorems": [
    "Props.C07_aggregate_key_is_sum",
    "Props.C07_from_public_keys_is_sum"
   ],
   "note": ""
  },
  {
   "property": "C08",
   "status": "proved",
   "theorems": [
    "Props.C08_aggregate_signature_is_sum"
   ],
   "note": ""
  },
  {
   "property": "C09",
   "status": "proved",
   "theorems": [
    "Props.C09_key_order_irrelevant",
    "Props.C09_signature_order_irrelevant"
   ],
   "note": "identical bytes need nonzero coordinate components, see C24"
  },
  {
   "property": "C10",
   "status": "proved",
   "theorems": [
    "Props.C10_aggregate_of_keys",
    "Props.C10_aggregate_of_signatures"
   ],
   "note": ""
  },
  {
   "property": "C100",
   "status": "proved",
   "theorems": [
    "Props.C100_aggregate_of_one",
    "Props.C100_single",
    "Props.C100_permutation",
    "Props.C100_merge",
    "Props.C100_infinite_key",
    "Props.C100_same_message",
    "Props.C100_hashed",
    "Props.C100_hashed_sign",
    "Props.C100_merge_infinity"
   ],
   "note": ""
  },
  {
   "property": "C101",
   "status": "proved",
   "theorems": [
    "Props.C101_infinity",
    "Props.C101_sign",
    "Props.C101_accepted_for_all_keys",
    "Props.C101_on_the_wire"
   ],
   "note": ""
  },
  {
   "property": "C102",
   "status": "proved",
   "theorems": [
    "Props.C102_neighbours",
    "Props.C102_cube_root",
    "Props.C102_forgery"
   ],
   "note": ""
  },
  {
   "property": "C103",
   "status": "proved",
   "theorems": [
    "Props.C103_key",
    "Props.C103_signature",
    "Props.C103_opposite",
    "Props.C103_opposite_multiple",
    "Props.C103_both",
    "Props.C103_one"
   ],
   "note": ""
  },
  {
   "property": "C104",
   "status": "proved",
   "theorems": [
    "Props.C104_all_but_one",
    "Props.C104_accepted",
    "Props.C104_cancel",
    "Props.C104_multiple_all_but_one",
    "Props.C104_multiple_cancel"
   ],
   "note": ""
  },
  {
   "property": "C11",
   "status": "proved",
   "theorems": [
    "Props.C11_exactly_one",
    "Props.C11_honest",
    "Props.C11_honest_multiple"
   ],
   "note": "Stronger than stated: the sum of the keys may be a multiple of r unless the message point is infinity. Also exact: the only accepted aggregate signature of order dividing r is the honest sum."
  },
  {
   "property": "C12",
   "status": "proved",
   "theorems": [
    "Props.C12_bad_input",
    "Props.C12_product",
    "Props.C12_exactly_one"
   ],
   "note": "For all signatures and keys, infinity included; solved for the signature when all keys are multiples of the generator."
  },
  {
   "property": "C13",
   "status": "proved",
   "theorems": [
    "Props.C13_key_decoders_total",
    "Props.C13_signature_decoders_total"
   ],
   "note": "All five decoders return some result on every byte string; in the model none stands for a panic, overflow or endless loop."
  },
  {
   "property": "C14",
   "status": "proved",
   "theorems": [
    "Props.C14_key_decoders_on_curve",
    "Props.C14_signature_decoders_on_curve"
   ],
   "note": "Rep g: the value represents the point g of the Mathlib curve group."
  },
  {
   "property": "C15",
   "status": "proved",
   "theorems": [
    "Props.C15_key_acceptance"
   ],
   "note": "Complete case split on the 384-bit integer; also says which of the two roots is taken."
  },
  {
   "property": "C16",
   "status": "proved",
   "theorems": [
    "Props.C16_signature_acceptance"
   ],
   "note": "Complete case split on both 48-byte halves."
  },
  {
   "property": "C17",
   "status": "proved",
   "theorems": [
    "Props.C17_key_round_trip",
    "Props.C17_ambiguous_encoding",
    "Props.C17_concrete_collision",
    "Props.C17_infinity_round_trip"
   ],
   "note": "Statement corrected: the ambiguous ordinates also include prefix 0d 00 with 2y > p."
  },
  {
   "property": "C18",
   "status": "proved",
   "theorems": [
    "Props.C18_signature_round_trip",
    "Props.C18_ambiguous_encoding",
    "Props.C17_infinity_round_trip"
   ],
   "note": ""
  },
  {
   "property": "C19",
   "status": "proved",
   "theorems": [
    "Props.C19_sign_bit"
   ],
   "note": ""
  },
  {
   "property": "C20",
   "status": "proved",
   "theorems": [
    "Props.C20_uncompressed_round_trip"
   ],
   "note": ""
  },
  {
   "property": "C21",
   "status": "proved",
   "theorems": [
    "Props.C21_uncompressed_acceptance"
   ],
   "note": ""
  },
  {
   "property": "C22",
   "status": "proved",
   "theorems": [
    "Props.C22_same_key_iff",
    "Props.C22_reencode"
   ],
   "note": ""
  },
  {
   "property": "C23",
   "status": "proved",
   "theorems": [
    "Props.C23_equality"
   ],
   "note": ""
  },
  {
   "property": "C24",
   "status": "proved",
   "theorems": [
    "Props.C24_encoding_of_point",
    "Props.C24_equal_keys_encode_equally",
    "Props.C24_equal_signatures_encode_equally",
    "Props.C24_zero_abscissa_exception"
   ],
   "note": ""
  },
  {
   "property": "C25",
   "status": "proved",
   "theorems": [
    "Props.C25_multiply_cofactor",
    "Props.C25_twist_order",
    "Props.C25_curve_order"
   ],
   "note": "The number of points is proved from a character-sum argument (Proof/Count, Proof/Order), not assumed; the count for the first group is included."
  },
  {
   "property": "C26",
   "status": "proved",
   "theorems": [
    "Props.C26_hash_on_g2",
    "Props.C26_map_to_g2",
    "Props.C26_signature_order"
   ],
   "note": "Includes termination of the search loop (Proof/Stepanov); the hash is an arbitrary function with 32-byte values."
  },
  {
   "property": "C27",
   "status": "proved",
   "theorems": [
    "Props.C27_chosen_ordinate",
    "Spec.MapsTo.unique"
   ],
   "note": "Also covers a zero imaginary part, where the library always takes the ordinate that is no square in the base field."
  },
  {
   "property": "C28",
   "status": "proved",
   "theorems": [
    "Props.C28_domain_separation",
    "Props.C28_only_these_inputs"
   ],
   "note": ""
  },
  {
   "property": "C29",
   "status": "proved",
   "theorems": [
    "Props.C29_random_key_range",
    "Props.C29_random_keypair"
   ],
   "note": "The caller's generator is modelled by the 256 bytes it yields."
  },
  {
   "property": "C30",
   "status": "proved",
   "theorems": [
    "Props.C30_fp",
    "Props.C30_fp_pow",
    "Props.C30_fp_convert",
    "Props.C30_fp2",
    "Props.C33_jacobi",
    "Props.C33_sqrt",
    "Props.C33_sqrt2",
    "Props.C37_secret_key",
    "Props.C37_public_key",
    "Props.C37_signature",
    "Props.C37_aggregate_key",
    "Props.C37_aggregate_signature"
   ],
   "note": "Exactness of every operation of both fields under stated bounds; the C37 theorems show that no call of the interface leaves the bounds."
  },
  {
   "property": "C31",
   "status": "proved",
   "theorems": [
    "Props.C31_textbook",
    "Props.C31_pairing",
    "Props.C31_pairing_any_key",
    "Props.C31_bilinear",
    "Props.C31_multiples",
    "Props.C31_representation"
   ],
   "note": "The first argument is in affine form, as everything made by the interface is (Props.C06_signatures_affine)."
  },
  {
   "property": "C32",
   "status": "proved",
   "theorems": [
    "Props.C32_infinity",
    "Props.C32_infinity_torsion",
    "Props.C32_infinity_exception",
    "Props.C32_infinite_key",
    "Props.C32_both_infinite",
    "Props.C06_infinity_signature"
   ],
   "note": "The unrestricted form is false: for the points (0, 2) and (0, -2), and for two infinite arguments, the result is 0. Also covers infinity as the second argument."
  },
  {
   "property": "C33",
   "status": "proved",
   "theorems": [
    "Props.C33_jacobi",
    "Props.C33_sqrt",
    "Props.C33_sqrt2"
   ],
   "note": "Every element is given by any representation with normalised limbs and excess at most 2^20; termination is part of the result being some."
  },
  {
   "property": "C34",
   "status": "proved",
   "theorems": [
    "Props.C34_key_without_subgroup_check",
    "Props.C34_signature_without_subgroup_check"
   ],
   "note": "Concrete strings, point order checked by kernel evaluation."
  },
  {
   "property": "C35",
   "status": "proved",
   "theorems": [
    "Props.C35_sha256",
    "Props.C35_too_long"
   ],
   "note": "Constants are specified through the roots of the first primes as in the standard."
  },
  {
   "property": "C36",
   "status": "proved",
   "theorems": [
    "Props.C36_random_key"
   ],
   "note": "The caller's generator is modelled by the 256 bytes it yields."
  },
  {
   "property": "C37",
   "status": "proved",
   "theorems": [
    "Props.C37_secret_key",
    "Props.C37_public_key",
    "Props.C37_signature",
    "Props.C37_aggregate_key",
    "Props.C37_aggregate_signature"
   ],
   "note": "Excludes PublicKey::new_from_raw, writes to public fields and Debug output."
  },
  {
   "property": "C38",
   "status": "proved",
   "theorems": [
    "Props.C38_over_the_wire",
    "Props.C38_regular"
   ],
   "note": "Exact in terms of the results of the two equality tests; C17 and C18 say when these are true."
  },
  {
   "property": "C39",
   "status": "proved",
   "theorems": [
    "Props.C39_rogue_key"
   ],
   "note": ""
  },
  {
   "property": "C40",
   "status": "proved",
   "theorems": [
    "Props.C40_infinite_key",
    "Props.C40_infinite_aggregate",
    "Props.C40_empty_aggregate",
    "Props.C40_on_the_wire"
   ],
   "note": "Also decides the case of an infinite message point: everything is rejected."
  },
  {
   "property": "C41",
   "status": "proved",
   "theorems": [
    "Props.C41_div",
    "Props.C41_ddiv",
    "Props.C41_small",
    "Props.C41_words",
    "Props.C41_modular",
    "Props.C41_invmodp",
    "Props.C41_invmod256"
   ],
   "note": "The remaining functions of big.rs and dbig.rs used by pair.rs, ecp.rs and mpin.rs; invmod2m and random are not modelled."
  },
  {
   "property": "C42",
   "status": "proved",
   "theorems": [
    "Props.C42_mul2",
    "Props.C42_mul4",
    "Props.C42_pow4"
   ],
   "note": "Exact results for all points, also outside the subgroup. pow4 uses usqr and so is stated on the cyclotomic subgroup."
  },
  {
   "property": "C43",
   "status": "proved",
   "theorems": [
    "Props.C43_glv",
    "Props.C43_g1mul",
    "Props.C43_agrees",
    "Props.C43_outside",
    "Props.C43_exact",
    "Props.C43_exact_one"
   ],
   "note": "C43_exact: the condition on the order is necessary and sufficient."
  },
  {
   "property": "C44",
   "status": "proved",
   "theorems": [
    "Props.C44_gs",
    "Props.C44_frob",
    "Props.C44_eigenvalue",
    "Props.C44_g2mul",
    "Props.C44_exact",
    "Props.C44_exact_one",
    "Props.C44_eigenvalue_iff",
    "Props.C44_frobenius_char"
   ],
   "note": "g2mul is stated for excess at most 2^8, which every result of the group operations has."
  },
  {
   "property": "C45",
   "status": "proved",
   "theorems": [
    "Props.C45_gtpow",
    "Props.C45_compatible",
    "Props.C45_exact"
   ],
   "note": "Stated for elements of order dividing r."
  },
  {
   "property": "C46",
   "status": "proved",
   "theorems": [
    "Props.C46_sha512",
    "Props.C46_sha384_release",
    "Props.C46_sha384_debug",
    "Props.C46_sha384_debug_panics"
   ],
   "note": "HASH512 and HASH384 against FIPS 180-4, including reuse of the object; process_num and the message-too-long overflow are not covered. Finding: hash384.rs line 92 adds with +, so debug builds panic."
  },
  {
   "property": "C47",
   "status": "proved",
   "theorems": [
    "Props.C47_textbook",
    "Props.C47_product",
    "Props.C47_pairing",
    "Props.C47_equation"
   ],
   "note": "the double pairing ate2, through the final exponentiation"
  },
  {
   "property": "C48",
   "status": "proved",
   "theorems": [
    "Props.C48_decode",
    "Props.C48_panics",
    "Props.C48_encode",
    "Props.C48_roundtrip",
    "Props.C48_infinity_compressed",
    "Props.C48_infinity_uncompressed"
   ],
   "note": "octet strings of ECP, including points whose ordinate new_bigint leaves unnormalised"
  },
  {
   "property": "C49",
   "status": "proved",
   "theorems": [
    "Props.C49_mapit",
    "Props.C49_unique",
    "Props.C49_subgroup",
    "Props.C49_short",
    "Props.C49_cfp",
    "Props.C49_pinmul",
    "Props.C49_pinmul_small",
    "Props.C49_pinmul_wide"
   ],
   "note": "mapit, cfp, pinmul of ECP"
  },
  {
   "property": "C50",
   "status": "proved",
   "theorems": [
    "Props.C50_decode",
    "Props.C50_panics",
    "Props.C50_encode",
    "Props.C50_roundtrip",
    "Props.C50_malleable"
   ],
   "note": "all strings and all representations"
  },
  {
   "property": "C51",
   "status": "proved",
   "theorems": [
    "Props.C51_mapit",
    "Props.C51_short",
    "Props.C51_unique",
    "Props.C51_cofactor",
    "Props.C51_subgroup",
    "Props.C51_mapit_subgroup"
   ],
   "note": "For all strings. The clearing of the cofactor is proved at every point of the twist, not only those the search can reach."
  },
  {
   "property": "C52",
   "status": "proved",
   "theorems": [
    "Props.C52_conjugates",
    "Props.C52_trace",
    "Props.C52_pow",
    "Props.C52_pow2",
    "Props.C52_compow",
    "Props.C52_agrees",
    "Props.C52_zero",
    "Props.C52_hangs"
   ],
   "note": "Exact for all exponents, the ones that give wrong or no results included."
  },
  {
   "property": "C53",
   "status": "proved",
   "theorems": [
    "Props.C53_pinpow",
    "Props.C53_panics"
   ],
   "note": ""
  },
  {
   "property": "C54",
   "status": "proved",
   "theorems": [
    "Props.C54_decode",
    "Props.C54_panics",
    "Props.C54_encode",
    "Props.C54_standard",
    "Props.C54_roundtrip",
    "Props.C54_injective",
    "Props.C54_reduced",
    "Props.C54_malleable"
   ],
   "note": "all strings and all representations"
  },
  {
   "property": "C55",
   "status": "proved",
   "theorems": [
    "Props.C55_accepts",
    "Props.C55_malleable",
    "Props.C55_run",
    "Props.C55_run_date",
    "Props.C55_no_permit",
    "Props.C55_restore",
    "Props.C55_get_y"
   ],
   "note": "Conditions exclude points at infinity, which have no uncompressed string. SHA-384 as in a release build. Computational hardness is not expressed."
  },
  {
   "property": "C56",
   "status": "proved",
   "theorems": [
    "Props.C56_message",
    "Props.C56_client_key",
    "Props.C56_client_key_hangs",
    "Props.C56_client_key_zero",
    "Props.C56_server_key",
    "Props.C56_hash_all",
    "Props.C56_agree",
    "Props.C56_run"
   ],
   "note": "Functions client_key, server_key, precompute, get_g1_multiple, hash_all, hash; agreement and disagreement of the keys of a run."
  },
  {
   "property": "C57",
   "status": "proved",
   "theorems": [
    "Props.C57_kangaroo",
    "Props.C57_short",
    "Props.C57_sound",
    "Props.C57_second",
    "Props.C57_pin",
    "Props.C57_bound",
    "Props.C57_run"
   ],
   "note": "For all strings with f in the cyclotomic subgroup. That the search succeeds is a matter of probability and not claimed."
  },
  {
   "property": "C58",
   "status": "proved",
   "theorems": [
    "Props.C58_total",
    "Props.C58_decoding",
    "Props.C58_decoding_refuses",
    "Props.C58_encoding_refuses",
    "Props.C58_encoding",
    "Props.C58_roundtrip",
    "Props.C58_preimages"
   ],
   "note": "The generator of encoding is one seeded with seed; the three values of the first random point for which the difference is infinity or has abscissa 0 are excluded by hypothesis, since unmap then counts below 0."
  },
  {
   "property": "C59",
   "status": "proved",
   "theorems": [
    "Props.C59_div_ip",
    "Props.C59_fp4",
    "Props.C59_fp4_scalars",
    "Props.C59_fp4_tests",
    "Props.C59_fp4_pow",
    "Props.C59_fp4_frob",
    "Props.C59_fp4_sqrt",
    "Props.C59_fp4_sqrt_subfield",
    "Props.C59_fp12",
    "Props.C59_fp12_usqr"
   ],
   "note": "FP4::sqrt is wrong on part of the subfield (DESIGN.md, finding 22)"
  },
  {
   "property": "C60",
   "status": "proved",
   "theorems": [
    "Props.C60_permutation",
    "Props.C60_hash",
    "Props.C60_shake",
    "Props.C60_shake_nothing",
    "Props.C60_range"
   ],
   "note": "The specification works on bit strings, with offsets and round constants defined by the walk and the shift register of the standard."
  },
  {
   "property": "C61",
   "status": "proved",
   "theorems": [
    "Props.C61_spec",
    "Props.C61_aes",
    "Props.C61_eight_words",
    "Props.C61_inverse",
    "Props.C61_init_refuses",
    "Props.C61_init_panics",
    "Props.C61_eight_words_differ",
    "Props.C61_example",
    "Props.C61_not_aes256"
   ],
   "note": "The S-box is specified as inverse and affine map, MixColumns by products in GF(2^8); the tables of the code are checked against these for all 256 bytes."
  },
  {
   "property": "C62",
   "status": "proved",
   "theorems": [
    "Props.C62_ready",
    "Props.C62_reset",
    "Props.C62_ecb",
    "Props.C62_cbc_encrypt",
    "Props.C62_cbc_decrypt",
    "Props.C62_cfb",
    "Props.C62_cfb_result",
    "Props.C62_ofb",
    "Props.C62_ctr",
    "Props.C62_ctr_debug",
    "Props.C62_roundtrip",
    "Props.C62_other",
    "Props.C62_end",
    "Props.C62_end_leaves"
   ],
   "note": "The theorems are for any block cipher that the object computes (Ciph); C62_ready gives the one of C61 after init. D (E b) = b in C62_roundtrip is C61_inverse."
  },
  {
   "property": "C63",
   "status": "proved",
   "theorems": [
    "Props.C63_keyed",
    "Props.C63_keyed_32",
    "Props.C63_keyed_bad",
    "Props.C63_init",
    "Props.C63_header",
    "Props.C63_header_refused",
    "Props.C63_plain",
    "Props.C63_cipher",
    "Props.C63_refused",
    "Props.C63_finish",
    "Props.C63_finish_zero",
    "Props.C63_encrypt",
    "Props.C63_decrypt",
    "Props.C63_accept",
    "Props.C63_roundtrip",
    "Props.C63_aes_gcm",
    "Props.C63_bad_length",
    "Props.C63_debug",
    "Props.C63_debug_finish",
    "Props.C63_debug_empty",
    "Props.C63_debug_header",
    "Props.C63_not_aes256",
    "Props.C63_hex",
    "Props.C63_hex_short"
   ],
   "note": "gcm.rs does not compare tags; C63_accept says what the comparison by the caller means."
  },
  {
   "property": "C64",
   "status": "proved",
   "theorems": [
    "Props.C64_points",
    "Props.C64_ntt",
    "Props.C64_intt",
    "Props.C64_values",
    "Props.C64_inverse",
    "Props.C64_product"
   ],
   "note": "arithmetic on i32 and u64 is checked; the wrapping multiplication of redc is as in the source."
  },
  {
   "property": "C65",
   "status": "proved",
   "theorems": [
    "Props.C65_pack",
    "Props.C65_unpack",
    "Props.C65_unpack_pack",
    "Props.C65_compress",
    "Props.C65_decompress",
    "Props.C65_close",
    "Props.C65_encode",
    "Props.C65_decode",
    "Props.C65_errors",
    "Props.C65_bits"
   ],
   "note": ""
  },
  {
   "property": "C66",
   "status": "proved",
   "theorems": [
    "Props.C66_server_1",
    "Props.C66_client",
    "Props.C66_server_2",
    "Props.C66_panics",
    "Props.C66_agreement",
    "Props.C66_quiet"
   ],
   "note": "The probability of failure is not estimated: the noise bound is a hypothesis on the generated bytes."
  },
  {
   "property": "C67",
   "status": "proved",
   "theorems": [
    "Props.C67_hmac",
    "Props.C67_hmac_short",
    "Props.C67_kdf2",
    "Props.C67_kdf1",
    "Props.C67_kdf1_iff",
    "Props.C67_kdf1_wrong",
    "Props.C67_zero",
    "Props.C67_pbkdf2",
    "Props.C67_pbkdf2_512",
    "Props.C67_pbkdf2_256",
    "Props.C67_pbkdf2_once",
    "Props.C67_pbkdf2_wrong",
    "Props.C67_pbkdf2_unfilled",
    "Props.C67_pbkdf2_salt"
   ],
   "note": "Arrays hashed one after the other are their concatenation, as in mpin.rs."
  },
  {
   "property": "C68",
   "status": "proved",
   "theorems": [
    "Props.C68_aes",
    "Props.C68_encrypt",
    "Props.C68_decrypt",
    "Props.C68_decrypt_length",
    "Props.C68_roundtrip",
    "Props.C68_roundtrip_iff",
    "Props.C68_bad_key"
   ],
   "note": "The block cipher is that of C61: AES for keys of 4 and 6 words."
  },
  {
   "property": "C69",
   "status": "proved",
   "theorems": [
    "Props.Secp.C69_constants",
    "Props.Secp.C69_group",
    "Props.Secp.C69_coordinates"
   ],
   "note": "Primality by Pocklington certificates; the number of points by the order of the generator, the bound 2p+1 and the absence of points of order 2."
  },
  {
   "property": "C70",
   "status": "proved",
   "theorems": [
    "Props.Secp.C70_add",
    "Props.Secp.C70_neg",
    "Props.Secp.C70_tests",
    "Props.Secp.C70_mul",
    "Props.Secp.C70_mul2"
   ],
   "note": "Rests on the arithmetic of big.rs and fp.rs with the constants of secp256k1, modelled and proved again (Verif/Model/Secp, Verif/Proof/Secp)."
  },
  {
   "property": "C71",
   "status": "proved",
   "theorems": [
    "Props.Secp.C71_decode",
    "Props.Secp.C71_panics",
    "Props.Secp.C71_encode",
    "Props.Secp.C71_roundtrip",
    "Props.Secp.C71_roundtrip_compressed"
   ],
   "note": "frombytes accepts coordinates below the modulus only; strings may be followed by other bytes."
  },
  {
   "property": "C72",
   "status": "proved",
   "theorems": [
    "Props.Secp.C72_from_secret",
    "Props.Secp.C72_random",
    "Props.Secp.C72_short",
    "Props.Secp.C72_validate",
    "Props.Secp.C72_generated_valid"
   ],
   "note": "The state of the generator is described by its seed and the number of bytes taken."
  },
  {
   "property": "C73",
   "status": "proved",
   "theorems": [
    "Props.Secp.C73_dh",
    "Props.Secp.C73_dh_bad",
    "Props.Secp.C73_agree"
   ],
   "note": ""
  },
  {
   "property": "C74",
   "status": "proved",
   "theorems": [
    "Props.Secp.C74_sign",
    "Props.Secp.C74_only",
    "Props.Secp.C74_stuck",
    "Props.Secp.C74_cases"
   ],
   "note": "The hypotheses on the passes are exhaustive: C74_cases."
  },
  {
   "property": "C75",
   "status": "proved",
   "theorems": [
    "Props.Secp.C75_verify",
    "Props.Secp.C75_verify_bad",
    "Props.Secp.C75_sign_verify",
    "Props.Secp.C75_generate_sign_verify",
    "Props.Secp.C75_malleable",
    "Props.Secp.C75_unknown_hash",
    "Props.Secp.C75_unknown_forgery"
   ],
   "note": ""
  },
  {
   "property": "C76",
   "status": "proved",
   "theorems": [
    "Props.Secp.C76_encrypt",
    "Props.Secp.C76_encrypt_none",
    "Props.Secp.C76_decrypt",
    "Props.Secp.C76_decrypt_bad",
    "Props.Secp.C76_short_tag",
    "Props.Secp.C76_roundtrip",
    "Props.Secp.C76_message_returns"
   ],
   "note": "The reference is IEEE 1363a with KDF2, AES-128-CBC and HMAC; the length of p2 is encoded in bytes, as in the code."
  },
  {
   "property": "C77",
   "status": "proved",
   "theorems": [
    "Props.C77_big",
    "Props.C77_secret_bytes",
    "Props.C77_secret",
    "Props.C77_public_key",
    "Props.C77_keypair",
    "Props.C77_signature",
    "Props.C77_aggregate_key",
    "Props.C77_aggregate_signature",
    "Props.C77_public_key_inj",
    "Props.C77_signature_inj",
    "Props.C77_fp12"
   ],
   "note": "The one-line form of the derived Debug is modelled as documented by the standard library."
  },
  {
   "property": "C78",
   "status": "proved",
   "theorems": [
    "Props.C78_invmod2m",
    "Props.C78_invmod2m_one",
    "Props.C78_shifts",
    "Props.C78_shifts_panic",
    "Props.C78_random",
    "Props.C78_nbits",
    "Props.C78_to_string",
    "Props.C78_to_string_empty",
    "Props.C78_split",
    "Props.C78_split_mod",
    "Props.C78_set",
    "Props.C78_top",
    "Props.C78_or",
    "Props.C78_isok"
   ],
   "note": ""
  },
  {
   "property": "C79",
   "status": "proved",
   "theorems": [
    "Props.C79_dadd",
    "Props.C79_dadd_zero"
   ],
   "note": ""
  },
  {
   "property": "C80",
   "status": "proved",
   "theorems": [
    "Props.B383.C80_constants",
    "Props.B383.C80_cru",
    "Props.B383.C80_generators"
   ],
   "note": ""
  },
  {
   "property": "C81",
   "status": "proved",
   "theorems": [
    "Props.B383.C81_fp",
    "Props.B383.C81_fp_pow",
    "Props.B383.C81_fp_convert",
    "Props.B383.C81_fp2",
    "Props.B383.C81_jacobi",
    "Props.B383.C81_sqrt",
    "Props.B383.C81_sqrt2"
   ],
   "note": ""
  },
  {
   "property": "C82",
   "status": "proved",
   "theorems": [
    "Props.B383.C82_add",
    "Props.B383.C82_add2",
    "Props.B383.C82_tests",
    "Props.B383.C82_affine",
    "Props.B383.C82_mul",
    "Props.B383.C82_points"
   ],
   "note": ""
  },
  {
   "property": "C83",
   "status": "proved",
   "theorems": [
    "Props.B383.C83_div_ip",
    "Props.B383.C83_fp4",
    "Props.B383.C83_fp4_scalars",
    "Props.B383.C83_fp4_tests",
    "Props.B383.C83_fp4_pow",
    "Props.B383.C83_fp4_frob",
    "Props.B383.C83_fp4_sqrt",
    "Props.B383.C83_fp4_sqrt_subfield",
    "Props.B383.C83_fp12",
    "Props.B383.C83_fp12_usqr"
   ],
   "note": ""
  },
  {
   "property": "C84",
   "status": "proved",
   "theorems": [
    "Props.B383.C84_orders",
    "Props.B383.C84_textbook",
    "Props.B383.C84_pairing",
    "Props.B383.C84_pairing_any_key",
    "Props.B383.C84_bilinear",
    "Props.B383.C84_multiples",
    "Props.B383.C84_representation",
    "Props.B383.C84_infinity",
    "Props.B383.C84_infinity_torsion",
    "Props.B383.C84_infinity_exception",
    "Props.B383.C84_infinite_key",
    "Props.B383.C84_both_infinite"
   ],
   "note": ""
  },
  {
   "property": "C85",
   "status": "proved",
   "theorems": [
    "Props.B383.C85_mul2",
    "Props.B383.C85_mul4",
    "Props.B383.C85_pow4",
    "Props.B383.C85_glv",
    "Props.B383.C85_g1mul",
    "Props.B383.C85_agrees",
    "Props.B383.C85_outside",
    "Props.B383.C85_gs",
    "Props.B383.C85_frob",
    "Props.B383.C85_eigenvalue",
    "Props.B383.C85_g2mul",
    "Props.B383.C85_gtpow",
    "Props.B383.C85_compatible",
    "Props.B383.C85_g1_exact",
    "Props.B383.C85_g1_exact_one",
    "Props.B383.C85_g2_exact",
    "Props.B383.C85_g2_exact_one",
    "Props.B383.C85_eigenvalue_iff",
    "Props.B383.C85_gt_exact"
   ],
   "note": ""
  },
  {
   "property": "C86",
   "status": "proved",
   "theorems": [
    "Props.B383.C86_textbook",
    "Props.B383.C86_product",
    "Props.B383.C86_pairing",
    "Props.B383.C86_equation"
   ],
   "note": ""
  },
  {
   "property": "C87",
   "status": "proved",
   "theorems": [
    "Props.B383.C87_g1_decode",
    "Props.B383.C87_g1_panics",
    "Props.B383.C87_g1_encode",
    "Props.B383.C87_g1_roundtrip",
    "Props.B383.C87_g1_infinity_compressed",
    "Props.B383.C87_g1_infinity_uncompressed",
    "Props.B383.C87_g2_decode",
    "Props.B383.C87_g2_panics",
    "Props.B383.C87_g2_encode",
    "Props.B383.C87_g2_roundtrip",
    "Props.B383.C87_g2_malleable",
    "Props.B383.C87_fp12_decode",
    "Props.B383.C87_fp12_panics",
    "Props.B383.C87_fp12_encode",
    "Props.B383.C87_fp12_standard",
    "Props.B383.C87_fp12_roundtrip",
    "Props.B383.C87_fp12_injective",
    "Props.B383.C87_fp12_reduced",
    "Props.B383.C87_fp12_malleable"
   ],
   "note": ""
  },
  {
   "property": "C88",
   "status": "proved",
   "theorems": [
    "Props.B383.C88_g1_mapit",
    "Props.B383.C88_g1_unique",
    "Props.B383.C88_g1_subgroup",
    "Props.B383.C88_g1_short",
    "Props.B383.C88_g1_cfp",
    "Props.B383.C88_g1_pinmul",
    "Props.B383.C88_g1_pinmul_small",
    "Props.B383.C88_g1_pinmul_wide",
    "Props.B383.C88_g2_mapit",
    "Props.B383.C88_g2_short",
    "Props.B383.C88_g2_unique",
    "Props.B383.C88_g2_cofactor",
    "Props.B383.C88_g2_subgroup",
    "Props.B383.C88_g2_mapit_subgroup",
    "Props.B383.C88_frobenius_char"
   ],
   "note": "For all strings. The clearing of the cofactor is proved at every point of the twist without factoring the cofactor (Proof/Manin, Proof/ManinFrob, Proof/B383/Clear)."
  },
  {
   "property": "C89",
   "status": "proved",
   "theorems": [
    "Props.B383.C89_conjugates",
    "Props.B383.C89_trace",
    "Props.B383.C89_pow",
    "Props.B383.C89_pow2",
    "Props.B383.C89_compow",
    "Props.B383.C89_agrees",
    "Props.B383.C89_zero",
    "Props.B383.C89_hangs",
    "Props.B383.C89_pinpow",
    "Props.B383.C89_pinpow_panics"
   ],
   "note": ""
  },
  {
   "property": "C90",
   "status": "proved",
   "theorems": [
    "Props.B383.C90_accepts",
    "Props.B383.C90_malleable",
    "Props.B383.C90_run",
    "Props.B383.C90_run_date",
    "Props.B383.C90_no_permit",
    "Props.B383.C90_restore",
    "Props.B383.C90_get_y"
   ],
   "note": ""
  },
  {
   "property": "C91",
   "status": "proved",
   "theorems": [
    "Props.B383.C91_message",
    "Props.B383.C91_client_key",
    "Props.B383.C91_client_key_hangs",
    "Props.B383.C91_client_key_zero",
    "Props.B383.C91_server_key",
    "Props.B383.C91_hash_all",
    "Props.B383.C91_agree",
    "Props.B383.C91_run"
   ],
   "note": ""
  },
  {
   "property": "C92",
   "status": "proved",
   "theorems": [
    "Props.B383.C92_kangaroo",
    "Props.B383.C92_short",
    "Props.B383.C92_sound",
    "Props.B383.C92_second",
    "Props.B383.C92_pin",
    "Props.B383.C92_bound",
    "Props.B383.C92_run"
   ],
   "note": ""
  },
  {
   "property": "C93",
   "status": "proved",
   "theorems": [
    "Props.B383.C93_total",
    "Props.B383.C93_decoding",
    "Props.B383.C93_decoding_refuses",
    "Props.B383.C93_encoding_refuses",
    "Props.B383.C93_encoding",
    "Props.B383.C93_roundtrip",
    "Props.B383.C93_preimages"
   ],
   "note": ""
  },
  {
   "property": "C94",
   "status": "proved",
   "theorems": [
    "Props.C94_recombine_g1",
    "Props.C94_recombine_g2",
    "Props.C94_client_shares",
    "Props.C94_server_shares",
    "Props.C94_random",
    "Props.C94_multiple",
    "Props.C94_client_1"
   ],
   "note": ""
  },
  {
   "property": "C95",
   "status": "proved",
   "theorems": [
    "Props.B383.C95_recombine_g1",
    "Props.B383.C95_recombine_g2",
    "Props.B383.C95_client_shares",
    "Props.B383.C95_server_shares",
    "Props.B383.C95_random",
    "Props.B383.C95_multiple",
    "Props.B383.C95_client_1"
   ],
   "note": ""
  },
  {
   "property": "C96",
   "status": "proved",
   "theorems": [
    "Props.Secp.C96_mapit",
    "Props.Secp.C96_unique",
    "Props.Secp.C96_order",
    "Props.Secp.C96_short",
    "Props.Secp.C96_pinmul",
    "Props.Secp.C96_pinmul_wide",
    "Props.Secp.C96_mulx",
    "Props.Secp.C96_mulx_scalar",
    "Props.Secp.C96_cfp"
   ],
   "note": ""
  },
  {
   "property": "C97",
   "status": "proved",
   "theorems": [
    "Props.Secp.C97_dadd",
    "Props.Secp.C97_dadd_zero"
   ],
   "note": ""
  },
  {
   "property": "C98",
   "status": "proved",
   "theorems": [
    "Props.Secp.C98_div",
    "Props.Secp.C98_ddiv",
    "Props.Secp.C98_small",
    "Props.Secp.C98_words",
    "Props.Secp.C98_modmul",
    "Props.Secp.C98_modular",
    "Props.Secp.C98_invmodp",
    "Props.Secp.C98_invmod256",
    "Props.Secp.C98_invmod2m",
    "Props.Secp.C98_invmod2m_one",
    "Props.Secp.C98_shifts",
    "Props.Secp.C98_shifts_panic",
    "Props.Secp.C98_random",
    "Props.Secp.C98_nbits",
    "Props.Secp.C98_to_string",
    "Props.Secp.C98_to_string_empty",
    "Props.Secp.C98_split",
    "Props.Secp.C98_split_mod",
    "Props.Secp.C98_set",
    "Props.Secp.C98_top",
    "Props.Secp.C98_tostring_big",
    "Props.Secp.C98_tostring_fp",
    "Props.Secp.C98_tostring_point",
    "Props.Secp.C98_tostring_inj",
    "Props.Secp.C98_or",
    "Props.Secp.C98_isok"
   ],
   "note": ""
  },
  {
   "property": "C99",
   "status": "proved",
   "theorems": [
    "Props.C99_pairing_any_point",
    "Props.C99_shadow",
    "Props.C99_same_verdict",
    "Props.C99_same_verdict_hashed",
    "Props.C99_same_verdict_aggregate",
    "Props.C99_one_key",
    "Props.C99_two_signatures",
    "Props.C99_many_signatures"
   ],
   "note": ""
  }
 ]
}
