{
 "claims": [
  {
   "property": "C01",
   "status": "proved",
   "theorems": [
    "Vdaf.C01_field_codec_roundtrip"
   ],
   "note": ""
  },
  {
   "property": "C02",
   "status": "proved",
   "theorems": [
    "Vdaf.C02_field_decode_strict"
   ],
   "note": ""
  },
  {
   "property": "C03",
   "status": "proved",
   "theorems": [
    "Vdaf.C03_moduli_prime",
    "Vdaf.C03_field_arithmetic",
    "Vdaf.C03_constructor"
   ],
   "note": ""
  },
  {
   "property": "C04",
   "status": "proved",
   "theorems": [
    "Vdaf.C04_roots_of_unity"
   ],
   "note": ""
  },
  {
   "property": "C05",
   "status": "proved",
   "theorems": [
    "Vdaf.C05_ntt_evaluates",
    "Vdaf.C05_ntt_evaluates_shifted"
   ],
   "note": ""
  },
  {
   "property": "C06",
   "status": "proved",
   "theorems": [
    "Vdaf.C06_ntt_inverse"
   ],
   "note": ""
  },
  {
   "property": "C07",
   "status": "proved",
   "theorems": [
    "Vdaf.C07_lagrange_representation",
    "Vdaf.C07_double_evaluations",
    "Vdaf.C07_poly_mul"
   ],
   "note": ""
  },
  {
   "property": "C08",
   "status": "proved",
   "theorems": [
    "Vdaf.C08_extend_values",
    "Vdaf.C08_extend_values_any"
   ],
   "note": ""
  },
  {
   "property": "C09",
   "status": "proved",
   "theorems": [
    "Vdaf.C09_poly_eval_batched",
    "Vdaf.C09_poly_eval"
   ],
   "note": ""
  },
  {
   "property": "C10",
   "status": "partial",
   "theorems": [
    "Vdaf.C10_poly_strip",
    "Vdaf.C10_poly_mul",
    "Vdaf.C10_poly_add",
    "Vdaf.C10_poly_interp",
    "Vdaf.C10_poly_eval_partial",
    "Vdaf.C10_poly_eval_counterexample"
   ],
   "note": "poly_eval raises IndexError on a non-empty all-zero list; the exact behaviour is proved and the full claim refuted"
  },
  {
   "property": "C100",
   "status": "proved",
   "theorems": [
    "Vdaf.C100_parts",
    "Vdaf.C100_parts_exact"
   ],
   "note": "for runs that succeed; the ways an honest run can fail are in C23 and their probability in C88"
  },
  {
   "property": "C11",
   "status": "proved",
   "theorems": [
    "Vdaf.C11_to_le_bytes",
    "Vdaf.C11_to_be_bytes",
    "Vdaf.C11_bytes_int_bytes",
    "Vdaf.C11_bitrev",
    "Vdaf.C11_next_power_of_2",
    "Vdaf.C11_assert_power_of_2"
   ],
   "note": ""
  },
  {
   "property": "C12",
   "status": "proved",
   "theorems": [
    "Vdaf.C12_range_checked_int"
   ],
   "note": ""
  },
  {
   "property": "C13",
   "status": "proved",
   "theorems": [
    "Vdaf.C13_encode_truncate_decode",
    "Vdaf.C13_truncate_linear"
   ],
   "note": ""
  },
  {
   "property": "C14",
   "status": "proved",
   "theorems": [
    "Vdaf.C14_honest_accepted"
   ],
   "note": ""
  },
  {
   "property": "C15",
   "status": "proved",
   "theorems": [
    "Vdaf.C15_count_rejects",
    "Vdaf.C15_sum_rejects",
    "Vdaf.C15_sumvec_rejects",
    "Vdaf.C15_histogram_rejects",
    "Vdaf.C15_multihot_rejects"
   ],
   "note": ""
  },
  {
   "property": "C16",
   "status": "proved",
   "theorems": [
    "Vdaf.C16_eval_poly_agrees"
   ],
   "note": "for the gadgets of the library; PolyEval of a non-constant polynomial"
  },
  {
   "property": "C17",
   "status": "proved",
   "theorems": [
    "Vdaf.C17_completeness",
    "Vdaf.C17_run_flp"
   ],
   "note": ""
  },
  {
   "property": "C18",
   "status": "proved",
   "theorems": [
    "Vdaf.C18_query_linear"
   ],
   "note": ""
  },
  {
   "property": "C19",
   "status": "proved",
   "theorems": [
    "Vdaf.C19_soundness",
    "Vdaf.C19_soundness_shares"
   ],
   "note": ""
  },
  {
   "property": "C20",
   "status": "proved",
   "theorems": [
    "Vdaf.C20_zero_knowledge",
    "Vdaf.C20_same_distribution"
   ],
   "note": ""
  },
  {
   "property": "C21",
   "status": "proved",
   "theorems": [
    "Vdaf.C21_lengths",
    "Vdaf.C21_length_formulas"
   ],
   "note": ""
  },
  {
   "property": "C22",
   "status": "proved",
   "theorems": [
    "Vdaf.C22_query_aborts_iff"
   ],
   "note": ""
  },
  {
   "property": "C23",
   "status": "proved",
   "theorems": [
    "Vdaf.C23_end_to_end",
    "Vdaf.C23_prio3_count",
    "Vdaf.C23_prio3_sum",
    "Vdaf.C23_prio3_sumvec",
    "Vdaf.C23_prio3_multiproof",
    "Vdaf.C23_prio3_histogram",
    "Vdaf.C23_prio3_multihot"
   ],
   "note": "For arbitrary XOF primitives. Documented pre-conditions are hypotheses: key, nonce and randomness sizes, ctx shorter than 2^16-8, max_measurement > 0, number of proofs < 256, gadget polynomials no longer than GEN_ORDER."
  },
  {
   "property": "C24",
   "status": "proved",
   "theorems": [
    "Vdaf.C24_joint_rand_bound",
    "Vdaf.C24_other_message_rejected"
   ],
   "note": ""
  },
  {
   "property": "C25",
   "status": "proved",
   "theorems": [
    "Vdaf.C25_robustness",
    "Vdaf.C25_robustness_all"
   ],
   "note": "Counting form: the query randomness of a run that accepts lies in a small set fixed by the report, the input shares and the joint randomness."
  },
  {
   "property": "C26",
   "status": "proved",
   "theorems": [
    "Vdaf.C26_C27_input_share",
    "Vdaf.C26_input_share_encodes",
    "Vdaf.C26_C27_verifier_share",
    "Vdaf.C26_verifier_share_encodes",
    "Vdaf.C26_public_share",
    "Vdaf.C26_verifier_message",
    "Vdaf.C26_C27_out_agg"
   ],
   "note": ""
  },
  {
   "property": "C27",
   "status": "partial",
   "theorems": [
    "Vdaf.C26_C27_input_share",
    "Vdaf.C26_C27_verifier_share",
    "Vdaf.C26_C27_public_share_partial",
    "Vdaf.C26_C27_out_agg",
    "Vdaf.C27_public_share_not_strict"
   ],
   "note": "False of the code for the public share of circuits without joint randomness (decode_public_share ignores its argument): witness proved. Proved for all the other messages."
  },
  {
   "property": "C28",
   "status": "proved",
   "theorems": [
    "Vdaf.C28_prio3_order",
    "Vdaf.C28_prio3_merge",
    "Vdaf.C28_prio3_sum",
    "Vdaf.C28_prio3_init_neutral",
    "Vdaf.C28_poplar1_order",
    "Vdaf.C28_poplar1_merge",
    "Vdaf.C28_poplar1_sum",
    "Vdaf.C28_poplar1_init_neutral"
   ],
   "note": ""
  },
  {
   "property": "C29",
   "status": "proved",
   "theorems": [
    "Vdaf.C29_prio3_once",
    "Vdaf.C29_prio3_first"
   ],
   "note": ""
  },
  {
   "property": "C30",
   "status": "proved",
   "theorems": [
    "Vdaf.C30_shard",
    "Vdaf.C30_helper_shares_independent",
    "Vdaf.C30_wrong_sizes"
   ],
   "note": ""
  },
  {
   "property": "C31",
   "status": "proved",
   "theorems": [
    "Vdaf.C31_idpf_correct"
   ],
   "note": ""
  },
  {
   "property": "C32",
   "status": "proved",
   "theorems": [
    "Vdaf.C32_eval_iff",
    "Vdaf.C32_eval_rejects",
    "Vdaf.C32_prefix_independent",
    "Vdaf.C32_reorder",
    "Vdaf.C32_eval_total"
   ],
   "note": ""
  },
  {
   "property": "C33",
   "status": "proved",
   "theorems": [
    "Vdaf.C33_end_to_end",
    "Vdaf.C33_exact"
   ],
   "note": "assumes a context shorter than 2^16-8 bytes, level < 2^16 and fuel < 2^120"
  },
  {
   "property": "C34",
   "status": "proved",
   "theorems": [
    "Vdaf.C34_sketch_soundness"
   ],
   "note": ""
  },
  {
   "property": "C35",
   "status": "proved",
   "theorems": [
    "Vdaf.C35_is_valid",
    "Vdaf.C35_is_valid_extends",
    "Vdaf.C35_levels_increase",
    "Vdaf.C35_prefixes_extend",
    "Vdaf.C35_prefixes_nodup"
   ],
   "note": ""
  },
  {
   "property": "C36",
   "status": "proved",
   "theorems": [
    "Vdaf.C36_decode_iff",
    "Vdaf.C36_round_trip",
    "Vdaf.C36_out_of_range",
    "Vdaf.C36_layout",
    "Vdaf.C36_malformed"
   ],
   "note": ""
  },
  {
   "property": "C37",
   "status": "proved",
   "theorems": [
    "Vdaf.C37_public_share",
    "Vdaf.C37_public_share_encodes",
    "Vdaf.C37_input_share",
    "Vdaf.C37_input_share_encodes",
    "Vdaf.C37_vectors",
    "Vdaf.C37_verifier_message"
   ],
   "note": ""
  },
  {
   "property": "C38",
   "status": "proved",
   "theorems": [
    "Vdaf.C38_round_trip",
    "Vdaf.C38_canonical",
    "Vdaf.C38_layout"
   ],
   "note": ""
  },
  {
   "property": "C39",
   "status": "proved",
   "theorems": [
    "Vdaf.C39_success",
    "Vdaf.C39_failure",
    "Vdaf.C39_broadcast",
    "Vdaf.C39_prio3",
    "Vdaf.C39_poplar1"
   ],
   "note": "for any VDAF meeting Spec.PingPongReady; shown for Poplar1 and for Prio3 with verifier shares below 2^32 bytes. A failing broadcast leads to Rejected, or to the divergence of a computation of the VDAF (rejection sampling that never accepts)"
  },
  {
   "property": "C40",
   "status": "proved",
   "theorems": [
    "Vdaf.C40_never_raises",
    "Vdaf.C40_total",
    "Vdaf.C40_leader_output",
    "Vdaf.C40_helper_output",
    "Vdaf.C40_rejects",
    "Vdaf.C40_helper_init_rejects",
    "Vdaf.C40_finishes_iff"
   ],
   "note": "up to the divergence of a computation of the VDAF, which C40_total excludes by hypothesis"
  },
  {
   "property": "C41",
   "status": "proved",
   "theorems": [
    "Vdaf.C41_layout",
    "Vdaf.C41_round_trip",
    "Vdaf.C41_canonical"
   ],
   "note": ""
  },
  {
   "property": "C42",
   "status": "proved",
   "theorems": [
    "Vdaf.C42_turboshake_stream",
    "Vdaf.C42_aes_stream",
    "Vdaf.C42_read_split"
   ],
   "note": "for the AES XOF up to the end of its 128-bit block counter, where the code raises"
  },
  {
   "property": "C43",
   "status": "proved",
   "theorems": [
    "Vdaf.C43_nextVec_rejection_sampling",
    "Vdaf.C43_nextVec_total",
    "Vdaf.C43_nextVec_append",
    "Vdaf.C43_nextVec_split",
    "Vdaf.C43_nextVec_fuel",
    "Vdaf.C43_expandIntoVec"
   ],
   "note": "termination is not claimed: the loop of next_vec is unbounded, the model bounds the number of chunks by an arbitrary number"
  },
  {
   "property": "C44",
   "status": "proved",
   "theorems": [
    "Vdaf.C44_unbiased",
    "Vdaf.C44_unbiased_vec"
   ],
   "note": ""
  },
  {
   "property": "C45",
   "status": "proved",
   "theorems": [
    "Vdaf.C45_turboshake_input",
    "Vdaf.C45_aes_input",
    "Vdaf.C45_long_tag_rejected",
    "Vdaf.C45_formatDst_injective",
    "Vdaf.C45_formatDst_total"
   ],
   "note": ""
  },
  {
   "property": "C46",
   "status": "proved",
   "theorems": [
    "Vdaf.C46_shares_sum",
    "Vdaf.C46_shares_hide"
   ],
   "note": ""
  },
  {
   "property": "C47",
   "status": "partial",
   "theorems": [
    "Vdaf.C47_count_rejects",
    "Vdaf.C47_sumvec_rejects",
    "Vdaf.C47_multihot_rejects",
    "Vdaf.C47_sum_rejects_partial",
    "Vdaf.C47_histogram_rejects_partial",
    "Vdaf.C47_sum_accepts_negative",
    "Vdaf.C47_histogram_accepts_negative"
   ],
   "note": "false of the code for negative measurements of Sum and Histogram: refuted with concrete witnesses; proved for every other case"
  },
  {
   "property": "C48",
   "status": "partial",
   "theorems": [
    "Vdaf.C48_shares",
    "Vdaf.C48_unshard_exact",
    "Vdaf.C48_unshard_partial",
    "Vdaf.C48_unshard_counterexample",
    "Vdaf.C48_add",
    "Vdaf.C48_unshard_add"
   ],
   "note": "false as stated: shamir_unshard raises IndexError when a coordinate and all its random coefficients are zero (C48_unshard_counterexample); C48_unshard_exact says exactly when, and that the vector is returned otherwise"
  },
  {
   "property": "C49",
   "status": "proved",
   "theorems": [
    "Vdaf.C49_run_vdaf",
    "Vdaf.C49_run_daf",
    "Vdaf.C49_empty_batch",
    "Vdaf.C49_wrong_key_size"
   ],
   "note": ""
  },
  {
   "property": "C50",
   "status": "proved",
   "theorems": [
    "Vdaf.C50_derivations",
    "Vdaf.C50_tag_injective",
    "Vdaf.C50_part_binder_injective",
    "Vdaf.C50_seed_binder_injective"
   ],
   "note": ""
  },
  {
   "property": "C51",
   "status": "proved",
   "theorems": [
    "Vdaf.C51_privacy"
   ],
   "note": ""
  },
  {
   "property": "C52",
   "status": "proved",
   "theorems": [
    "Vdaf.C52_query",
    "Vdaf.C52_completeness",
    "Vdaf.C52_aggregate"
   ],
   "note": ""
  },
  {
   "property": "C53",
   "status": "proved",
   "theorems": [
    "Vdaf.C53_sum",
    "Vdaf.C53_histogram",
    "Vdaf.C53_sumvec",
    "Vdaf.C53_multihot",
    "Vdaf.C53_prio3_count",
    "Vdaf.C53_prio3_sum",
    "Vdaf.C53_prio3_histogram",
    "Vdaf.C53_prio3_sumvec",
    "Vdaf.C53_prio3_multiproof",
    "Vdaf.C53_prio3_multihot",
    "Vdaf.C53_idpf",
    "Vdaf.C53_poplar1"
   ],
   "note": "max_measurement of Sum and the number of proofs are natural numbers in the model; the code does not check that they are positive"
  },
  {
   "property": "C54",
   "status": "proved",
   "theorems": [
    "Vdaf.C54_outcome_unique",
    "Vdaf.C54_next_vec_turboshake",
    "Vdaf.C54_next_vec_aes",
    "Vdaf.C54_expand",
    "Vdaf.C54_prio3",
    "Vdaf.C54_prio3_run",
    "Vdaf.C54_idpf",
    "Vdaf.C54_poplar1",
    "Vdaf.C54_poplar1_run",
    "Vdaf.C54_run_vdaf",
    "Vdaf.C54_ping_pong",
    "Vdaf.C54_sampling_may_not_end"
   ],
   "note": "that sampling from the real TurboSHAKE128 ends is a hypothesis; C54_sampling_may_not_end shows that it cannot be dropped"
  },
  {
   "property": "C55",
   "status": "proved",
   "theorems": [
    "Vdaf.C55_library",
    "Vdaf.C55_gadgets",
    "Vdaf.C55_higher_degree",
    "Vdaf.C55_multi_gadget",
    "Vdaf.C55_average",
    "Vdaf.C55_run_flp",
    "Vdaf.C55_query_linear",
    "Vdaf.C55_soundness",
    "Vdaf.C55_zero_knowledge",
    "Vdaf.C55_total",
    "Vdaf.C55_shares_needed",
    "Vdaf.C55_end_to_end",
    "Vdaf.C55_robustness",
    "Vdaf.C55_prio3_higher_degree",
    "Vdaf.C55_prio3_average"
   ],
   "note": "a circuit is a program that may raise or call a gadget; Python circuits with other side effects are outside the model"
  },
  {
   "property": "C56",
   "status": "proved",
   "theorems": [
    "Vdaf.C56_extend",
    "Vdaf.C56_convert",
    "Vdaf.C56_eval",
    "Vdaf.C56_node_unique",
    "Vdaf.C56_value_unique",
    "Vdaf.C56_gen",
    "Vdaf.C56_shard",
    "Vdaf.C56_verify_init",
    "Vdaf.C56_separation",
    "Vdaf.C56_idpf_tag"
   ],
   "note": "TurboSHAKE128 and AES are arbitrary functions; that they are pseudorandom is not modelled"
  },
  {
   "property": "C57",
   "status": "proved",
   "theorems": [
    "Vdaf.C57_first_round",
    "Vdaf.C57_second_round"
   ],
   "note": "perfect masking given a uniform triple; that the expanded triple is computationally uniform is an assumption on the XOF"
  },
  {
   "property": "C58",
   "status": "proved",
   "theorems": [
    "Vdaf.C58_hex",
    "Vdaf.C58_operations",
    "Vdaf.C58_accepts",
    "Vdaf.C58_check",
    "Vdaf.C58_result",
    "Vdaf.C58_check_result",
    "Vdaf.C58_generates",
    "Vdaf.C58_order",
    "Vdaf.C58_check_operations",
    "Vdaf.C58_prio3_codec",
    "Vdaf.C58_prio3",
    "Vdaf.C58_poplar1_codec",
    "Vdaf.C58_poplar1"
   ],
   "note": "JSON, printing and the type parameters of the files are not modelled; the checker ignores entries of verifier_shares rows, verifier_messages and out_shares beyond those it needs, and the statement says so (Spec.Listed)"
  },
  {
   "property": "C59",
   "status": "proved",
   "theorems": [
    "Vdaf.C59_privacy",
    "Vdaf.C59_privacy_reports",
    "Vdaf.C59_privacy_custom",
    "Vdaf.C59_privacy_reports_custom"
   ],
   "note": "exact (perfect) indistinguishability in the random-oracle model: TurboSHAKE128 is replaced by a uniformly chosen function on the finitely many inputs that contain a secret seed; that the coalition does not query the oracle at such an input itself (it would have to guess a 32-byte seed) and that TurboSHAKE128 behaves like a random function are assumptions outside of the model; the coalition follows the protocol"
  },
  {
   "property": "C60",
   "status": "proved",
   "theorems": [
    "Vdaf.C60_gen_rejects",
    "Vdaf.C60_gen_rejects_values",
    "Vdaf.C60_gen_accepts_only"
   ],
   "note": "that gen returns for the documented arguments is C31_idpf_correct"
  },
  {
   "property": "C61",
   "status": "proved",
   "theorems": [
    "Vdaf.C61_decides",
    "Vdaf.C61_changed_share",
    "Vdaf.C61_verify_next"
   ],
   "note": ""
  },
  {
   "property": "C62",
   "status": "proved",
   "theorems": [
    "Vdaf.C62_gen",
    "Vdaf.C62_uniform",
    "Vdaf.C62_function",
    "Vdaf.C62_finite",
    "Vdaf.C62_hiding"
   ],
   "note": "perfect hiding with the other Aggregator's expansions replaced by uniformly random ones (the ideal-generator step of the security argument); that the XOF outputs are pseudorandom is an assumption outside of the model"
  },
  {
   "property": "C63",
   "status": "proved",
   "theorems": [
    "Vdaf.C63_real",
    "Vdaf.C63_privacy",
    "Vdaf.C63_report",
    "Vdaf.C63_finite"
   ],
   "note": "perfect privacy with the values derived from unknown seeds replaced by uniformly random ones (the random-oracle step); that the XOF outputs are pseudorandom is an assumption outside of the model; C63_real ties the ideal process to shard, verify_init and verify_next"
  },
  {
   "property": "C64",
   "status": "partial",
   "theorems": [
    "Vdaf.C64_base_soundness_partial",
    "Vdaf.C64_base_soundness_false",
    "Vdaf.C64_padded",
    "Vdaf.C64_double",
    "Vdaf.C64_sum_vec",
    "Vdaf.C64_multiproof",
    "Vdaf.C64_robustness",
    "Vdaf.C64_proof",
    "Vdaf.C64_attack"
   ],
   "note": "false as stated (C64_base_soundness_false: a dishonest SumVec proof beats the number); proved for circuits that need no padding, and for all circuits with the padded formula or with twice the number"
  },
  {
   "property": "C65",
   "status": "proved",
   "theorems": [
    "Vdaf.C65_privacy",
    "Vdaf.C65_privacy_custom",
    "Vdaf.C65_total"
   ],
   "note": "TurboSHAKE128 is a random oracle at the inputs that contain a seed known only to the Client and the honest Aggregator, as in C59"
  },
  {
   "property": "C66",
   "status": "proved",
   "theorems": [
    "Vdaf.C66_robustness_custom",
    "Vdaf.C66_count",
    "Vdaf.C66_sum",
    "Vdaf.C66_sumvec",
    "Vdaf.C66_histogram",
    "Vdaf.C66_multihot"
   ],
   "note": "TurboSHAKE128 is a random oracle at the inputs for the joint randomness and for the query randomness; the Client computes joint randomness only of reports whose input shares it knows"
  },
  {
   "property": "C67",
   "status": "proved",
   "theorems": [
    "Vdaf.C67_test_daf",
    "Vdaf.C67_tester_run",
    "Vdaf.C67_tester_ping_pong"
   ],
   "note": "PingPongTester with at most 10^200 rounds, so that the encoded verifier messages fit 32-bit lengths; TestDaf as modelled samples with a bound on the number of attempts"
  },
  {
   "property": "C68",
   "status": "proved",
   "theorems": [
    "Vdaf.C68_robustness_custom",
    "Vdaf.C68_fixed_key",
    "Vdaf.C68_count",
    "Vdaf.C68_sum",
    "Vdaf.C68_sumvec",
    "Vdaf.C68_histogram",
    "Vdaf.C68_multihot"
   ],
   "note": "TurboSHAKE128 is a random oracle (the first N bytes of its values at a finite set of inputs, for N at least 32 and at least the number of bytes that the samplers may read); honest Aggregators, which reject repeated nonces"
  },
  {
   "property": "C69",
   "status": "proved",
   "theorems": [
    "Vdaf.C69_robustness",
    "Vdaf.C69_fixed_key"
   ],
   "note": "TurboSHAKE128 is a random oracle (the first N bytes of its values at a finite set of inputs, for N at least the number of bytes that the samplers may read); honest Aggregators, which apply is_valid per nonce; that the same report counts for consistent prefixes at different levels is not claimed"
  },
  {
   "property": "C70",
   "status": "proved",
   "theorems": [
    "Vdaf.C70_privacy_custom",
    "Vdaf.C70_privacy",
    "Vdaf.C70_worlds",
    "Vdaf.C70_inputs"
   ],
   "note": "TurboSHAKE128 is a random oracle (the first N bytes of its values at a finite set of inputs, for N at least 32 and at least the number of bytes that the samplers may read); the Clients are honest, and the reports are verified with one key"
  },
  {
   "property": "C71",
   "status": "proved",
   "theorems": [
    "Vdaf.C71_prio3_shares",
    "Vdaf.C71_prio3_joint_rand",
    "Vdaf.C71_generates",
    "Vdaf.C71_prio3",
    "Vdaf.C71_count_measurement",
    "Vdaf.C71_poplar1",
    "Vdaf.C71_poplar1_vector",
    "Vdaf.C71_idpf",
    "Vdaf.C71_xof"
   ],
   "note": "printing, writing files and the type parameters of the vectors are not modelled"
  },
  {
   "property": "C72",
   "status": "proved",
   "theorems": [
    "Vdaf.C72_privacy",
    "Vdaf.C72_worlds",
    "Vdaf.C72_inputs"
   ],
   "note": "TurboSHAKE128 is a random oracle (the first 16 B bytes of its values at a finite set of inputs, for 16 B at least the number of bytes that the samplers may read) and AES-128 a random function that the attackers do not invert; the Clients are honest, the reports are verified with one key, and the runs in which the bounded sampling of the model gives up for one of the two measurements count for neither probability"
  },
  {
   "property": "C73",
   "status": "proved",
   "theorems": [
    "Vdaf.C73_prio3_privacy",
    "Vdaf.C73_prio3_privacy_custom"
   ],
   "note": "TurboSHAKE128 is a random oracle as in C70; the Clients are honest and the reports are verified with one key"
  },
  {
   "property": "C74",
   "status": "proved",
   "theorems": [
    "Vdaf.C74_poplar1_privacy"
   ],
   "note": "TurboSHAKE128 and AES-128 are random functions as in C72; the Clients are honest and the reports are verified with one key"
  },
  {
   "property": "C75",
   "status": "proved",
   "theorems": [
    "Vdaf.C75_prio3_custom",
    "Vdaf.C75_count",
    "Vdaf.C75_sum",
    "Vdaf.C75_sumvec",
    "Vdaf.C75_histogram",
    "Vdaf.C75_multihot",
    "Vdaf.C75_poplar1"
   ],
   "note": "TurboSHAKE128 is a random oracle as in C68 and C69; the number of moves times the largest measurement is less than the field modulus for Prio3; AES is a fixed function"
  },
  {
   "property": "C76",
   "status": "proved",
   "theorems": [
    "Vdaf.C76_joint",
    "Vdaf.C76_context",
    "Vdaf.C76_nonce_unbound",
    "Vdaf.C76_poplar1"
   ],
   "note": "TurboSHAKE128 is a random oracle at a finite set of inputs; AES is a fixed function; the Client is honest, its random bytes and the verification key are arbitrary"
  },
  {
   "property": "C77",
   "status": "proved",
   "theorems": [
    "Vdaf.C77_prio3_privacy",
    "Vdaf.C77_prio3_privacy_custom"
   ],
   "note": "TurboSHAKE128 is a random oracle at a finite set of inputs; the nonces of the honest reports are fixed in advance; one verification key and application context"
  },
  {
   "property": "C78",
   "status": "proved",
   "theorems": [
    "Vdaf.C78_poplar1_privacy"
   ],
   "note": "TurboSHAKE128 is a random oracle and AES-128 a random function that the attackers cannot invert; honest reports for which sampling fails are left out as in C74; one verification key and application context"
  },
  {
   "property": "C79",
   "status": "proved",
   "theorems": [
    "Vdaf.C79_end_to_end",
    "Vdaf.C79_robustness",
    "Vdaf.C79_joint_rand_bound",
    "Vdaf.C79_codecs",
    "Vdaf.C79_run_flp",
    "Vdaf.C79_run_flp_complete",
    "Vdaf.C79_bbcggi19",
    "Vdaf.C79_bbcggi19_rejects",
    "Vdaf.C79_bbcggi19_same",
    "Vdaf.C79_bbcggi19_init",
    "Vdaf.C79_flp_test",
    "Vdaf.C79_flp_test_run_flp",
    "Vdaf.C79_flp_test_insecure",
    "Vdaf.C79_prio3_flp_test"
   ],
   "note": "robustness assumes the lengths of the Leader's share, which decode_input_share ensures: FlpTest.query does not check them"
  },
  {
   "property": "C80",
   "status": "proved",
   "theorems": [
    "Vdaf.C80_gadget_test",
    "Vdaf.C80_gadget_test_detects",
    "Vdaf.C80_flp_test_gadgets",
    "Vdaf.C80_flp_test",
    "Vdaf.C80_unlucky",
    "Vdaf.C80_case_accepted",
    "Vdaf.C80_case_accepted_wrong",
    "Vdaf.C80_case_rejected",
    "Vdaf.C80_case_rejected_wrong",
    "Vdaf.C80_encode_truncate_decode",
    "Vdaf.C80_sumvec_encode_truncate_decode",
    "Vdaf.C80_vdaf_test_prio3",
    "Vdaf.C80_vdaf_test_poplar1"
   ],
   "note": "the random choices are uniform and independent"
  },
  {
   "property": "C81",
   "status": "proved",
   "theorems": [
    "Vdaf.C81_key_known_to_clients",
    "Vdaf.C81_prio3_verified_again",
    "Vdaf.C81_poplar1_level_twice",
    "Vdaf.C81_poplar1_prefix_revealed",
    "Vdaf.C81_parameters_not_bound"
   ],
   "note": "that the requirement to use the same public share is necessary is not part of the claim"
  },
  {
   "property": "C82",
   "status": "partial",
   "theorems": [
    "Vdaf.C82_many_prefixes",
    "Vdaf.C82_two_measurements",
    "Vdaf.C82_once_per_level_partial"
   ],
   "note": "the claim is false of the code: C82_many_prefixes and C82_two_measurements refute it; C82_once_per_level_partial is what remains true"
  },
  {
   "property": "C83",
   "status": "proved",
   "theorems": [
    "Vdaf.C83_honest",
    "Vdaf.C83_malicious"
   ],
   "note": ""
  },
  {
   "property": "C84",
   "status": "proved",
   "theorems": [
    "Vdaf.C84_mixed_batch",
    "Vdaf.C84_custom",
    "Vdaf.C84_count",
    "Vdaf.C84_sum",
    "Vdaf.C84_sumvec",
    "Vdaf.C84_histogram",
    "Vdaf.C84_multihot"
   ],
   "note": ""
  },
  {
   "property": "C85",
   "status": "proved",
   "theorems": [
    "Vdaf.C85_heavy_hitters"
   ],
   "note": ""
  },
  {
   "property": "C86",
   "status": "proved",
   "theorems": [
    "Vdaf.C86_count",
    "Vdaf.C86_sum",
    "Vdaf.C86_sumvec",
    "Vdaf.C86_multiproof",
    "Vdaf.C86_histogram",
    "Vdaf.C86_multihot",
    "Vdaf.C86_poplar1"
   ],
   "note": ""
  },
  {
   "property": "C87",
   "status": "proved",
   "theorems": [
    "Vdaf.C87_law",
    "Vdaf.C87_bound",
    "Vdaf.C87_limit",
    "Vdaf.C87_rates"
   ],
   "note": "TurboSHAKE128 is a random oracle on a finite set of inputs"
  },
  {
   "property": "C88",
   "status": "proved",
   "theorems": [
    "Vdaf.C88_custom",
    "Vdaf.C88_library"
   ],
   "note": "TurboSHAKE128 is a random oracle on a finite set of inputs"
  },
  {
   "property": "C89",
   "status": "proved",
   "theorems": [
    "Vdaf.C89_prio3",
    "Vdaf.C89_poplar1"
   ],
   "note": ""
  },
  {
   "property": "C90",
   "status": "partial",
   "theorems": [
    "Vdaf.C90_last_message",
    "Vdaf.C90_prio3_partial",
    "Vdaf.C90_prio3_no_joint_rand",
    "Vdaf.C90_prio3_published",
    "Vdaf.C90_poplar1",
    "Vdaf.C90_counterexample"
   ],
   "note": "false of the code for Prio3 with joint randomness: C90_counterexample; proved for Poplar1 and for Prio3 without joint randomness, one direction for all of Prio3, and the other one if the Client published the part of the joint randomness that the Helper computes"
  },
  {
   "property": "C91",
   "status": "proved",
   "theorems": [
    "Vdaf.C91_no_joint_rand",
    "Vdaf.C91_accepts_iff",
    "Vdaf.C91_all_or_one",
    "Vdaf.C91_poplar1"
   ],
   "note": "with joint randomness: assuming that none of the seeds of the Aggregators collides with the one of the verifier message"
  },
  {
   "property": "C92",
   "status": "proved",
   "theorems": [
    "Vdaf.C92_prio3_sizes",
    "Vdaf.C92_prio3_measurement",
    "Vdaf.C92_prio3_accepts_only",
    "Vdaf.C92_poplar1_sizes",
    "Vdaf.C92_poplar1_accepts_only"
   ],
   "note": "which measurements the circuits encode is C47"
  },
  {
   "property": "C93",
   "status": "proved",
   "theorems": [
    "Vdaf.C93_encode_injective",
    "Vdaf.C93_report_unique",
    "Vdaf.C93_idpf_unique",
    "Vdaf.C93_poplar1_report_unique"
   ],
   "note": "reports of honest Clients; for reports of malicious Clients see C82"
  },
  {
   "property": "C94",
   "status": "partial",
   "theorems": [
    "Vdaf.C94_keys",
    "Vdaf.C94_count",
    "Vdaf.C94_higher_degree",
    "Vdaf.C94_sum",
    "Vdaf.C94_sumvec",
    "Vdaf.C94_histogram",
    "Vdaf.C94_multihot",
    "Vdaf.C94_poplar1",
    "Vdaf.C94_multiproof_counterexample",
    "Vdaf.C94_multiproof_partial"
   ],
   "note": "proved for all classes but Prio3SumVecWithMultiproof, for which it is false: its field and its number of proofs are not in the test vector"
  },
  {
   "property": "C95",
   "status": "proved",
   "theorems": [
    "Vdaf.C95_sumvec",
    "Vdaf.C95_histogram",
    "Vdaf.C95_multihot",
    "Vdaf.C95_result"
   ],
   "note": "the gadget polynomials have to fit into the subgroup of roots of unity for both chunk lengths"
  },
  {
   "property": "C96",
   "status": "proved",
   "theorems": [
    "Vdaf.C96_children",
    "Vdaf.C96_descendants",
    "Vdaf.C96_independent",
    "Vdaf.C96_sum",
    "Vdaf.C96_total"
   ],
   "note": "for honest reports and batches smaller than the field; that it is false for dishonest Clients is C82"
  },
  {
   "property": "C97",
   "status": "proved",
   "theorems": [
    "Vdaf.C97_count",
    "Vdaf.C97_sum",
    "Vdaf.C97_sumvec",
    "Vdaf.C97_histogram",
    "Vdaf.C97_multihot"
   ],
   "note": "that an accepted report stands for a valid measurement is a hypothesis here; the probability that it does not is bounded by C84"
  },
  {
   "property": "C98",
   "status": "proved",
   "theorems": [
    "Vdaf.C98_vec_add",
    "Vdaf.C98_vec_sub",
    "Vdaf.C98_vec_neg",
    "Vdaf.C98_prio3_agg_update",
    "Vdaf.C98_prio3_merge",
    "Vdaf.C98_prio3_unshard",
    "Vdaf.C98_prio3_verifier_shares",
    "Vdaf.C98_poplar1_agg_update",
    "Vdaf.C98_poplar1_merge"
   ],
   "note": ""
  },
  {
   "property": "C99",
   "status": "proved",
   "theorems": [
    "Vdaf.C99_prove",
    "Vdaf.C99_prove_error",
    "Vdaf.C99_query",
    "Vdaf.C99_query_error",
    "Vdaf.C99_decide",
    "Vdaf.C99_library"
   ],
   "note": "for query the length of the proof has to be defined, as it is for every circuit of the library"
  }
 ]
}