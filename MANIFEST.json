{"claims": [
 {"property": "C01", "status": "proved", "theorems": ["Hodor.C01_domain", "Hodor.C01_points_distinct"], "note": ""},
 {"property": "C02", "status": "proved", "theorems": ["Hodor.C02_coset", "Hodor.C02_next"], "note": ""},
 {"property": "C03", "status": "proved", "theorems": ["Hodor.C03_chunks", "Hodor.C03_task_count", "Hodor.C03_any_schedule", "Hodor.C03_schedule_eq_parChunks"], "note": ""},
 {"property": "C04", "status": "proved", "theorems": ["Hodor.C04_serial_fft"], "note": ""},
 {"property": "C05", "status": "proved", "theorems": ["Hodor.C05_best_fft", "Hodor.C05_parallel_fft", "Hodor.C05_cpu_independent", "Hodor.C05_any_schedule"], "note": ""},
 {"property": "C06", "status": "proved", "theorems": ["Hodor.C06_fft", "Hodor.C06_ifft", "Hodor.C06_coset_fft", "Hodor.C06_icoset_fft", "Hodor.C06_coset_fft_for_generator", "Hodor.C06_constructors_valid"], "note": ""},
 {"property": "C07", "status": "proved", "theorems": ["Hodor.C07_serial_dit", "Hodor.C07_parallel_dit", "Hodor.C07_best_dit", "Hodor.C07_serial_radix4", "Hodor.C07_parallel_radix4", "Hodor.C07_best_radix4", "Hodor.C07_radix4_odd", "Hodor.C07_prefetch_fft"], "note": "Decimation-in-frequency (serial, parallel, best) for every size, worker and non-zero bound; radix-4 (serial, parallel, best) for every even log n, panic for odd log n; the nightly/prefetching best_fft equals the default on every input."},
 {"property": "C08", "status": "proved", "theorems": ["Hodor.C08_serial_lde", "Hodor.C08_parallel_lde", "Hodor.C08_best_lde", "Hodor.C08_filtering_lde", "Hodor.C08_coset_filtering_lde", "Hodor.C08_rest_ignored", "Hodor.C08_large_factor"], "note": "serial/parallel/best_lde and their prefetching variants for every size below 2^32, power-of-two factor and worker; filtering_lde and coset_filtering_lde are correct for every worker in both builds. C08_rest_ignored and C08_large_factor say what is returned for vectors that are not zero-padded."},
 {"property": "C09", "status": "partial", "theorems": ["Hodor.C09_lde_partial", "Hodor.C09_lde_naive", "Hodor.C09_lde_wrong", "Hodor.C09_lde_exact", "Hodor.C09_lde_correct_iff", "Hodor.C09_lde_codeword_iff"], "note": "False of the code when the size is at least 2, cpus >= 2 and factor >= 2*cpus (C09_lde_correct_iff is the exact condition, for each size, factor and worker); C09_lde_exact determines every returned value for every worker. C09_lde_codeword_iff: polynomial by polynomial, outside the good parameters only constants are extended correctly, and nothing else yields even some codeword of the right degree."},
 {"property": "C10", "status": "partial", "theorems": ["Hodor.C10_coset_lde_partial", "Hodor.C10_coset_lde_naive", "Hodor.C10_coset_lde_wrong", "Hodor.C10_coset_lde_exact", "Hodor.C10_coset_lde_correct_iff", "Hodor.C10_coset_lde_codeword_iff"], "note": "As C09: false exactly when the size is at least 2, cpus >= 2 and factor >= 2*cpus (C10_coset_lde_correct_iff); C10_coset_lde_exact determines every returned value; C10_coset_lde_codeword_iff: then only constants are extended correctly."},
 {"property": "C11", "status": "proved", "theorems": ["Hodor.C11_unary", "Hodor.C11_unary_values", "Hodor.C11_binary_values", "Hodor.C11_binary_values_mismatch", "Hodor.C11_coefficients", "Hodor.C11_substitution", "Hodor.C11_helpers", "Hodor.C11_degree_one"], "note": ""},
 {"property": "C12", "status": "proved", "theorems": ["Hodor.C12_evaluate_at", "Hodor.C12_consequitive_powers"], "note": ""},
 {"property": "C13", "status": "proved", "theorems": ["Hodor.C13_batch_inversion", "Hodor.C13_in_place"], "note": ""},
 {"property": "C14", "status": "partial", "theorems": ["Hodor.C14_from_roots_partial", "Hodor.C14_even_split", "Hodor.C14_from_roots_wrong", "Hodor.C14_from_roots_empty", "Hodor.C14_from_roots_exact", "Hodor.C14_from_roots_correct_iff"], "note": "False for some numbers of roots and workers; C14_from_roots_correct_iff is the exact condition for each number of roots and worker, C14_from_roots_exact determines the returned polynomial for every worker."},
 {"property": "C15", "status": "proved", "theorems": ["Hodor.C15_interpolate", "Hodor.C15_interpolate_repeated"], "note": ""},
 {"property": "C16", "status": "partial", "theorems": ["Hodor.C16_pad_by_factor", "Hodor.C16_pad_to_size", "Hodor.C16_pad_rejected_partial", "Hodor.C16_failed_pad_mutates", "Hodor.C16_failed_pad_to_size_mutates", "Hodor.C16_trim", "Hodor.C16_atomic_iff"], "note": "Atomicity on Err is false for an oversized target (C16_failed_pad_mutates, C16_failed_pad_to_size_mutates); C16_atomic_iff is the exact condition: a failed call leaves the polynomial unchanged exactly if the size or factor itself was refused."},
 {"property": "C17", "status": "proved", "theorems": ["Hodor.C17_precomputed"], "note": ""},
 {"property": "C18", "status": "proved", "theorems": ["Hodor.C18_merkle_complete", "Hodor.C18_root", "Hodor.C18_bad_sizes"], "note": ""},
 {"property": "C19", "status": "proved", "theorems": ["Hodor.C19_merkle_binding", "Hodor.C19_same_root"], "note": "binding up to an explicit collision among the strings actually hashed"},
 {"property": "C20", "status": "proved", "theorems": ["Hodor.C20_leaf_encoding"], "note": "fields of fewer than 256 bits (asserted by the code)"},
 {"property": "C21", "status": "partial", "theorems": ["Hodor.C21_challenge_valid_partial", "Hodor.C21_challenge_panics"], "note": "false when NUM_BITS mod 64 is 0 or 1 (C21_challenge_panics); proved otherwise"},
 {"property": "C22", "status": "partial", "theorems": ["Hodor.C22_transcript_binding_partial", "Hodor.C22_challenge_depends_on_history", "Hodor.C22_no_framing", "Hodor.C22_binding_iff", "Hodor.C22_challenge_unmarked"], "note": "Messages are not framed, so the full statement is false. Proved: binding for histories with the same message kinds and lengths; C22_binding_iff: with challenges drawn at the same byte positions, the hash input is the same exactly when the committed bytes are; C22_no_framing and C22_challenge_unmarked are the two ways different histories coincide."},
 {"property": "C23", "status": "proved", "theorems": ["Hodor.C23_challenge_index", "Hodor.C23_index_odd", "Hodor.C23_challenge_bytes_length"], "note": "In range and odd for every LDE factor; off the trace domain for every even factor (with factor 1 every position is on it)."},
 {"property": "C24", "status": "proved", "theorems": ["Hodor.C24_fri_by_values", "Hodor.C24_no_steps_panics", "Hodor.C24_single_point_panics"], "note": "All valid value vectors, factors, outputs, workers, hashes, at least one folding step; without a step, and with factor 1 and output 1, the prover panics (proved)."},
 {"property": "C25", "status": "partial", "theorems": ["Hodor.C25_provers_agree_partial", "Hodor.C25_coefficients_exact", "Hodor.C25_agree_iff", "Hodor.C25_any_word_iff"], "note": "False as stated: C25_agree_iff shows that the provers agree on all codewords exactly when the degree bound is 2, there is one CPU or the factor is below twice the CPUs. C25_coefficients_exact determines the coefficients prover's output for every word and worker; C25_any_word_iff says when they agree on words of any degree."},
 {"property": "C26", "status": "proved", "theorems": ["Hodor.C26_prototype_accepted"], "note": "Every odd index accepted for every output size; even indices return an error."},
 {"property": "C27", "status": "partial", "theorems": ["Hodor.C27_proof_accepted_partial", "Hodor.C27_output_rejected", "Hodor.C27_outcome", "Hodor.C27_last_check_count"], "note": "Proved for one final coefficient. For two or more the claim is false: proved that acceptance at all odd indices forces a constant last polynomial, and (C27_outcome) the exact answer of the verifier for every output size, index and expected value. C27_last_check_count: with non-constant final coefficients fewer than 2^o of the 2^(e+o-1) classes of positions pass."},
 {"property": "C28", "status": "proved", "theorems": ["Hodor.C28_accepted_chain", "Hodor.C28_committed"], "note": "For arbitrary accepted proofs: opened chain, and in terms of committed words up to an explicit hash collision."},
 {"property": "C29", "status": "partial", "theorems": ["Hodor.C29_any_word_accepted", "Hodor.C29_bad_challenge_unique", "Hodor.C29_low_degree_partial"], "note": "False as stated (any word accepted for any claimed bound). Proved: bound in terms of the proof's own rounds and coefficients, on odd positions, up to the unique bad challenge or a collision."},
 {"property": "C30", "status": "partial", "theorems": ["Hodor.C30_fri_panics_iff", "Hodor.C30_stark_panics_iff", "Hodor.C30_no_rounds_panics", "Hodor.C30_index_panics", "Hodor.C30_no_panic_partial", "Hodor.C30_stark_empty_roots_panics", "Hodor.C30_stark_no_openings_panics", "Hodor.C30_stark_no_panic_partial"], "note": "False as stated. Exactly characterised: FRI verification aborts iff Spec.FriAborts (no root, no opening, or position outside the claimed domain), and the whole verifier aborts iff a FRI root list is empty or everything before FRI passes and a FRI proof aborts; every other proof object gets an answer or an error. The instance is assumed Verifiable (registers exist, densities fit)."},
 {"property": "C31", "status": "partial", "theorems": ["Hodor.C31_univariate", "Hodor.C31_polyvariate", "Hodor.C31_constraint", "Hodor.C31_pow_partial", "Hodor.C31_pow_iff", "Hodor.C31_pow_wrong", "Hodor.C31_overflow"], "note": "Every builder operator denotes the intended expression except UnivariateTerm::pow, which leaves the coefficient unraised: C31_pow_wrong refutes the full statement; C31_pow_iff: it is right in every environment exactly when coeff^k = coeff. Overflow panics characterised."},
 {"property": "C32", "status": "proved", "theorems": ["Hodor.C32_degree_exact", "Hodor.C32_composition_degree"], "note": ""},
 {"property": "C33", "status": "proved", "theorems": ["Hodor.C33_is_satisfied_iff", "Hodor.C33_panics"], "note": ""},
 {"property": "C34", "status": "proved", "theorems": ["Hodor.C34_interpolates", "Hodor.C34_mismatch", "Hodor.C34_rows_not_power_of_two", "Hodor.C34_malformed"], "note": "Rows must be a power of two: any other matching row count panics (C34_rows_not_power_of_two), ragged or empty witnesses panic (C34_malformed)."},
 {"property": "C35", "status": "proved", "theorems": ["Hodor.C35_masks", "Hodor.C35_reads_trace"], "note": ""},
 {"property": "C36", "status": "partial", "theorems": ["Hodor.C36_shape", "Hodor.C36_renaming", "Hodor.C36_same_meaning", "Hodor.C36_num_registers_partial", "Hodor.C36_num_registers_iff", "Hodor.C36_num_registers_interface", "Hodor.C36_num_registers_wrong", "Hodor.C36_outcome", "Hodor.C36_aux_constant_panic", "Hodor.C36_history"], "note": "Renaming is injective and consistent and preserves satisfaction. C36_num_registers_interface: for every system built through the interface the reported register count matches the witness. The fields are public, and for a system filled in by hand the count matches exactly if there are no program counter, auxiliary and constant registers (C36_num_registers_iff; C36_num_registers_wrong shows that proving then fails). C36_outcome: conversion panics exactly if some register has no recorded value. C36_history: after any calls the instance has the constraints asked for, in the order of the calls."},
 {"property": "C37", "status": "proved", "theorems": ["Hodor.C37_fibonacci"], "note": ""},
 {"property": "C38", "status": "proved", "theorems": ["Hodor.C38_squaring_vdf", "Hodor.C38_proved"], "note": "Squaring VDF: witness satisfies, every satisfying trace is the iterated square in F[u]/(u^2+1), a claimed output is satisfiable iff true; C38_proved runs the whole pipeline."},
 {"property": "C39", "status": "proved", "theorems": ["Hodor.C39_cubic_vdf", "Hodor.C39_proved"], "note": "Cubic VDF: as C38 with iterated cubes."},
 {"property": "C40", "status": "proved", "theorems": ["Hodor.C40_prover_divisors", "Hodor.C40_verifier_divisor", "Hodor.C40_too_wide_panics", "Hodor.C40_excluded"], "note": "Prover coset table and verifier value equal 1/zerofier of the enforced rows, for row counts that need not be powers of two; equality with (x^T-1)/excluded; panics and division by zero characterised."},
 {"property": "C41", "status": "partial", "theorems": ["Hodor.C41_composition_partial", "Hodor.C41_accumulated_values", "Hodor.C41_two_densities_error", "Hodor.C41_two_densities_wrong", "Hodor.C45_two_densities_verdict", "Hodor.C45_many_densities_verdict"], "note": "True for a single density with power-of-two rows and maximal degree: prover polynomial = composition = verifier value. False with two densities (wrong accumulation of g_values), shown with a concrete instance and a general error formula. C45_two_densities_verdict: with two densities, for every satisfied instance, G agrees with the composition everywhere exactly if the quotients of the first density vanish identically or the weights of the second add up to -1, and at fewer than 2^(k+f) points otherwise. C45_many_densities_verdict: the same for any number of densities, the condition being that the accumulated excess vanishes on the coset on which G is computed."},
 {"property": "C42", "status": "proved", "theorems": ["Hodor.C42_quotient_iff", "Hodor.C42_boundary_iff"], "note": "Divisibility by the zerofier iff the constraint holds on all enforced rows; boundary version."},
 {"property": "C43", "status": "proved", "theorems": ["Hodor.C43_deep_matches_verifier", "Hodor.C43_bad_point"], "note": "The h1 and h2 words committed by the prover are the DEEP quotients the verifier recomputes at every position; a bad point gives an error."},
 {"property": "C44", "status": "proved", "theorems": ["Hodor.C44_same_challenges", "Hodor.C44_challenge_meaning"], "note": "For every instance, worker, parameters and witness: a successful prove implies that Verifier::new and the transcript replay succeed and yield the challenges the prover's run used (Spec.ProverUsed). C44_challenge_meaning adds, for suitable instances, what the committed words are in terms of these challenges."},
 {"property": "C45", "status": "partial", "theorems": ["Hodor.C45_complete_partial", "Hodor.C45_prove_ok_verify_ok_partial", "Hodor.C45_two_coefficients_rejected", "Hodor.C45_two_densities_rejected", "Hodor.C45_large_factor_rejected", "Hodor.C45_verdict", "Hodor.C45_two_densities_verdict", "Hodor.C45_several_coefficients", "Hodor.C45_many_densities_verdict"], "note": "Completeness holds for one density class, output degree one and an LDE factor below 2*cpus (or one cpu); outside these bounds the code rejects honest proofs, shown by the three rejected theorems. C45_verdict: for one density class, every LDE factor and output degree, an honest proof is accepted exactly if the last check of both FRI proofs passes. C45_two_densities_verdict and C45_several_coefficients: the exact verdict with two densities and with several final coefficients, and how rarely honest proofs pass then. C45_many_densities_verdict: the same for any number of densities, the condition being that the accumulated excess vanishes on the coset on which G is computed."},
 {"property": "C46", "status": "partial", "theorems": ["Hodor.C46_forgery", "Hodor.C46_forgery_any", "Hodor.C46_accepts_unsatisfiable", "Hodor.C46_claims_unbound", "Hodor.C46_shape_accepts_unsatisfiable", "Hodor.C46_soundness_partial", "Hodor.C46_sampled_soundness_partial", "Hodor.C46_query_error_partial", "Hodor.C46_mask_luck", "Hodor.C46_mask_luck_half", "Hodor.C46_interactive_complete", "Hodor.C46_small_factor_accepts", "Hodor.C46_honest_shape", "Hodor.C46_ideal_soundness_partial", "Hodor.C46_ideal_complete", "Hodor.C46_slack_vacuous"], "note": "The property is false of the code: C46_forgery shows that for every suitable instance and any witness table an attacker gets a proof accepted (FRI rounds, final coefficients and claimed sizes are not checked), C46_forgery_any proves the same for every instance a verifier can be built for, any words and any claimed values, C46_accepts_unsatisfiable exhibits an accepted proof of an unsatisfiable instance. Checking the shape would not be enough: C46_claims_unbound shows that the claimed values are free until the positions are known and then have to meet two equations only, C46_shape_accepts_unsatisfiable exhibits an accepted proof of an unsatisfiable instance with LDE factor 8 and FRI proofs of exactly the right shape. C46_soundness_partial proves soundness of the interactive protocol with the Merkle and FRI checks of the code, for every verifiable instance and any LDE factor above twice the slack: commitments of the right shape and an accepted answer for all odd positions imply a satisfying witness, luck with a challenge, or a hash collision among named strings. C46_sampled_soundness_partial strengthens this to answers for a share of the pairs of positions: more than all but E1+1 (E2+1) of the odd positions, up to half the distance; C46_query_error_partial is the resulting bound for unsatisfiable instances and C46_mask_luck, C46_mask_luck_half, C68_round_luck, C68_round_luck_half count the lucky challenges. Missing is Fiat-Shamir, which cannot be proved for the code as it is (it absorbs neither the claimed values nor the FRI roots, and does not check the shape). C46_interactive_complete shows its hypotheses are met for every satisfying witness. C46_honest_shape: the code's own proofs have one round too many, so the slack is 2; C46_small_factor_accepts: with LDE factors 2 and 4 everything is accepted even when the shape is checked. C46_ideal_soundness_partial / C46_ideal_complete / C46_slack_vacuous are the same with FRI and Merkle trees replaced by an ideal low-degree test."},
 {"property": "C47", "status": "proved", "theorems": ["Hodor.Fq2.C47_operations", "Hodor.Fq2.C47_inverse"], "note": "Every operation of Fq2 over the 252-bit field equals the operation of F[u]/(u^2-3); inverse is None exactly for zero (3 proved a non-square)."},
 {"property": "C48", "status": "partial", "theorems": ["Hodor.Fq2.C48_norm_partial", "Hodor.Fq2.C48_norm_not_multiplicative", "Hodor.Fq2.C48_legendre_wrong", "Hodor.Fq2.C48_legendre_not_multiplicative"], "note": "The property is false of the code: norm computes c0^2 + 3 c1^2. Exact characterisation proved (multiplicative on a pair iff one of the four coefficients is 0), counterexamples proved, and legendre rejects the square 7+4u."},
 {"property": "C49", "status": "proved", "theorems": ["Hodor.Fq2.C49_sqrt", "Hodor.Fq2.C49_xi", "Hodor.Fq2.C49_negation", "Hodor.Fq2.C49_chain_stops", "Hodor.Fq2.C49_constants"], "note": "For any base-field square root meeting its contract (external macro code)."},
 {"property": "C50", "status": "proved", "theorems": ["Hodor.C50_experiments_field", "Hodor.C50_bn256_field"], "note": "Primality by Lucas's criterion checked in the kernel."},
 {"property": "C51", "status": "partial", "theorems": ["Hodor.C51_vdf_experiments_partial", "Hodor.C51_cubic_experiments_partial", "Hodor.C51_vdf_verdict", "Hodor.C51_cubic_verdict"], "note": "The partial theorems: on one CPU or with fewer than 2*cpus as LDE factor; elsewhere the LDE defect of C09 applies. The verdict theorems: on every machine and for every LDE factor and output size, the proof is accepted exactly if the last check of both FRI proofs passes."},
 {"property": "C52", "status": "proved", "theorems": ["Hodor.C52_prototype_iff"], "note": "Full equivalence, for arbitrary prototypes."},
 {"property": "C53", "status": "proved", "theorems": ["Hodor.C53_recursive_fft", "Hodor.C53_recursive_lde", "Hodor.C53_length_one"], "note": "The modules are in the repository but commented out of src/fft/mod.rs."},
 {"property": "C54", "status": "proved", "theorems": ["Hodor.C54_verify_iff", "Hodor.C54_masks", "Hodor.C54_batches", "Hodor.C54_missing_claims", "Hodor.C54_outcome"], "note": "Both directions, several densities, no assumption on z; C54_outcome gives the exact outcome, also on rejection."},
 {"property": "C55", "status": "proved", "theorems": ["Hodor.C55_exact_schedule", "Hodor.C55_challenge_schedule", "Hodor.C55_malleable", "Hodor.C55_same_setup"], "note": "Exact schedule (which bytes are hashed for every challenge), functional dependence, malleability and agreement of the two sides."},
 {"property": "C56", "status": "proved", "theorems": ["Hodor.C56_identity", "Hodor.C56_diagonal", "Hodor.C56_diagonal_outside", "Hodor.C56_vector", "Hodor.C56_powers"], "note": "Against Mathlib's Kronecker product."},
 {"property": "C57", "status": "partial", "theorems": ["Hodor.C57_decompose_partial", "Hodor.C57_first_part_wrong", "Hodor.C57_panics"], "note": "False of the code: the first part's coset generator to its factor is the generator of the whole domain, not of the first sub-domain (exact condition s2 = 1 proved). Proved: orders of both generators, second part, unique enumeration of the large domain, exact panics."},
 {"property": "C58", "status": "partial", "theorems": ["Hodor.C58_digest_partial", "Hodor.C58_reuse_loses_personalization", "Hodor.C58_reuse_right_iff", "Hodor.C58_reuse_wrong"], "note": "False of the code after the first finalize, which drops the personalisation; first use proved, and exactly when reuse is right."},
 {"property": "C59", "status": "proved", "theorems": ["Hodor.C59_order", "Hodor.C59_sign"], "note": "Over the field of the experiment."},
 {"property": "C60", "status": "partial", "theorems": ["Hodor.C60_same_length_partial", "Hodor.C60_position_zero_partial", "Hodor.C60_equivocation"], "note": "False of the code for paths of different lengths: the path length is never checked. Determined exactly: paths of equal length bind at every position, position 0 binds for paths of any lengths, and for every other position there is a root that opens there to any two given values (with paths of different lengths, both in range)."},
 {"property": "C61", "status": "proved", "theorems": ["Hodor.C61_claimed_values", "Hodor.C61_openings"], "note": "Exact characterisation for claimed values; openings relative to equal path lengths (see C60)."},
 {"property": "C62", "status": "partial", "theorems": ["Hodor.C62_never_returns_iff", "Hodor.C62_debug_returns", "Hodor.C62_word_outcome", "Hodor.C62_verify_returns_partial", "Hodor.C62_never_returns", "Hodor.C62_one_header", "Hodor.C62_domain_outcome", "Hodor.C62_fri_outcome", "Hodor.C62_prototype_outcome", "Hodor.C62_release_verdict", "Hodor.C62_alias"], "note": "False of the code: replacing two header words of any accepted proof makes a release build loop forever and a debug build panic (C62_never_returns, C62_one_header). Exactly characterised: the outcome of domain creation and of FRI verification with 64-bit words in both profiles, when the whole verifier never returns in release (C62_never_returns_iff) and panics in debug (C62_debug_returns); it returns the model's verdict when the claimed sizes are at most 2^63, and release builds only see the sizes modulo 2^64."},
 {"property": "C63", "status": "proved", "theorems": ["Hodor.C63_commitment_equality"], "note": "Up to an exhibited collision."},
 {"property": "C64", "status": "proved", "theorems": ["Hodor.C64_prove_total", "Hodor.C64_accepted_iff", "Hodor.C64_all_or_few", "Hodor.C64_violating_needs_luck", "Hodor.C64_accepted_any_worker", "Hodor.C64_violating_needs_luck_any_worker"], "note": "For power-of-two row counts and maximal degree, parameters as in C45 except for the output size. The _any_worker theorems need no bound on the LDE factor. C64_violating_needs_luck assumes declared degrees are not too small, densities that leave room for the rows read, and boundary rows inside the table."},
 {"property": "C65", "status": "partial", "theorems": ["Hodor.C65_prove_no_panic_partial", "Hodor.C65_outcome", "Hodor.C65_rows_panics", "Hodor.C65_degree_panics", "Hodor.C65_no_proof", "Hodor.C65_satisfied_but_panics", "Hodor.C65_proof_needs", "Hodor.C65_outcome_any", "Hodor.C65_exact"], "note": "False of the code. Proved: on a runnable instance (row count and largest degree powers of two) prove never panics with fewer final FRI coefficients than rows, on any machine, with any table; C65_outcome gives the exact outcome: SynthesisError::Error iff the opening point lies in the evaluation domain of the combined polynomial, otherwise a proof, or a panic with too many final coefficients; it panics on every table when the row count is not a power of two, or the largest declared degree is not and some constraint has a term; both panics occur with satisfying witnesses. C65_proof_needs and C65_exact are the converse: a returned proof forces power-of-two rows, factor and number of final coefficients, fewer final coefficients than rows and an existing domain, and on runnable instances these, not both factor and final coefficients equal to one, and the position of the opening point decide exactly whether a proof is returned."},
 {"property": "C66", "status": "proved", "theorems": ["Hodor.C66_outcome", "Hodor.C66_no_gap", "Hodor.C66_reads_trace"], "note": "Exact outcome of the conversion for every table and CPU count (values, error, panic), and the value of every routed constraint. The panic for some non-power-of-two row counts on several CPUs is part of the proved outcome."},
 {"property": "C67", "status": "proved", "theorems": ["Hodor.C67_quotients", "Hodor.C67_in_domain", "Hodor.C67_panics"], "note": "Positive theorem under the LDE/from_roots condition of C09/C14 on the CPU count; error and panic cases separately."},
 {"property": "C68", "status": "proved", "theorems": ["Hodor.C68_lucky_few", "Hodor.C68_lucky_few_half", "Hodor.C68_agreement", "Hodor.C68_round_luck", "Hodor.C68_round_luck_half", "Hodor.C68_far_rejected"], "note": "Up to half the distance (2E + bound at most the number of odd positions), with a sharper count of the bad challenges up to a third of it; odd positions are the only ones the code queries (C23). C68_lucky_few, C68_lucky_few_half, C68_round_luck and C68_round_luck_half count the bad challenges, C68_agreement and C68_far_rejected the positions. The shape of the run is a hypothesis, since the code does not check it (C30, C46_forgery)."},
 {"property": "C69", "status": "proved", "theorems": ["Hodor.C69_accepted_verifiable", "Hodor.C69_accepted_iff", "Hodor.C69_proved_runnable", "Hodor.C69_prover_dense", "Hodor.C69_satisfied_iff", "Hodor.C69_not_dense", "Hodor.C69_density_new", "Hodor.C69_density_default"], "note": "For all instances: acceptance and a returned proof imply Verifiable (resp. Runnable), the witness check is characterised exactly without any well-formedness assumption, and instances with repeated or sparse constraints get no positive answer."},
 {"property": "C70", "status": "partial", "theorems": ["Hodor.C70_coefficients", "Hodor.C70_values", "Hodor.C70_mul_add", "Hodor.C70_degree_one", "Hodor.C70_lde_factor", "Hodor.C70_fft_length", "Hodor.C70_length_truncated", "Hodor.C70_other_kernels", "Hodor.C70_lde_length_partial", "Hodor.C70_lde_short_accepted", "Hodor.C70_lde_short_exact", "Hodor.C70_cosets", "Hodor.C70_challenge_index", "Hodor.C70_challenge_value", "Hodor.C70_transcript_new", "Hodor.C70_query_index", "Hodor.C70_tensor", "Hodor.C70_tracing", "Hodor.C70_witness_count", "Hodor.C70_fri_provers", "Hodor.C70_produce_proof", "Hodor.C70_verify_queries"], "note": "All listed calls; the full statement is false of the code in two places, both shown: the parallel path of best_lde has no length check and transforms a vector that is too short (C70_lde_short_accepted; C70_lde_short_exact determines the result; too long ones are refused), and serial_fft compares lengths modulo 2^32 (C70_length_truncated)."},
 {"property": "C71", "status": "proved", "theorems": ["Hodor.C71_prints_iff", "Hodor.C71_text_determines", "Hodor.C71_built_plain", "Hodor.C71_inner_hidden", "Hodor.C71_message_determines", "Hodor.C71_message_row", "Hodor.C71_routed_panics", "Hodor.C71_same_outcome", "Hodor.C71_first_violation"], "note": "Printing, unique readability (for constraints whose products have inner coefficients 1, which is what the builder makes: C71_built_plain; C71_inner_hidden shows the hypothesis is needed for hand-made ones), exact panic condition, first violation reported, same outcome as the check without texts."},
 {"property": "C72", "status": "proved", "theorems": ["Hodor.C72_refines", "Hodor.C72_debug", "Hodor.C72_release_satisfied", "Hodor.C72_negative_steps", "Hodor.C72_release_large_span", "Hodor.C72_release_divisor", "Hodor.C72_release_degree", "Hodor.C72_profiles_differ"], "note": "Words of 64 bits and both build profiles for the constraint builder, the witness check and the divisors."},
 {"property": "C73", "status": "proved", "theorems": ["Hodor.C73_shape", "Hodor.C73_size"], "note": "Exact shape and counts of every returned proof, on any machine."},
 {"property": "C74", "status": "proved", "theorems": ["Hodor.C74_same_proof", "Hodor.C74_machines_differ"], "note": "Same result on all machines in the good range; outside it the register commitments agree only for constant columns, up to collisions."},
 {"property": "C75", "status": "proved", "theorems": ["Hodor.C75_challenge_uniform", "Hodor.C75_never_drawn", "Hodor.C75_challenge_hits", "Hodor.C75_index_uniform", "Hodor.C75_index_hits", "Hodor.C75_pair_hits", "Hodor.C75_luck", "Hodor.C75_round_luck", "Hodor.C75_round_luck_half", "Hodor.C75_far_rejected", "Hodor.C75_query_error"], "note": "Counting over all digests; the fields are those of C21 for which challenge derivation cannot panic, with the modulus as characteristic (shown for both fields of the code)."},
 {"property": "C76", "status": "proved", "theorems": ["Hodor.C76_any_schedule", "Hodor.C76_returns", "Hodor.C76_chunks", "Hodor.C76_parallel_fft"], "note": "Tasks own their state (the crate has no unsafe code); the one use of a channel is covered by C12's relation over arrival orders."},
 {"property": "C77", "status": "proved", "theorems": ["Hodor.C77_any_proof", "Hodor.C77_honest", "Hodor.C77_padding"], "note": "C77_any_proof: the instrumented verifier returns what verify returns, and its hash calls and field operations are bounded for every proof, the hash calls exact for accepted ones; C77_honest: the counts for proofs returned by prove, in closed form; C77_padding: the lower bound, verification is linear in the rows which a density leaves out"},
 {"property": "C78", "status": "proved", "theorems": ["Hodor.C78_debug_verdict", "Hodor.C78_setup", "Hodor.C78_verify", "Hodor.C78_setup_overflow", "Hodor.C78_release_span", "Hodor.C78_profiles_differ"], "note": "C78_debug_verdict: what a debug build returns is the outcome of the model and of a release build; C78_setup, C78_verify: when the sizes fit, both builds return it; C78_setup_overflow, C78_release_span, C78_profiles_differ: what the two builds do outside that range"},
 {"property": "C79", "status": "proved", "theorems": ["Hodor.C79_instances_iff", "Hodor.C79_values_iff", "Hodor.C79_change", "Hodor.C79_count", "Hodor.C79_false_statement"], "note": "C79_instances_iff: two instances of the same shape; C79_values_iff, C79_change, C79_count: other boundary values, the exact condition and the number of statements; C79_false_statement: an honest proof accepted for a statement which no trace satisfies"},
 {"property": "C80", "status": "proved", "theorems": ["Hodor.C80_any_proof", "Hodor.C80_honest"], "note": "Exact number of hash calls of every successful run, from the proof (any instance, options, witness, CPUs) and in closed form for runnable instances. Field operations of the prover are not counted here."},
 {"property": "C81", "status": "proved", "theorems": ["Hodor.C81_serial", "Hodor.C81_parallel", "Hodor.C81_task_bound", "Hodor.C81_best"], "note": "exact counts of field operations; copies, swaps and index arithmetic are not counted"},
 {"property": "C82", "status": "proved", "theorems": ["Hodor.C82_shown", "Hodor.C82_hidden", "Hodor.C82_neighbour", "Hodor.C82_factor_one", "Hodor.C82_guess"], "note": "Any worker, instance, witness, parameters; C82_shown and C82_hidden for an LDE factor of at least 2, C82_factor_one for factor 1, where the openings are cells of one row. The count concerns the values shown for one register (claimed values and opening); values mixed from several registers are outside it. Assumes z nonzero for the count."},
 {"property": "C83", "status": "proved", "theorems": ["Hodor.C83_setup", "Hodor.C83_lower", "Hodor.C83_padding", "Hodor.C83_no_padding", "Hodor.C83_upper"], "note": "Exact count for every successful setup (any instance, options, CPUs), lower bound (padding makes it quadratic) and upper bound; copies, comparisons and index arithmetic are not counted"},
 {"property": "C84", "status": "proved", "theorems": ["Hodor.C84_same", "Hodor.C84_hint", "Hodor.C84_prove", "Hodor.C84_oblivious", "Hodor.C84_upper"], "note": "Exact count for every proof of a runnable instance (row count and largest degree powers of two), whatever the CPUs, witness and hash function; the count is independent of the witness; C84_upper bounds it by passes times a quasi-linear cost of one pass. Cost of a failing or panicking run is not stated."},
 {"property": "C85", "status": "proved", "theorems": ["Hodor.C85_fri", "Hodor.C85_same_outcome", "Hodor.C85_roots_only_positions", "Hodor.C85_never_unique"], "note": "The outcome, including errors and panics, for all pairs of proofs that agree in the read parts; the lists of FRI roots influence only the positions; accepted proofs are never unique. Examples: every unread part changed (accepted), each read part changed on its own (rejected)."},
 {"property": "C86", "status": "proved", "theorems": ["Hodor.C86_soundness_error", "Hodor.C86_complete"], "note": "Challenges and positions are drawn, not derived by Fiat-Shamir (for which the statement is false, C46_forgery, C46_claims_unbound), and the shape of the FRI runs is required. Collisions are those among the strings hashed for the commitments and for the answers over all positions the prover passes with. C86_complete is the converse."},
 {"property": "C87", "status": "proved", "theorems": ["Hodor.C87_squaring_shortcut", "Hodor.C87_cubic_shortcut", "Hodor.C87_not_a_field"], "note": "Every number of operations and start value, every field with two-adicity at least 2. The shortcut is a program of the specification; the theorem equates its result with the only output for which the returned instance can be satisfied, and bounds its multiplications."},
 {"property": "C88", "status": "proved", "theorems": ["Hodor.C88_soundness_floor"], "note": "Every verifiable instance with at least two rows, every LDE factor, hash function and nonempty set of challenges. The strategy is constructed; the bound is met by each of its draws with a point out of the domain and a position among those interpolated."},
 {"property": "C89", "status": "partial", "theorems": ["Hodor.C89_conversion", "Hodor.C89_traced_program_partial", "Hodor.C89_fibonacci_witness", "Hodor.C89_fibonacci_no_target", "Hodor.C89_fibonacci_proved_partial", "Hodor.C89_fibonacci_wrong"], "note": "Proved for every program built through the interface, with the conditions of C45 on the instance and the parameters (one density, an out-of-domain point outside the domain, no LDE factor that runs into C09); outside of them the claim is false of the code (C45_two_densities_rejected, C45_large_factor_rejected). The conversion, the witnesses of the Fibonacci instance and the verdict on wrong tables are proved without these conditions. Without a target the Fibonacci program states no start values (C89_fibonacci_no_target)."},
 {"property": "C90", "status": "proved", "theorems": ["Hodor.C90_digests", "Hodor.C90_soundness_error", "Hodor.C90_soundness_floor", "Hodor.C90_point_in_domain"], "note": "Draws of digests have exactly the distribution the game of C86 assumes; the bounds of C86 and C88 with 2^CAPACITY challenges."},
 {"property": "C91", "status": "proved", "theorems": ["Hodor.C91_refused", "Hodor.C91_complete", "Hodor.C91_false_witness", "Hodor.C91_false_witness_three", "Hodor.C91_challenges", "Hodor.C91_fibonacci_stark", "Hodor.C91_fibonacci_stark_complete", "Hodor.C91_squaring_vdf", "Hodor.C91_squaring_vdf_complete", "Hodor.C91_cubic_vdf", "Hodor.C91_cubic_vdf_complete"], "note": "The hash function is drawn uniformly among all functions on strings up to the transcript length; exact runs of the code's own prover and verifier, for every runnable instance and for the Fibonacci and VDF programs."},
 {"property": "C92", "status": "proved", "theorems": ["Hodor.C92_debug_outcome", "Hodor.C92_debug_ends", "Hodor.C92_setup", "Hodor.C92_prove", "Hodor.C92_verdict", "Hodor.C92_round_trip", "Hodor.C92_setup_overflow", "Hodor.C92_release_span", "Hodor.C92_release_wide_span", "Hodor.C92_builds_differ"], "note": "C92_debug_outcome, C92_debug_ends: a debug build ends, with a panic or with the outcome of the model, which a release build then has too; C92_setup, C92_prove, C92_verdict: when the sizes fit, both builds have the outcome of the model (a release build unless that is a panic); C92_round_trip: a proof of either build is accepted by either build; C92_setup_overflow, C92_release_span, C92_release_wide_span (whole runs of prover and verifier), C92_builds_differ: what the two builds do outside that range"}
]}
