# Axioms per theorem

Output of `#print axioms` for every theorem named in `MANIFEST.json` (`tools/axioms.py`).

| theorem | axioms |
|---|---|
| C01_params_accepted | propext, Classical.choice, Quot.sound |
| C01_params_rejected | propext, Classical.choice, Quot.sound |
| C02_lagrange_value | propext, Classical.choice, Quot.sound |
| C02_lagrange_order | propext, Classical.choice, Quot.sound |
| C03_interpolation | propext, Classical.choice, Quot.sound |
| C04_lagrange_rejects_partial | propext, Classical.choice, Quot.sound |
| C04_foreign_index_accepted | propext, Classical.choice, Quot.sound |
| C04_zero_index_accepted | propext, Classical.choice, Quot.sound |
| C04_documented_rejection_fails | propext, Classical.choice, Quot.sound |
| C05_share_value | propext, Classical.choice, Quot.sound |
| C06_evaluate_hiding | propext, Classical.choice, Quot.sound |
| C06_evaluate_hiding_commitment | propext, Classical.choice, Quot.sound |
| C07_feldman_iff | propext, Classical.choice, Quot.sound |
| C07_feldman_unique | propext, Classical.choice, Quot.sound |
| C08_encrypt_decrypt | propext, Quot.sound |
| C09_both_ends | propext, Classical.choice, Quot.sound |
| C10_secrecy_bijection | propext, Classical.choice, Quot.sound |
| C10_secrecy | propext, Classical.choice, Quot.sound |
| C10_secrecy_unique | propext, Classical.choice, Quot.sound |
| C11_shares_determine | propext, Classical.choice, Quot.sound |
| C12_honest_proofs_verify | propext, Classical.choice, Quot.sound |
| C13_verify_iff | propext, Classical.choice, Quot.sound |
| C13_special_soundness | propext, Classical.choice, Quot.sound |
| C14_simulated_accepted | propext, Classical.choice, Quot.sound |
| C14_transcripts_equal | propext, Quot.sound |
| C14_prove_transcript | propext, Classical.choice, Quot.sound |
| C15_message_injective | propext, Classical.choice, Quot.sound |
| C15_proof_reuse_is_collision | propext, Classical.choice, Quot.sound |
| C16_new_dealer_zero | propext, Classical.choice, Quot.sound |
| C16_new_dealer | propext, Classical.choice, Quot.sound |
| C16_index_zero_iff | propext, Classical.choice, Quot.sound |
| C16_zero_threshold_panics | propext, Classical.choice, Quot.sound |
| C17_new_signer_zero | propext, Classical.choice, Quot.sound |
| C17_new_signer | propext, Classical.choice, Quot.sound |
| C17_index_zero_iff | propext, Classical.choice, Quot.sound |
| C18_honest_accepted | propext, Classical.choice, Quot.sound |
| C19_bootstrap | propext, Classical.choice, Quot.sound |
| C19_new | propext, Classical.choice, Quot.sound |
| C19_reshare | propext, Classical.choice, Quot.sound |
| C20_bootstrap_classifies | propext, Classical.choice, Quot.sound |
| C20_new_classifies | propext, Classical.choice, Quot.sound |
| C21_aborts_iff | propext, Classical.choice, Quot.sound |
| C22_no_panic_partial | propext, Classical.choice, Quot.sound |
| C22_missing_proof_panics | propext, Classical.choice, Quot.sound |
| C22_attack | propext, Classical.choice, Quot.sound |
| C23_no_secret_dealt_partial | propext, Classical.choice, Quot.sound |
| C23_index_zero_receives_secret | propext, Classical.choice, Quot.sound |
| C23_index_zero_is_valid | propext, Classical.choice, Quot.sound |
| C24_receivers_partial | propext, Classical.choice, Quot.sound |
| C24_misbehaving_receives_share | propext, Classical.choice, Quot.sound |
| C25_dealt_shares | propext, Classical.choice, Quot.sound |
| C26_new_checks_partial | propext, Classical.choice, Quot.sound |
| C26_any_degree_accepted | propext, Classical.choice, Quot.sound |
| C27_honest_no_complaint | propext, Classical.choice, Quot.sound |
| C28_complaints | propext, Classical.choice, Quot.sound |
| C29_missing_shares | propext, Classical.choice, Quot.sound |
| C29_foreign_share | propext, Classical.choice, Quot.sound |
| C30_aborts_iff_partial | propext, Classical.choice, Quot.sound |
| C30_bound | propext, Classical.choice, Quot.sound |
| C30_overflow | propext, Classical.choice, Quot.sound |
| C31_last_share | propext, Classical.choice, Quot.sound |
| C31_stored_iff | propext, Classical.choice, Quot.sound |
| C31_stored_share_partial | propext, Classical.choice, Quot.sound |
| C31_release_misaddressed | propext, Classical.choice, Quot.sound |
| C32_all_shares_partial | propext, Classical.choice, Quot.sound |
| C32_missing_share_accepted | propext, Classical.choice, Quot.sound |
| C33_finish_consistent | propext, Classical.choice, Quot.sound |
| C34_same_group_key | propext, Classical.choice, Quot.sound |
| C34_group_key_value | propext, Classical.choice, Quot.sound |
| C35_keys_interpolate | propext, Classical.choice, Quot.sound |
| C36_honest_dkg | propext, Classical.choice, Quot.sound |
| C37_finish_without_dealers | propext, Classical.choice, Quot.sound |
| C37_own_complaints_partial | propext, Classical.choice, Quot.sound |
| C38_generate_perm | propext, Classical.choice, Quot.sound |
| C38_verify_table | propext, Classical.choice, Quot.sound |
| C38_verify_perm | propext, Classical.choice, Quot.sound |
| C38_verify_iff_generated | propext, Classical.choice, Quot.sound |
| C38_generated_value | propext, Classical.choice, Quot.sound |
| C39_justified_complaint | propext, Classical.choice, Quot.sound |
| C39_justified_list | propext, Classical.choice, Quot.sound |
| C39_removed_in_any_list | propext, Classical.choice, Quot.sound |
| C40_unjustified_complaint | propext, Classical.choice, Quot.sound |
| C40_accused_stays | propext, Classical.choice, Quot.sound |
| C41_set_only | propext, Classical.choice, Quot.sound |
| C41_perm | propext, Classical.choice, Quot.sound |
| C42_agreement | propext, Classical.choice, Quot.sound |
| C43_late_index_partial | propext, Classical.choice, Quot.sound |
| C43_maker_removed | propext, Classical.choice, Quot.sound |
| C43_reachable | propext, Classical.choice, Quot.sound |
| C44_sequential_partial | propext, Classical.choice, Quot.sound |
| C44_repeated_call | propext, Classical.choice, Quot.sound |
| C44_two_calls | propext, Classical.choice, Quot.sound |
| C45_bogus_accusation | propext, Classical.choice, Quot.sound |
| C45_framed_by_outsider | propext, Classical.choice, Quot.sound |
| C45_framed_always | propext, Classical.choice, Quot.sound |
| C45_honest_dealer_partial | propext, Classical.choice, Quot.sound |
| C46_index_confusion | propext, Classical.choice, Quot.sound |
| C46_rejected_removes | propext, Classical.choice, Quot.sound |
| C46_disjoint_partial | propext, Classical.choice, Quot.sound |
| C47_complaint_complete | propext, Classical.choice, Quot.sound |
| C47_new_verifies | propext, Classical.choice, Quot.sound |
| C48_verify_iff | propext, Classical.choice, Quot.sound |
| C48_special_sound | propext, Classical.choice, Quot.sound |
| C48_wrong_key_one_challenge | propext, Classical.choice, Quot.sound |
| C49_reshare_succeeds | propext, Classical.choice, Quot.sound |
| C49_reshare_preserves | propext, Classical.choice, Quot.sound |
| C49_any_receivers | propext, Classical.choice, Quot.sound |
| C50_chain | propext, Classical.choice, Quot.sound |
| C50_from_dkg | propext, Classical.choice, Quot.sound |
| C51_single_key | propext, Classical.choice, Quot.sound |
| C52_published | propext, Classical.choice, Quot.sound |
| C52_nonces | propext, Classical.choice, Quot.sound |
| C52_nodup | propext, Classical.choice, Quot.sound |
| C53_drop_share | propext, Quot.sound |
| C53_count | propext, Quot.sound |
| C54_used_once | propext, Classical.choice, Quot.sound |
| C54_never_reused | propext, Classical.choice, Quot.sound |
| C54_count | propext, Classical.choice, Quot.sound |
| C55_failure_consumes_nothing | propext, Classical.choice, Quot.sound |
| C55_success_consumes_one | propext, Classical.choice, Quot.sound |
| C55_missing_iff_partial | propext, Classical.choice, Quot.sound |
| C55_max_position_panics | propext, Classical.choice, Quot.sound |
| C55_success_iff | propext, Classical.choice, Quot.sound |
| C56_share_equation | propext, Classical.choice, Quot.sound |
| C56_unique | propext, Classical.choice, Quot.sound |
| C57_sorted | propext, Classical.choice, Quot.sound |
| C57_first_inclusion | propext, Classical.choice, Quot.sound |
| C57_frame | propext, Classical.choice, Quot.sound |
| C58_signers_order | propext, Classical.choice, Quot.sound |
| C58_order | propext, Classical.choice, Quot.sound |
| C58_permuted | propext, Classical.choice, Quot.sound |
| C59_finalize | propext, Classical.choice, Quot.sound |
| C59_finalize_within_bound | propext, Classical.choice, Quot.sound |
| C60_upper_bound_partial | propext, Classical.choice, Quot.sound |
| C60_below_threshold_accepted | propext, Classical.choice, Quot.sound |
| C61_rejected_iff | propext, Classical.choice, Quot.sound |
| C61_rejected_unchanged_partial | propext, Classical.choice, Quot.sound |
| C61_rejected_poisons | propext, Classical.choice, Quot.sound |
| C62_consistent_partial | propext, Classical.choice, Quot.sound |
| C62_mixed | propext, Classical.choice, Quot.sound |
| C62_first_share_last_key | propext, Classical.choice, Quot.sound |
| C63_aggregate_valid | propext, Classical.choice, Quot.sound |
| C63_session_valid | propext, Classical.choice, Quot.sound |
| C63_verify_iff | propext, Classical.choice, Quot.sound |
| C63_not_malleable | propext, Classical.choice, Quot.sound |
| C64_honest_signing | propext, Classical.choice, Quot.sound |
| C64_documented_flow | propext, Classical.choice, Quot.sound |
| C64_dkg_to_signature | propext, Classical.choice, Quot.sound |
| C65_exact | propext, Classical.choice, Quot.sound |
| C65_honest_not_blamed | propext, Classical.choice, Quot.sound |
| C65_zero_index_hides | propext, Classical.choice, Quot.sound |
| C66_culprit_found | propext, Classical.choice, Quot.sound |
| C66_fails_with_culprit_partial | propext, Classical.choice, Quot.sound |
| C66_empty_report | propext, Classical.choice, Quot.sound |
| C66_zero_index_no_report | propext, Classical.choice, Quot.sound |
| C66_deviators_reported | propext, Classical.choice, Quot.sound |
| C67_aggregate_no_panic_partial | propext, Classical.choice, Quot.sound |
| C67_aggregate_empty_panics | propext, Classical.choice, Quot.sound |
| C67_hash_output | propext, Quot.sound |
| C67_sign_no_panic_partial | propext, Classical.choice, Quot.sound |
| C67_sign_empty_panics | propext, Classical.choice, Quot.sound |
| C68_outsider | propext, Classical.choice, Quot.sound |
| C68_last_wins | propext, Classical.choice, Quot.sound |
| C69_list_injective | propext, Classical.choice, Quot.sound |
| C69_input_determines | propext, Classical.choice, Quot.sound |
| C69_factor_binds | propext, Classical.choice, Quot.sound |
| C70_challenge_input_injective | propext, Quot.sound |
| C70_challenge_binds | propext, Classical.choice, Quot.sound |
| C70_signature_reuse | propext, Classical.choice, Quot.sound |
| C70_complaint_injective | propext, Classical.choice, Quot.sound |
| C70_complaint_binds | propext, Classical.choice, Quot.sound |
| C71_tags_distinct | propext, Classical.choice, Quot.sound |
| C71_tags_used | propext, Classical.choice, Quot.sound |
| C71_digests_separated | propext, Classical.choice, Quot.sound |
| C72_params | propext, Classical.choice, Quot.sound |
| C72_secret_share | propext, Classical.choice, Quot.sound |
| C72_coefficients | propext, Classical.choice, Quot.sound |
| C72_encrypted_share | propext, Classical.choice, Quot.sound |
| C72_vss | propext, Classical.choice, Quot.sound |
| C72_nizk | propext, Quot.sound |
| C72_complaint_proof | propext, Quot.sound |
| C72_complaint | propext, Classical.choice, Quot.sound |
| C72_participant | propext, Classical.choice, Quot.sound |
| C72_dh_private_key | propext, Quot.sound |
| C72_public_key | propext, Quot.sound |
| C72_verifying_key | propext, Classical.choice, Quot.sound |
| C72_signing_key | propext, Classical.choice, Quot.sound |
| C72_round_one | propext, Classical.choice, Quot.sound |
| C72_round_two | propext, Classical.choice, Quot.sound |
| C72_participant_list | propext, Classical.choice, Quot.sound |
| C72_commitment | propext, Quot.sound |
| C72_commitment_share | propext, Quot.sound |
| C72_secret_list | propext, Classical.choice, Quot.sound |
| C72_public_list | propext, Classical.choice, Quot.sound |
| C72_signer | propext, Classical.choice, Quot.sound |
| C72_partial_signature | propext, Classical.choice, Quot.sound |
| C72_signature | propext, Quot.sound |
| C73_prefix_free | propext, Classical.choice, Quot.sound |
| C73_encrypted_share | propext, Classical.choice, Quot.sound |
| C74_canonical_partial | propext, Quot.sound |
| C74_encrypted_share_partial | propext, Quot.sound |
| C74_trailing_accepted | propext, Quot.sound |
| C74_map_order_accepted | propext, Classical.choice, Quot.sound |
| C74_state_two_encodings | propext, Classical.choice, Quot.sound |
| C74_state_stable_partial | propext, Classical.choice, Quot.sound |
| C75_no_session_partial | propext, Classical.choice, Quot.sound |
| C75_unsound | propext, Classical.choice, Quot.sound |
| C75_zero_threshold_panics | propext, Classical.choice, Quot.sound |
| C75_reads_partial | propext, Classical.choice, Quot.sound |
| C76_nonce_size | propext, Quot.sound |
| C76_wrong_nonce_rejected | propext, Classical.choice, Quot.sound |
| C77_crashes_invisible | propext, Classical.choice, Quot.sound |
| C77_states_fit | propext, Classical.choice, Quot.sound |
| C78_interchangeable | propext, Classical.choice, Quot.sound |
| C78_cannot_finish_partial | propext, Classical.choice, Quot.sound |
| C79_shares_erased | propext, Classical.choice, Quot.sound |
| C79_unchanged_on_error | propext, Classical.choice, Quot.sound |
| C80_robust_dkg | propext, Classical.choice, Quot.sound |
| C80_honest_majority | propext, Classical.choice, Quot.sound |
| C81_preserved_iff | propext, Classical.choice, Quot.sound |
| C81_robust_reshare_partial | propext, Classical.choice, Quot.sound |
| C81_wrong_share_changes_key | propext, Classical.choice, Quot.sound |
| C82_label_unchecked | propext, Classical.choice, Quot.sound |
| C82_derivation_blocked | propext, Classical.choice, Quot.sound |
| C82_labelled_partial | propext, Classical.choice, Quot.sound |
| C83_is_schnorr | propext, Classical.choice, Quot.sound |
| C84_accepted_is_schnorr | propext, Classical.choice, Quot.sound |
| C84_special_sound | propext, Classical.choice, Quot.sound |
| C85_three_uses | propext, Classical.choice, Quot.sound |
| C85_two_uses | propext, Classical.choice, Quot.sound |
| C85_same_inputs | propext, Classical.choice, Quot.sound |
| C86_group_secrecy | propext, Classical.choice, Quot.sound |
| C87_group_key_bijective | propext, Classical.choice, Quot.sound |
| C88_nonce | propext, Classical.choice, Quot.sound |
| C88_list | propext, Classical.choice, Quot.sound |
| C88_nonce_binds | propext, Classical.choice, Quot.sound |
| C89_bootstrap_order | propext, Classical.choice, Quot.sound |
| C89_new_order | propext, Classical.choice, Quot.sound |
| C89_round_two_order | propext, Classical.choice, Quot.sound |
| C90_last_record | propext, Classical.choice, Quot.sound |
| C90_on_file_partial | propext, Classical.choice, Quot.sound |
| C90_duplicate_accepted | propext, Classical.choice, Quot.sound |
| C91_signer_order | propext, Classical.choice, Quot.sound |
| C91_fieldwise_eq | propext, Quot.sound |
| C91_participant_order_partial | propext, Classical.choice, Quot.sound |
| C91_participant_incomparable | propext, Classical.choice, Quot.sound |
| C92_attempt | propext, Classical.choice, Quot.sound |
| C92_retry_succeeds | propext, Classical.choice, Quot.sound |
| C93_distinct_dealers_partial | propext, Classical.choice, Quot.sound |
| C93_copies_accepted | propext, Classical.choice, Quot.sound |
| C94_erased_keys | propext, Quot.sound |
| C94_erased | propext, Quot.sound |
| C94_shares_consumed | propext, Classical.choice, Quot.sound |
| C95_round_one_sound | propext, Classical.choice, Quot.sound |
| C95_round_two_sound | propext, Classical.choice, Quot.sound |
| C95_blame_total | propext, Classical.choice, Quot.sound |
| C95_finish_no_panic | propext, Classical.choice, Quot.sound |
| C95_finish_ok_iff | propext, Classical.choice, Quot.sound |
| C95_finish_total | propext, Classical.choice, Quot.sound |
| C95_to_round_two_no_panic_release | propext, Classical.choice, Quot.sound |
| C95_to_round_two_no_panic_debug | propext, Classical.choice, Quot.sound |
| C96_reshare_secrecy | propext, Classical.choice, Quot.sound |
| C97_simulation | propext, Quot.sound |
| C97_sign_shows | propext, Classical.choice, Quot.sound |
| C97_simulated_accepted | propext, Classical.choice, Quot.sound |
| C98_one_response | propext, Classical.choice, Quot.sound |
| C98_bytes_partial | propext, Classical.choice, Quot.sound |
| C98_second_form | propext, Classical.choice, Quot.sound |
| C99_matches_iff | propext, Classical.choice, Quot.sound |
| C99_one_bad_share | propext, Classical.choice, Quot.sound |
| C99_unblamed_run | propext, Classical.choice, Quot.sound |
| C99_after_blame_partial | propext, Classical.choice, Quot.sound |
| C100_identity_accepted | propext, Classical.choice, Quot.sound |
| C100_share_readable | propext, Classical.choice, Quot.sound |
| C100_shared_key_partial | propext, Quot.sound |
| C100_injective_partial | propext, Classical.choice, Quot.sound |
| C101_replay | propext, Classical.choice, Quot.sound |
| C101_replay_new | propext, Classical.choice, Quot.sound |
| C101_bound_partial | propext, Classical.choice, Quot.sound |
| C102_stale_list_reused | propext, Classical.choice, Quot.sound |
| C102_latest_list_partial | propext, Classical.choice, Quot.sound |
| C103_wire_dkg | propext, Classical.choice, Quot.sound |
| C104_equivocation | propext, Classical.choice, Quot.sound |
| C104_same_records_partial | propext, Classical.choice, Quot.sound |
| C105_any_subset | propext, Classical.choice, Quot.sound |
| C105_removal_changes_key | propext, Classical.choice, Quot.sound |
| C105_complaints_partial | propext, Classical.choice, Quot.sound |
| C106_forgeable | propext, Classical.choice, Quot.sound |
| C106_other_keys_partial | propext, Classical.choice, Quot.sound |
| C107_signature_iff | propext, Classical.choice, Quot.sound |
| C107_one_short | propext, Classical.choice, Quot.sound |
| C108_wire_signing | propext, Classical.choice, Quot.sound |
| C109_wire_reshare | propext, Classical.choice, Quot.sound |
| C110_unchecked | propext, Classical.choice, Quot.sound |
| C110_mismatch | propext, Classical.choice, Quot.sound |
| C110_matching_partial | propext, Classical.choice, Quot.sound |
| C111_field_oracles_partial | propext, Classical.choice, Quot.sound |
| C111_digests_overlap | propext, Classical.choice, Quot.sound |
| C111_same_length_partial | propext, Classical.choice, Quot.sound |
| C112_relabelled_receiver | propext, Classical.choice, Quot.sound |
| C112_debug_panics | propext, Classical.choice, Quot.sound |
| C112_relabelled_sender_partial | propext, Classical.choice, Quot.sound |
| C113_dealer | propext, Classical.choice, Quot.sound |
| C113_signer | propext, Classical.choice, Quot.sound |
| C113_bootstrap_nonces | propext, Classical.choice, Quot.sound |
| C113_reshare | propext, Classical.choice, Quot.sound |
| C113_complaints | propext, Classical.choice, Quot.sound |
| C113_independent | propext, Classical.choice, Quot.sound |
| C114_round_two | propext, Classical.choice, Quot.sound |
| C114_blame | propext, Classical.choice, Quot.sound |
| C114_new | propext, Classical.choice, Quot.sound |
| C114_bootstrap | propext, Classical.choice, Quot.sound |
| C115_exact | propext, Classical.choice, Quot.sound |
| C115_interpolation | propext, Classical.choice, Quot.sound |
| C115_finish_collision | propext, Classical.choice, Quot.sound |
| C116_lagrange | propext, Classical.choice, Quot.sound |
| C116_nizk | propext, Classical.choice, Quot.sound |
| C116_share | propext, Classical.choice, Quot.sound |
| C116_degree | propext, Classical.choice, Quot.sound |
| C116_complaint | propext, Classical.choice, Quot.sound |
| C116_encrypt | propext, Quot.sound |
| C116_decrypt | propext, Quot.sound |
| C116_bytes | propext, Quot.sound |
| C116_generate | propext, Classical.choice, Quot.sound |
| C116_verify_key | propext, Classical.choice, Quot.sound |
| C116_finish | propext, Classical.choice, Quot.sound |
| C116_to_round_two | propext, Classical.choice, Quot.sound |
| C116_sign | propext, Classical.choice, Quot.sound |
| C116_sign_table | propext, Classical.choice, Quot.sound |
| C116_include_signer | propext, Classical.choice, Quot.sound |
| C116_verify | propext, Classical.choice, Quot.sound |
| C116_aggregate | propext, Classical.choice, Quot.sound |
| C116_finish_table | propext, Classical.choice, Quot.sound |
| C116_blame_table | propext, Classical.choice, Quot.sound |
| C116_bootstrap | propext, Classical.choice, Quot.sound |
| C116_new | propext, Classical.choice, Quot.sound |
| C116_participants | propext, Classical.choice, Quot.sound |
| C116_reshare | propext, Classical.choice, Quot.sound |
| C117_shift | propext, Classical.choice, Quot.sound |
| C117_remaining | propext, Classical.choice, Quot.sound |
| C117_position_partial | propext, Classical.choice, Quot.sound |
| C117_front_partial | propext, Classical.choice, Quot.sound |
| C117_second_pair_unreachable | propext, Classical.choice, Quot.sound |
| C117_wrong_pair_used | propext, Classical.choice, Quot.sound |
| C117_mismatch_iff | propext, Classical.choice, Quot.sound |
| C118_success | propext, Classical.choice, Quot.sound |
| C118_list_iff | propext, Classical.choice, Quot.sound |
| C118_sorted_partial | propext, Classical.choice, Quot.sound |
| C118_reordered_list_reported | propext, Classical.choice, Quot.sound |
| C119_view | propext, Classical.choice, Quot.sound |
| C119_count | propext, Classical.choice, Quot.sound |
| C119_finish | propext, Classical.choice, Quot.sound |
| C119_enough | propext, Classical.choice, Quot.sound |
| C120_dkg_then_sign_partial | propext, Classical.choice, Quot.sound |
| C121_reshare_then_sign_partial | propext, Classical.choice, Quot.sound |
| C121_honest_dealers_suffice | propext, Classical.choice, Quot.sound |
| C122_withheld_unnoticed | propext, Classical.choice, Quot.sound |
| C122_one_missing | propext, Classical.choice, Quot.sound |
| C122_self_check_partial | propext, Classical.choice, Quot.sound |
| C122_victim_reported | propext, Classical.choice, Quot.sound |
| C123_dealt_share_disclosed | propext, Classical.choice, Quot.sound |
| C123_secret_disclosed | propext, Classical.choice, Quot.sound |
| C123_accused_learns_nothing_partial | propext, Classical.choice, Quot.sound |
| C123_complaint_simulated | propext, Classical.choice, Quot.sound |
| C124_shares_uniform | propext, Classical.choice, Quot.sound |
| C124_commitments_simulated | propext, Classical.choice, Quot.sound |
| C124_simulated_accepted | propext, Classical.choice, Quot.sound |
| C124_real_view | propext, Classical.choice, Quot.sound |
| C124_simulated_view | propext, Classical.choice, Quot.sound |
| C124_record_accepted | propext, Classical.choice, Quot.sound |
| C125_lockout | propext, Classical.choice, Quot.sound |
| C125_one_dealer_raises | propext, Classical.choice, Quot.sound |
| C125_short_commitments_partial | propext, Classical.choice, Quot.sound |
| C126_signing_key_left | propext, Classical.choice, Quot.sound |
| C126_dealer_secret_left | propext, Classical.choice, Quot.sound |
| C126_received_shares_left | propext, Classical.choice, Quot.sound |
| C126_dealing_buffers | propext, Classical.choice, Quot.sound |
| C126_receiving_buffers | propext, Classical.choice, Quot.sound |
| C126_nonces_left | propext, Classical.choice, Quot.sound |
| C126_typed_values_partial | propext, Classical.choice, Quot.sound |
| C127_undelivered_complaint | propext, Classical.choice, Quot.sound |
| C127_same_verdicts_partial | propext, Classical.choice, Quot.sound |
| C128_bootstrap | propext, Classical.choice, Quot.sound |
| C128_new | propext, Classical.choice, Quot.sound |
| C128_reshare | propext, Classical.choice, Quot.sound |
| C128_to_round_two | propext, Classical.choice, Quot.sound |
| C128_finish | propext, Classical.choice, Quot.sound |
| C128_sign | propext, Classical.choice, Quot.sound |
| C129_step | propext, Classical.choice, Quot.sound |
| C129_chain | propext, Classical.choice, Quot.sound |
| C129_chain_then_sign | propext, Classical.choice, Quot.sound |
| C129_start | propext, Classical.choice, Quot.sound |
| C129_step_exists | propext, Classical.choice, Quot.sound |
| C129_extend | propext, Classical.choice, Quot.sound |
| C129_chains_exist | propext, Classical.choice, Quot.sound |
| C130_dkg_messages | propext, Quot.sound |
| C130_stored_objects | propext, Quot.sound |
| C130_signing_objects | propext, Quot.sound |
| C130_lengths | propext, Quot.sound |
| C130_read_back | propext, Classical.choice, Quot.sound |
| C131_fresh_sharing | propext, Classical.choice, Quot.sound |
| C131_quorum_keys | propext, Classical.choice, Quot.sound |
| C131_states_exist | propext, Classical.choice, Quot.sound |
| C132_takeover | propext, Classical.choice, Quot.sound |
| C132_takeover_keys | propext, Classical.choice, Quot.sound |
| C132_one_record_interrupts | propext, Classical.choice, Quot.sound |
| C132_uninterrupted_partial | propext, Classical.choice, Quot.sound |
| C133_reshare_takeover | propext, Classical.choice, Quot.sound |
| C133_key_kept_partial | propext, Classical.choice, Quot.sound |
| C134_one_dealer | propext, Classical.choice, Quot.sound |
| C134_two_sets | propext, Classical.choice, Quot.sound |
| C135_authenticated_framing | propext, Classical.choice, Quot.sound |
| C135_screened_partial | propext, Classical.choice, Quot.sound |
| C135_forgery | propext, Classical.choice, Quot.sound |
| C136_secret_objects | propext, Classical.choice, Quot.sound |
| C136_public_objects | propext, Classical.choice, Quot.sound |
| C136_smaller_moves | propext, Classical.choice, Quot.sound |
| C136_nonce_input | propext, Quot.sound |
| C137_text | propext, Classical.choice, Quot.sound |
| C137_wrapped | propext, Classical.choice, Quot.sound |
| C137_quoted | propext, Classical.choice, Quot.sound |
| C137_aggregate_text_partial | propext, Classical.choice, Quot.sound |
| C137_finalize_text_false | propext, Classical.choice, Quot.sound |
| C138_debug_reveals | propext, Classical.choice, Quot.sound |
| C138_errors_partial | propext, Classical.choice, Quot.sound |
| C139_coefficients | propext, Classical.choice, Quot.sound |
| C139_shares | propext, Classical.choice, Quot.sound |
| C139_guess_secret | propext, Classical.choice, Quot.sound |
| C139_trusted_dealer | propext, Classical.choice, Quot.sound |
| C139_guess_group_secret | propext, Classical.choice, Quot.sound |
| C139_group_key | propext, Classical.choice, Quot.sound |
| C139_late_complaint | propext, Classical.choice, Quot.sound |
| C139_proof_simulated | propext, Classical.choice, Quot.sound |
| C139_signature_simulated | propext, Classical.choice, Quot.sound |
| C140_forgery | propext, Classical.choice, Quot.sound |
| C140_key_of_view | propext, Classical.choice, Quot.sound |
| C140_below_threshold | propext, Classical.choice, Quot.sound |
| C140_proof_of_knowledge | propext, Classical.choice, Quot.sound |
| C140_false_complaint | propext, Classical.choice, Quot.sound |
| C141_chosen_message | propext, Classical.choice, Quot.sound |
| C141_given_out | propext, Classical.choice, Quot.sound |
| C141_below_threshold | propext, Classical.choice, Quot.sound |
| C142_commitments_ignored | propext, Classical.choice, Quot.sound |
| C142_valid_iff | propext, Classical.choice, Quot.sound |
| C142_honest_reported | propext, Classical.choice, Quot.sound |
| C142_own_pair_partial | propext, Classical.choice, Quot.sound |
| C143_concurrent_sessions | propext, Classical.choice, Quot.sound |
| C143_questions | propext, Classical.choice, Quot.sound |
| C143_keys | propext, Classical.choice, Quot.sound |
| C143_below_threshold | propext, Classical.choice, Quot.sound |
| C144_documented_partial | propext, Classical.choice, Quot.sound |
| C144_single_dealer | propext, Classical.choice, Quot.sound |
| C144_chance | propext, Classical.choice, Quot.sound |
| C144_documented_false | propext, Classical.choice, Quot.sound |
| C145_keys | propext, Classical.choice, Quot.sound |
| C145_forgery | propext, Classical.choice, Quot.sound |
| C145_concurrent_sessions | propext, Classical.choice, Quot.sound |
| C146_record | propext, Classical.choice, Quot.sound |
| C146_forgery | propext, Classical.choice, Quot.sound |
| C146_concurrent_sessions | propext, Classical.choice, Quot.sound |
| C147_reshare | propext, Classical.choice, Quot.sound |
| C147_keys | propext, Classical.choice, Quot.sound |
| C147_forgery | propext, Classical.choice, Quot.sound |
| C147_concurrent_sessions | propext, Classical.choice, Quot.sound |
| C148_group | propext, Classical.choice, Quot.sound |
| C148_codec | propext, Classical.choice, Quot.sound |
| C148_cipher | propext, Classical.choice, Quot.sound |
| C148_lawful | propext, Classical.choice, Quot.sound |
| C148_short | propext, Classical.choice, Quot.sound |
| C148_canonical | propext, Classical.choice, Quot.sound |
| C148_loose | propext, Classical.choice, Quot.sound |
| C149_distribution | propext, Classical.choice, Quot.sound |
| C149_signers_hidden | propext, Classical.choice, Quot.sound |
| C150_forgery | propext, Classical.choice, Quot.sound |
| C150_bootstrap | propext, Classical.choice, Quot.sound |
| C150_group_key | propext, Classical.choice, Quot.sound |
| C150_forgery_after_record | propext, Classical.choice, Quot.sound |
| C151_recipe_partial | propext, Classical.choice, Quot.sound |
| C151_old_parameters | propext, Classical.choice, Quot.sound |
| C151_late_dealer | propext, Classical.choice, Quot.sound |
| C151_recipe_takeover | propext, Classical.choice, Quot.sound |
| C152_keys | propext, Classical.choice, Quot.sound |
| C152_guesses | propext, Quot.sound |
| C152_wire | propext, Classical.choice, Quot.sound |
| C152_secret | propext, Classical.choice, Quot.sound |
| C152_dealer | propext, Classical.choice, Quot.sound |
| C152_bootstrap | propext, Classical.choice, Quot.sound |
| C153_questions | propext, Classical.choice, Quot.sound |
| C153_forgery | propext, Classical.choice, Quot.sound |
| C154_same_decoders | propext |
| C154_short_messages | propext, Classical.choice, Quot.sound |
| C154_encodings_partial | propext, Classical.choice, Quot.sound |
| C154_no_panic_partial | propext, Quot.sound |
| C154_check_first | propext, Quot.sound |
| C154_exact_partial | propext, Classical.choice, Quot.sound |
| C155_keys | propext, Classical.choice, Quot.sound |
| C155_agreement | propext, Classical.choice, Quot.sound |
| C155_failures | propext, Classical.choice, Quot.sound |
| C155_progress | propext, Classical.choice, Quot.sound |
| C155_signing | propext, Classical.choice, Quot.sound |
| C155_honest | propext, Classical.choice, Quot.sound |
| C156_conserved | propext, Classical.choice, Quot.sound |
| C156_no_reuse | propext, Classical.choice, Quot.sound |
| C156_answers | propext, Classical.choice, Quot.sound |
| C156_not_blamed | propext, Classical.choice, Quot.sound |
| C156_progress | propext, Classical.choice, Quot.sound |
| C157_reshared | propext, Classical.choice, Quot.sound |
| C157_life | propext, Classical.choice, Quot.sound |
| C157_signing | propext, Classical.choice, Quot.sound |
| C157_runs | propext, Classical.choice, Quot.sound |
| C157_honest | propext, Classical.choice, Quot.sound |
| C158_questions | propext, Classical.choice, Quot.sound |
| C158_forgery | propext, Classical.choice, Quot.sound |
| C158_record | propext, Classical.choice, Quot.sound |
| C159_keys | propext, Classical.choice, Quot.sound |
| C159_progress | propext, Classical.choice, Quot.sound |
| C159_not_blamed | propext, Classical.choice, Quot.sound |
| C160_forgery | propext, Classical.choice, Quot.sound |
| C160_reshared | propext, Classical.choice, Quot.sound |
| C160_life | propext, Classical.choice, Quot.sound |
| C161_one_key | propext, Classical.choice, Quot.sound |
| C161_reuse | propext, Classical.choice, Quot.sound |
| C161_pair | propext, Classical.choice, Quot.sound |
| C161_secp | propext, Classical.choice, Quot.sound |
| C161_leak | propext, Classical.choice, Quot.sound |
| C162_through | propext, Classical.choice, Quot.sound |
| C162_separated | propext, Classical.choice, Quot.sound |
| C162_long_context | propext, Classical.choice, Quot.sound |
| C162_zero_context | propext, Classical.choice, Quot.sound |
| C162_complete | propext, Classical.choice, Quot.sound |
| C162_later | propext, Classical.choice, Quot.sound |
| C163_lawful | propext, Classical.choice, Quot.sound |
| C163_built | propext, Classical.choice, Quot.sound |
| C163_separated | propext, Classical.choice, Quot.sound |
| C163_share | propext, Classical.choice, Quot.sound |
| C163_sizes | propext, Classical.choice, Quot.sound |
| C163_opened | propext, Classical.choice, Quot.sound |
| C163_dkg_to_signature | propext, Classical.choice, Quot.sound |
| C164_scalar | propext, Classical.choice, Quot.sound |
| C164_not_uniform | propext, Classical.choice, Quot.sound |
| C164_calls | propext, Classical.choice, Quot.sound |
| C164_code | propext, Classical.choice, Quot.sound |
| C164_shipped | propext, Classical.choice, Quot.sound |
| C164_forgery | propext, Classical.choice, Quot.sound |
| C165_altered | propext, Classical.choice, Quot.sound |
| C165_aes | propext, Classical.choice, Quot.sound |
| C165_indices | propext, Quot.sound |
| C166_hidden | propext, Classical.choice, Quot.sound |
| C166_aes | propext, Classical.choice, Quot.sound |
| C166_shares | propext, Classical.choice, Quot.sound |
| C166_advantage | propext, Classical.choice, Quot.sound |
| C166_wire | propext, Classical.choice, Quot.sound |
| C166_forgery | propext, Classical.choice, Quot.sound |
| C167_expander | propext, Classical.choice, Quot.sound |
| C167_hmac | propext, Quot.sound |
| C167_hkdf | propext, Quot.sound |
| C167_tag | propext, Classical.choice, Quot.sound |
| C167_tag_fixed | propext, Classical.choice, Quot.sound |
| C167_stream | propext, Quot.sound |
| C167_constants | propext, Classical.choice, Quot.sound |
| C167_functions | propext, Classical.choice, Quot.sound |
| C167_compression | propext, Quot.sound |
| C167_padding | propext, Quot.sound |
| C167_blocks | propext, Quot.sound |
| C167_length_field | propext, Classical.choice, Quot.sound |
| C167_words | propext, Quot.sound |
| C167_digest | propext, Classical.choice, Quot.sound |
| C167_sbox | propext, Classical.choice, Quot.sound |
| C167_rows_columns | propext, Classical.choice, Quot.sound |
| C167_permutation | propext, Classical.choice, Quot.sound |
| C167_key_expansion | propext, Classical.choice, Quot.sound |
| C167_rounds | propext, Quot.sound |
| C167_ghash_field | propext, Classical.choice, Quot.sound |
| C168_lists | propext, Classical.choice, Quot.sound |
| C168_hedged | propext, Classical.choice, Quot.sound |
| C168_repeat | propext, Classical.choice, Quot.sound |
| C168_repeated | propext, Classical.choice, Quot.sound |
| C168_shipped | propext, Classical.choice, Quot.sound |
| C169_protocol_partial | propext, Classical.choice, Quot.sound |
| C169_verify | propext, Classical.choice, Quot.sound |
| C169_nonce | propext, Classical.choice, Quot.sound |
| C169_strings | propext, Classical.choice, Quot.sound |
| C169_accepted_iff | propext, Classical.choice, Quot.sound |
| C169_refused | propext, Classical.choice, Quot.sound |
| C170_scalars | propext, Classical.choice, Quot.sound |
| C170_dealer | propext, Classical.choice, Quot.sound |
| C170_signer | propext, Classical.choice, Quot.sound |
| C170_complaint | propext, Classical.choice, Quot.sound |
| C170_guess_secret | propext, Classical.choice, Quot.sound |
| C170_bytes | propext, Classical.choice, Quot.sound |
| C170_real | propext, Classical.choice, Quot.sound |
| C171_switch | propext, Classical.choice, Quot.sound |
| C171_sealed | propext, Classical.choice, Quot.sound |
| C171_hidden | propext, Classical.choice, Quot.sound |
| C171_altered | propext, Classical.choice, Quot.sound |
| C171_wire | propext, Classical.choice, Quot.sound |
| C172_source | propext, Classical.choice, Quot.sound |
| C172_coefficients | propext, Classical.choice, Quot.sound |
| C172_forgery | propext, Classical.choice, Quot.sound |
| C172_numbers | propext, Classical.choice, Quot.sound |
| C173_secrets | propext, Classical.choice, Quot.sound |
| C173_public_partial | propext, Classical.choice, Quot.sound |
| C173_filtered_partial | propext, Classical.choice, Quot.sound |
| C173_valid_participants | propext, Classical.choice, Quot.sound |
| C173_encoding_moves | propext, Classical.choice, Quot.sound |
| C173_parameters | propext, Classical.choice, Quot.sound |
| C174_new_participant | propext, Classical.choice, Quot.sound |
| C174_deal_shares | propext, Classical.choice, Quot.sound |
| C174_signing_key | propext, Classical.choice, Quot.sound |
| C174_nonces | propext, Classical.choice, Quot.sound |
| C174_equality | propext, Quot.sound |
| C174_drop_share | propext, Classical.choice, Quot.sound |
| C174_drop_position | propext, Classical.choice, Quot.sound |
| C174_sign | propext, Classical.choice, Quot.sound |
| C174_round_two | propext, Classical.choice, Quot.sound |
| C174_round_two_good | propext, Classical.choice, Quot.sound |
| C174_values | propext, Classical.choice, Quot.sound |
| C175_same_partial | propext, Classical.choice, Quot.sound |
| C175_parameters | propext, Classical.choice, Quot.sound |
| C175_round_one | propext, Classical.choice, Quot.sound |
| C175_sign | propext, Classical.choice, Quot.sound |
| C175_round_two_partial | propext, Classical.choice, Quot.sound |
| C175_overflow | propext, Classical.choice, Quot.sound |
| C175_misaddressed | propext, Classical.choice, Quot.sound |
| C176_values | propext, Classical.choice, Quot.sound |
| C176_create | propext, Classical.choice, Quot.sound |
| C176_round_one | propext, Classical.choice, Quot.sound |
| C176_round_two | propext, Classical.choice, Quot.sound |
| C176_round_two_bootstrap | propext, Classical.choice, Quot.sound |
| C176_blame | propext, Classical.choice, Quot.sound |
| C176_finish | propext, Classical.choice, Quot.sound |
| C176_keys | propext, Classical.choice, Quot.sound |
| C176_sign | propext, Classical.choice, Quot.sound |
| C176_verify | propext, Classical.choice, Quot.sound |
| C176_aggregate_partial | propext, Classical.choice, Quot.sound |
| C176_failed_aggregation | propext, Classical.choice, Quot.sound |
| C176_failed_aggregation_exists | propext, Classical.choice, Quot.sound |
| C177_last_record_receives | propext, Classical.choice, Quot.sound |
| C177_other_indices_partial | propext, Classical.choice, Quot.sound |
| C177_reshare | propext, Classical.choice, Quot.sound |
| C177_rejected_record_ends_session | propext, Classical.choice, Quot.sound |
| C178_false_proof | propext, Classical.choice, Quot.sound |
| C178_dealer_removed | propext, Classical.choice, Quot.sound |
| C178_guess | propext, Classical.choice, Quot.sound |
| C178_shipped | propext, Classical.choice, Quot.sound |
| C179_listed_nonces | propext, Classical.choice, Quot.sound |
| C179_hard | propext, Classical.choice, Quot.sound |
| C179_below_threshold | propext, Classical.choice, Quot.sound |
| C179_shipped | propext, Classical.choice, Quot.sound |
| C180_questions | propext, Classical.choice, Quot.sound |
| C180_forgery | propext, Classical.choice, Quot.sound |
| C180_hard | propext, Classical.choice, Quot.sound |
| C180_bytes | propext, Classical.choice, Quot.sound |
| C181_survives | propext, Classical.choice, Quot.sound |
| C181_restarts_invisible | propext, Classical.choice, Quot.sound |
| C181_finalized | propext, Classical.choice, Quot.sound |
| C181_parts | propext, Classical.choice, Quot.sound |
| C181_not_validated | propext, Classical.choice, Quot.sound |
| C182_create | propext, Classical.choice, Quot.sound |
| C182_round_one | propext, Classical.choice, Quot.sound |
| C182_round_two | propext, Classical.choice, Quot.sound |
| C182_round_two_bootstrap | propext, Classical.choice, Quot.sound |
| C182_finish | propext, Classical.choice, Quot.sound |
| C182_keys | propext, Classical.choice, Quot.sound |
| C182_sign | propext, Classical.choice, Quot.sound |
| C182_verify | propext, Classical.choice, Quot.sound |
| C182_aggregate | propext, Classical.choice, Quot.sound |
| C183_short | propext, Classical.choice, Quot.sound |
| C183_not_reduced | propext, Classical.choice, Quot.sound |
| C183_nonces_read | propext, Classical.choice, Quot.sound |
| C183_pairs_read | propext, Classical.choice, Quot.sound |
| C183_read_iff | propext, Classical.choice, Quot.sound |
| C183_mismatch_read | propext, Classical.choice, Quot.sound |
| C183_signed_with | propext, Classical.choice, Quot.sound |
| C183_damaged_nonce | propext, Classical.choice, Quot.sound |
| C184_params | propext, Classical.choice, Quot.sound |
| C184_signatures | propext, Classical.choice, Quot.sound |
| C184_signing_keys | propext, Classical.choice, Quot.sound |
| C184_shares | propext, Classical.choice, Quot.sound |
| C184_partial_signatures | propext, Classical.choice, Quot.sound |
