{
 "claims": [
  {
   "property": "C01",
   "status": "proved",
   "theorems": [
    "IceFrost.C01_params_accepted",
    "IceFrost.C01_params_rejected"
   ],
   "note": ""
  },
  {
   "property": "C02",
   "status": "proved",
   "theorems": [
    "IceFrost.C02_lagrange_value",
    "IceFrost.C02_lagrange_order"
   ],
   "note": ""
  },
  {
   "property": "C03",
   "status": "proved",
   "theorems": [
    "IceFrost.C03_interpolation"
   ],
   "note": ""
  },
  {
   "property": "C04",
   "status": "partial",
   "theorems": [
    "IceFrost.C04_lagrange_rejects_partial",
    "IceFrost.C04_foreign_index_accepted",
    "IceFrost.C04_zero_index_accepted",
    "IceFrost.C04_documented_rejection_fails"
   ],
   "note": "The documented rejection is false for indices outside the list and for index 0: C04_foreign_index_accepted, C04_zero_index_accepted, C04_documented_rejection_fails. The partial theorem gives the exact rejection condition of the code."
  },
  {
   "property": "C05",
   "status": "proved",
   "theorems": [
    "IceFrost.C05_share_value"
   ],
   "note": ""
  },
  {
   "property": "C06",
   "status": "proved",
   "theorems": [
    "IceFrost.C06_evaluate_hiding",
    "IceFrost.C06_evaluate_hiding_commitment"
   ],
   "note": ""
  },
  {
   "property": "C07",
   "status": "proved",
   "theorems": [
    "IceFrost.C07_feldman_iff",
    "IceFrost.C07_feldman_unique"
   ],
   "note": ""
  },
  {
   "property": "C08",
   "status": "proved",
   "theorems": [
    "IceFrost.C08_encrypt_decrypt"
   ],
   "note": ""
  },
  {
   "property": "C09",
   "status": "proved",
   "theorems": [
    "IceFrost.C09_both_ends"
   ],
   "note": ""
  },
  {
   "property": "C10",
   "status": "proved",
   "theorems": [
    "IceFrost.C10_secrecy_bijection",
    "IceFrost.C10_secrecy",
    "IceFrost.C10_secrecy_unique"
   ],
   "note": ""
  },
  {
   "property": "C11",
   "status": "proved",
   "theorems": [
    "IceFrost.C11_shares_determine"
   ],
   "note": ""
  },
  {
   "property": "C12",
   "status": "proved",
   "theorems": [
    "IceFrost.C12_honest_proofs_verify"
   ],
   "note": ""
  },
  {
   "property": "C13",
   "status": "proved",
   "theorems": [
    "IceFrost.C13_verify_iff",
    "IceFrost.C13_special_soundness"
   ],
   "note": ""
  },
  {
   "property": "C14",
   "status": "proved",
   "theorems": [
    "IceFrost.C14_simulated_accepted",
    "IceFrost.C14_transcripts_equal",
    "IceFrost.C14_prove_transcript"
   ],
   "note": ""
  },
  {
   "property": "C15",
   "status": "proved",
   "theorems": [
    "IceFrost.C15_message_injective",
    "IceFrost.C15_proof_reuse_is_collision"
   ],
   "note": ""
  },
  {
   "property": "C16",
   "status": "proved",
   "theorems": [
    "IceFrost.C16_new_dealer_zero",
    "IceFrost.C16_new_dealer",
    "IceFrost.C16_index_zero_iff",
    "IceFrost.C16_zero_threshold_panics"
   ],
   "note": ""
  },
  {
   "property": "C17",
   "status": "proved",
   "theorems": [
    "IceFrost.C17_new_signer_zero",
    "IceFrost.C17_new_signer",
    "IceFrost.C17_index_zero_iff"
   ],
   "note": ""
  },
  {
   "property": "C18",
   "status": "proved",
   "theorems": [
    "IceFrost.C18_honest_accepted"
   ],
   "note": ""
  },
  {
   "property": "C19",
   "status": "proved",
   "theorems": [
    "IceFrost.C19_bootstrap",
    "IceFrost.C19_new",
    "IceFrost.C19_reshare"
   ],
   "note": ""
  },
  {
   "property": "C20",
   "status": "proved",
   "theorems": [
    "IceFrost.C20_bootstrap_classifies",
    "IceFrost.C20_new_classifies"
   ],
   "note": ""
  },
  {
   "property": "C21",
   "status": "proved",
   "theorems": [
    "IceFrost.C21_aborts_iff"
   ],
   "note": ""
  },
  {
   "property": "C22",
   "status": "partial",
   "theorems": [
    "IceFrost.C22_no_panic_partial",
    "IceFrost.C22_missing_proof_panics",
    "IceFrost.C22_attack"
   ],
   "note": "False as stated: C22_missing_proof_panics with C22_attack. The partial theorem excludes exactly those records. C116_bootstrap and C116_new list the result for every input."
  },
  {
   "property": "C23",
   "status": "partial",
   "theorems": [
    "IceFrost.C23_no_secret_dealt_partial",
    "IceFrost.C23_index_zero_receives_secret",
    "IceFrost.C23_index_zero_is_valid"
   ],
   "note": "False as stated: C23_index_zero_receives_secret. The partial theorem assumes no participant announces index 0."
  },
  {
   "property": "C24",
   "status": "partial",
   "theorems": [
    "IceFrost.C24_receivers_partial",
    "IceFrost.C24_misbehaving_receives_share"
   ],
   "note": "False as stated: C24_misbehaving_receives_share. The partial theorem gives the exact set of receivers."
  },
  {
   "property": "C25",
   "status": "proved",
   "theorems": [
    "IceFrost.C25_dealt_shares"
   ],
   "note": ""
  },
  {
   "property": "C26",
   "status": "partial",
   "theorems": [
    "IceFrost.C26_new_checks_partial",
    "IceFrost.C26_any_degree_accepted"
   ],
   "note": "False as stated: C26_any_degree_accepted. The partial theorem states what `new` does check."
  },
  {
   "property": "C27",
   "status": "proved",
   "theorems": [
    "IceFrost.C27_honest_no_complaint"
   ],
   "note": ""
  },
  {
   "property": "C28",
   "status": "proved",
   "theorems": [
    "IceFrost.C28_complaints"
   ],
   "note": ""
  },
  {
   "property": "C29",
   "status": "proved",
   "theorems": [
    "IceFrost.C29_missing_shares",
    "IceFrost.C29_foreign_share"
   ],
   "note": ""
  },
  {
   "property": "C30",
   "status": "partial",
   "theorems": [
    "IceFrost.C30_aborts_iff_partial",
    "IceFrost.C30_bound",
    "IceFrost.C30_overflow"
   ],
   "note": "False in release builds when complaints outnumber n (wrap-around): C30_overflow. The partial theorem assumes the subtraction does not wrap; C30_bound shows what is guaranteed. C116_to_round_two gives the exact result for every number of complaints, with and without wrap-around."
  },
  {
   "property": "C31",
   "status": "partial",
   "theorems": [
    "IceFrost.C31_last_share",
    "IceFrost.C31_stored_iff",
    "IceFrost.C31_stored_share_partial",
    "IceFrost.C31_release_misaddressed"
   ],
   "note": "False in release builds: C31_release_misaddressed. The partial theorem covers debug builds, and release builds when the shares are addressed to their holder. C31_stored_iff and C31_last_share give the exact content of the file in every build."
  },
  {
   "property": "C32",
   "status": "partial",
   "theorems": [
    "IceFrost.C32_all_shares_partial",
    "IceFrost.C32_missing_share_accepted"
   ],
   "note": "False as stated: C32_missing_share_accepted. The partial theorem assumes that a share of every dealer is given."
  },
  {
   "property": "C33",
   "status": "proved",
   "theorems": [
    "IceFrost.C33_finish_consistent"
   ],
   "note": ""
  },
  {
   "property": "C34",
   "status": "proved",
   "theorems": [
    "IceFrost.C34_same_group_key",
    "IceFrost.C34_group_key_value"
   ],
   "note": ""
  },
  {
   "property": "C35",
   "status": "proved",
   "theorems": [
    "IceFrost.C35_keys_interpolate"
   ],
   "note": ""
  },
  {
   "property": "C36",
   "status": "proved",
   "theorems": [
    "IceFrost.C36_honest_dkg"
   ],
   "note": ""
  },
  {
   "property": "C37",
   "status": "partial",
   "theorems": [
    "IceFrost.C37_finish_without_dealers",
    "IceFrost.C37_own_complaints_partial"
   ],
   "note": "The code violates it: complaints made of public data remove every dealer and finish still succeeds with the identity as group key (C37_finish_without_dealers). Proved for a participant that processes only its own complaints."
  },
  {
   "property": "C38",
   "status": "proved",
   "theorems": [
    "IceFrost.C38_generate_perm",
    "IceFrost.C38_verify_table",
    "IceFrost.C38_verify_perm",
    "IceFrost.C38_verify_iff_generated",
    "IceFrost.C38_generated_value"
   ],
   "note": ""
  },
  {
   "property": "C39",
   "status": "proved",
   "theorems": [
    "IceFrost.C39_justified_complaint",
    "IceFrost.C39_justified_list",
    "IceFrost.C39_removed_in_any_list"
   ],
   "note": ""
  },
  {
   "property": "C40",
   "status": "proved",
   "theorems": [
    "IceFrost.C40_unjustified_complaint",
    "IceFrost.C40_accused_stays"
   ],
   "note": ""
  },
  {
   "property": "C41",
   "status": "proved",
   "theorems": [
    "IceFrost.C41_set_only",
    "IceFrost.C41_perm"
   ],
   "note": ""
  },
  {
   "property": "C42",
   "status": "proved",
   "theorems": [
    "IceFrost.C42_agreement"
   ],
   "note": ""
  },
  {
   "property": "C43",
   "status": "partial",
   "theorems": [
    "IceFrost.C43_late_index_partial",
    "IceFrost.C43_maker_removed",
    "IceFrost.C43_reachable"
   ],
   "note": "The code violates it: after round one discarded somebody, n is smaller than the largest index and a justified complaint against a dealer beyond n removes its maker (C43_maker_removed, C43_reachable). Proved for dealers with index at most the current n."
  },
  {
   "property": "C44",
   "status": "partial",
   "theorems": [
    "IceFrost.C44_sequential_partial",
    "IceFrost.C44_repeated_call",
    "IceFrost.C44_two_calls"
   ],
   "note": "The code violates it: a second call with a complaint about an already removed dealer removes the maker (C44_repeated_call). Proved when the later complaints accuse only remaining dealers. C44_two_calls: what two calls remove, and exactly when that is the same as one call."
  },
  {
   "property": "C45",
   "status": "partial",
   "theorems": [
    "IceFrost.C45_bogus_accusation",
    "IceFrost.C45_framed_by_outsider",
    "IceFrost.C45_framed_always",
    "IceFrost.C45_honest_dealer_partial"
   ],
   "note": "The code violates it: anybody can remove any dealer with a complaint made of public data (C45_bogus_accusation, C45_framed_by_outsider, C45_framed_always). Proved for complaints about genuine shares with the true shared key."
  },
  {
   "property": "C46",
   "status": "partial",
   "theorems": [
    "IceFrost.C46_index_confusion",
    "IceFrost.C46_rejected_removes",
    "IceFrost.C46_disjoint_partial"
   ],
   "note": "The code violates it: an unjustified complaint of new signer j removes old dealer j (C46_index_confusion, C46_rejected_removes). Proved when signer and dealer indices are disjoint."
  },
  {
   "property": "C47",
   "status": "proved",
   "theorems": [
    "IceFrost.C47_complaint_complete",
    "IceFrost.C47_new_verifies"
   ],
   "note": ""
  },
  {
   "property": "C48",
   "status": "proved",
   "theorems": [
    "IceFrost.C48_verify_iff",
    "IceFrost.C48_special_sound",
    "IceFrost.C48_wrong_key_one_challenge"
   ],
   "note": ""
  },
  {
   "property": "C49",
   "status": "proved",
   "theorems": [
    "IceFrost.C49_reshare_succeeds",
    "IceFrost.C49_reshare_preserves",
    "IceFrost.C49_any_receivers"
   ],
   "note": ""
  },
  {
   "property": "C50",
   "status": "proved",
   "theorems": [
    "IceFrost.C50_chain",
    "IceFrost.C50_from_dkg"
   ],
   "note": ""
  },
  {
   "property": "C51",
   "status": "proved",
   "theorems": [
    "IceFrost.C51_single_key"
   ],
   "note": ""
  },
  {
   "property": "C52",
   "status": "proved",
   "theorems": [
    "IceFrost.C52_published",
    "IceFrost.C52_nonces",
    "IceFrost.C52_nodup"
   ],
   "note": ""
  },
  {
   "property": "C53",
   "status": "proved",
   "theorems": [
    "IceFrost.C53_drop_share",
    "IceFrost.C53_count"
   ],
   "note": ""
  },
  {
   "property": "C54",
   "status": "proved",
   "theorems": [
    "IceFrost.C54_used_once",
    "IceFrost.C54_never_reused",
    "IceFrost.C54_count"
   ],
   "note": ""
  },
  {
   "property": "C55",
   "status": "partial",
   "theorems": [
    "IceFrost.C55_failure_consumes_nothing",
    "IceFrost.C55_success_consumes_one",
    "IceFrost.C55_missing_iff_partial",
    "IceFrost.C55_max_position_panics",
    "IceFrost.C55_success_iff"
   ],
   "note": "A failed call consumes nothing: proved. The second half is false at position usize::MAX, where the call panics instead (C55_max_position_panics); C55_missing_iff_partial covers every other position."
  },
  {
   "property": "C56",
   "status": "proved",
   "theorems": [
    "IceFrost.C56_share_equation",
    "IceFrost.C56_unique"
   ],
   "note": ""
  },
  {
   "property": "C57",
   "status": "proved",
   "theorems": [
    "IceFrost.C57_sorted",
    "IceFrost.C57_first_inclusion",
    "IceFrost.C57_frame"
   ],
   "note": ""
  },
  {
   "property": "C58",
   "status": "proved",
   "theorems": [
    "IceFrost.C58_signers_order",
    "IceFrost.C58_order",
    "IceFrost.C58_permuted"
   ],
   "note": ""
  },
  {
   "property": "C59",
   "status": "proved",
   "theorems": [
    "IceFrost.C59_finalize",
    "IceFrost.C59_finalize_within_bound"
   ],
   "note": ""
  },
  {
   "property": "C60",
   "status": "partial",
   "theorems": [
    "IceFrost.C60_upper_bound_partial",
    "IceFrost.C60_below_threshold_accepted"
   ],
   "note": "The code violates it: the threshold is never checked, zero or one signer finalize for every t (C60_below_threshold_accepted). Only the upper bound n is proved."
  },
  {
   "property": "C61",
   "status": "partial",
   "theorems": [
    "IceFrost.C61_rejected_iff",
    "IceFrost.C61_rejected_unchanged_partial",
    "IceFrost.C61_rejected_poisons"
   ],
   "note": "The code violates it: an include_signer call rejected with TooManySigners leaves the signer listed and makes every later finalize fail (C61_rejected_poisons). Proved for the other rejections."
  },
  {
   "property": "C62",
   "status": "partial",
   "theorems": [
    "IceFrost.C62_consistent_partial",
    "IceFrost.C62_mixed",
    "IceFrost.C62_first_share_last_key"
   ],
   "note": "The code violates it: the commitment share of the first and the public key of the last inclusion are kept (C62_mixed). Proved when all inclusions of the index name the same public key. C62_first_share_last_key: which data are kept, for every history."
  },
  {
   "property": "C63",
   "status": "proved",
   "theorems": [
    "IceFrost.C63_aggregate_valid",
    "IceFrost.C63_session_valid",
    "IceFrost.C63_verify_iff",
    "IceFrost.C63_not_malleable"
   ],
   "note": ""
  },
  {
   "property": "C64",
   "status": "proved",
   "theorems": [
    "IceFrost.C64_honest_signing",
    "IceFrost.C64_documented_flow",
    "IceFrost.C64_dkg_to_signature"
   ],
   "note": ""
  },
  {
   "property": "C65",
   "status": "proved",
   "theorems": [
    "IceFrost.C65_exact",
    "IceFrost.C65_honest_not_blamed",
    "IceFrost.C65_zero_index_hides"
   ],
   "note": ""
  },
  {
   "property": "C66",
   "status": "partial",
   "theorems": [
    "IceFrost.C66_culprit_found",
    "IceFrost.C66_fails_with_culprit_partial",
    "IceFrost.C66_empty_report",
    "IceFrost.C66_zero_index_no_report",
    "IceFrost.C66_deviators_reported"
   ],
   "note": "The code violates it for index 0: IndexIsZero is returned instead of a report (C66_zero_index_no_report). Proved for nonzero indices; C66_deviators_reported gives the exact report when keys are proper, C66_empty_report shows that the condition on the keys is needed."
  },
  {
   "property": "C67",
   "status": "partial",
   "theorems": [
    "IceFrost.C67_aggregate_no_panic_partial",
    "IceFrost.C67_aggregate_empty_panics",
    "IceFrost.C67_hash_output",
    "IceFrost.C67_sign_no_panic_partial",
    "IceFrost.C67_sign_empty_panics"
   ],
   "note": "The code violates it: sign with an empty signer list, sign at position usize::MAX, and aggregate without signers panic (C67_sign_empty_panics, C55_max_position_panics, C67_aggregate_empty_panics). Proved for all other inputs. C116_sign_table lists the result of sign for every input."
  },
  {
   "property": "C68",
   "status": "proved",
   "theorems": [
    "IceFrost.C68_outsider",
    "IceFrost.C68_last_wins"
   ],
   "note": ""
  },
  {
   "property": "C69",
   "status": "proved",
   "theorems": [
    "IceFrost.C69_list_injective",
    "IceFrost.C69_input_determines",
    "IceFrost.C69_factor_binds"
   ],
   "note": "The injectivity part is unconditional given fixed-width point encodings; the last step is stated as an explicit collision because hash functions are opaque."
  },
  {
   "property": "C70",
   "status": "proved",
   "theorems": [
    "IceFrost.C70_challenge_input_injective",
    "IceFrost.C70_challenge_binds",
    "IceFrost.C70_signature_reuse",
    "IceFrost.C70_complaint_injective",
    "IceFrost.C70_complaint_binds"
   ],
   "note": ""
  },
  {
   "property": "C71",
   "status": "proved",
   "theorems": [
    "IceFrost.C71_tags_distinct",
    "IceFrost.C71_tags_used",
    "IceFrost.C71_digests_separated"
   ],
   "note": ""
  },
  {
   "property": "C72",
   "status": "proved",
   "theorems": [
    "IceFrost.C72_params",
    "IceFrost.C72_secret_share",
    "IceFrost.C72_coefficients",
    "IceFrost.C72_encrypted_share",
    "IceFrost.C72_vss",
    "IceFrost.C72_nizk",
    "IceFrost.C72_complaint_proof",
    "IceFrost.C72_complaint",
    "IceFrost.C72_participant",
    "IceFrost.C72_dh_private_key",
    "IceFrost.C72_public_key",
    "IceFrost.C72_verifying_key",
    "IceFrost.C72_signing_key",
    "IceFrost.C72_round_one",
    "IceFrost.C72_round_two",
    "IceFrost.C72_participant_list",
    "IceFrost.C72_commitment",
    "IceFrost.C72_commitment_share",
    "IceFrost.C72_secret_list",
    "IceFrost.C72_public_list",
    "IceFrost.C72_signer",
    "IceFrost.C72_partial_signature",
    "IceFrost.C72_signature"
   ],
   "note": "One theorem per type. Values must fit in memory (vectors shorter than 2^64), maps must be sorted as BTreeMaps are, and a nonce must have the cipher size; C77_states_fit shows reachable states do."
  },
  {
   "property": "C73",
   "status": "proved",
   "theorems": [
    "IceFrost.C73_prefix_free",
    "IceFrost.C73_encrypted_share"
   ],
   "note": ""
  },
  {
   "property": "C74",
   "status": "partial",
   "theorems": [
    "IceFrost.C74_canonical_partial",
    "IceFrost.C74_encrypted_share_partial",
    "IceFrost.C74_trailing_accepted",
    "IceFrost.C74_map_order_accepted",
    "IceFrost.C74_state_two_encodings",
    "IceFrost.C74_state_stable_partial"
   ],
   "note": "False as stated: trailing bytes are ignored (C74_trailing_accepted) and map entries may come in any order (C74_state_two_encodings). The _partial theorems give what holds: for types without maps accepted bytes start with the canonical encoding, assuming points and scalars have one accepted encoding; decoded states always re-encode stably."
  },
  {
   "property": "C75",
   "status": "partial",
   "theorems": [
    "IceFrost.C75_no_session_partial",
    "IceFrost.C75_unsound",
    "IceFrost.C75_zero_threshold_panics",
    "IceFrost.C75_reads_partial"
   ],
   "note": "False as stated: every pair of numbers is accepted (C75_unsound), and a zero threshold makes new_dealer panic. C75_no_session_partial: no key generation or resharing starts with unsound parameters."
  },
  {
   "property": "C76",
   "status": "proved",
   "theorems": [
    "IceFrost.C76_nonce_size",
    "IceFrost.C76_wrong_nonce_rejected"
   ],
   "note": ""
  },
  {
   "property": "C77",
   "status": "proved",
   "theorems": [
    "IceFrost.C77_crashes_invisible",
    "IceFrost.C77_states_fit"
   ],
   "note": "All crash points between calls of one session; states built by bootstrap/new fit their encoding (C77_states_fit)."
  },
  {
   "property": "C78",
   "status": "partial",
   "theorems": [
    "IceFrost.C78_interchangeable",
    "IceFrost.C78_cannot_finish_partial"
   ],
   "note": "False: the round markers are empty, so both rounds write the same bytes (C78_interchangeable). C78_cannot_finish_partial: a fresh round-one state read as round two cannot finish or blame."
  },
  {
   "property": "C79",
   "status": "proved",
   "theorems": [
    "IceFrost.C79_shares_erased",
    "IceFrost.C79_unchanged_on_error"
   ],
   "note": "The overwriting in calculate_signing_key; the zeroizing Drop implementations are modelled separately (C94)."
  },
  {
   "property": "C80",
   "status": "proved",
   "theorems": [
    "IceFrost.C80_robust_dkg",
    "IceFrost.C80_honest_majority"
   ],
   "note": ""
  },
  {
   "property": "C81",
   "status": "partial",
   "theorems": [
    "IceFrost.C81_preserved_iff",
    "IceFrost.C81_robust_reshare_partial",
    "IceFrost.C81_wrong_share_changes_key"
   ],
   "note": "The code violates it: neither the constant term of the new commitment nor its length is checked by `new`; a dealer that reshares another value changes the group key unnoticed (C81_wrong_share_changes_key). Proved when dealers commit to their old verifying share with at most t points. C81_preserved_iff: the exact condition on what the dealers committed to."
  },
  {
   "property": "C82",
   "status": "partial",
   "theorems": [
    "IceFrost.C82_label_unchecked",
    "IceFrost.C82_derivation_blocked",
    "IceFrost.C82_labelled_partial"
   ],
   "note": "The code violates it: labels are not checked (C82_label_unchecked) and a duplicate label blocks every derivation (C82_derivation_blocked). Proved for matching labels."
  },
  {
   "property": "C83",
   "status": "proved",
   "theorems": [
    "IceFrost.C83_is_schnorr"
   ],
   "note": ""
  },
  {
   "property": "C84",
   "status": "proved",
   "theorems": [
    "IceFrost.C84_accepted_is_schnorr",
    "IceFrost.C84_special_sound"
   ],
   "note": ""
  },
  {
   "property": "C85",
   "status": "proved",
   "theorems": [
    "IceFrost.C85_three_uses",
    "IceFrost.C85_two_uses",
    "IceFrost.C85_same_inputs"
   ],
   "note": ""
  },
  {
   "property": "C86",
   "status": "proved",
   "theorems": [
    "IceFrost.C86_group_secrecy"
   ],
   "note": ""
  },
  {
   "property": "C87",
   "status": "proved",
   "theorems": [
    "IceFrost.C87_group_key_bijective"
   ],
   "note": ""
  },
  {
   "property": "C88",
   "status": "proved",
   "theorems": [
    "IceFrost.C88_nonce",
    "IceFrost.C88_list",
    "IceFrost.C88_nonce_binds"
   ],
   "note": ""
  },
  {
   "property": "C89",
   "status": "proved",
   "theorems": [
    "IceFrost.C89_bootstrap_order",
    "IceFrost.C89_new_order",
    "IceFrost.C89_round_two_order"
   ],
   "note": ""
  },
  {
   "property": "C90",
   "status": "partial",
   "theorems": [
    "IceFrost.C90_last_record",
    "IceFrost.C90_on_file_partial",
    "IceFrost.C90_duplicate_accepted"
   ],
   "note": "False as stated: round one accepts several participants with one index and the later record overrides the earlier (C90_duplicate_accepted). Proved when the indices are distinct. C90_last_record: the last accepted record of an index is the one on file, for every list."
  },
  {
   "property": "C91",
   "status": "partial",
   "theorems": [
    "IceFrost.C91_signer_order",
    "IceFrost.C91_fieldwise_eq",
    "IceFrost.C91_participant_order_partial",
    "IceFrost.C91_participant_incomparable"
   ],
   "note": "Signer's order is total and consistent with its equality. Participant's partial_cmp violates the PartialOrd contract: a participant equals itself but is incomparable to itself (C91_participant_incomparable). The _partial theorem gives what holds."
  },
  {
   "property": "C92",
   "status": "proved",
   "theorems": [
    "IceFrost.C92_attempt",
    "IceFrost.C92_retry_succeeds"
   ],
   "note": ""
  },
  {
   "property": "C93",
   "status": "partial",
   "theorems": [
    "IceFrost.C93_distinct_dealers_partial",
    "IceFrost.C93_copies_accepted"
   ],
   "note": "False as stated: copies of one share are counted (C93_copies_accepted). Proved when the senders are distinct. C31_last_share: which of several shares of a sender is kept."
  },
  {
   "property": "C94",
   "status": "proved",
   "theorems": [
    "IceFrost.C94_erased_keys",
    "IceFrost.C94_erased",
    "IceFrost.C94_shares_consumed"
   ],
   "note": ""
  },
  {
   "property": "C95",
   "status": "proved",
   "theorems": [
    "IceFrost.C95_round_one_sound",
    "IceFrost.C95_round_two_sound",
    "IceFrost.C95_blame_total",
    "IceFrost.C95_finish_no_panic",
    "IceFrost.C95_finish_ok_iff",
    "IceFrost.C95_finish_total",
    "IceFrost.C95_to_round_two_no_panic_release",
    "IceFrost.C95_to_round_two_no_panic_debug"
   ],
   "note": ""
  },
  {
   "property": "C96",
   "status": "proved",
   "theorems": [
    "IceFrost.C96_reshare_secrecy"
   ],
   "note": ""
  },
  {
   "property": "C97",
   "status": "proved",
   "theorems": [
    "IceFrost.C97_simulation",
    "IceFrost.C97_sign_shows",
    "IceFrost.C97_simulated_accepted"
   ],
   "note": ""
  },
  {
   "property": "C98",
   "status": "partial",
   "theorems": [
    "IceFrost.C98_one_response",
    "IceFrost.C98_bytes_partial",
    "IceFrost.C98_second_form"
   ],
   "note": "At most one response per commitment is proved (C98_one_response). The encoding half is false: from_bytes ignores trailing bytes (C98_second_form). C98_bytes_partial: every accepted encoding starts with the canonical one."
  },
  {
   "property": "C99",
   "status": "partial",
   "theorems": [
    "IceFrost.C99_matches_iff",
    "IceFrost.C99_one_bad_share",
    "IceFrost.C99_unblamed_run",
    "IceFrost.C99_after_blame_partial"
   ],
   "note": "False as stated: shares that failed verification stay on file and finish uses them (C99_unblamed_run, a run through the interface; C99_matches_iff gives the exact condition). C99_after_blame_partial: holds once the own complaints were passed to blame."
  },
  {
   "property": "C100",
   "status": "partial",
   "theorems": [
    "IceFrost.C100_identity_accepted",
    "IceFrost.C100_share_readable",
    "IceFrost.C100_shared_key_partial",
    "IceFrost.C100_injective_partial"
   ],
   "note": "False: a record made of identity points with proofs made from no secret passes every check (C100_identity_accepted) and the share encrypted for it is readable by everybody (C100_share_readable). The _partial theorems: the identity is the only such key."
  },
  {
   "property": "C101",
   "status": "partial",
   "theorems": [
    "IceFrost.C101_replay",
    "IceFrost.C101_replay_new",
    "IceFrost.C101_bound_partial"
   ],
   "note": "False: nothing session-specific is hashed, so records can be replayed between sessions (C101_replay, C101_replay_new). C101_bound_partial: proofs are bound to index and key up to a hash collision."
  },
  {
   "property": "C102",
   "status": "partial",
   "theorems": [
    "IceFrost.C102_stale_list_reused",
    "IceFrost.C102_latest_list_partial"
   ],
   "note": "False if an old copy of the list is restored (C102_stale_list_reused; C85 then gives the key). C102_latest_list_partial: saving and restoring the current list at any points never leads to reuse."
  },
  {
   "property": "C103",
   "status": "proved",
   "theorems": [
    "IceFrost.C103_wire_dkg"
   ],
   "note": ""
  },
  {
   "property": "C104",
   "status": "partial",
   "theorems": [
    "IceFrost.C104_equivocation",
    "IceFrost.C104_same_records_partial"
   ],
   "note": "False: honest participants holding different records of one dealer both finish, with different group keys, if the dealer deals consistently to each (C104_equivocation). C104_same_records_partial: equal records give equal group keys."
  },
  {
   "property": "C105",
   "status": "partial",
   "theorems": [
    "IceFrost.C105_any_subset",
    "IceFrost.C105_removal_changes_key",
    "IceFrost.C105_complaints_partial"
   ],
   "note": "False: malicious participants can have any subset of dealers removed after all records are public (C105_any_subset), and for all but one value of the removed dealer's constant the key changes (C105_removal_changes_key). C105_complaints_partial: the key stays an interpolation of committed constants, and complaints that remove nobody do not change it."
  },
  {
   "property": "C106",
   "status": "partial",
   "theorems": [
    "IceFrost.C106_forgeable",
    "IceFrost.C106_other_keys_partial"
   ],
   "note": "False: in every session that reaches round two bogus complaints lead to a finish with the identity as group key, under which everybody can sign every message (C106_forgeable). C106_other_keys_partial: for other keys no signature is accepted for two messages with different challenges, and every accepted signature is a Schnorr signature with the secret key."
  },
  {
   "property": "C107",
   "status": "proved",
   "theorems": [
    "IceFrost.C107_signature_iff",
    "IceFrost.C107_one_short"
   ],
   "note": ""
  },
  {
   "property": "C108",
   "status": "proved",
   "theorems": [
    "IceFrost.C108_wire_signing"
   ],
   "note": ""
  },
  {
   "property": "C109",
   "status": "proved",
   "theorems": [
    "IceFrost.C109_wire_reshare"
   ],
   "note": ""
  },
  {
   "property": "C110",
   "status": "partial",
   "theorems": [
    "IceFrost.C110_unchecked",
    "IceFrost.C110_mismatch",
    "IceFrost.C110_matching_partial"
   ],
   "note": "False: bootstrap never compares its own private inputs with the list (C110_unchecked, C110_mismatch). C110_matching_partial: if the caller does pass matching data the session is consistent."
  },
  {
   "property": "C111",
   "status": "partial",
   "theorems": [
    "IceFrost.C111_field_oracles_partial",
    "IceFrost.C111_digests_overlap",
    "IceFrost.C111_same_length_partial"
   ],
   "note": "False for the digests h4, h5: context strings that extend each other share inputs (C111_digests_overlap). Proved for h0 to h3 with any contexts (C111_field_oracles_partial) and for h4, h5 with contexts of the same length (C111_same_length_partial)."
  },
  {
   "property": "C112",
   "status": "partial",
   "theorems": [
    "IceFrost.C112_relabelled_receiver",
    "IceFrost.C112_debug_panics",
    "IceFrost.C112_relabelled_sender_partial"
   ],
   "note": "False in release builds for the receiver label: the relabelled share yields a complaint that removes the honest dealer (C112_relabelled_receiver); debug builds panic (C112_debug_panics). C112_relabelled_sender_partial: changed sender labels never remove the dealer they came from."
  },
  {
   "property": "C113",
   "status": "proved",
   "theorems": [
    "IceFrost.C113_dealer",
    "IceFrost.C113_signer",
    "IceFrost.C113_bootstrap_nonces",
    "IceFrost.C113_reshare",
    "IceFrost.C113_complaints",
    "IceFrost.C113_independent"
   ],
   "note": "Draws are positions in the stream of random scalars. C113_independent: with a stream as generator, different positions are independent coordinates."
  },
  {
   "property": "C114",
   "status": "proved",
   "theorems": [
    "IceFrost.C114_round_two",
    "IceFrost.C114_blame",
    "IceFrost.C114_new",
    "IceFrost.C114_bootstrap"
   ],
   "note": "Four steps: new, bootstrap, to_round_two and blame."
  },
  {
   "property": "C115",
   "status": "proved",
   "theorems": [
    "IceFrost.C115_exact",
    "IceFrost.C115_interpolation",
    "IceFrost.C115_finish_collision"
   ],
   "note": "No assumption on the field. Elsewhere the assumption U32Inj (different u32 are different scalars) is used, which holds for every suite of the crate."
  },
  {
   "property": "C116",
   "status": "proved",
   "theorems": [
    "IceFrost.C116_lagrange",
    "IceFrost.C116_nizk",
    "IceFrost.C116_share",
    "IceFrost.C116_degree",
    "IceFrost.C116_complaint",
    "IceFrost.C116_encrypt",
    "IceFrost.C116_decrypt",
    "IceFrost.C116_bytes",
    "IceFrost.C116_generate",
    "IceFrost.C116_verify_key",
    "IceFrost.C116_finish",
    "IceFrost.C116_to_round_two",
    "IceFrost.C116_sign",
    "IceFrost.C116_sign_table",
    "IceFrost.C116_include_signer",
    "IceFrost.C116_verify",
    "IceFrost.C116_aggregate",
    "IceFrost.C116_finish_table",
    "IceFrost.C116_blame_table",
    "IceFrost.C116_bootstrap",
    "IceFrost.C116_new",
    "IceFrost.C116_participants",
    "IceFrost.C116_reshare"
   ],
   "note": ""
  },
  {
   "property": "C117",
   "status": "partial",
   "theorems": [
    "IceFrost.C117_shift",
    "IceFrost.C117_remaining",
    "IceFrost.C117_position_partial",
    "IceFrost.C117_front_partial",
    "IceFrost.C117_second_pair_unreachable",
    "IceFrost.C117_wrong_pair_used",
    "IceFrost.C117_mismatch_iff"
   ],
   "note": "The code violates the full statement (C117_second_pair_unreachable, C117_wrong_pair_used). Proved instead: where the pair is after any history (C117_position_partial), that using position 0 every time follows the published order (C117_front_partial), and exactly when a signature with the wrong pair is still valid (C117_mismatch_iff)."
  },
  {
   "property": "C118",
   "status": "partial",
   "theorems": [
    "IceFrost.C118_success",
    "IceFrost.C118_list_iff",
    "IceFrost.C118_sorted_partial",
    "IceFrost.C118_reordered_list_reported"
   ],
   "note": "The code violates the full statement (C118_reordered_list_reported, for some field hash and every list order whose digest differs). Proved: success does not depend on the order, the exact condition under which the other order's signature is valid, and that sorting by index gives the session's list (C118_sorted_partial)."
  },
  {
   "property": "C119",
   "status": "proved",
   "theorems": [
    "IceFrost.C119_view",
    "IceFrost.C119_count",
    "IceFrost.C119_finish",
    "IceFrost.C119_enough"
   ],
   "note": ""
  },
  {
   "property": "C120",
   "status": "partial",
   "theorems": [
    "IceFrost.C120_dkg_then_sign_partial"
   ],
   "note": "Proved for accepted dealers whose commitments are labelled with their index and whose indices are in 1..n' (n' accepted dealers). The code checks neither; C82_derivation_blocked and C43 show what happens otherwise."
  },
  {
   "property": "C121",
   "status": "partial",
   "theorems": [
    "IceFrost.C121_reshare_then_sign_partial",
    "IceFrost.C121_honest_dealers_suffice"
   ],
   "note": "Proved for dealers whose commitments carry their index, start with their old verifying share and have at most t_new points; the code checks none of this (C81_wrong_share_changes_key, C26_any_degree_accepted, C82_derivation_blocked). C121_honest_dealers_suffice is the liveness part under the same conditions on the other dealers' records."
  },
  {
   "property": "C122",
   "status": "partial",
   "theorems": [
    "IceFrost.C122_withheld_unnoticed",
    "IceFrost.C122_one_missing",
    "IceFrost.C122_self_check_partial",
    "IceFrost.C122_victim_reported"
   ],
   "note": "Violated: C122_withheld_unnoticed shows that to_round_two succeeds without complaint with any t or more shares, that finish returns the group key with a key interpolated from the received shares only, and exactly when that key is right; C122_one_missing: with one share missing it is right for exactly one value of the missing share. C122_victim_reported: in signing the victim, not the dealer, is then reported as misbehaving. C122_self_check_partial is what holds."
  },
  {
   "property": "C123",
   "status": "partial",
   "theorems": [
    "IceFrost.C123_dealt_share_disclosed",
    "IceFrost.C123_secret_disclosed",
    "IceFrost.C123_accused_learns_nothing_partial",
    "IceFrost.C123_complaint_simulated"
   ],
   "note": "Violated: C123_dealt_share_disclosed shows that the disclosed key also opens the share that the maker of the complaint dealt to the accused; C123_secret_disclosed: such shares, with those already known, give the maker's secret contribution once there are t of them. C123_accused_learns_nothing_partial and C123_complaint_simulated are what holds: the accused knows the key already and the proof in the complaint discloses nothing more."
  },
  {
   "property": "C124",
   "status": "proved",
   "theorems": [
    "IceFrost.C124_shares_uniform",
    "IceFrost.C124_commitments_simulated",
    "IceFrost.C124_simulated_accepted",
    "IceFrost.C124_real_view",
    "IceFrost.C124_simulated_view",
    "IceFrost.C124_record_accepted"
   ],
   "note": "The proof of knowledge is simulated with the hash programmed at one input (C124_record_accepted), as usual in the random oracle model; that a programmed hash is indistinguishable from the code's hash is not a statement about the code."
  },
  {
   "property": "C125",
   "status": "partial",
   "theorems": [
    "IceFrost.C125_lockout",
    "IceFrost.C125_one_dealer_raises",
    "IceFrost.C125_short_commitments_partial"
   ],
   "note": "Violated. C125_one_dealer_raises is the negation through the interface (one dealer calls reshare with t'+1), C125_lockout the general form with any polynomial lengths, including the loss of the key for the whole group. C125_short_commitments_partial is what holds: if no commitment has more than t' points the claim is true. That no signature comes out of such a set is C107_signature_iff."
  },
  {
   "property": "C126",
   "status": "partial",
   "theorems": [
    "IceFrost.C126_signing_key_left",
    "IceFrost.C126_dealer_secret_left",
    "IceFrost.C126_received_shares_left",
    "IceFrost.C126_dealing_buffers",
    "IceFrost.C126_receiving_buffers",
    "IceFrost.C126_nonces_left",
    "IceFrost.C126_typed_values_partial"
   ],
   "note": "Negations: C126_signing_key_left, C126_dealer_secret_left, C126_received_shares_left. What holds: C126_typed_values_partial."
  },
  {
   "property": "C127",
   "status": "partial",
   "theorems": [
    "IceFrost.C127_undelivered_complaint",
    "IceFrost.C127_same_verdicts_partial"
   ],
   "note": "Negation with the exact condition: C127_undelivered_complaint. What holds: C127_same_verdicts_partial (equal verdicts give equal keys)."
  },
  {
   "property": "C128",
   "status": "proved",
   "theorems": [
    "IceFrost.C128_bootstrap",
    "IceFrost.C128_new",
    "IceFrost.C128_reshare",
    "IceFrost.C128_to_round_two",
    "IceFrost.C128_finish",
    "IceFrost.C128_sign"
   ],
   "note": ""
  },
  {
   "property": "C129",
   "status": "proved",
   "theorems": [
    "IceFrost.C129_step",
    "IceFrost.C129_chain",
    "IceFrost.C129_chain_then_sign",
    "IceFrost.C129_start",
    "IceFrost.C129_step_exists",
    "IceFrost.C129_extend",
    "IceFrost.C129_chains_exist"
   ],
   "note": ""
  },
  {
   "property": "C130",
   "status": "proved",
   "theorems": [
    "IceFrost.C130_dkg_messages",
    "IceFrost.C130_stored_objects",
    "IceFrost.C130_signing_objects",
    "IceFrost.C130_lengths",
    "IceFrost.C130_read_back"
   ],
   "note": "The conventions of ark-serialize 0.4 for integers, vectors, options, maps and structs are in the trusted base; the property fixes which fields are written, in which order and with which prefixes."
  },
  {
   "property": "C131",
   "status": "proved",
   "theorems": [
    "IceFrost.C131_fresh_sharing",
    "IceFrost.C131_quorum_keys",
    "IceFrost.C131_states_exist"
   ],
   "note": ""
  },
  {
   "property": "C132",
   "status": "partial",
   "theorems": [
    "IceFrost.C132_takeover",
    "IceFrost.C132_takeover_keys",
    "IceFrost.C132_one_record_interrupts",
    "IceFrost.C132_uninterrupted_partial"
   ],
   "note": "False: one participant that calls itself a number above the number of accepted participants (or is last after a rejected record) takes the session over. Its wrong shares raise complaints that remove all honest makers; finish then returns its own key as the group key and the shares it chose as signing keys (C132_takeover, C132_takeover_keys). One record without proof of knowledge makes everybody panic (C132_one_record_interrupts). Proved for all other records, dealers with indices in range and complaints of honest participants."
  },
  {
   "property": "C133",
   "status": "partial",
   "theorems": [
    "IceFrost.C133_reshare_takeover",
    "IceFrost.C133_key_kept_partial"
   ],
   "note": "False: in a resharing by a part of the old signers the index of a dealer may exceed the number of dealers without any further deviation; if the new signers reuse the indices of the honest dealers, such a dealer deals wrong shares, the complaints of the new signers remove the honest dealers, and the new group key is the constant this dealer committed to (C133_reshare_takeover). C133_key_kept_partial: dealers with indices in range, right constants (else C81_wrong_share_changes_key); new signers may be dishonest as well, if their complaints pass the two checks of C135 and their indices are not those of honest dealers (C46)."
  },
  {
   "property": "C134",
   "status": "proved",
   "theorems": [
    "IceFrost.C134_one_dealer",
    "IceFrost.C134_two_sets"
   ],
   "note": ""
  },
  {
   "property": "C135",
   "status": "partial",
   "theorems": [
    "IceFrost.C135_authenticated_framing",
    "IceFrost.C135_screened_partial",
    "IceFrost.C135_forgery"
   ],
   "note": "False: blame compares neither the DH key in a complaint with the maker's nor the included share with the one dealt (C135_authenticated_framing, both ways, in a session that everybody follows). Proved: with these two comparisons made by the application the property holds (C135_screened_partial), up to forged proofs, which hit the single answerable challenge (C135_forgery) and so are found only by luck (C178)."
  },
  {
   "property": "C136",
   "status": "proved",
   "theorems": [
    "IceFrost.C136_secret_objects",
    "IceFrost.C136_public_objects",
    "IceFrost.C136_smaller_moves",
    "IceFrost.C136_nonce_input"
   ],
   "note": "The growth strategy of Vec is part of the trusted reading of the standard library (Model/Memory, writeChunks)."
  },
  {
   "property": "C137",
   "status": "partial",
   "theorems": [
    "IceFrost.C137_text",
    "IceFrost.C137_wrapped",
    "IceFrost.C137_quoted",
    "IceFrost.C137_aggregate_text_partial",
    "IceFrost.C137_finalize_text_false"
   ],
   "note": "C137_text and C137_wrapped hold for all errors. The second half is false for finalize: C137_finalize_text_false (it prints that participant 0 and the signers that have not answered provided invalid partial signatures). C137_aggregate_text_partial proves it for aggregate."
  },
  {
   "property": "C138",
   "status": "partial",
   "theorems": [
    "IceFrost.C138_debug_reveals",
    "IceFrost.C138_errors_partial"
   ],
   "note": "The first half is false: every one of these types derives Debug, and C138_debug_reveals shows that the output determines the secret. The texts of errors do not depend on secrets: C138_errors_partial (complaints, which disclose a shared key on purpose, are the subject of C123)."
  },
  {
   "property": "C139",
   "status": "proved",
   "theorems": [
    "IceFrost.C139_coefficients",
    "IceFrost.C139_shares",
    "IceFrost.C139_guess_secret",
    "IceFrost.C139_trusted_dealer",
    "IceFrost.C139_guess_group_secret",
    "IceFrost.C139_group_key",
    "IceFrost.C139_late_complaint",
    "IceFrost.C139_proof_simulated",
    "IceFrost.C139_signature_simulated"
   ],
   "note": "C139_coefficients (a); C139_shares, C139_guess_secret (b); C139_trusted_dealer, C139_group_key, C139_guess_group_secret (c); C139_proof_simulated, C139_signature_simulated (d); C139_late_complaint (e). The distributions concern the shares and keys; public commitments determine the secret in the group, so with them in view only a computational statement could hold, and none is made."
  },
  {
   "property": "C140",
   "status": "proved",
   "theorems": [
    "IceFrost.C140_forgery",
    "IceFrost.C140_key_of_view",
    "IceFrost.C140_below_threshold",
    "IceFrost.C140_proof_of_knowledge",
    "IceFrost.C140_false_complaint"
   ],
   "note": "C140_forgery (a), C140_below_threshold with C140_key_of_view (b), C140_proof_of_knowledge (c), C140_false_complaint (d). The attackers in (a) and (b) do not take part in signing sessions; C143 covers those who do, with a stronger assumption (one-more discrete logarithms)."
  },
  {
   "property": "C141",
   "status": "proved",
   "theorems": [
    "IceFrost.C141_chosen_message",
    "IceFrost.C141_given_out",
    "IceFrost.C141_below_threshold"
   ],
   "note": "A signature of the group is modelled as the Schnorr signature with the group secret and a uniform nonce, which by C83 is what honest signers and the aggregator produce, with the combined nonce. Forgers who take part in signing sessions themselves are the subject of C143."
  },
  {
   "property": "C142",
   "status": "partial",
   "theorems": [
    "IceFrost.C142_commitments_ignored",
    "IceFrost.C142_valid_iff",
    "IceFrost.C142_honest_reported",
    "IceFrost.C142_own_pair_partial"
   ],
   "note": "False; the documentation only warns that the position has to be that of the published pair. C142_commitments_ignored: sign looks only at the indices of the list. C142_valid_iff: the result is valid exactly if the listed commitment equals the one of the pair used. C142_honest_reported: an honest signer is reported exactly if the aggregator lists it with another nonce commitment. C142_own_pair_partial: a signer that looks for itself makes valid partial signatures."
  },
  {
   "property": "C143",
   "status": "proved",
   "theorems": [
    "IceFrost.C143_concurrent_sessions",
    "IceFrost.C143_questions",
    "IceFrost.C143_keys",
    "IceFrost.C143_below_threshold"
   ],
   "note": "The honest signers run the model's sign on their lists of nonce pairs, which loses the pair it used. Nonces are uniform scalars and the hashes to scalars a random oracle; binding factors are asked by naming message and list, and C143 asks that no two different messages or lists named in the game have the same digests. The check that C142 misses is not needed for this proof. C143_questions counts the questions of the solver; the type of the solver gives it points only, never scalars."
  },
  {
   "property": "C144",
   "status": "partial",
   "theorems": [
    "IceFrost.C144_documented_partial",
    "IceFrost.C144_single_dealer",
    "IceFrost.C144_chance",
    "IceFrost.C144_documented_false"
   ],
   "note": "False: finish weights evaluations and commitments with Lagrange coefficients (as in the ICE-FROST paper, where dealers may be those of an earlier group). C144_documented_false is a session with two dealers; C144_documented_partial says exactly when the documented keys are returned, C144_single_dealer that they are with one dealer, and C144_chance that with two or more dealers and random polynomials they are with chance at most 1/|F|."
  },
  {
   "property": "C145",
   "status": "proved",
   "theorems": [
    "IceFrost.C145_keys",
    "IceFrost.C145_forgery",
    "IceFrost.C145_concurrent_sessions"
   ],
   "note": "C145_forgery, C145_concurrent_sessions; C145_keys shows that the keys of the game are those that finish returns to participants holding verified shares. Compared with C140 and C143 the colluders need not know polynomials. With fewer than t honest participants one would need to extract the constant terms from the proofs of knowledge (C140_proof_of_knowledge does this for a single record). Colluders see the commitments and their own shares of the honest dealer; its other messages (proofs, encrypted shares for others) are not part of the view."
  },
  {
   "property": "C146",
   "status": "proved",
   "theorems": [
    "IceFrost.C146_record",
    "IceFrost.C146_forgery",
    "IceFrost.C146_concurrent_sessions"
   ],
   "note": "Random-oracle model. C146_record shows that the record of the game is what new_dealer returns. The encrypted shares between honest participants are not part of the view. The dealings may depend on answers of the hash asked before (parameter known), except on those for binding factors and challenges."
  },
  {
   "property": "C147",
   "status": "proved",
   "theorems": [
    "IceFrost.C147_reshare",
    "IceFrost.C147_keys",
    "IceFrost.C147_forgery",
    "IceFrost.C147_concurrent_sessions"
   ],
   "note": "Old keys are modelled as values of a uniformly random polynomial (C139 shows that a key generation with an honest dealer gives this). The colluding new participants know only what they hold after the resharing: an honest dealer that is corrupted later has erased its old key. Signing sessions under the old key are not part of the game. The proofs of knowledge and the encrypted shares of the resharing are not part of the view (see C146)."
  },
  {
   "property": "C148",
   "status": "proved",
   "theorems": [
    "IceFrost.C148_group",
    "IceFrost.C148_codec",
    "IceFrost.C148_cipher",
    "IceFrost.C148_lawful",
    "IceFrost.C148_short",
    "IceFrost.C148_canonical",
    "IceFrost.C148_loose"
   ],
   "note": "The curve is Mathlib's Weierstrass curve y^2 = x^3 + 7 over the field of the standard; the primality of both numbers is proved with Pratt certificates, (n - 1)G = -G is computed by the kernel, and the number of points is proved to be n. The byte format of arkworks and the constants of the standard are written from memory, since neither is in the repository. C148_canonical holds for a strict reader; C148_loose has a reader that ignores bits, for which the laws hold but CanonicalDec does not. SHA-256, HKDF and AES are arbitrary functions of the right lengths."
  },
  {
   "property": "C149",
   "status": "proved",
   "theorems": [
    "IceFrost.C149_distribution",
    "IceFrost.C149_signers_hidden"
   ],
   "note": ""
  },
  {
   "property": "C150",
   "status": "proved",
   "theorems": [
    "IceFrost.C150_forgery",
    "IceFrost.C150_bootstrap",
    "IceFrost.C150_group_key",
    "IceFrost.C150_forgery_after_record"
   ],
   "note": ""
  },
  {
   "property": "C151",
   "status": "partial",
   "theorems": [
    "IceFrost.C151_recipe_partial",
    "IceFrost.C151_old_parameters",
    "IceFrost.C151_late_dealer",
    "IceFrost.C151_recipe_takeover"
   ],
   "note": "C151_recipe_partial: honest dealers, any gaps in their indices. C151_old_parameters: the old number of participants is refused. Violation: C151_late_dealer (somebody's index exceeds the number of dealers as soon as there is a gap) and C151_recipe_takeover (that dealer replaces the key, through C133_reshare_takeover). Dishonest dealers with indices in range: C133_key_kept_partial, whose parameters may be the documented ones."
  },
  {
   "property": "C152",
   "status": "proved",
   "theorems": [
    "IceFrost.C152_keys",
    "IceFrost.C152_guesses",
    "IceFrost.C152_wire",
    "IceFrost.C152_secret",
    "IceFrost.C152_dealer",
    "IceFrost.C152_bootstrap"
   ],
   "note": "The key derivation (HKDF) and h0 are random functions here. The bound names the solvers and tests explicitly; that they cannot succeed is not claimed, it is the assumption on the group and the cipher. Complaints, which disclose Diffie-Hellman secrets (C123), and the proof of the secret key (C146) are not part of the view."
  },
  {
   "property": "C153",
   "status": "proved",
   "theorems": [
    "IceFrost.C153_questions",
    "IceFrost.C153_forgery"
   ],
   "note": "The signing hashes and the hash of proofs of DH keys are random oracles, the key derivation is a random function. Not in the view: the proof of knowledge of the dealer's secret key (added in C158) and complaints (C123)."
  },
  {
   "property": "C154",
   "status": "partial",
   "theorems": [
    "IceFrost.C154_same_decoders",
    "IceFrost.C154_short_messages",
    "IceFrost.C154_encodings_partial",
    "IceFrost.C154_no_panic_partial",
    "IceFrost.C154_check_first",
    "IceFrost.C154_exact_partial"
   ],
   "note": "False as stated, given that ark-serialize 0.4 calls Vec::with_capacity with the announced length (trusted reading of the dependency): for every type with a vector a message of 8 to about 120 bytes reserves any amount of memory or panics (C154_short_messages). For encodings the bound holds (C154_encodings_partial), and the reservation is exactly the memory of the vectors in the value (C154_exact_partial); comparing the length with the bytes left would repair it without refusing anything (C154_check_first)."
  },
  {
   "property": "C155",
   "status": "proved",
   "theorems": [
    "IceFrost.C155_keys",
    "IceFrost.C155_agreement",
    "IceFrost.C155_failures",
    "IceFrost.C155_progress",
    "IceFrost.C155_signing",
    "IceFrost.C155_honest"
   ],
   "note": ""
  },
  {
   "property": "C156",
   "status": "proved",
   "theorems": [
    "IceFrost.C156_conserved",
    "IceFrost.C156_no_reuse",
    "IceFrost.C156_answers",
    "IceFrost.C156_not_blamed",
    "IceFrost.C156_progress"
   ],
   "note": "The restart step reads the list saved last; with an older one the first claim is false, see C102_stale_list_reused."
  },
  {
   "property": "C157",
   "status": "proved",
   "theorems": [
    "IceFrost.C157_reshared",
    "IceFrost.C157_life",
    "IceFrost.C157_signing",
    "IceFrost.C157_runs",
    "IceFrost.C157_honest"
   ],
   "note": ""
  },
  {
   "property": "C158",
   "status": "proved",
   "theorems": [
    "IceFrost.C158_questions",
    "IceFrost.C158_forgery",
    "IceFrost.C158_record"
   ],
   "note": "Complaints are not in the view (C123 treats them)."
  },
  {
   "property": "C159",
   "status": "proved",
   "theorems": [
    "IceFrost.C159_keys",
    "IceFrost.C159_progress",
    "IceFrost.C159_not_blamed"
   ],
   "note": "For key generation the label of the commitments is checked by the caller (the code does not, C82)."
  },
  {
   "property": "C160",
   "status": "proved",
   "theorems": [
    "IceFrost.C160_forgery",
    "IceFrost.C160_reshared",
    "IceFrost.C160_life"
   ],
   "note": ""
  },
  {
   "property": "C161",
   "status": "proved",
   "theorems": [
    "IceFrost.C161_one_key",
    "IceFrost.C161_reuse",
    "IceFrost.C161_pair",
    "IceFrost.C161_secp",
    "IceFrost.C161_leak"
   ],
   "note": ""
  },
  {
   "property": "C162",
   "status": "proved",
   "theorems": [
    "IceFrost.C162_through",
    "IceFrost.C162_separated",
    "IceFrost.C162_long_context",
    "IceFrost.C162_zero_context",
    "IceFrost.C162_complete",
    "IceFrost.C162_later"
   ],
   "note": ""
  },
  {
   "property": "C163",
   "status": "proved",
   "theorems": [
    "IceFrost.C163_lawful",
    "IceFrost.C163_built",
    "IceFrost.C163_separated",
    "IceFrost.C163_share",
    "IceFrost.C163_sizes",
    "IceFrost.C163_opened",
    "IceFrost.C163_dkg_to_signature"
   ],
   "note": ""
  },
  {
   "property": "C164",
   "status": "proved",
   "theorems": [
    "IceFrost.C164_scalar",
    "IceFrost.C164_not_uniform",
    "IceFrost.C164_calls",
    "IceFrost.C164_code",
    "IceFrost.C164_shipped",
    "IceFrost.C164_forgery"
   ],
   "note": "The bytes are assumed uniform here, that is, the expander is the random oracle; C163 has the shipped expander written out (C164_shipped ties the reduction to it)."
  },
  {
   "property": "C165",
   "status": "proved",
   "theorems": [
    "IceFrost.C165_altered",
    "IceFrost.C165_aes",
    "IceFrost.C165_indices"
   ],
   "note": "AES-128 and GHASH are written out (C163); the random function in place of AES enters through the advantage Spec.aesAdvantage. The key is random here; C152 has the key derivation."
  },
  {
   "property": "C166",
   "status": "proved",
   "theorems": [
    "IceFrost.C166_hidden",
    "IceFrost.C166_aes",
    "IceFrost.C166_shares",
    "IceFrost.C166_advantage",
    "IceFrost.C166_wire",
    "IceFrost.C166_forgery"
   ],
   "note": "The nonces are different by hypothesis (C161 bounds the chance that they are not); an example shows that with equal nonces a test tells texts apart."
  },
  {
   "property": "C167",
   "status": "proved",
   "theorems": [
    "IceFrost.C167_expander",
    "IceFrost.C167_hmac",
    "IceFrost.C167_hkdf",
    "IceFrost.C167_tag",
    "IceFrost.C167_tag_fixed",
    "IceFrost.C167_stream",
    "IceFrost.C167_constants",
    "IceFrost.C167_functions",
    "IceFrost.C167_compression",
    "IceFrost.C167_padding",
    "IceFrost.C167_blocks",
    "IceFrost.C167_length_field",
    "IceFrost.C167_words",
    "IceFrost.C167_digest",
    "IceFrost.C167_sbox",
    "IceFrost.C167_rows_columns",
    "IceFrost.C167_permutation",
    "IceFrost.C167_key_expansion",
    "IceFrost.C167_rounds",
    "IceFrost.C167_ghash_field"
   ],
   "note": "The sources of sha2 and aes-gcm are not in /repo; the model (C163) follows the standards. This proves the model right against them, not the crates."
  },
  {
   "property": "C168",
   "status": "proved",
   "theorems": [
    "IceFrost.C168_lists",
    "IceFrost.C168_hedged",
    "IceFrost.C168_repeat",
    "IceFrost.C168_repeated",
    "IceFrost.C168_shipped"
   ],
   "note": ""
  },
  {
   "property": "C169",
   "status": "partial",
   "theorems": [
    "IceFrost.C169_protocol_partial",
    "IceFrost.C169_verify",
    "IceFrost.C169_nonce",
    "IceFrost.C169_strings",
    "IceFrost.C169_accepted_iff",
    "IceFrost.C169_refused"
   ],
   "note": "False as stated: C169_strings (a binding factor is never the hash of a string that the RFC prescribes) and C169_refused (with suitable hash functions all partial signatures of RFC signers are refused by the aggregator; C169_accepted_iff is the exact condition). C169_verify, C169_nonce and C169_protocol_partial are what holds: the crate's sessions are sessions of the RFC for a ciphersuite that differs in H1 and H5 only. The RFC is restated from memory in Props/Rfc9591.lean. It also asks a signer to look for its own commitments in the list, see C142."
  },
  {
   "property": "C170",
   "status": "proved",
   "theorems": [
    "IceFrost.C170_scalars",
    "IceFrost.C170_dealer",
    "IceFrost.C170_signer",
    "IceFrost.C170_complaint",
    "IceFrost.C170_guess_secret",
    "IceFrost.C170_bytes",
    "IceFrost.C170_real"
   ],
   "note": ""
  },
  {
   "property": "C171",
   "status": "proved",
   "theorems": [
    "IceFrost.C171_switch",
    "IceFrost.C171_sealed",
    "IceFrost.C171_hidden",
    "IceFrost.C171_altered",
    "IceFrost.C171_wire"
   ],
   "note": ""
  },
  {
   "property": "C172",
   "status": "proved",
   "theorems": [
    "IceFrost.C172_source",
    "IceFrost.C172_coefficients",
    "IceFrost.C172_forgery",
    "IceFrost.C172_numbers"
   ],
   "note": ""
  },
  {
   "property": "C173",
   "status": "partial",
   "theorems": [
    "IceFrost.C173_secrets",
    "IceFrost.C173_public_partial",
    "IceFrost.C173_filtered_partial",
    "IceFrost.C173_valid_participants",
    "IceFrost.C173_encoding_moves",
    "IceFrost.C173_parameters"
   ],
   "note": "Holds for the secrets (coefficients, nonces), and for every vector but three: `encode_group_commitment_list` reserves four bytes per signer too few and moves for every list of signers; `new_state_internal` reserves `n` participants before it checks how many it was given; `SignatureAggregator::new` reserves `t` signers before there is one. The negations are proved for all sizes."
  },
  {
   "property": "C174",
   "status": "proved",
   "theorems": [
    "IceFrost.C174_new_participant",
    "IceFrost.C174_deal_shares",
    "IceFrost.C174_signing_key",
    "IceFrost.C174_nonces",
    "IceFrost.C174_equality",
    "IceFrost.C174_drop_share",
    "IceFrost.C174_drop_position",
    "IceFrost.C174_sign",
    "IceFrost.C174_round_two",
    "IceFrost.C174_round_two_good",
    "IceFrost.C174_values"
   ],
   "note": "At the level of the source: one step of a dependency (a field or group operation, a hash, the cipher) is atomic, and what the compiler makes of the code is not modelled."
  },
  {
   "property": "C175",
   "status": "partial",
   "theorems": [
    "IceFrost.C175_same_partial",
    "IceFrost.C175_parameters",
    "IceFrost.C175_round_one",
    "IceFrost.C175_sign",
    "IceFrost.C175_round_two_partial",
    "IceFrost.C175_overflow",
    "IceFrost.C175_misaddressed"
   ],
   "note": "Holds for ThresholdParameters::new (C175_parameters), for bootstrap, new and reshare (C175_round_one: identical when t is not 0, which is the only case in which they panic), and for sign (C175_sign: they differ only at the position usize::MAX, where both refuse and keep the nonces). False for to_round_two: C175_overflow (more bad shares than n) and C175_misaddressed (share for another receiver) are calls on which a debug build panics and a release build succeeds. C175_same_partial is agreement wherever the debug build does not panic; C175_round_two_partial gives conditions on the input of to_round_two under which it does not."
  },
  {
   "property": "C176",
   "status": "partial",
   "theorems": [
    "IceFrost.C176_values",
    "IceFrost.C176_create",
    "IceFrost.C176_round_one",
    "IceFrost.C176_round_two",
    "IceFrost.C176_round_two_bootstrap",
    "IceFrost.C176_blame",
    "IceFrost.C176_finish",
    "IceFrost.C176_keys",
    "IceFrost.C176_sign",
    "IceFrost.C176_verify",
    "IceFrost.C176_aggregate_partial",
    "IceFrost.C176_failed_aggregation",
    "IceFrost.C176_failed_aggregation_exists"
   ],
   "note": "Every bound on multiplications and, except for a failing aggregation, on hashed bytes is proved (C176_create, C176_round_one, C176_round_two, C176_round_two_bootstrap, C176_blame, C176_finish, C176_keys, C176_sign, C176_verify, C176_aggregate_partial). False for the hashed bytes of a failing aggregation: C176_failed_aggregation shows that one which reports misbehaving signers has hashed the whole list of the k signers k times more, and C176_failed_aggregation_exists that any set of signers can bring that about. Field multiplications, such as those of the Lagrange coefficients, are not counted."
  },
  {
   "property": "C177",
   "status": "partial",
   "theorems": [
    "IceFrost.C177_last_record_receives",
    "IceFrost.C177_other_indices_partial",
    "IceFrost.C177_reshare",
    "IceFrost.C177_rejected_record_ends_session"
   ],
   "note": "False in the code: shares are dealt over the whole list of records, the rejected ones included, into a map keyed by index, so the last record with an index decides (C177_last_record_receives, exact). C177_rejected_record_ends_session: one rejected record with the index of a participant that follows the protocol makes all others encrypt that participant's share to a key of somebody else; it complains about everybody as the protocol prescribes, the complaints are upheld, all dealers are discarded, and finish returns the neutral element as group key. Proved (C177_other_indices_partial): the claim for lists in which no rejected record has the index of an accepted one. C177_reshare: in a reshare, too, the last record with an index decides, accepted or not."
  },
  {
   "property": "C178",
   "status": "proved",
   "theorems": [
    "IceFrost.C178_false_proof",
    "IceFrost.C178_dealer_removed",
    "IceFrost.C178_guess",
    "IceFrost.C178_shipped"
   ],
   "note": ""
  },
  {
   "property": "C179",
   "status": "proved",
   "theorems": [
    "IceFrost.C179_listed_nonces",
    "IceFrost.C179_hard",
    "IceFrost.C179_below_threshold",
    "IceFrost.C179_shipped"
   ],
   "note": ""
  },
  {
   "property": "C180",
   "status": "proved",
   "theorems": [
    "IceFrost.C180_questions",
    "IceFrost.C180_forgery",
    "IceFrost.C180_hard",
    "IceFrost.C180_bytes"
   ],
   "note": ""
  },
  {
   "property": "C181",
   "status": "proved",
   "theorems": [
    "IceFrost.C181_survives",
    "IceFrost.C181_restarts_invisible",
    "IceFrost.C181_finalized",
    "IceFrost.C181_parts",
    "IceFrost.C181_not_validated"
   ],
   "note": ""
  },
  {
   "property": "C182",
   "status": "proved",
   "theorems": [
    "IceFrost.C182_create",
    "IceFrost.C182_round_one",
    "IceFrost.C182_round_two",
    "IceFrost.C182_round_two_bootstrap",
    "IceFrost.C182_finish",
    "IceFrost.C182_keys",
    "IceFrost.C182_sign",
    "IceFrost.C182_verify",
    "IceFrost.C182_aggregate"
   ],
   "note": ""
  },
  {
   "property": "C183",
   "status": "proved",
   "theorems": [
    "IceFrost.C183_short",
    "IceFrost.C183_not_reduced",
    "IceFrost.C183_nonces_read",
    "IceFrost.C183_pairs_read",
    "IceFrost.C183_read_iff",
    "IceFrost.C183_mismatch_read",
    "IceFrost.C183_signed_with",
    "IceFrost.C183_damaged_nonce"
   ],
   "note": ""
  },
  {
   "property": "C184",
   "status": "proved",
   "theorems": [
    "IceFrost.C184_params",
    "IceFrost.C184_signatures",
    "IceFrost.C184_signing_keys",
    "IceFrost.C184_shares",
    "IceFrost.C184_partial_signatures"
   ],
   "note": ""
  }
 ]
}