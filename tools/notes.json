{
 "C04": {
  "note": "The documented rejection is false for indices outside the list and for index 0: C04_foreign_index_accepted, C04_zero_index_accepted, C04_documented_rejection_fails. The partial theorem gives the exact rejection condition of the code."
 },
 "C22": {
  "note": "False as stated: C22_missing_proof_panics with C22_attack. The partial theorem excludes exactly those records. C116_bootstrap and C116_new list the result for every input."
 },
 "C23": {
  "note": "False as stated: C23_index_zero_receives_secret. The partial theorem assumes no participant announces index 0."
 },
 "C24": {
  "note": "False as stated: C24_misbehaving_receives_share. The partial theorem gives the exact set of receivers."
 },
 "C26": {
  "note": "False as stated: C26_any_degree_accepted. The partial theorem states what `new` does check."
 },
 "C30": {
  "note": "False in release builds when complaints outnumber n (wrap-around): C30_overflow. The partial theorem assumes the subtraction does not wrap; C30_bound shows what is guaranteed. C116_to_round_two gives the exact result for every number of complaints, with and without wrap-around."
 },
 "C31": {
  "note": "False in release builds: C31_release_misaddressed. The partial theorem covers debug builds, and release builds when the shares are addressed to their holder. C31_stored_iff and C31_last_share give the exact content of the file in every build."
 },
 "C32": {
  "note": "False as stated: C32_missing_share_accepted. The partial theorem assumes that a share of every dealer is given."
 },
 "C37": {
  "note": "The code violates it: complaints made of public data remove every dealer and finish still succeeds with the identity as group key (C37_finish_without_dealers). Proved for a participant that processes only its own complaints."
 },
 "C43": {
  "note": "The code violates it: after round one discarded somebody, n is smaller than the largest index and a justified complaint against a dealer beyond n removes its maker (C43_maker_removed, C43_reachable). Proved for dealers with index at most the current n."
 },
 "C44": {
  "note": "The code violates it: a second call with a complaint about an already removed dealer removes the maker (C44_repeated_call). Proved when the later complaints accuse only remaining dealers. C44_two_calls: what two calls remove, and exactly when that is the same as one call."
 },
 "C45": {
  "note": "The code violates it: anybody can remove any dealer with a complaint made of public data (C45_bogus_accusation, C45_framed_by_outsider, C45_framed_always). Proved for complaints about genuine shares with the true shared key."
 },
 "C46": {
  "note": "The code violates it: an unjustified complaint of new signer j removes old dealer j (C46_index_confusion, C46_rejected_removes). Proved when signer and dealer indices are disjoint."
 },
 "C81": {
  "note": "The code violates it: neither the constant term of the new commitment nor its length is checked by `new`; a dealer that reshares another value changes the group key unnoticed (C81_wrong_share_changes_key). Proved when dealers commit to their old verifying share with at most t points. C81_preserved_iff: the exact condition on what the dealers committed to."
 },
 "C82": {
  "note": "The code violates it: labels are not checked (C82_label_unchecked) and a duplicate label blocks every derivation (C82_derivation_blocked). Proved for matching labels."
 },
 "C55": {
  "note": "A failed call consumes nothing: proved. The second half is false at position usize::MAX, where the call panics instead (C55_max_position_panics); C55_missing_iff_partial covers every other position."
 },
 "C60": {
  "note": "The code violates it: the threshold is never checked, zero or one signer finalize for every t (C60_below_threshold_accepted). Only the upper bound n is proved."
 },
 "C61": {
  "note": "The code violates it: an include_signer call rejected with TooManySigners leaves the signer listed and makes every later finalize fail (C61_rejected_poisons). Proved for the other rejections."
 },
 "C62": {
  "note": "The code violates it: the commitment share of the first and the public key of the last inclusion are kept (C62_mixed). Proved when all inclusions of the index name the same public key. C62_first_share_last_key: which data are kept, for every history."
 },
 "C66": {
  "note": "The code violates it for index 0: IndexIsZero is returned instead of a report (C66_zero_index_no_report). Proved for nonzero indices; C66_deviators_reported gives the exact report when keys are proper, C66_empty_report shows that the condition on the keys is needed."
 },
 "C67": {
  "note": "The code violates it: sign with an empty signer list, sign at position usize::MAX, and aggregate without signers panic (C67_sign_empty_panics, C55_max_position_panics, C67_aggregate_empty_panics). Proved for all other inputs. C116_sign_table lists the result of sign for every input."
 },
 "C69": {
  "note": "The injectivity part is unconditional given fixed-width point encodings; the last step is stated as an explicit collision because hash functions are opaque."
 },
 "C72": {
  "note": "One theorem per type. Values must fit in memory (vectors shorter than 2^64), maps must be sorted as BTreeMaps are, and a nonce must have the cipher size; C77_states_fit shows reachable states do."
 },
 "C74": {
  "note": "False as stated: trailing bytes are ignored (C74_trailing_accepted) and map entries may come in any order (C74_state_two_encodings). The _partial theorems give what holds: for types without maps accepted bytes start with the canonical encoding, assuming points and scalars have one accepted encoding; decoded states always re-encode stably."
 },
 "C75": {
  "note": "False as stated: every pair of numbers is accepted (C75_unsound), and a zero threshold makes new_dealer panic. C75_no_session_partial: no key generation or resharing starts with unsound parameters."
 },
 "C77": {
  "note": "All crash points between calls of one session; states built by bootstrap/new fit their encoding (C77_states_fit)."
 },
 "C78": {
  "note": "False: the round markers are empty, so both rounds write the same bytes (C78_interchangeable). C78_cannot_finish_partial: a fresh round-one state read as round two cannot finish or blame."
 },
 "C79": {
  "note": "The overwriting in calculate_signing_key; the zeroizing Drop implementations are modelled separately (C94)."
 },
 "C90": {
  "note": "False as stated: round one accepts several participants with one index and the later record overrides the earlier (C90_duplicate_accepted). Proved when the indices are distinct. C90_last_record: the last accepted record of an index is the one on file, for every list."
 },
 "C91": {
  "note": "Signer's order is total and consistent with its equality. Participant's partial_cmp violates the PartialOrd contract: a participant equals itself but is incomparable to itself (C91_participant_incomparable). The _partial theorem gives what holds."
 },
 "C93": {
  "note": "False as stated: copies of one share are counted (C93_copies_accepted). Proved when the senders are distinct. C31_last_share: which of several shares of a sender is kept."
 },
 "C98": {
  "note": "At most one response per commitment is proved (C98_one_response). The encoding half is false: from_bytes ignores trailing bytes (C98_second_form). C98_bytes_partial: every accepted encoding starts with the canonical one."
 },
 "C99": {
  "note": "False as stated: shares that failed verification stay on file and finish uses them (C99_unblamed_run, a run through the interface; C99_matches_iff gives the exact condition). C99_after_blame_partial: holds once the own complaints were passed to blame."
 },
 "C100": {
  "note": "False: a record made of identity points with proofs made from no secret passes every check (C100_identity_accepted) and the share encrypted for it is readable by everybody (C100_share_readable). The _partial theorems: the identity is the only such key."
 },
 "C101": {
  "note": "False: nothing session-specific is hashed, so records can be replayed between sessions (C101_replay, C101_replay_new). C101_bound_partial: proofs are bound to index and key up to a hash collision."
 },
 "C102": {
  "note": "False if an old copy of the list is restored (C102_stale_list_reused; C85 then gives the key). C102_latest_list_partial: saving and restoring the current list at any points never leads to reuse."
 },
 "C104": {
  "note": "False: honest participants holding different records of one dealer both finish, with different group keys, if the dealer deals consistently to each (C104_equivocation). C104_same_records_partial: equal records give equal group keys."
 },
 "C105": {
  "note": "False: malicious participants can have any subset of dealers removed after all records are public (C105_any_subset), and for all but one value of the removed dealer's constant the key changes (C105_removal_changes_key). C105_complaints_partial: the key stays an interpolation of committed constants, and complaints that remove nobody do not change it."
 },
 "C106": {
  "note": "False: in every session that reaches round two bogus complaints lead to a finish with the identity as group key, under which everybody can sign every message (C106_forgeable). C106_other_keys_partial: for other keys no signature is accepted for two messages with different challenges, and every accepted signature is a Schnorr signature with the secret key."
 },
 "C110": {
  "note": "False: bootstrap never compares its own private inputs with the list (C110_unchecked, C110_mismatch). C110_matching_partial: if the caller does pass matching data the session is consistent."
 },
 "C111": {
  "note": "False for the digests h4, h5: context strings that extend each other share inputs (C111_digests_overlap). Proved for h0 to h3 with any contexts (C111_field_oracles_partial) and for h4, h5 with contexts of the same length (C111_same_length_partial)."
 },
 "C112": {
  "note": "False in release builds for the receiver label: the relabelled share yields a complaint that removes the honest dealer (C112_relabelled_receiver); debug builds panic (C112_debug_panics). C112_relabelled_sender_partial: changed sender labels never remove the dealer they came from."
 },
 "C113": {
  "note": "Draws are positions in the stream of random scalars. C113_independent: with a stream as generator, different positions are independent coordinates."
 },
 "C114": {
  "note": "Four steps: new, bootstrap, to_round_two and blame."
 },
 "C115": {
  "note": "No assumption on the field. Elsewhere the assumption U32Inj (different u32 are different scalars) is used, which holds for every suite of the crate."
 },
 "C117": {
  "note": "The code violates the full statement (C117_second_pair_unreachable, C117_wrong_pair_used). Proved instead: where the pair is after any history (C117_position_partial), that using position 0 every time follows the published order (C117_front_partial), and exactly when a signature with the wrong pair is still valid (C117_mismatch_iff)."
 },
 "C118": {
  "note": "The code violates the full statement (C118_reordered_list_reported, for some field hash and every list order whose digest differs). Proved: success does not depend on the order, the exact condition under which the other order's signature is valid, and that sorting by index gives the session's list (C118_sorted_partial)."
 },
 "C120": {
  "note": "Proved for accepted dealers whose commitments are labelled with their index and whose indices are in 1..n' (n' accepted dealers). The code checks neither; C82_derivation_blocked and C43 show what happens otherwise."
 },
 "C121": {
  "note": "Proved for dealers whose commitments carry their index, start with their old verifying share and have at most t_new points; the code checks none of this (C81_wrong_share_changes_key, C26_any_degree_accepted, C82_derivation_blocked). C121_honest_dealers_suffice is the liveness part under the same conditions on the other dealers' records."
 },
 "C122": {
  "note": "Violated: C122_withheld_unnoticed shows that to_round_two succeeds without complaint with any t or more shares, that finish returns the group key with a key interpolated from the received shares only, and exactly when that key is right; C122_one_missing: with one share missing it is right for exactly one value of the missing share. C122_victim_reported: in signing the victim, not the dealer, is then reported as misbehaving. C122_self_check_partial is what holds."
 },
 "C123": {
  "note": "Violated: C123_dealt_share_disclosed shows that the disclosed key also opens the share that the maker of the complaint dealt to the accused; C123_secret_disclosed: such shares, with those already known, give the maker's secret contribution once there are t of them. C123_accused_learns_nothing_partial and C123_complaint_simulated are what holds: the accused knows the key already and the proof in the complaint discloses nothing more."
 },
 "C124": {
  "note": "The proof of knowledge is simulated with the hash programmed at one input (C124_record_accepted), as usual in the random oracle model; that a programmed hash is indistinguishable from the code's hash is not a statement about the code."
 },
 "C125": {
  "status": "partial",
  "note": "Violated. C125_one_dealer_raises is the negation through the interface (one dealer calls reshare with t'+1), C125_lockout the general form with any polynomial lengths, including the loss of the key for the whole group. C125_short_commitments_partial is what holds: if no commitment has more than t' points the claim is true. That no signature comes out of such a set is C107_signature_iff."
 },
 "C126": {
  "note": "Negations: C126_signing_key_left, C126_dealer_secret_left, C126_received_shares_left. What holds: C126_typed_values_partial.",
  "status": "partial"
 },
 "C127": {
  "note": "Negation with the exact condition: C127_undelivered_complaint. What holds: C127_same_verdicts_partial (equal verdicts give equal keys).",
  "status": "partial"
 },
 "C130": {
  "note": "The conventions of ark-serialize 0.4 for integers, vectors, options, maps and structs are in the trusted base; the property fixes which fields are written, in which order and with which prefixes."
 },
 "C132": {
  "status": "partial",
  "note": "False: one participant that calls itself a number above the number of accepted participants (or is last after a rejected record) takes the session over. Its wrong shares raise complaints that remove all honest makers; finish then returns its own key as the group key and the shares it chose as signing keys (C132_takeover, C132_takeover_keys). One record without proof of knowledge makes everybody panic (C132_one_record_interrupts). Proved for all other records, dealers with indices in range and complaints of honest participants."
 },
 "C133": {
  "status": "partial",
  "note": "False: in a resharing by a part of the old signers the index of a dealer may exceed the number of dealers without any further deviation; if the new signers reuse the indices of the honest dealers, such a dealer deals wrong shares, the complaints of the new signers remove the honest dealers, and the new group key is the constant this dealer committed to (C133_reshare_takeover). C133_key_kept_partial: dealers with indices in range, right constants (else C81_wrong_share_changes_key); new signers may be dishonest as well, if their complaints pass the two checks of C135 and their indices are not those of honest dealers (C46)."
 },
 "C135": {
  "status": "partial",
  "note": "False: blame compares neither the DH key in a complaint with the maker's nor the included share with the one dealt (C135_authenticated_framing, both ways, in a session that everybody follows). Proved: with these two comparisons made by the application the property holds (C135_screened_partial), up to forged proofs, which hit the single answerable challenge (C135_forgery) and so are found only by luck (C178)."
 },
 "C136": {
  "note": "The growth strategy of Vec is part of the trusted reading of the standard library (Model/Memory, writeChunks)."
 },
 "C137": {
  "note": "C137_text and C137_wrapped hold for all errors. The second half is false for finalize: C137_finalize_text_false (it prints that participant 0 and the signers that have not answered provided invalid partial signatures). C137_aggregate_text_partial proves it for aggregate.",
  "status": "partial"
 },
 "C138": {
  "note": "The first half is false: every one of these types derives Debug, and C138_debug_reveals shows that the output determines the secret. The texts of errors do not depend on secrets: C138_errors_partial (complaints, which disclose a shared key on purpose, are the subject of C123).",
  "status": "partial"
 },
 "C139": {
  "note": "C139_coefficients (a); C139_shares, C139_guess_secret (b); C139_trusted_dealer, C139_group_key, C139_guess_group_secret (c); C139_proof_simulated, C139_signature_simulated (d); C139_late_complaint (e). The distributions concern the shares and keys; public commitments determine the secret in the group, so with them in view only a computational statement could hold, and none is made."
 },
 "C140": {
  "note": "C140_forgery (a), C140_below_threshold with C140_key_of_view (b), C140_proof_of_knowledge (c), C140_false_complaint (d). The attackers in (a) and (b) do not take part in signing sessions; C143 covers those who do, with a stronger assumption (one-more discrete logarithms)."
 },
 "C141": {
  "note": "A signature of the group is modelled as the Schnorr signature with the group secret and a uniform nonce, which by C83 is what honest signers and the aggregator produce, with the combined nonce. Forgers who take part in signing sessions themselves are the subject of C143."
 },
 "C142": {
  "note": "False; the documentation only warns that the position has to be that of the published pair. C142_commitments_ignored: sign looks only at the indices of the list. C142_valid_iff: the result is valid exactly if the listed commitment equals the one of the pair used. C142_honest_reported: an honest signer is reported exactly if the aggregator lists it with another nonce commitment. C142_own_pair_partial: a signer that looks for itself makes valid partial signatures.",
  "status": "partial"
 },
 "C143": {
  "note": "The honest signers run the model's sign on their lists of nonce pairs, which loses the pair it used. Nonces are uniform scalars and the hashes to scalars a random oracle; binding factors are asked by naming message and list, and C143 asks that no two different messages or lists named in the game have the same digests. The check that C142 misses is not needed for this proof. C143_questions counts the questions of the solver; the type of the solver gives it points only, never scalars."
 },
 "C144": {
  "status": "partial",
  "note": "False: finish weights evaluations and commitments with Lagrange coefficients (as in the ICE-FROST paper, where dealers may be those of an earlier group). C144_documented_false is a session with two dealers; C144_documented_partial says exactly when the documented keys are returned, C144_single_dealer that they are with one dealer, and C144_chance that with two or more dealers and random polynomials they are with chance at most 1/|F|."
 },
 "C145": {
  "note": "C145_forgery, C145_concurrent_sessions; C145_keys shows that the keys of the game are those that finish returns to participants holding verified shares. Compared with C140 and C143 the colluders need not know polynomials. With fewer than t honest participants one would need to extract the constant terms from the proofs of knowledge (C140_proof_of_knowledge does this for a single record). Colluders see the commitments and their own shares of the honest dealer; its other messages (proofs, encrypted shares for others) are not part of the view."
 },
 "C146": {
  "note": "Random-oracle model. C146_record shows that the record of the game is what new_dealer returns. The encrypted shares between honest participants are not part of the view. The dealings may depend on answers of the hash asked before (parameter known), except on those for binding factors and challenges."
 },
 "C147": {
  "note": "Old keys are modelled as values of a uniformly random polynomial (C139 shows that a key generation with an honest dealer gives this). The colluding new participants know only what they hold after the resharing: an honest dealer that is corrupted later has erased its old key. Signing sessions under the old key are not part of the game. The proofs of knowledge and the encrypted shares of the resharing are not part of the view (see C146)."
 },
 "C148": {
  "note": "The curve is Mathlib's Weierstrass curve y^2 = x^3 + 7 over the field of the standard; the primality of both numbers is proved with Pratt certificates, (n - 1)G = -G is computed by the kernel, and the number of points is proved to be n. The byte format of arkworks and the constants of the standard are written from memory, since neither is in the repository. C148_canonical holds for a strict reader; C148_loose has a reader that ignores bits, for which the laws hold but CanonicalDec does not. SHA-256, HKDF and AES are arbitrary functions of the right lengths."
 },
 "C151": {
  "status": "partial",
  "note": "C151_recipe_partial: honest dealers, any gaps in their indices. C151_old_parameters: the old number of participants is refused. Violation: C151_late_dealer (somebody's index exceeds the number of dealers as soon as there is a gap) and C151_recipe_takeover (that dealer replaces the key, through C133_reshare_takeover). Dishonest dealers with indices in range: C133_key_kept_partial, whose parameters may be the documented ones."
 },
 "C152": {
  "note": "The key derivation (HKDF) and h0 are random functions here. The bound names the solvers and tests explicitly; that they cannot succeed is not claimed, it is the assumption on the group and the cipher. Complaints, which disclose Diffie-Hellman secrets (C123), and the proof of the secret key (C146) are not part of the view."
 },
 "C153": {
  "note": "The signing hashes and the hash of proofs of DH keys are random oracles, the key derivation is a random function. Not in the view: the proof of knowledge of the dealer's secret key (added in C158) and complaints (C123)."
 },
 "C154": {
  "status": "partial",
  "note": "False as stated, given that ark-serialize 0.4 calls Vec::with_capacity with the announced length (trusted reading of the dependency): for every type with a vector a message of 8 to about 120 bytes reserves any amount of memory or panics (C154_short_messages). For encodings the bound holds (C154_encodings_partial), and the reservation is exactly the memory of the vectors in the value (C154_exact_partial); comparing the length with the bytes left would repair it without refusing anything (C154_check_first)."
 },
 "C156": {
  "note": "The restart step reads the list saved last; with an older one the first claim is false, see C102_stale_list_reused."
 },
 "C158": {
  "note": "Complaints are not in the view (C123 treats them)."
 },
 "C159": {
  "note": "For key generation the label of the commitments is checked by the caller (the code does not, C82)."
 },
 "C164": {
  "note": "The bytes are assumed uniform here, that is, the expander is the random oracle; C163 has the shipped expander written out (C164_shipped ties the reduction to it)."
 },
 "C165": {
  "note": "AES-128 and GHASH are written out (C163); the random function in place of AES enters through the advantage Spec.aesAdvantage. The key is random here; C152 has the key derivation."
 },
 "C166": {
  "note": "The nonces are different by hypothesis (C161 bounds the chance that they are not); an example shows that with equal nonces a test tells texts apart."
 },
 "C167": {
  "note": "The sources of sha2 and aes-gcm are not in /repo; the model (C163) follows the standards. This proves the model right against them, not the crates."
 },
 "C169": {
  "status": "partial",
  "note": "False as stated: C169_strings (a binding factor is never the hash of a string that the RFC prescribes) and C169_refused (with suitable hash functions all partial signatures of RFC signers are refused by the aggregator; C169_accepted_iff is the exact condition). C169_verify, C169_nonce and C169_protocol_partial are what holds: the crate's sessions are sessions of the RFC for a ciphersuite that differs in H1 and H5 only. The RFC is restated from memory in Props/Rfc9591.lean. It also asks a signer to look for its own commitments in the list, see C142."
 },
 "C173": {
  "status": "partial",
  "note": "Holds for the secrets (coefficients, nonces), and for every vector but three: `encode_group_commitment_list` reserves four bytes per signer too few and moves for every list of signers; `new_state_internal` reserves `n` participants before it checks how many it was given; `SignatureAggregator::new` reserves `t` signers before there is one. The negations are proved for all sizes."
 },
 "C174": {
  "status": "proved",
  "note": "At the level of the source: one step of a dependency (a field or group operation, a hash, the cipher) is atomic, and what the compiler makes of the code is not modelled."
 },
 "C175": {
  "status": "partial",
  "note": "Holds for ThresholdParameters::new (C175_parameters), for bootstrap, new and reshare (C175_round_one: identical when t is not 0, which is the only case in which they panic), and for sign (C175_sign: they differ only at the position usize::MAX, where both refuse and keep the nonces). False for to_round_two: C175_overflow (more bad shares than n) and C175_misaddressed (share for another receiver) are calls on which a debug build panics and a release build succeeds. C175_same_partial is agreement wherever the debug build does not panic; C175_round_two_partial gives conditions on the input of to_round_two under which it does not."
 },
 "C176": {
  "status": "partial",
  "note": "Every bound on multiplications and, except for a failing aggregation, on hashed bytes is proved (C176_create, C176_round_one, C176_round_two, C176_round_two_bootstrap, C176_blame, C176_finish, C176_keys, C176_sign, C176_verify, C176_aggregate_partial). False for the hashed bytes of a failing aggregation: C176_failed_aggregation shows that one which reports misbehaving signers has hashed the whole list of the k signers k times more, and C176_failed_aggregation_exists that any set of signers can bring that about. Field multiplications, such as those of the Lagrange coefficients, are not counted."
 },
 "C177": {
  "status": "partial",
  "note": "False in the code: shares are dealt over the whole list of records, the rejected ones included, into a map keyed by index, so the last record with an index decides (C177_last_record_receives, exact). C177_rejected_record_ends_session: one rejected record with the index of a participant that follows the protocol makes all others encrypt that participant's share to a key of somebody else; it complains about everybody as the protocol prescribes, the complaints are upheld, all dealers are discarded, and finish returns the neutral element as group key. Proved (C177_other_indices_partial): the claim for lists in which no rejected record has the index of an accepted one. C177_reshare: in a reshare, too, the last record with an index decides, accepted or not."
 }
}