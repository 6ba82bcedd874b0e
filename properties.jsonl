{"id": "C01", "title": "Threshold parameters are accepted exactly when sound", "statement": "ThresholdParameters::new(n, t) returns Ok with those n and t exactly when n and t are non-zero and t <= n; otherwise a release build returns Err(InvalidThresholdParams) and a debug build panics; it never returns unsound parameters.", "quantifier": "every pair of u32 values and both build profiles", "why_tests_cant": "2^64 pairs; tests sample a few", "anchors": ["src/parameters.rs: ThresholdParameters::new"]}
{"id": "C02", "title": "Interpolation coefficients are the Lagrange coefficients at zero", "statement": "For a list of pairwise distinct non-zero indices, the interpolation coefficient used for index i by finish, sign, aggregate and generate_from_commitments is the product over the other indices j of j/(j-i), and it does not depend on the order of the list.", "quantifier": "every finite list of distinct non-zero u32 indices, every index, every ciphersuite whose scalar field has more than 2^32 elements", "why_tests_cant": "unbounded list length and ordering", "anchors": ["src/utils.rs: calculate_lagrange_coefficients"]}
{"id": "C03", "title": "Interpolation at zero reconstructs the secret from any large enough set", "statement": "For every polynomial with at most as many coefficients as there are distinct non-zero indices, the sum of coefficient(i) * f(i) equals f(0).", "quantifier": "every polynomial, every index list of at least that size", "why_tests_cant": "unbounded degree and set size", "anchors": ["src/utils.rs: calculate_lagrange_coefficients", "src/dkg/secret_share.rs: SecretShare::evaluate_polynomial"]}
{"id": "C04", "title": "Interpolation rejects malformed index lists", "statement": "As documented, computing an interpolation coefficient fails if the caller's index is 0, the list contains 0, the list contains duplicates, or the list does not contain the caller's index.", "quantifier": "every index and every index list", "why_tests_cant": "tests exercise four lists, three of which fail only because they contain 0", "anchors": ["src/utils.rs: calculate_lagrange_coefficients"]}
{"id": "C05", "title": "Secret shares are exact polynomial evaluations", "statement": "The share a dealer computes for receiver j is the sum over k of a_k * j^k of its secret coefficients, tagged with the sender and receiver indices given.", "quantifier": "every coefficient vector of any length (also empty), every pair of indices", "why_tests_cant": "unbounded coefficient vectors", "anchors": ["src/dkg/secret_share.rs: SecretShare::evaluate_polynomial"]}
{"id": "C06", "title": "Public evaluation of commitments matches private evaluation", "statement": "evaluate_hiding(x) on the commitment to coefficients a returns g^{f(x)}; on arbitrary points phi it returns the product of phi_k^{x^k}.", "quantifier": "every list of commitment points and every scalar", "why_tests_cant": "unbounded degree, all scalars", "anchors": ["src/dkg/secret_share.rs: VerifiableSecretSharingCommitment::evaluate_hiding"]}
{"id": "C07", "title": "Feldman share verification is complete and sound", "statement": "A share is accepted against the commitment to coefficients a exactly when its value equals f(receiver_index); so against one commitment at most one value is acceptable per receiver.", "quantifier": "every share value, receiver index and coefficient vector", "why_tests_cant": "soundness speaks about every wrong value", "anchors": ["src/dkg/secret_share.rs: SecretShare::verify"]}
{"id": "C08", "title": "Encrypted shares decrypt to the original share", "statement": "Encrypting a share under a key and decrypting it under the same key returns the identical share (sender, receiver, value), for every random nonce drawn.", "quantifier": "every share, key bytes and RNG state", "why_tests_cant": "all values, keys and nonces", "anchors": ["src/dkg/secret_share.rs: encrypt_share", "src/dkg/secret_share.rs: decrypt_share"]}
{"id": "C09", "title": "Both ends of a share transfer derive the same key", "statement": "The share that dealer i encrypts for the holder of DH public key g^x is decrypted by the holder of x, using only dealer i's DH public key, to the dealer's polynomial evaluated at the holder's index.", "quantifier": "every pair of DH private keys, coefficients, indices and RNG states", "why_tests_cant": "all keys", "anchors": ["src/dkg/key_generation.rs: DistributedKeyGeneration::bootstrap, to_round_two", "src/dkg/secret_share.rs: encrypt_share, decrypt_share"]}
{"id": "C10", "title": "Fewer than t shares reveal nothing about a dealer's secret", "statement": "For every set of fewer than t distinct non-zero receivers and every candidate secret, some coefficient vector of length t with that secret gives those receivers exactly the same shares; with exactly t-1 receivers that vector is unique (perfect secrecy of the shares).", "quantifier": "every coefficient vector, every receiver set smaller than t, every candidate secret", "why_tests_cant": "quantifies over all alternative secrets", "anchors": ["src/dkg/secret_share.rs: SecretShare::evaluate_polynomial", "src/dkg/participant.rs: Participant::new_dealer"]}
{"id": "C11", "title": "Any t shares determine the dealer's secret", "statement": "Two coefficient vectors of length at most t that give the same shares to t distinct receivers have the same secret (and the same share for every receiver).", "quantifier": "every pair of vectors and receiver sets", "why_tests_cant": "all pairs of polynomials", "anchors": ["src/dkg/secret_share.rs: SecretShare::evaluate_polynomial"]}
{"id": "C12", "title": "Honest proofs of knowledge always verify", "statement": "A proof made with prove(index, sk, g^sk) passes verify(index, g^sk).", "quantifier": "every index, secret key and RNG state", "why_tests_cant": "all keys and nonces", "anchors": ["src/dkg/nizkpok.rs: NizkPokOfSecretKey::prove, verify"]}
{"id": "C13", "title": "Proofs of knowledge are special-sound", "statement": "verify accepts (s, r) for (index, pk) exactly when s is the hash of (index, pk, g^r pk^-s); two accepting transcripts with the same commitment and different challenges yield the discrete logarithm of pk.", "quantifier": "every proof, public key, index", "why_tests_cant": "quantifies over every adversarial proof", "anchors": ["src/dkg/nizkpok.rs: NizkPokOfSecretKey::verify"]}
{"id": "C14", "title": "Proofs of knowledge reveal nothing beyond the statement", "statement": "Every accepting transcript (commitment, challenge, response) for a public key can be produced without the secret key, and for each challenge the honest prover's transcripts are exactly the simulated ones.", "quantifier": "every public key, challenge and response", "why_tests_cant": "quantifies over all transcripts", "anchors": ["src/dkg/nizkpok.rs: NizkPokOfSecretKey::prove, verify"]}
{"id": "C15", "title": "Proofs are bound to participant index and public key", "statement": "The bytes hashed by prove/verify determine the index, the public key and the commitment: different triples are hashed as different byte strings.", "quantifier": "every pair of (index, public key, commitment) triples", "why_tests_cant": "injectivity over all inputs", "anchors": ["src/dkg/nizkpok.rs: NizkPokOfSecretKey::prove, verify"]}
{"id": "C16", "title": "new_dealer produces a well-formed dealer", "statement": "new_dealer(params, index, rng) fails with IndexIsZero exactly when index is 0; otherwise the dealer carries its index, exactly t commitment points that are g to the returned t coefficients, a DH public key matching the returned DH private key, and two proofs that both verify.", "quantifier": "every parameters with t >= 1, every index, every RNG state", "why_tests_cant": "all t and all randomness", "anchors": ["src/dkg/participant.rs: Participant::new_dealer, new_internal"]}
{"id": "C17", "title": "new_signer produces a signer without dealing power", "statement": "new_signer(params, index, rng) fails with IndexIsZero exactly when index is 0; otherwise the participant has no commitments and no proof of secret key, and its DH proof verifies for the returned DH private key.", "quantifier": "every parameters, index, RNG state", "why_tests_cant": "all randomness", "anchors": ["src/dkg/participant.rs: Participant::new_signer, new_internal"]}
{"id": "C18", "title": "Round one accepts every honest participant", "statement": "If every participant in the list was produced by new_dealer with the session's parameters, bootstrap succeeds, lists all of them as valid, reports nobody as misbehaving and leaves n unchanged.", "quantifier": "every n, t, set of dealers and RNG states", "why_tests_cant": "unbounded number of dealers", "anchors": ["src/dkg/key_generation.rs: DistributedKeyGeneration::bootstrap, new_state_internal"]}
{"id": "C19", "title": "Round one rejects a wrong number of participants", "statement": "bootstrap, new and reshare return InvalidNumberOfParticipants(len, n) exactly when the list length differs from n, before looking at anybody's proofs.", "quantifier": "every participant list and parameters", "why_tests_cant": "unbounded lists", "anchors": ["src/dkg/key_generation.rs: new_state_internal", "src/dkg/participant.rs: Participant::reshare"]}
{"id": "C20", "title": "Round one classifies participants exactly", "statement": "On success of bootstrap the valid and misbehaving lists partition the input in order; a participant is misbehaving exactly when its DH proof fails, it has no public key, its secret-key proof fails or its commitment does not have exactly t points; the session's n becomes the number of valid participants; misbehaving_participants is None exactly when nobody misbehaved.", "quantifier": "every adversarial participant list", "why_tests_cant": "unbounded lists of arbitrary adversarial participants", "anchors": ["src/dkg/key_generation.rs: new_state_internal", "src/dkg/secret_share.rs: check_degree"]}
{"id": "C21", "title": "Round one aborts only when fewer than t participants are valid", "statement": "If the list has the right length and no panic occurs, bootstrap fails exactly when fewer than t participants are valid, and then reports precisely the misbehaving indices in order.", "quantifier": "every adversarial participant list", "why_tests_cant": "unbounded lists", "anchors": ["src/dkg/key_generation.rs: new_state_internal"]}
{"id": "C22", "title": "Round one never panics on received data", "statement": "Whatever participants broadcast, bootstrap and new return a Result instead of panicking.", "quantifier": "every participant list", "why_tests_cant": "adversarial inputs are unbounded", "anchors": ["src/dkg/key_generation.rs: new_state_internal (expect on proof_of_secret_key)"]}
{"id": "C23", "title": "No participant is sent another participant's secret", "statement": "No share emitted by bootstrap or reshare is the dealer's secret constant term: receivers with index 0 are never dealt to.", "quantifier": "every participant list and coefficient vector", "why_tests_cant": "adversarial index choice", "anchors": ["src/dkg/key_generation.rs: new_state_internal (share loop)", "src/dkg/participant.rs: Participant::reshare"]}
{"id": "C24", "title": "Shares are dealt to valid participants only", "statement": "their_encrypted_secret_shares after round one holds exactly one share per valid participant and none for participants reported as misbehaving.", "quantifier": "every participant list", "why_tests_cant": "unbounded adversarial lists", "anchors": ["src/dkg/key_generation.rs: new_state_internal (share loop), their_encrypted_secret_shares"]}
{"id": "C25", "title": "Dealt shares are the dealer's evaluations for the named receivers", "statement": "After bootstrap, for each participant index j there is exactly one encrypted share, labelled (my_index, j), which the owner of j's DH key decrypts to f(j).", "quantifier": "every participant list with distinct indices, all coefficients and RNG states", "why_tests_cant": "unbounded lists", "anchors": ["src/dkg/key_generation.rs: bootstrap, their_encrypted_secret_shares"]}
{"id": "C26", "title": "Resharing sessions enforce the new degree", "statement": "A signer that joins a resharing with new accepts only dealers whose commitments have the number of points of the new threshold.", "quantifier": "every dealer list", "why_tests_cant": "adversarial degrees are unbounded", "anchors": ["src/dkg/key_generation.rs: DistributedKeyGeneration::new, new_state_internal (from_dealer flag)"]}
{"id": "C27", "title": "Honest shares raise no complaint", "statement": "If every received share was dealt honestly for this participant by a dealer it accepted, to_round_two succeeds with no complaint and stores f_l(i) for every such dealer l.", "quantifier": "every set of honest dealers and shares", "why_tests_cant": "unbounded sets", "anchors": ["src/dkg/key_generation.rs: to_round_two"]}
{"id": "C28", "title": "Complaints are raised exactly for bad shares", "statement": "to_round_two produces, in order, one complaint for each received share that fails to decrypt or fails verification against its sender's commitment, and for no other; each complaint carries that encrypted share and the correct DH shared key.", "quantifier": "every list of received shares, including forged ones", "why_tests_cant": "adversarial ciphertexts", "anchors": ["src/dkg/key_generation.rs: to_round_two", "src/dkg/complaint.rs: Complaint::new"]}
{"id": "C29", "title": "Round two rejects short and foreign share lists", "statement": "to_round_two returns MissingShares exactly when fewer than t shares are given, and a custom error when a share's sender is not an accepted dealer; no other input makes it fail with these errors.", "quantifier": "every share list", "why_tests_cant": "unbounded lists", "anchors": ["src/dkg/key_generation.rs: to_round_two"]}
{"id": "C30", "title": "Round two aborts exactly when too few dealers remain", "statement": "to_round_two returns Error::Complaint with all complaints exactly when n minus the number of complaints is below t.", "quantifier": "every share list", "why_tests_cant": "arithmetic at all sizes, including more complaints than participants", "anchors": ["src/dkg/key_generation.rs: to_round_two"]}
{"id": "C31", "title": "A stored share was addressed to its holder", "statement": "A share that to_round_two stores without complaint is the sender's polynomial at the holder's own index.", "quantifier": "every list of received shares in both build profiles", "why_tests_cant": "adversarial receiver indices; debug_assert vanishes in release builds", "anchors": ["src/dkg/key_generation.rs: to_round_two (debug_assert_eq receiver_index)"]}
{"id": "C32", "title": "Round two insists on a share from every accepted dealer", "statement": "If to_round_two succeeds, a share from every dealer that contributes to the group key has been received or complained about, so that finish returns a signing key matching the group key.", "quantifier": "every share list", "why_tests_cant": "subsets of dealers are unbounded", "anchors": ["src/dkg/key_generation.rs: to_round_two, finish"]}
{"id": "C33", "title": "finish derives a key consistent with the public commitments", "statement": "If the holder has a verified share for exactly the dealers in its commitment list, finish succeeds, its signing key's public key equals generate_from_commitments(index, commitments), and that individual key passes verify.", "quantifier": "every set of (possibly malicious) dealers whose shares verified, every degree", "why_tests_cant": "unbounded, with adversarial dealers", "anchors": ["src/dkg/key_generation.rs: finish, calculate_signing_key, calculate_group_key", "src/keys.rs: IndividualVerifyingKey::generate_from_commitments, verify"]}
{"id": "C34", "title": "All participants derive the same group key", "statement": "The group key returned by finish depends only on the dealers' commitments: participants whose commitment lists coincide return the same group key, whatever shares they received.", "quantifier": "every pair of participant states", "why_tests_cant": "all pairs of states", "anchors": ["src/dkg/key_generation.rs: finish, calculate_group_key"]}
{"id": "C35", "title": "Any t resulting signing keys interpolate to the group secret", "statement": "When all remaining dealers' commitments have at most t points, the signing keys of any t or more distinct non-zero participants with verified shares interpolate at 0 to the discrete logarithm of the group key.", "quantifier": "every set of dealers (including malicious ones that passed verification) and every signer set of size at least t", "why_tests_cant": "unbounded sets and adversarial dealers", "anchors": ["src/dkg/key_generation.rs: finish"]}
{"id": "C36", "title": "Honest distributed key generation succeeds end to end", "statement": "For every n, t and set of distinct non-zero indices, if all parties follow the documented sequence new_dealer, bootstrap, exchange, to_round_two, finish, then every call succeeds, no complaint is raised, all parties obtain the same group key, and any t signing keys interpolate to its discrete logarithm.", "quantifier": "every n >= t >= 1, indices and RNG states", "why_tests_cant": "unbounded n and randomness", "anchors": ["src/dkg/participant.rs: new_dealer", "src/dkg/key_generation.rs: bootstrap, to_round_two, finish"]}
{"id": "C37", "title": "finish refuses to produce a key from fewer than t dealers", "statement": "If after blame fewer than t dealers remain, finish fails instead of returning a key.", "quantifier": "every state and complaint list", "why_tests_cant": "all histories of blame", "anchors": ["src/dkg/key_generation.rs: blame, finish"]}
{"id": "C38", "title": "Individual verifying keys are independent of commitment order", "statement": "generate_from_commitments and verify give the same answer for every permutation of the commitments, and verify accepts exactly the generated key.", "quantifier": "every commitment list and permutation", "why_tests_cant": "unbounded permutations", "anchors": ["src/keys.rs: IndividualVerifyingKey::generate_from_commitments, verify"]}
{"id": "C39", "title": "A justified complaint removes exactly the accused dealer", "statement": "In a session where dealer indices are within 1..n, a complaint raised by to_round_two against a bad share makes every participant's blame remove exactly the accused dealer and return the accused's DH public key.", "quantifier": "every state and every bad share", "why_tests_cant": "adversarial shares", "anchors": ["src/dkg/key_generation.rs: blame", "src/dkg/complaint.rs: Complaint::verify"]}
{"id": "C40", "title": "An unjustified complaint removes its maker, not the dealer", "statement": "If the complained-about share was dealt correctly and the complaint uses the maker's true DH shared key, blame removes the maker's index and not the accused dealer.", "quantifier": "every honest dealer and every such complaint", "why_tests_cant": "adversarial complaints", "anchors": ["src/dkg/key_generation.rs: blame"]}
{"id": "C41", "title": "blame depends only on the set of complaints", "statement": "Permuting or repeating complaints within one blame call changes neither the resulting state nor the returned keys.", "quantifier": "every complaint list and permutation", "why_tests_cant": "unbounded permutations", "anchors": ["src/dkg/key_generation.rs: blame"]}
{"id": "C42", "title": "blame keeps participants in agreement", "statement": "Two participants with the same parameters, commitments and DH keys that process the same set of complaints return the same keys and derive the same group key, whatever their own shares are.", "quantifier": "every pair of states, every complaint lists with equal elements", "why_tests_cant": "all pairs of states", "anchors": ["src/dkg/key_generation.rs: blame, finish"]}
{"id": "C43", "title": "Complaints against late indices are judged on their merits", "statement": "After participants were discarded in round one, a justified complaint against a remaining dealer still removes the dealer and not the honest maker.", "quantifier": "every index layout after discarding", "why_tests_cant": "depends on the history of discarded indices", "anchors": ["src/dkg/key_generation.rs: blame (accused_index > parameters.n), new_state_internal"]}
{"id": "C44", "title": "Processing complaints one call at a time is equivalent to one call", "statement": "Calling blame repeatedly (a repeated complaint, or several complaints against one dealer in separate calls) gives the same state as one call with all of them.", "quantifier": "every sequence of blame calls", "why_tests_cant": "all call histories", "anchors": ["src/dkg/key_generation.rs: blame", "src/lib.rs: lines 1153-1154"]}
{"id": "C45", "title": "An honest dealer cannot be framed", "statement": "No complaint that a third party can construct makes blame remove a dealer that sent only correct shares.", "quantifier": "every complaint", "why_tests_cant": "quantifies over all adversarial complaints", "anchors": ["src/dkg/complaint.rs: Complaint::verify (dh_public_key taken from the complaint)", "src/dkg/key_generation.rs: blame"]}
{"id": "C46", "title": "Complaints from new signers cannot remove innocent dealers in a resharing", "statement": "During resharing, an unjustified complaint made by signer j never removes dealer j.", "quantifier": "every resharing state and complaint", "why_tests_cant": "adversarial complaints", "anchors": ["src/dkg/key_generation.rs: blame (maker_index from a different index space)"]}
{"id": "C47", "title": "Complaint proofs are complete", "statement": "A complaint built by to_round_two passes Complaint::verify under the accused dealer's DH public key.", "quantifier": "every key pair, encrypted share and RNG state", "why_tests_cant": "all keys", "anchors": ["src/dkg/complaint.rs: Complaint::new, verify"]}
{"id": "C48", "title": "Complaint proofs are special-sound", "statement": "Two accepting complaint transcripts with the same first messages and different challenges prove that the complaint's shared key is the DH key of the included public key and the accused's key; for a wrong shared key at most one challenge value is acceptable.", "quantifier": "every complaint and public key", "why_tests_cant": "quantifies over adversarial proofs", "anchors": ["src/dkg/complaint.rs: Complaint::verify"]}
{"id": "C49", "title": "Resharing preserves the group key", "statement": "If the old holders of signing keys that interpolate to the group secret reshare to new signers with any new parameters, every step succeeds, every new signer derives the same group key as before, and any t' new signing keys interpolate to the same secret.", "quantifier": "every old and new n, t, index sets and RNG states", "why_tests_cant": "unbounded sizes", "anchors": ["src/dkg/participant.rs: Participant::reshare", "src/dkg/key_generation.rs: DistributedKeyGeneration::new, to_round_two, finish"]}
{"id": "C50", "title": "The group key survives every chain of resharings", "statement": "After any finite sequence of resharings with arbitrary parameters and index sets, the final holders' group key equals the initial one and t of their keys interpolate to the original secret.", "quantifier": "every finite sequence of resharings", "why_tests_cant": "unbounded histories", "anchors": ["src/dkg/participant.rs: Participant::reshare", "src/dkg/key_generation.rs: new, to_round_two, finish"]}
{"id": "C51", "title": "A single key can be reshared", "statement": "Resharing IndividualSigningKey::from_single_key(s) to a group yields group key g^s.", "quantifier": "every scalar, new parameters and index sets", "why_tests_cant": "unbounded sizes", "anchors": ["src/keys.rs: IndividualSigningKey::from_single_key", "src/dkg/participant.rs: Participant::reshare"]}
{"id": "C52", "title": "Published commitments match the secret list", "statement": "generate_commitment_share_lists(rng, key, k) returns k secret shares and k published pairs, position by position g to the hiding and binding nonces, labelled with the key's index.", "quantifier": "every k and RNG state", "why_tests_cant": "unbounded k", "anchors": ["src/sign/precomputation.rs: generate_commitment_share_lists, CommitmentShare::publish"]}
{"id": "C53", "title": "drop_share removes exactly the given share once", "statement": "drop_share removes one entry equal to the given share if present, keeps the order and multiplicity of everything else, and otherwise changes nothing.", "quantifier": "every list and share", "why_tests_cant": "unbounded lists with duplicates", "anchors": ["src/sign/precomputation.rs: SecretCommitmentShareList::drop_share"]}
{"id": "C54", "title": "A nonce pair is used at most once", "statement": "Across any sequence of sign calls on one secret list without repeated entries, no two successful calls use the same commitment share.", "quantifier": "every history of sign calls, successful or not", "why_tests_cant": "unbounded histories", "anchors": ["src/sign/signature.rs: IndividualSigningKey::sign", "src/sign/precomputation.rs: drop_share"]}
{"id": "C55", "title": "A failed sign call consumes nothing", "statement": "If sign returns an error the secret commitment list is unchanged; MissingCommitmentShares is returned exactly when the chosen position is past the end of the list.", "quantifier": "every input", "why_tests_cant": "all inputs including extreme positions", "anchors": ["src/sign/signature.rs: IndividualSigningKey::sign"]}
{"id": "C56", "title": "Honest partial signatures satisfy the share equation", "statement": "A partial signature by a listed signer whose published commitments are those of the consumed nonce pair satisfies g^z = D * E^rho * Y^(c*lambda) for the challenge, binding factor and coefficient that the aggregator computes.", "quantifier": "every signer list, message, key and nonce", "why_tests_cant": "unbounded lists", "anchors": ["src/sign/signature.rs: sign, compute_binding_factors, compute_challenge"]}
{"id": "C57", "title": "The aggregator's signer list is sorted and free of duplicates", "statement": "After any sequence of include_signer and include_partial_signature calls, signers() is strictly increasing in participant_index and contains exactly the indices included; each entry keeps the commitment share of the first inclusion.", "quantifier": "every history of calls", "why_tests_cant": "unbounded histories", "anchors": ["src/sign/signature.rs: include_signer, signers"]}
{"id": "C58", "title": "Inclusion order does not matter", "statement": "Two histories that include the same signers (with one commitment share each) in different orders give the same signers(), and the same partial signatures give the same aggregate.", "quantifier": "every pair of permuted histories", "why_tests_cant": "unbounded permutations", "anchors": ["src/sign/signature.rs: include_signer, include_partial_signature, aggregate"]}
{"id": "C59", "title": "finalize succeeds exactly when nothing is missing", "statement": "finalize succeeds exactly when every listed signer has a partial signature and a public key; otherwise it reports 0 and the sorted indices without partial signature, followed by those without public key.", "quantifier": "every history of calls", "why_tests_cant": "unbounded histories", "anchors": ["src/sign/signature.rs: finalize, remaining_signers"]}
{"id": "C60", "title": "finalize enforces the threshold", "statement": "As documented, finalize reports index 0 when the aggregator does not have t' signers with t <= t' <= n.", "quantifier": "every history of calls", "why_tests_cant": "all histories", "anchors": ["src/sign/signature.rs: finalize"]}
{"id": "C61", "title": "A rejected include_signer leaves the aggregator unchanged", "statement": "If include_signer returns an error, the aggregator behaves afterwards as if the call had not been made.", "quantifier": "every history of calls", "why_tests_cant": "all histories", "anchors": ["src/sign/signature.rs: include_signer"]}
{"id": "C62", "title": "Signer data stay consistent under repeated inclusion", "statement": "After a signer is included more than once, the stored commitment share and the stored public key come from the same call.", "quantifier": "every history of calls", "why_tests_cant": "all histories", "anchors": ["src/sign/signature.rs: include_signer (dedup keeps the first, insert keeps the last)"]}
{"id": "C63", "title": "aggregate only returns valid signatures", "statement": "If aggregate returns Ok(sig) then sig verifies under the group key and h4(message); verify and verify_signature agree on every signature and accept exactly when g^z = R * Y^c with c the challenge of (R, Y, message hash).", "quantifier": "every finalized aggregator, signature and message", "why_tests_cant": "all signatures and messages", "anchors": ["src/sign/signature.rs: aggregate, ThresholdSignature::verify", "src/keys.rs: GroupVerifyingKey::verify_signature"]}
{"id": "C64", "title": "Enough honest signers always obtain a valid signature", "statement": "If every included signer signs honestly with keys that interpolate to the group secret, finalize and aggregate succeed and the signature verifies.", "quantifier": "every signer set, message, key set, nonce lists", "why_tests_cant": "unbounded signer sets", "anchors": ["src/sign/signature.rs: sign, finalize, aggregate, verify"]}
{"id": "C65", "title": "aggregate never blames an honest signer", "statement": "If aggregate reports misbehaving participants, the list is exactly the signers whose partial signature violates the share equation for their public key; a signer that signed honestly is never in it.", "quantifier": "every finalized aggregator, with adversarial partial signatures", "why_tests_cant": "adversarial signatures", "anchors": ["src/sign/signature.rs: aggregate, commitment_for_participant"]}
{"id": "C66", "title": "aggregate identifies a culprit whenever it fails", "statement": "If the included public keys interpolate to the group key and aggregation fails, the reported list of misbehaving participants is not empty.", "quantifier": "every finalized aggregator", "why_tests_cant": "adversarial signatures", "anchors": ["src/sign/signature.rs: aggregate"]}
{"id": "C67", "title": "Aggregation never panics", "statement": "Whatever signers were included, sign, finalize and aggregate return a Result.", "quantifier": "every history of calls", "why_tests_cant": "all histories, including the empty one", "anchors": ["src/sign/signature.rs: encode_group_commitment_list (commitment_list[0]), sign"]}
{"id": "C68", "title": "Partial signatures of outsiders and superseded ones have no effect", "statement": "A partial signature whose index is not an included signer changes neither finalize nor aggregate; of several partial signatures with the same index only the last counts.", "quantifier": "every history of calls", "why_tests_cant": "all histories", "anchors": ["src/sign/signature.rs: include_partial_signature, aggregate"]}
{"id": "C69", "title": "Binding factors commit to message, index and the whole commitment list", "statement": "The encoding of the commitment list hashed into the binding factors is injective, and the final hash input determines the message digest, the list digest and the signer index.", "quantifier": "every pair of commitment lists, messages, indices", "why_tests_cant": "injectivity over unbounded lists", "anchors": ["src/sign/signature.rs: encode_group_commitment_list, compute_binding_factors"]}
{"id": "C70", "title": "The challenge commits to nonce, key and message", "statement": "The bytes hashed into the challenge determine the group commitment, the group key and the message hash; the complaint challenge likewise determines all five group elements and the encrypted share.", "quantifier": "every pair of inputs", "why_tests_cant": "injectivity over all inputs", "anchors": ["src/sign/signature.rs: compute_challenge", "src/dkg/complaint.rs: Complaint::verify"]}
{"id": "C71", "title": "Random oracles are domain separated", "statement": "For every context string, h0, h1, h2, h3 and the complaint hash use pairwise different domain tags, and the byte strings digested by h4 and h5 are never equal.", "quantifier": "every context string and messages", "why_tests_cant": "all strings", "anchors": ["src/ciphersuite.rs: h0..h5", "src/utils.rs: hash_to_field, hash_to_array", "src/dkg/complaint.rs: Complaint Context"]}
{"id": "C72", "title": "Every public object round-trips through bytes", "statement": "from_bytes(to_bytes(x)) = x for parameters, keys, proofs, commitments, participants, shares, encrypted shares, complaints, commitment share lists, partial and full signatures and DKG states.", "quantifier": "every value of every type, of any size", "why_tests_cant": "unbounded values", "anchors": ["src/serialization.rs: ToBytes, FromBytes", "src/dkg/secret_share.rs: EncryptedSecretShare serialization", "src/dkg/key_generation.rs: BoxedState serialization"]}
{"id": "C73", "title": "Encodings are canonical", "statement": "to_bytes is injective and prefix-free per type, and the declared serialized size equals the number of bytes written.", "quantifier": "every pair of values", "why_tests_cant": "unbounded values", "anchors": ["src/serialization.rs: ToBytes", "src/dkg/secret_share.rs: EncryptedSecretShare::serialized_size"]}
{"id": "C74", "title": "from_bytes accepts exactly the canonical encodings", "statement": "If from_bytes(b) succeeds with x then b = to_bytes(x).", "quantifier": "every byte string", "why_tests_cant": "all byte strings", "anchors": ["src/serialization.rs: FromBytes::from_bytes"]}
{"id": "C75", "title": "Deserialized parameters are sound", "statement": "ThresholdParameters::from_bytes only returns parameters that ThresholdParameters::new would accept.", "quantifier": "every byte string", "why_tests_cant": "all byte strings", "anchors": ["src/parameters.rs: ThresholdParameters (derived CanonicalDeserialize)"]}
{"id": "C76", "title": "Encrypted shares with a wrong nonce length are rejected", "statement": "EncryptedSecretShare::from_bytes fails on every encoding whose nonce is not exactly the cipher's nonce size.", "quantifier": "every byte string", "why_tests_cant": "all byte strings", "anchors": ["src/dkg/secret_share.rs: EncryptedSecretShare::deserialize_with_mode"]}
{"id": "C77", "title": "A DKG session survives save and restore at any point", "statement": "Replacing a DKG state by from_bytes(to_bytes(state)) before any later call (to_round_two, blame, finish) changes no later result.", "quantifier": "every state, every crash point between calls", "why_tests_cant": "all histories and crash points", "anchors": ["src/dkg/key_generation.rs: DistributedKeyGeneration ToBytes/FromBytes"]}
{"id": "C78", "title": "A saved state cannot be restored into the wrong round", "statement": "The bytes of a round-one state are rejected when read as a round-two state.", "quantifier": "every state", "why_tests_cant": "all states", "anchors": ["src/dkg/round_types.rs: RoundOne, RoundTwo (empty structs)", "src/dkg/key_generation.rs: DistributedKeyGeneration"]}
{"id": "C79", "title": "Finished sessions erase the shares they consumed", "statement": "While computing the signing key every consumed secret share in the state is overwritten with zero.", "quantifier": "every state", "why_tests_cant": "memory contents cannot be observed by unit tests through the API", "anchors": ["src/dkg/key_generation.rs: calculate_signing_key (share.zeroize())"]}
{"id": "C80", "title": "Key generation is robust against malicious dealers", "statement": "Honest participants that run bootstrap on the same records, receive arbitrary shares from every accepted dealer and process the same complaints, including all of their own, return the same blamed keys, keep the same dealers, obtain the same group key, and any t of their signing keys interpolate to its discrete logarithm. With at least t honest participants and no complaints made up by others, nobody aborts and no honest dealer is removed.", "quantifier": "all records, all dealt shares, all complaint lists, all orders, all groups of at least t honest participants", "why_tests_cant": "all adversarial behaviours of any subset of dealers", "anchors": ["src/dkg/key_generation.rs: bootstrap, to_round_two, blame, finish"]}
{"id": "C81", "title": "Resharing preserves the group key against malicious dealers", "statement": "New signers that accepted the same dealer records and processed the same complaints keep the group key, as long as at least t_old dealers remain, whatever the dealers committed to and dealt.", "quantifier": "all records, shares, complaint lists", "why_tests_cant": "all adversarial behaviours of dealers", "anchors": ["src/dkg/key_generation.rs: new, to_round_two, blame, finish", "src/dkg/participant.rs: reshare"]}
{"id": "C82", "title": "Accepted commitments are labelled with their dealer's index", "statement": "Every record accepted in round one has commitments.index = index, so that the verifying keys derived from the published commitments are the participants' public keys.", "quantifier": "every accepted record", "why_tests_cant": "all records", "anchors": ["src/dkg/key_generation.rs: new_state_internal", "src/keys.rs: generate_from_commitments (commitment.index)"]}
{"id": "C83", "title": "Threshold signatures are ordinary Schnorr signatures of the group secret", "statement": "When signers whose keys interpolate to s sign honestly, the aggregate is exactly (r*g, r + c*s), where r is the sum of the signers' nonces d_i + rho_i*e_i and c the challenge of (r*g, s*g, message hash): the output of a single Schnorr signer with secret s and nonce r.", "quantifier": "for all signer sets, keys, nonce lists, messages and call orders", "why_tests_cant": "an equality of values over all signer sets and nonces; tests only check that verification accepts", "anchors": ["src/sign/signature.rs:303-341", "src/sign/signature.rs:602-676"]}
{"id": "C84", "title": "Signatures are special-sound", "statement": "Two signatures accepted under one group key with the same commitment R and different challenges determine the discrete logarithm of the group key; every accepted signature is the honest Schnorr signature for the discrete logarithms of R and of the group key.", "quantifier": "for all group keys, messages and pairs of accepted signatures", "why_tests_cant": "needs a statement about all accepted values, including ones no honest signer makes", "anchors": ["src/sign/signature.rs:693-711"]}
{"id": "C85", "title": "Reusing a nonce pair reveals the signing key", "statement": "If one commitment share is used for three successful sign calls (for example with a secret list restored from a backup), the signing key is a rational function of the three responses and of public values whenever the three public rows (1, rho, lambda*c) are independent; two calls with equal binding factor and different lambda*c already suffice.", "quantifier": "for all keys, lists, messages and signer lists", "why_tests_cant": "shows why single use (C54) is needed, for every possible pair of uses", "anchors": ["src/sign/signature.rs:303-341"]}
{"id": "C86", "title": "Fewer than t participants learn nothing about the group secret from the key generation's shares", "statement": "For every set of fewer than t participants, every honest dealer outside it and every shift of the group secret there is a bijection of that dealer's coefficient vectors that leaves all shares received by the set, hence its members' signing keys, unchanged and shifts the group secret by that amount.", "quantifier": "for all dealer sets, all coalitions smaller than t and all coefficient vectors", "why_tests_cant": "a counting statement over all coefficient vectors", "anchors": ["src/dkg/key_generation.rs:1022-1052", "src/dkg/secret_share.rs:64-90"]}
{"id": "C87", "title": "One honest dealer makes the group key uniform", "statement": "For every choice of the other dealers' commitments, the map from one dealer's secret to the group key returned by finish is a bijection between the scalar field and the group.", "quantifier": "for all commitment lists and dealers", "why_tests_cant": "a bijection statement over the whole field", "anchors": ["src/dkg/key_generation.rs:1055-1075"]}
{"id": "C88", "title": "Nonces are derived from fresh randomness and the whole signing key", "statement": "Each nonce is the nonce hash of 32 (hash length) fresh random bytes followed by the encoded key; two equal nonces imply equal randomness and equal keys, or an explicit hash collision.", "quantifier": "for all keys and RNG states", "why_tests_cant": "injectivity over all byte strings", "anchors": ["src/sign/precomputation.rs:24-35"]}
{"id": "C89", "title": "Delivery order does not matter", "statement": "Permuting the broadcast records (with distinct indices) changes neither success of bootstrap and new nor the session's parameters, commitments and DH keys; permuting received shares with distinct senders changes neither success of to_round_two without complaints nor the resulting state.", "quantifier": "for all record lists, share lists and permutations", "why_tests_cant": "all permutations of all lists", "anchors": ["src/dkg/key_generation.rs:704-888", "src/dkg/key_generation.rs:903-1001"]}
{"id": "C90", "title": "Round one rejects repeated indices", "statement": "bootstrap and new do not accept two records with the same index; the accepted commitments are those of the participant named by the index.", "quantifier": "for all record lists", "why_tests_cant": "requires adversarial record lists in every position", "anchors": ["src/dkg/key_generation.rs:704-888"]}
{"id": "C91", "title": "Comparison operators satisfy their contracts", "statement": "Signer's Ord is a total order consistent with its Eq; Participant's PartialOrd is consistent with its PartialEq (a == b exactly when partial_cmp is Equal) and transitive.", "quantifier": "for all values", "why_tests_cant": "algebraic laws over all values", "anchors": ["src/sign/signature.rs:34-56", "src/dkg/participant.rs:291-306"]}
{"id": "C92", "title": "Excluding reported signers ends with a signature", "statement": "If signing is repeated with the reported signers excluded, then no honest signer is ever excluded, every failing attempt excludes at least one dishonest signer, and as long as t honest signers participate some attempt after at most as many failures as there are dishonest signers yields a valid signature.", "quantifier": "for all sets of honest and dishonest signers, all partial signatures the latter send in every attempt", "why_tests_cant": "an inductive argument over arbitrary adversarial behaviour in every attempt", "anchors": ["src/sign/signature.rs:602-676"]}
{"id": "C93", "title": "Round two counts dealers, not shares", "statement": "to_round_two only proceeds when shares of at least t different dealers were received: t copies of one share are rejected with MissingShares.", "quantifier": "for all share lists", "why_tests_cant": "needs lists with repetitions of every kind", "anchors": ["src/dkg/key_generation.rs:903-1001"]}
{"id": "C94", "title": "Dropped secrets are overwritten", "statement": "After zeroize or drop nothing of a secret nonce pair, secret share, signing key or coefficient list remains in its fields, and calculate_signing_key overwrites the received shares it consumes.", "quantifier": "for all values and all states", "why_tests_cant": "a test can only inspect particular values; the claim is that the result is independent of the secret", "anchors": ["src/sign/precomputation.rs:85-127", "src/dkg/secret_share.rs:37-62", "src/keys.rs:186-200", "src/dkg/key_generation.rs:1022-1048"]}
{"id": "C95", "title": "Reachable key generation states are well-formed and never panic", "statement": "In every state of a session reached by bootstrap/new, to_round_two and any number of blame calls: the maps are sorted, every dealer on file has a DH key and a nonempty commitment, the threshold lies between 1 and n, stored shares are filed under their sender; blame never fails, finish never panics, and finish fails only if index 0 was accepted in round one.", "quantifier": "for all sequences of API calls with all inputs", "why_tests_cant": "an invariant over unboundedly many calls with arbitrary inputs", "anchors": ["src/dkg/key_generation.rs:704-1184"]}
{"id": "C96", "title": "Refreshing or resharing keeps the secret from mobile adversaries", "statement": "Who learns fewer than t old signing keys, every value dealt by those old participants, and fewer than t' of the shares dealt to the new participants learns nothing about the group secret: every other secret is consistent with the same view and equally many choices of the remaining coefficients.", "quantifier": "for all field elements, index sets, thresholds and views", "why_tests_cant": "a statement about all possible secrets consistent with a view", "anchors": ["src/dkg/participant.rs:244-281", "src/dkg/secret_share.rs:66-88"]}
{"id": "C97", "title": "A partial signature reveals nothing beyond its validity", "statement": "For given binding factor and challenge, pairs (commitments, z) produced by an honest signer from uniform nonces are in bijection with pairs produced without the signing key from uniform z and binding nonce by solving the share equation.", "quantifier": "for all keys, factors, challenges and nonces", "why_tests_cant": "a statement about distributions, not about single runs", "anchors": ["src/sign/signature.rs:311-341"]}
{"id": "C98", "title": "A signature has no second form", "statement": "For a group key, message and commitment at most one response z verifies; decoded signatures with the same bytes are equal and every accepted encoding is the canonical one.", "quantifier": "for all signatures, keys, messages and byte strings", "why_tests_cant": "universally quantified over encodings", "anchors": ["src/sign/signature.rs:69-72,693-711", "src/serialization.rs:20-25"]}
{"id": "C99", "title": "finish only returns keys that match the public commitments", "statement": "If finish succeeds after to_round_two raised complaints, the signing key returned corresponds to the verifying key derived from the dealers on file.", "quantifier": "for all sessions", "why_tests_cant": "needs sessions with every combination of bad shares and omitted blame calls", "anchors": ["src/dkg/key_generation.rs:976-978,1012-1048"]}
{"id": "C100", "title": "Degenerate public keys are rejected", "statement": "Round one rejects participants whose Diffie-Hellman or dealer public key is the identity, so that a share addressed to an accepted participant cannot be read by everybody.", "quantifier": "for all participants", "why_tests_cant": "requires adversarial records outside honest generation", "anchors": ["src/dkg/key_generation.rs:731-781", "src/dkg/nizkpok.rs:65-90"]}
{"id": "C101", "title": "Proofs of knowledge are bound to their session", "statement": "A participant record made for one key generation is not accepted in another session of the same ciphersuite.", "quantifier": "for all records and sessions", "why_tests_cant": "tests only run one session", "anchors": ["src/dkg/nizkpok.rs:42-62"]}
{"id": "C102", "title": "Nonce lists are single-use also across save and restore", "statement": "A secret commitment list that is written to bytes and restored never leads to a second signature with the same nonce pair.", "quantifier": "for all lists, histories and crash points", "why_tests_cant": "needs all interleavings of sign, save and restore", "anchors": ["src/sign/precomputation.rs:145-156", "src/sign/signature.rs:303-341"]}
{"id": "C103", "title": "Key generation works over the wire", "statement": "If every message of an honest key generation (participant records, encrypted shares) is sent as to_bytes and read with from_bytes, all participants finish with the same keys as when the values are passed in memory.", "quantifier": "for all participants, parameters and randomness", "why_tests_cant": "end-to-end over all values", "anchors": ["src/serialization.rs:7-25", "src/dkg/key_generation.rs:640-1017"]}
{"id": "C104", "title": "Equivocation by a dealer is noticed", "statement": "If two honest participants are given different records of the same dealer, they do not both finish the key generation with different group keys.", "quantifier": "for all pairs of sessions and dealer records", "why_tests_cant": "tests give everybody the same list", "anchors": ["src/dkg/key_generation.rs:640-658,1055-1094"]}
{"id": "C105", "title": "The group key cannot be influenced after the commitments are public", "statement": "Once all dealer records are exchanged, no behaviour of malicious participants in the later rounds changes the group key that the honest ones obtain.", "quantifier": "for all sessions and all complaint lists", "why_tests_cant": "universally quantified over adversarial complaint lists", "anchors": ["src/dkg/key_generation.rs:1101-1184"]}
{"id": "C106", "title": "Nobody can sign for a finished key generation without shares", "statement": "A group key returned by finish is not the identity, so that no signature under it can be made from public data.", "quantifier": "for all finished sessions and messages", "why_tests_cant": "requires adversarial complaint lists followed by forging", "anchors": ["src/dkg/key_generation.rs:1012-1094", "src/sign/signature.rs:693-711", "src/keys.rs:247-265"]}
{"id": "C107", "title": "A set of signers obtains a signature exactly when its keys interpolate to the group secret", "statement": "If all included signers sign honestly with their keys, aggregation succeeds if and only if the challenge is zero or the Lagrange combination of their keys over the signer set is the discrete logarithm of the group key; in particular t signers suffice and sets whose combination differs never succeed.", "quantifier": "for all signer sets (of any size), keys, nonces and messages", "why_tests_cant": "an exact characterisation over all signer sets", "anchors": ["src/sign/signature.rs:303-341,575-661"]}
{"id": "C108", "title": "Signing works over the wire", "statement": "If commitments and partial signatures of an honest signing session are sent as to_bytes and read with from_bytes, and the signature is sent the same way, the received signature verifies.", "quantifier": "for all signers, keys, nonces and messages", "why_tests_cant": "end-to-end over all values", "anchors": ["src/serialization.rs:7-25", "src/sign/signature.rs:303-341,440-661", "src/sign/precomputation.rs:179-206"]}
{"id": "C109", "title": "Resharing works over the wire", "statement": "If every message of an honest resharing is sent as to_bytes and read with from_bytes, all new participants finish with keys of the unchanged group key.", "quantifier": "for all participants, parameters and randomness", "why_tests_cant": "end-to-end over all values", "anchors": ["src/serialization.rs:7-25", "src/dkg/participant.rs:244-281"]}
{"id": "C110", "title": "bootstrap checks the caller's own data", "statement": "bootstrap succeeds only if the participant list contains a record with the caller's index whose Diffie-Hellman key and commitments match the private key and coefficients given.", "quantifier": "for all inputs of bootstrap", "why_tests_cant": "tests always pass matching data", "anchors": ["src/dkg/key_generation.rs:640-658,704-886"]}
{"id": "C111", "title": "Random oracles of different ciphersuites are separated", "statement": "Two ciphersuites with the same hash function but different context strings never hash the same input for any of the oracles h0 to h5.", "quantifier": "for all context strings and messages", "why_tests_cant": "universally quantified over context strings and messages", "anchors": ["src/ciphersuite.rs:39-116", "src/utils.rs:79-99"]}
{"id": "C112", "title": "Relabelled shares do not incriminate their dealer", "statement": "Changing the sender or receiver label of an honest dealer's encrypted share in transit never leads to a complaint that removes that dealer.", "quantifier": "for all shares and labels", "why_tests_cant": "requires tampering with messages in transit", "anchors": ["src/dkg/secret_share.rs:110-236", "src/dkg/key_generation.rs:899-1010"]}
{"id": "C113", "title": "Every random value is a fresh draw", "statement": "Polynomial coefficients, Diffie-Hellman keys, proof nonces, share nonces and complaint nonces are each taken from a random generator state that no other value used: the code never uses the same draw for two purposes.", "quantifier": "for all parameters, indices, random generator states and message lists", "why_tests_cant": "reuse of randomness leaves every output valid, so nothing a test checks changes", "anchors": ["src/dkg/participant.rs:81-282", "src/dkg/nizkpok.rs:42-60", "src/dkg/secret_share.rs:294-330", "src/dkg/complaint.rs:40-90", "src/dkg/key_generation.rs:704-1008"]}
{"id": "C114", "title": "Key generation steps change only what they must", "statement": "A step of key generation keeps parameters, index, keys and commitments of the session unchanged; going to round two erases the own encrypted shares; blame removes only the blamed dealers' data.", "quantifier": "for all session states and message lists", "why_tests_cant": "universally quantified over states; private fields are not observable by tests outside the module", "anchors": ["src/dkg/key_generation.rs:640-890", "src/dkg/key_generation.rs:903-1008", "src/dkg/key_generation.rs:1097-1195"]}
{"id": "C115", "title": "Interpolation is never wrong, in fields of any size", "statement": "In every field, also one with fewer than 2^32 elements, a Lagrange coefficient is refused exactly if the list repeats an index, contains zero, or holds another index that is the same scalar. If all coefficients of a list are given they interpolate at zero correctly, and finish fails when two dealers' indices coincide as scalars.", "quantifier": "for all fields, index lists and polynomials", "why_tests_cant": "the tests only use curves with 255 bit scalar fields", "anchors": ["src/utils.rs:42-77", "src/dkg/key_generation.rs:1012-1052"]}
{"id": "C116", "title": "Every failure names its cause", "statement": "Each fallible function returns the error value that belongs to the cause: the error of interpolation, proof, share, degree, complaint, encryption, decryption, decoding, individual keys, new_dealer, new_signer, bootstrap, new, reshare, to_round_two, blame, finish, sign, include_signer, verify and aggregate is determined by which check failed, in the order the checks are made, and the tables of the session calls cover every state with well-formed maps.", "quantifier": "for all inputs and reachable states", "why_tests_cant": "tests check one error value per function on one input; which of several failing checks is reported depends on all inputs", "anchors": ["src/error.rs:9-90", "src/utils.rs:42-77", "src/sign/signature.rs:303-345", "src/sign/signature.rs:473-516", "src/sign/signature.rs:554-720"]}
{"id": "C117", "title": "Position of a nonce pair", "statement": "The pair published at position k of a PublicCommitmentShareList is the pair that sign uses when called with position k, whatever has been signed before. The code does not have this property: a successful call deletes its entry, later entries move, and a caller that keeps using published positions signs with a pair the aggregator does not expect or gets MissingCommitmentShares.", "quantifier": "for all lists of precomputed pairs and all histories of sign calls", "why_tests_cant": "tests sign once with one precomputed pair; the drift of positions depends on the whole history of calls", "anchors": ["src/sign/precomputation.rs:179-227", "src/sign/signature.rs:285-345"]}
{"id": "C118", "title": "Order of the signer list given to sign", "statement": "A signer's partial signature is the same for every order of the signer list it passes to sign. The code does not have this property: sign does not sort the list whose bytes it hashes, while the aggregator's list is sorted; an honest signer with the same list in another order is reported as misbehaving.", "quantifier": "for all signer sets, orders, keys, messages and nonce lists", "why_tests_cant": "tests always pass aggregator.signers(), which is sorted", "anchors": ["src/sign/signature.rs:150-258", "src/sign/signature.rs:285-345", "src/sign/signature.rs:473-516"]}
{"id": "C119", "title": "Fewer than t signers lack the group secret", "statement": "Fix fewer than t participants, the polynomials of all dealers but one, and the shares of that dealer for these participants. Of the coefficient vectors of that dealer compatible with this view, exactly one in |F| is such that the keys of the participants interpolate to the group secret, which by C107 is what a valid signature of theirs needs. For t or more participants it is always so.", "quantifier": "for all finite fields, dealer sets, sets of fewer than t participants, polynomials and views", "why_tests_cant": "a test with too few signers shows that one run fails, not how many choices of the dealers would let it succeed", "anchors": ["src/dkg/key_generation.rs:1012-1095", "src/sign/signature.rs:602-720"]}
{"id": "C120", "title": "Key generation against malicious dealers, then signing against malicious signers", "statement": "Participants that follow the protocol run bootstrap, to_round_two, blame and finish while all other records, shares and complaints are arbitrary. The public keys the aggregator derives from the remaining commitments are those of their signing keys, and every series of signing attempts with at least t of them, in which reported signers are excluded, ends with a signature valid under the group key of the key generation, after at most as many failures as there are other signers and without ever excluding one of them.", "quantifier": "for all sets of protocol-following participants, all adversarial records, shares, complaints, commitments, partial signatures, messages and signer sets", "why_tests_cant": "tests combine one kind of misbehaviour in one phase with honest behaviour everywhere else", "anchors": ["src/dkg/key_generation.rs:640-1170", "src/keys.rs:140-200", "src/sign/signature.rs:303-720"]}
{"id": "C121", "title": "Resharing against malicious dealers, then signing against malicious signers", "statement": "New signers that follow the protocol run new, to_round_two, blame and finish on the records of the old dealers while everything sent by others is arbitrary. If at least t_old dealers remain, they hold the old group key, and every series of signing attempts with at least t_new of them, in which reported signers are excluded, ends with a signature valid under the old group key. If at least t_old dealers reshare honestly, at least t_old dealers remain and no call fails.", "quantifier": "for all sets of protocol-following dealers and signers, all other records, shares, complaints, commitments, partial signatures, messages and signer sets", "why_tests_cant": "the resharing test runs one honest handover between fixed groups", "anchors": ["src/dkg/participant.rs:244-283", "src/dkg/key_generation.rs:700-1170", "src/sign/signature.rs:303-720"]}
{"id": "C122", "title": "Withheld shares are noticed", "statement": "If a participant has not received the share of some dealer that takes part in the session, to_round_two or finish fails, or the participant complains, or at least its key is still the one the commitments promise.", "quantifier": "for all sessions, thresholds, coefficients, sets of at least t received shares and participants", "why_tests_cant": "every test hands all shares to every participant", "anchors": ["src/dkg/key_generation.rs:903-1002", "src/dkg/key_generation.rs:1012-1085", "src/keys.rs:95-190"]}
{"id": "C123", "title": "A complaint discloses only the disputed share", "statement": "Publishing a complaint about the share that participant l dealt to participant i lets others read that share, and nothing else that was encrypted.", "quantifier": "for all sessions, coefficients, participant records with distinct indices, received shares, random choices and complaints made", "why_tests_cant": "tests check that complaints verify; none asks which other ciphertexts the disclosed key opens", "anchors": ["src/dkg/complaint.rs:25-91", "src/dkg/key_generation.rs:903-1002", "src/dkg/secret_share.rs:110-230"]}
{"id": "C124", "title": "What t - 1 participants see of a dealer can be computed from the group key", "statement": "All commitments a dealer publishes, its proof of knowledge and the shares it deals to any t - 1 participants can be computed from the group key, the other dealers' commitments and t - 1 freely chosen scalars, without the dealer's secret; for every choice the result passes all checks and leads to the given group key, and a real session has exactly this form, with the scalars in bijection to the polynomials for each secret.", "quantifier": "for all group keys, thresholds, sets of t - 1 participants, other dealers' commitments, polynomials and scalars", "why_tests_cant": "concerns all points of the group, including those whose logarithm nobody knows, and all choices of scalars", "anchors": ["src/dkg/secret_share.rs:60-130", "src/dkg/key_generation.rs:1055-1090", "src/dkg/nizkpok.rs:30-90"]}
{"id": "C125", "title": "The new threshold of a resharing is the announced one", "statement": "After a resharing in which every call succeeds, no complaint is raised and all new signers derive the same group key, every t' of the new signers (t' being the announced new threshold) hold signing keys that interpolate to the secret of that group key, so they can sign. VIOLATED: `new` never compares the number of committed points with a threshold, so a single dealer that deals with one coefficient more raises the real threshold for everybody, and one that commits to n'+1 points locks out even the whole new group; nobody notices before a signature fails.", "quantifier": "for all sets of dealers and new signers, all parameters, all polynomial lengths and coefficients, all orders of records and shares, all randomness and all signer subsets", "why_tests_cant": "Tests reshare with honest dealers that all use the same parameters; the claim needs every polynomial length, every subset of signers and the fact that no choice of t' signers recovers the secret.", "anchors": ["src/dkg/key_generation.rs:684-704", "src/dkg/participant.rs:244-281", "src/dkg/key_generation.rs:1012-1060"]}
{"id": "C126", "title": "No buffer that held secret data is released without being overwritten", "statement": "After dealing shares, receiving shares and precomputing nonces, no heap buffer released by the crate still contains a secret it wrote there: neither a signing key, nor a nonce, nor a share, nor a key of the authenticated encryption. VIOLATED: the serialised signing key in `NoncePair::new`, the serialised evaluations and the derived keys in `encrypt_share`, and the decrypted evaluations in `decrypt_share` live in plain `Vec<u8>` that are dropped without `zeroize`; the typed values (shares, keys, nonces) are overwritten.", "quantifier": "for all suites, signing keys, polynomials, participant lists, received shares, randomness and numbers of precomputed nonces", "why_tests_cant": "A test sees return values only; what remains in released memory is not observable without instrumenting every allocation, and for all inputs not at all.", "anchors": ["src/dkg/secret_share.rs:294-361", "src/dkg/key_generation.rs:832-849", "src/dkg/key_generation.rs:928-984", "src/sign/precomputation.rs:24-35"]}
{"id": "C127", "title": "Participants agree on the group key whichever complaints reached them", "statement": "Two participants with the same commitments on file that both go through blame and finish derive the same group key, even if not every complaint reached both. VIOLATED: a dealer that cheats one participant is removed by those who receive that participant's complaint and kept by the others; the two group keys are equal exactly if the removed secret lies on the polynomial through the remaining secrets. Nothing in the crate detects the split. They do agree when the complaints received lead to the same verdicts.", "quantifier": "for all suites satisfying the group laws, all dealer sets, polynomials, shares held, complaints made by an honest participant, and all states of the two views", "why_tests_cant": "Tests hand the same complaint list to everybody; the claim quantifies over which complaints reach whom and gives the exact algebraic condition for agreement.", "anchors": ["src/dkg/key_generation.rs:1012-1080", "src/dkg/key_generation.rs:1097-1160"]}
{"id": "C128", "title": "Whether and how a call fails does not depend on secrets", "statement": "Two runs of the key generation or of signing that agree on every public input (sizes, indices, labels, which received records and shares are valid) end in the same way: either both succeed with outputs of the same shape, or both fail with the same error naming the same dealers. The coefficients, long-lived secrets, decrypted shares and nonces never decide which branch is taken.", "quantifier": "all suites satisfying the stated laws, all parameters, all secrets and random streams, all participant and share lists, all pairs of states that agree on their public view", "why_tests_cant": "It compares pairs of executions over all values of the secrets; a test fixes both secrets.", "anchors": ["src/dkg/key_generation.rs:640-886", "src/dkg/key_generation.rs:903-1000", "src/dkg/key_generation.rs:1012-1083", "src/dkg/participant.rs:244-281", "src/sign/signature.rs:303-341"]}
{"id": "C129", "title": "Checked resharings keep the group key through any chain, whatever the dealers do", "statement": "Start from any set of verifying shares that determines a group key and reshare any number of times. In each resharing the dealers that misbehave send arbitrary shares and complaints. If the callers check what the library does not (distinct indices in range, labels, at most t' points, constants equal to the verifying shares derived from the previous resharing) and at least the old threshold of dealers remain, every epoch shares the first group key, every signer that follows the protocol finishes with it, and signing after any of the resharings gives a signature valid under it. Such chains exist in every length, with attacking dealers.", "quantifier": "all chains of resharings of any length, all committees and thresholds, all records, shares and complaints of the dealers and signers that do not follow the protocol, all random streams", "why_tests_cant": "It is an induction over the number of resharings with arbitrary adversarial messages in each; tests run one resharing with scripted faults.", "anchors": ["src/dkg/key_generation.rs:684-720", "src/dkg/key_generation.rs:903-1083", "src/dkg/key_generation.rs:1084-1200", "src/dkg/participant.rs:244-281", "src/keys.rs:152-200", "src/sign/signature.rs:343-620"]}
{"id": "C130", "title": "The byte layout of every message and stored object", "statement": "Every object that to_bytes can write has a fixed layout that another implementation could be written from: u32 fields as four little-endian bytes; vectors, byte strings and maps as an eight-byte little-endian count followed by the elements; options as one byte 0 or 1 followed by the value; maps as entries index, value in increasing order of the index; structs as their fields in declaration order with nothing in between; scalars and group elements in the encoding of the suite. The lengths follow: a signature is one group element and one scalar whoever signed; a dealer record has 18 + (t+1)*size(G) + 4*size(F) bytes, a signer record 6 + size(G) + 2*size(F); an encrypted share 24 bytes plus nonce plus ciphertext. Bytes laid out like this are read back as the object, with anything after them left unread. The two round states have the same layout.", "quantifier": "for all values of every serialisable type and all suites", "why_tests_cant": "round-trip tests pass for any layout, so also after a field has been reordered or an integer widened, which breaks stored states and other implementations; only a layout stated independently of the code fixes it for all values", "anchors": ["src/serialization.rs:9-24", "src/dkg/secret_share.rs:32-54", "src/dkg/secret_share.rs:161-209", "src/dkg/participant.rs:30-45", "src/dkg/key_generation.rs:519-616", "src/dkg/complaint.rs:25-35", "src/keys.rs:22-232", "src/sign/precomputation.rs:77-165", "src/sign/signature.rs:25-75"]}
{"id": "C131", "title": "One honest dealer makes the whole sharing fresh", "statement": "Fix the polynomials of all dealers but one, whatever they are and however long. For any t-1 participants, the function from the t coefficients of the remaining dealer to the group secret together with the signing keys that finish returns to these participants is a bijection; and for any t participants so is the function to their signing keys. So if one dealer draws its polynomial uniformly, the group secret and any t-1 keys are uniform and independent of each other, and of everything that the other dealers chose beforehand, exactly as if a trusted dealer had shared a fresh secret.", "quantifier": "for all suites, dealer sets, choices of the honest dealer, polynomials of the other dealers, participant sets and thresholds", "why_tests_cant": "a bijection between sets of size |F|^t cannot be checked by running samples; a combination that loses rank for some index set would still produce working keys", "anchors": ["src/dkg/key_generation.rs:1012-1083", "src/dkg/secret_share.rs:64-90", "src/utils.rs:11-49"]}
{"id": "C132", "title": "Adversaries below the threshold can neither interrupt nor take over a key generation", "statement": "As documented in lib.rs: with at least t participants following the protocol, the others, whatever records they publish and whatever shares they deal, cannot keep an honest participant from finishing, cannot have an honest dealer's contribution removed, and do not learn the group secret.", "quantifier": "for all sessions, sets of at least t honest participants, adversarial records, indices and dealt shares, and orders of delivery", "why_tests_cant": "The tests only try a few deviations with indices 1..n; the failure needs an index beyond the number of accepted participants, and the guarantee for the remaining attacks quantifies over all records and shares.", "anchors": ["src/lib.rs:5-9", "src/dkg/key_generation.rs:717-860", "src/dkg/key_generation.rs:903-1000", "src/dkg/key_generation.rs:1097-1184"]}
{"id": "C133", "title": "Fewer than t dishonest dealers can neither interrupt a resharing nor replace the key", "statement": "With at least t old signers resharing honestly and the new signers following the protocol, the other dealers, whatever records they publish and whatever shares they deal, cannot keep a new signer from finishing, cannot have an honest dealer removed, and the new signers hold shares of the old secret under the old group key.", "quantifier": "for all resharings, sets of at least t honest dealers, quorums of old signers and indices of new signers, adversarial records and dealt shares, and orders of delivery", "why_tests_cant": "The tests reshare from signers 1..t to a fresh group; the failure needs a quorum with an index above its size, and the guarantee quantifies over all records and shares of the others.", "anchors": ["src/lib.rs:5-9", "src/dkg/participant.rs:244-283", "src/dkg/key_generation.rs:684-716", "src/dkg/key_generation.rs:1097-1184"]}
{"id": "C134", "title": "An individual public key checks against the commitments of exactly its dealers", "statement": "The individual verifying key derived from the commitments of a set of dealers passes verify with those commitments. With one dealer more or one dealer less it is rejected with ShareVerificationError, for all but exactly one value that the commitment of that dealer can take at the participant's index. For two arbitrary sets it passes exactly if both sets give the same key.", "quantifier": "for all indices and all lists of commitments with distinct non-zero labels", "why_tests_cant": "The repository's test checks one random session with three dealers; the claim is about every set of dealers and says which single value is the exception.", "anchors": ["src/keys.rs:95-131", "src/keys.rs:152-182", "src/dkg/key_generation.rs:2619-2754"]}
{"id": "C135", "title": "On an authenticated channel complaints cannot remove a participant that follows the protocol", "statement": "lib.rs assumes that every message is authenticated by its sender. Under this assumption (a complaint names its true maker as receiver of the share), no complaint of a malicious participant removes a dealer that follows the protocol, whichever complaints are processed.", "quantifier": "for all sessions with at least t participants that follow the protocol, and all complaint lists that contain theirs", "why_tests_cant": "the tests contain one complaint that is justified and one that is rejected; that no complaint frames a dealer is a statement about all complaints that anybody can compute", "anchors": ["src/lib.rs:11-12", "src/dkg/key_generation.rs:1091-1190", "src/dkg/complaint.rs:99-139"]}
{"id": "C136", "title": "Serialising reserves exactly what it writes", "statement": "`to_bytes` and the buffers for share evaluations and Diffie-Hellman keys are created with the capacity announced by `compressed_size`. For every object of the crate, also malformed ones, this is exactly the number of bytes written, including encrypted shares, whose `serialized_size` is written by hand; hence the buffer never moves while it is filled and leaves no partial copy of a secret in released memory. The only buffer holding secret data that moves is the input of the nonce hash, and what it leaves behind does not depend on the signing key.", "quantifier": "for all suites with the codec laws, all objects of all serialisable types and all ways in which the encoder splits its output", "why_tests_cant": "A too small reservation changes no result: the bytes written are the same and only an additional buffer with a part of the secret is released, for sizes that depend on the object.", "anchors": ["src/serialization.rs:9-16", "src/dkg/secret_share.rs:178-185", "src/dkg/secret_share.rs:310-314", "src/dkg/key_generation.rs:842-846", "src/sign/precomputation.rs:31-32"]}
{"id": "C137", "title": "Error texts identify the error and are true", "statement": "Two errors have the same text only if they are equal (errors that carry complaints aside), also after being wrapped as Custom through their text; a quoted text ends at its first unescaped quote; and what the text of MisbehavingParticipants says is true: every listed participant provided an invalid partial signature.", "quantifier": "all errors, all histories of aggregator calls", "why_tests_cant": "texts contain unbounded lists of numbers and strings; histories are unbounded", "anchors": ["src/error.rs: Display for Error", "src/sign/signature.rs: finalize, aggregate", "src/keys.rs: verify", "src/dkg/key_generation.rs: calculate_signing_key"]}
{"id": "C138", "title": "Writing a value to a log discloses no secret", "statement": "The Debug output of the types that hold secrets (Diffie-Hellman private keys, signing keys, secret shares, coefficients, nonce lists, key generation states) does not depend on the secrets, and neither do the texts of the errors returned by round one, finish and sign.", "quantifier": "all values of these types, all pairs of secrets, all public inputs, every way of printing scalars and points that can be read back", "why_tests_cant": "It compares texts for all pairs of secrets.", "anchors": ["src/keys.rs:22, :186", "src/dkg/secret_share.rs:32, :45", "src/sign/precomputation.rs:77, :109, :145", "src/dkg/key_generation.rs:519, :529", "src/error.rs: Display for Error"]}
{"id": "C139", "title": "Secrecy as probability distributions", "statement": "Let the random generator be a tape of independent uniform scalars. (a) The coefficients that new_dealer draws are uniform. (b) A dealer's secret together with the shares it computes for fewer than t participants is uniform, so any function of these shares equals the secret with probability exactly 1/|F|. (c) If one dealer runs new_dealer on such a tape and the other polynomials are fixed beforehand, whatever they are, then the results of finish at any set of participants are distributed exactly like what a trusted dealer with one uniform polynomial hands out; every group key has probability 1/|F|, and any function of the signing keys of fewer than t participants is the group secret with probability 1/|F|. (d) For a given challenge, transcripts of proofs of knowledge and partial signatures with their nonce commitments are distributed exactly like those of simulators that do not know the key. (e) The provision in (c) that nobody acts later is needed: somebody who may file one complaint after seeing the commitments gives every group key but one, at their choice, probability 2/|F|.", "quantifier": "for all finite fields, suites, parameters, dealer sets, polynomials of the other dealers, participant sets and all (unbounded) functions applied to the shares", "why_tests_cant": "A distribution over |F|^t outcomes cannot be sampled; a statistical test would not see a bias of 1/|F|.", "anchors": ["src/dkg/participant.rs:81-230", "src/dkg/secret_share.rs:64-90", "src/dkg/key_generation.rs:1012-1083", "src/dkg/key_generation.rs:1101-1184", "src/dkg/nizkpok.rs:42-62", "src/sign/signature.rs:303-352"]}
{"id": "C140", "title": "Forging means computing discrete logarithms", "statement": "Let the hashes that return scalars (h0 to h3 and the complaint hash) be a random oracle, and let an attacker put q questions to it. (a) If the attacker returns a message and a signature that verify accepts for a key Y with chance e, then running it twice yields the logarithm of Y with chance at least e(e/(q+1) - 1/|F|). (b) The same for t-1 participants of a key generation with one honest dealer, who see its commitments and their shares and choose all other polynomials after that: if they forge a signature for the group key that finish returns, a solver that is given nothing but a random point finds its logarithm with that chance. (c) The same for whoever returns an index, a public key and an accepted proof of knowledge: the logarithm of the returned key is found. (d) A complaint about a shared key that is not the Diffie-Hellman key of the two public keys is accepted with chance at most (q+1)/|F|.", "quantifier": "for all finite fields, suites with an injective point encoding, numbers of questions, attackers (any adaptive function of coins and answers), messages, dealer sets and polynomials of the other dealers", "why_tests_cant": "It quantifies over all attackers and is about probabilities.", "anchors": ["src/sign/signature.rs:261-278, :693-711", "src/dkg/nizkpok.rs:65-90", "src/dkg/complaint.rs:99-139", "src/dkg/key_generation.rs:1012-1083", "src/ciphersuite.rs:56-91"]}
{"id": "C141", "title": "Seeing signatures does not help to forge another one", "statement": "Let a forger ask the random oracle and let the group sign messages of the forger's choice, n moves in all and in any order, and let it return a message with a signature that verify accepts and that the group did not give out for this message, with chance ε. With e = ε - n(n-1)/2|F|, answering the requests for signatures from the public key alone and rewinding the forger yields the secret key with chance at least e(e/(n+1) - 1/|F|). The same holds for t-1 participants of a key generation with one honest dealer, who know everything except the polynomial of that dealer and choose all other polynomials after seeing its commitments and their shares: with the signatures of their choice and a forgery they compute discrete logarithms of random points. The signatures given out in this game are accepted by verify.", "quantifier": "for all forgers, all numbers of moves, all secrets and coins; for all dealer lists, all sets of t-1 colluders and all polynomials of the other dealers", "why_tests_cant": "Tests sign and verify; they cannot quantify over all programs that try to forge.", "anchors": ["src/sign/signature.rs:ThresholdSignature::verify", "src/sign/signature.rs:sign", "src/sign/signature.rs:SignatureAggregator::aggregate", "src/dkg/key_generation.rs:DistributedKeyGeneration::finish"]}
{"id": "C142", "title": "Signing only for a list with the own nonce commitments", "statement": "sign, as the FROST standard (RFC 9591, section 5.2, which the comments of the file follow) demands, makes sure that the entry for the signer in the list from the aggregator holds the commitments of the nonce pair that the call is about to use, and refuses otherwise; in particular a signer that follows the protocol makes only partial signatures that are valid for the list, loses a nonce pair only for those, and is never reported by aggregate.", "quantifier": "for all suites, keys, messages, nonce lists, positions and signer lists, and all aggregation sessions", "why_tests_cant": "Tests pass the list of the aggregator that was given the same commitments; they cannot try all lists that differ from it.", "anchors": ["src/sign/signature.rs:303-352", "src/sign/signature.rs:602-684"]}
{"id": "C143", "title": "Taking part in concurrent signing sessions does not help to forge", "statement": "Let an insider play n moves, in any order and interleaved in any way: put questions to the random oracle, ask for binding factors of a message and a list of signers, let an honest signer publish a new nonce pair, and let an honest signer call sign with any of its nonce pairs, any message and any list of signers. If with chance e it returns a message that no honest signer has signed together with a signature that verify accepts for the group key, while no two different messages or lists of the game had the same digest, then a solver that is given random points and may ask for discrete logarithms of points of its choice finds the logarithms of all of the points, which are exactly one more than it asked for, with chance at least e(e/(n+1) - 1/|F|) - 2n^2|H|/|F|, where H are the honest signers. The same holds for t-1 participants of a key generation with one honest dealer, who choose all other polynomials after seeing its commitments and their shares and whose honest co-signers use the keys that finish returned.", "quantifier": "for all finite fields, suites with an injective point encoding, insiders (any adaptive function of coins and replies), up to 2^63 moves, honest signers, key sharings linear in the secret, dealer lists, colluders and polynomials of the other dealers", "why_tests_cant": "It quantifies over all programs that take part in any number of interleaved sessions and is about probabilities.", "anchors": ["src/sign/signature.rs:303-352", "src/sign/signature.rs:169-260", "src/sign/signature.rs:693-711", "src/sign/precomputation.rs:179-210", "src/dkg/key_generation.rs:1012-1083"]}
{"id": "C144", "title": "Keys as in the documentation", "statement": "finish computes what the documentation of the module says: the secret signing key is the sum of the evaluations of all polynomials (including the own one), and the group key is the sum of the commitments to all constant terms.", "quantifier": "for all suites, dealer lists, polynomials and participants that hold verified shares of all dealers", "why_tests_cant": "Tests compare the keys of participants with one another; they do not compare them with the documented formula for all dealers and polynomials.", "anchors": ["src/dkg/key_generation.rs:45-49", "src/dkg/key_generation.rs:1012-1083"]}
{"id": "C145", "title": "Dealing commitments and shares does not help to forge", "statement": "Let t-1 participants of a key generation with one honest dealer and at least t honest participants see the commitments of that dealer and their shares, then publish commitments for all other dealers and send shares to the honest participants. If with chance e these pass the checks (t commitments each, shares that agree with them) and the colluders then return a signature that verify accepts for the group key that finish returns, after q questions to the random oracle, then a solver computes discrete logarithms of random points with chance at least e(e/(q+1) - 1/|F|). If they moreover take part in concurrent signing sessions with the honest participants, as in C143, the solver finds one more discrete logarithm than it asks for with the chance of C143.", "quantifier": "for all finite fields, suites with the group, encoding and cipher laws, dealer lists, colluders, honest participants, dealings chosen after the view, attackers and insiders", "why_tests_cant": "It quantifies over all attackers and is about probabilities.", "anchors": ["src/dkg/key_generation.rs:1012-1083", "src/dkg/key_generation.rs:903-1010", "src/dkg/secret_share.rs:66-118", "src/sign/signature.rs:303-352", "src/sign/signature.rs:693-711"]}
{"id": "C146", "title": "The record of an honest dealer does not help to forge", "statement": "The bounds of C145 also hold for t - 1 colluders who, before they deal, see everything that Participant::new_dealer of the honest dealer publishes - the commitments, the DH public key and both proofs of knowledge, whose challenges come from the same hash - and who have already asked the hash any questions other than for binding factors and challenges of signatures: a chance to forge a signature for the group key gives a chance to compute discrete logarithms (or, with concurrent signing sessions, one more discrete logarithm than asked for), where the solver produces the whole record from a random point.", "quantifier": "for all lawful suites, dealer sets, honest dealers, sets of t - 1 colluders, sets of at least t honest participants, dealings as a function of the record and the shares, known answers of the hash, numbers of questions and moves, and all attackers; the record for all tapes of new_dealer and all answers of the hash", "why_tests_cant": "The claim is about the success probability of every attacker over all coins and hash answers; a test runs one attacker.", "anchors": ["src/dkg/participant.rs:81-93", "src/dkg/participant.rs:128-220", "src/dkg/nizkpok.rs:42-62", "src/dkg/nizkpok.rs:65-90", "src/sign/signature.rs:303-341", "src/sign/signature.rs:693-711"]}
{"id": "C147", "title": "Forging after a resharing means computing discrete logarithms", "statement": "A group with threshold t reshares its key to a group with threshold t'. Up to t-1 of the old participants collude before the resharing: they know their old keys and deal in the resharing whatever they like, after seeing the commitments of the honest dealers and the shares sent to colluding new participants. Up to t'-1 of the new participants collude after it. At least t' honest new participants accept all dealings. If these two sets of colluders together forge a signature for the new group key with chance e, with q random oracle queries, then a solver that knows only a point computes its discrete logarithm with chance at least e(e/(q+1) - 1/|F|). The same holds for colluders who take part in concurrent signing sessions with the new honest participants, with the one-more discrete logarithm solver of C143. So neither the shares from before and after a resharing together nor dishonest dealing in it help to forge.", "quantifier": "all old and new thresholds, all dealer sets of at least t old participants, all sets of t-1 old and t'-1 new colluders, all ways of dealing (as a function of what the colluders see) that honest participants accept, all attackers and insiders with any number of oracle queries and sessions, all lawful suites", "why_tests_cant": "The statement is about the chance of success of every possible algorithm of the colluders over random polynomials and oracles; a test runs one algorithm.", "anchors": ["src/dkg/participant.rs:128-220", "src/dkg/participant.rs:244-290", "src/dkg/key_generation.rs:903-960", "src/dkg/key_generation.rs:1012-1088", "src/sign/signature.rs:303-341", "src/sign/signature.rs:693-711"]}
{"id": "C148", "title": "The shipped suite satisfies the assumed laws", "statement": "The suite over secp256k1 with SHA-256 and AES-128-GCM that the crate ships satisfies every law that the other theorems assume of a suite: its group has prime order and every point is a multiple of the generator by exactly one scalar, points and scalars have fixed-length encodings that are read back, key derivation and encryption cannot fail and decryption inverts encryption, distinct participant indices are distinct scalars, and ciphertexts are short.", "quantifier": "for all hash functions, key derivation functions, key streams, tag functions of 16 bytes and random number generators; for all points and all scalars of secp256k1", "why_tests_cant": "Tests run with a handful of points; that all of the 2^256 points of the curve are multiples of the generator, and that their number is the given prime, is a statement about the whole group.", "anchors": ["src/lib.rs:1637-1666", "src/ciphersuite.rs:17-35", "src/utils.rs:79-99"]}
{"id": "C149", "title": "A signature does not tell who signed", "statement": "When the nonces of the signers are uniform and the binding factors are answers of a random oracle, the signature that a signing session returns has exactly the distribution of a signature made by one Schnorr signer with the group secret and a uniform nonce. The distribution is the same for every set of signers, and for every sharing of the same secret. So a signature does not tell which participants signed, how many they were, what the threshold was, or whether they signed before or after a resharing.", "quantifier": "all lawful suites with a finite field, all parameters, all non-empty sets of signers, all keys that interpolate to the group secret, all messages", "why_tests_cant": "The statement compares probability distributions over all nonces and oracle answers; a test sees single signatures.", "anchors": ["src/sign/precomputation.rs:40-75", "src/sign/signature.rs:230-300", "src/sign/signature.rs:303-341", "src/sign/signature.rs:560-690"]}
{"id": "C150", "title": "Proofs of knowledge protect against a dishonest majority of dealers", "statement": "In a key generation in which all dealers but one may be dishonest, and with any number of participants, fewer than a threshold of colluders who see the whole record of the honest dealer and their shares, then choose the records of all other dealers, and then sign a message under the group key, compute discrete logarithms: if with chance eps the proofs of knowledge in their records verify and the signature verifies, then running them m + 1 times, where m is the number of dealers, yields the logarithm of a random point with chance at least eps^(m+1) / (q+m)^(m*m) - m eps / |F|, where q is the number of their hash questions. Every record that round one accepts has such a proof, and the group key of the game is the one that finish returns.", "quantifier": "all lawful suites with a finite field, all lists of distinct non-zero dealers, every honest dealer, every set of t - 1 colluders, every threshold, all attackers and all numbers of hash questions", "why_tests_cant": "The statement is a reduction: it quantifies over all strategies of the colluders and compares chances over all hash functions; tests try single records.", "anchors": ["src/dkg/key_generation.rs:640-760", "src/dkg/key_generation.rs:1012-1085", "src/dkg/participant.rs:128-200", "src/dkg/nizkpok.rs:38-85", "src/sign/signature.rs:693-715"]}
{"id": "C151", "title": "The documented parameters for a resharing after dealers were discarded", "statement": "The module documentation tells new signers, when some participants of the previous set were discarded, to use the number of those that remain as the number of dealers and to keep the threshold (201-out-of-263 after a 201-out-of-300 key generation with 37 discarded). With these parameters the resharing succeeds and keeps the group key, whatever the other dealers do as long as enough of them follow the protocol; with the old parameters it fails with InvalidNumberOfParticipants. VIOLATED: unless the discarded participants were exactly those with the largest indices, one of those that remain has an index larger than the new number of dealers, blame then reads complaints against that one as complaints that remove their makers, and it can replace the group key.", "quantifier": "all parameters, all sets of remaining participants, all keys that share a secret, all new signers, all orders of delivery, all randomness; for the violation every set of more than t remaining participants with a gap", "why_tests_cant": "The tests and documentation reshare with all of 1..n as dealers; the claim is about all subsets, and the failure needs a gap in the indices together with complaints.", "anchors": ["src/dkg/key_generation.rs:425-432", "src/dkg/key_generation.rs:694-760", "src/dkg/key_generation.rs:1085-1180"]}
{"id": "C152", "title": "Reading the encrypted shares means computing Diffie-Hellman secrets or breaking the cipher", "statement": "Let the hash of the proofs of knowledge and the key derivation be random functions. Someone sees the DH public keys and proofs of knowledge of honest participants, all ciphertexts they send each other, and may ask the key derivation about any points. Then (1) its chance to reach any goal changes by at most the sum, over the pairs of honest participants, of the chances of solvers for the Diffie-Hellman problem, when the keys of the pairs are replaced with random ones; each solver knows neither DH key of its pair and returns at most as many points as there are pairs and questions; (2) with the ciphertexts replaced with ciphertexts of anything else, it changes by at most this sum plus the advantages of tests that tell the ciphertexts of one pair apart under a fresh random key; (3) t - 1 colluders who also see the commitments of a dealer and their own shares compute its secret with at most the chance of a solver for discrete logarithms, plus these sums. The records and shares that newDealer and bootstrap produce are those of the game.", "quantifier": "for all suites, all finite sets of honest participants and all lists of distinct pairs of them, all programs of the eavesdropper, all goals, all plaintexts and nonces, all thresholds and all sets of t - 1 colluders", "why_tests_cant": "Tests check that a share decrypts at the other end. That nothing else can be done with the ciphertexts is a statement about all eavesdroppers and about the distribution of keys.", "anchors": ["src/dkg/secret_share.rs:294-326", "src/dkg/key_generation.rs:832-849", "src/dkg/nizkpok.rs:42-62", "src/dkg/participant.rs:134-214"]}
{"id": "C153", "title": "Reading the wire does not help t-1 colluders to forge", "statement": "Suppose t-1 participants collude. They see the DH public keys and proofs of the honest participants and every ciphertext that honest participants send each other during key generation. They then choose the dealings of all dealers but one, freely after seeing that dealer's commitments, their own shares and the wire, and take part in concurrent signing sessions with honest signers. In between they may evaluate the key derivation at points of their choice. If they forge a signature under the group key with chance e, then either they compute the Diffie-Hellman secret of some honest pair, or distinguish ciphertexts from ciphertexts of other plaintexts under a fresh key, or the solver of C143 finds one more discrete logarithm than it asks for: with e' = e minus the sum over the pairs of the Diffie-Hellman chance and the cipher advantage, that solver succeeds with chance at least e'(e'/(n+1) - 1/|F|) - 2n²|H|/|F|. The number of points the Diffie-Hellman solver names is at most the number of pairs plus the number of questions that the colluders ask.", "quantifier": "for all lawful suites over finite fields, all sets of honest participants and pairs of them, all plaintexts on the wire (also depending on the dealer's polynomial and on the coins of the signing sessions), all dealer sets, sets of t-1 corrupted indices, sets of at least t honest signers, all numbers of moves n ≤ 2^63, and all adaptive colluders", "why_tests_cant": "It bounds the success of every adaptive attacker over all coins, and it composes the secrecy of the encrypted channel with the security of the dealt key and of concurrent signing; a test executes one attacker on one seed.", "anchors": ["src/dkg/secret_share.rs:294-326", "src/dkg/key_generation.rs:832-849", "src/sign/signature.rs:303-341", "src/dkg/participant.rs:134-214"]}
{"id": "C154", "title": "Reading untrusted bytes reserves no more memory than they justify", "statement": "from_bytes reserves at most a constant times the length of its input, and never panics, whatever the bytes are. VIOLATED: for every type with a vector a message of fixed length, down to 8 bytes, makes from_bytes reserve as much memory as the sender likes, or panic; messages that are encodings followed by anything do keep the bound.", "quantifier": "for all suites, all serialisable types and all byte strings", "why_tests_cant": "Tests decode what was encoded. The claim is about every byte string a peer may send, in particular about 2^64 announced lengths.", "anchors": ["src/serialization.rs:18-25", "src/dkg/secret_share.rs:187-209", "src/dkg/secret_share.rs:240", "src/dkg/participant.rs:30", "src/sign/precomputation.rs:145-160"]}
{"id": "C155", "title": "Key generation is correct in every execution on an arbitrary network with restarts", "statement": "Let every participant see the same admissible records (distinct indices, those of acceptable dealers between 1 and their number), wait for a share of every dealer on file, and finish only after processing its own complaints; apart from that steps interleave arbitrarily, shares and complaints are arbitrary, and states are saved and old saved states read back at any time. Then in every reachable state: any t or more participants that finished with the same dealers on file hold the same group key, made of these dealers' commitments on the board, and signing keys that interpolate to its logarithm, and they can sign every message; participants that processed the same complaints have the same dealers on file and the same key; processing complaints, finishing and restoring never fail; release builds never panic if the threshold is not zero and no record lacks a proof; and everybody in round two can finish by processing its own complaints.", "quantifier": "for all lawful suites, parameters, boards, numbers of participants and all finite executions (all interleavings, message orders, duplications, forged shares and complaints, restarts from any earlier state)", "why_tests_cant": "The repository's tests run one schedule in which all steps of a round happen in order with honest messages and no restart. The claim is an invariant of a transition system with unboundedly many participants and steps.", "anchors": ["src/dkg/key_generation.rs:578-683", "src/dkg/key_generation.rs:704-888", "src/dkg/key_generation.rs:903-1010", "src/dkg/key_generation.rs:1012-1090", "src/dkg/key_generation.rs:1097-1175"]}
{"id": "C156", "title": "Signing is safe and live in every execution on an arbitrary network with restarts", "statement": "Let signers publish any number of nonce lists, answer any requests (any list, position, digest, group key and list of signers, also malformed ones) and restart from the list saved last, in any order. Then in every reachable state: the entries used so far from a list together with those left are exactly the generated list, so unless a signer draws a pair twice no two of its answers use the same pair; restarting never fails; every answer satisfies the share equation if the list of the request has what the signer published; no coordinator can make the aggregator report a signer whose answer to the session's request it has put in; and from every state, signers whose keys interpolate to the group secret can make a valid signature on every message by publishing one more pair and answering once.", "quantifier": "for all lawful suites, signing keys, messages, coordinators and all finite executions (all interleavings of sessions, requests and restarts)", "why_tests_cant": "The repository's tests sign once or twice with fixed lists. The claim is an invariant of a transition system with unboundedly many signers, lists, requests and restarts.", "anchors": ["src/sign/precomputation.rs:179-227", "src/sign/signature.rs:303-360", "src/sign/signature.rs:554-680"]}
{"id": "C157", "title": "Resharing keeps the key in every execution on an arbitrary network, any number of times", "statement": "Take the network of C155 with resharing sessions, on a board whose records passed the caller's checks (C129) against the verifying shares of an earlier epoch. In every reachable state, a signer that finished holds a signing key matching the verifying share that everybody derives from the dealers on file; any t of these shares determine the key it reports, which is the earlier group key if at least the earlier threshold of dealers remain, whichever were removed. Hence, starting from a key generation on such a network and resharing any number of times, every epoch shares the key first generated, and any t signers that finished with the same dealers on file can sign every message for it. Key-generation failures, agreement and progress (C155) hold for resharing sessions too.", "quantifier": "for all lawful suites, numbers of resharings, committees, thresholds, checked boards and all finite executions of every session (all interleavings, orders, duplications, forged shares and complaints, restarts from any earlier state)", "why_tests_cant": "An induction over the number of resharings, each of which is an invariant of a transition system with unboundedly many participants and steps; the tests run one resharing in one order with honest messages.", "anchors": ["src/dkg/key_generation.rs:684-830", "src/dkg/key_generation.rs:903-1083", "src/dkg/key_generation.rs:1084-1200", "src/dkg/participant.rs:244-281", "src/keys.rs:152-200"]}
{"id": "C158", "title": "Everything published and sent during key generation does not help t-1 colluders to forge", "statement": "The attack of C153 by colluders who also see the honest dealer's proof of knowledge of its secret key, and hence its whole record: index, DH public key with proof, commitments with proof. The hash h0 of both kinds of proofs is one random function, whose answers they know. They choose the dealings of all other dealers after seeing this, their shares and every ciphertext between honest participants, and then take part in concurrent signing sessions. If they forge with chance e, then with e' = e minus the sum over the honest pairs of the Diffie-Hellman chance and the cipher advantage, the solver of C143 finds one more discrete logarithm than it asks for with chance at least e'(e'/(n+1) - 1/|F|) - 2n²|H|/|F|: the proof costs nothing. The record in the game is the one `new_dealer` publishes.", "quantifier": "for all lawful suites over finite fields, all sets of honest participants and pairs of them, all plaintexts on the wire, all dealer sets, sets of t-1 corrupted indices, sets of at least t honest signers, all numbers of moves n ≤ 2^63, and all adaptive colluders", "why_tests_cant": "It bounds the success of every adaptive attacker over all coins; a test executes one attacker on one seed.", "anchors": ["src/dkg/participant.rs:134-214", "src/dkg/nizkpok.rs:42-62", "src/dkg/secret_share.rs:294-326", "src/dkg/key_generation.rs:832-849", "src/sign/signature.rs:303-341"]}
{"id": "C159", "title": "The life of a key on an arbitrary network: generation, any number of resharings, signing", "statement": "Take signers that finished a key generation (C155) or the last of any number of resharings (C157) with the same dealers on file, and let them answer signing requests on the network of C156. The signing key of each matches the verifying key that `generate_from_commitments` derives from the dealers on file, and any t of the keys interpolate to the logarithm of the group key generated at the beginning. From every reachable state of the signing network any t of them can go on and sign any message, and with the verifying keys derived from the dealers on file the aggregator outputs a signature valid under the first group key. An aggregator with these verifying keys never reports a signer whose answer to the request of its session it has put in.", "quantifier": "for all lawful suites, numbers of resharings, committees, thresholds, messages, boards whose records passed the caller's checks, and all finite executions of each session and of the signing network (all interleavings, requests, forged inputs, restarts)", "why_tests_cant": "It composes three transition systems with unboundedly many participants and steps and an induction over the number of resharings; the tests run one life with one resharing and one signature, in one order.", "anchors": ["src/dkg/key_generation.rs:684-830", "src/dkg/key_generation.rs:903-1200", "src/keys.rs:152-182", "src/sign/signature.rs:303-341", "src/sign/signature.rs:602-684"]}
{"id": "C160", "title": "The shipped suite in numbers", "statement": "For the suite over secp256k1 that the crate ships, with any hash functions, key stream and random generator, and without further assumptions: (1) if colluders who see everything that is published and sent in key generation, or colluders of both epochs of a resharing, forge with n < 2^a moves in concurrent sessions against at most 2^b honest signers with a chance eps of at least 2^-e (after subtracting what breaking the wire explains), where 3a + b + 2e <= 252 - say 2^40 moves, 4096 signers and chances from 2^-60 on - then the solver finds one more discrete logarithm on secp256k1 than it asks for with chance at least eps²/(2(n+1)). (2) For every committee and every number of resharings there are executions after which the committee holds keys for the group key generated first, and from every state of the signing network any t of them go on to produce a signature that verify accepts.", "quantifier": "for all hash functions, key streams, tags and generators; all a, b, e with 3a + b + 2e <= 252; all colluders, dealer sets, thresholds, committees, numbers of resharings, messages and reachable states of the signing network", "why_tests_cant": "It bounds every attacker over all coins on the real curve and covers lives of any length; a test runs one life on one seed.", "anchors": ["src/lib.rs:1637-1666", "src/ciphersuite.rs:17-35", "src/dkg/participant.rs:134-214", "src/sign/signature.rs:303-341", "src/sign/signature.rs:602-684"]}
{"id": "C161", "title": "No key of the cipher is used twice with the same nonce, up to chance", "statement": "In a key generation the share from i to j and the share from j to i are encrypted under one and the same key, derived from their Diffie-Hellman secret, and nothing compares their nonces. If each participant draws its nonces uniformly, the chance that any two shares of a key generation of n participants have the same key and the same nonce is at most n(n-1)/2 divided by the number of nonces when the keys of different pairs differ (n(n-1)/2^97 for the suite of the tests), and at most n²(n²-1)/2 divided by the number of nonces whatever the keys are; for two given honest participants it is exactly one divided by the number of nonces. With the suite of the tests, a repeated nonce lets anybody who knows one of the two values compute the other from the ciphertexts alone.", "quantifier": "for all suites, all numbers of participants, indices, polynomials, DH keys, participant records and orders of the records, all parameters, and for uniformly random independent nonces", "why_tests_cant": "A collision has a chance of about 2^-96 per pair, so no run shows it, and a smaller nonce or one derived from a counter on both sides would pass every test.", "anchors": ["src/dkg/secret_share.rs:294-326", "src/dkg/key_generation.rs:832-849"]}
{"id": "C162", "title": "No two uses of the hash function hash the same string", "statement": "The crate has eight uses of a hash function: the challenges of proofs (h0), binding factors (h1), challenges of signatures (h2), nonces (h3), message hashes (h4), hashes of commitments (h5), challenges of complaints, and the derivation of cipher keys. Opened down to the strings that the hash function is applied to: the message of each call enters its result only through the hash of the first string; the first string determines the use and the message, for every context string of at most 246 bytes that begins neither with a zero byte nor with the byte 0x36; for longer context strings the same holds unless two different strings have the same hash; with a context string of at least 25 bytes the strings hashed after the first one coincide with a first string only if a hash value, or the sum of two, is one of four fixed strings. With a context string that begins with as many zero bytes as are put in front of the message it fails, whatever the hash function.", "quantifier": "for all hash functions, all context strings as stated, all pairs of uses, all messages of any length", "why_tests_cant": "that no two of infinitely many pairs of calls hash the same string cannot be tested; tests use one context string and a few messages", "anchors": ["src/utils.rs:79", "src/utils.rs:87", "src/ciphersuite.rs:54", "src/dkg/complaint.rs:52", "src/dkg/secret_share.rs:299"]}
{"id": "C163", "title": "The shipped suite, with only the random numbers left open", "statement": "With secp256k1, SHA-256, the field hasher, HKDF and AES-128-GCM written out, the suite testing::Secp256k1Sha256 satisfies every law that the other theorems assume of a suite, for every source of random numbers: no assertion or error of the dependencies can occur, hashing is separated in the sense of C162, every share is encrypted under a key of 16 bytes into 84 bytes on the wire and decrypted to itself, a share is accepted exactly if it ends with the tag and decrypts to a number below the group order, the messages of the protocol have fixed lengths, and honest key generation, resharing and signing end with a valid signature.", "quantifier": "for all sources of random numbers, all shares, keys and ciphertexts of any length, all parameters, groups, messages and signers", "why_tests_cant": "tests run this suite on a few random values; that the laws hold for all points, scalars, keys, nonces and messages needs a proof", "anchors": ["src/lib.rs:1637", "src/utils.rs:79", "src/dkg/secret_share.rs:294", "src/dkg/secret_share.rs:334"]}
{"id": "C164", "title": "Hashing to the field is uniform up to 2^-128 per call", "statement": "The scalars that hash_to_field returns are uniform bytes reduced modulo the group order. With the number of bytes the code asks for, 128 bits more than the order, the chance of any event that depends on Q such scalars and on any other random choices differs from its chance under uniform scalars by at most Q / 2^128. The bias is there: for an order that does not divide a power of 256 some scalar is not hit with the uniform chance. A forger that meets such answers and succeeds with chance at least e + (n + 1) / 2^128 on secp256k1 yields the discrete logarithm of the key with the chance that C140 gives for e.", "quantifier": "every modulus, every number of bytes and calls, every event on the scalars together with any finite random choice; every attacker of C140 on secp256k1", "why_tests_cant": "A deviation of 2^-128 per call is far below what sampling can see, and the claim is about all events and all attackers.", "anchors": ["src/lib.rs:1608", "src/utils.rs:79-85", "src/dkg/complaint.rs:52-56", "src/dkg/complaint.rs:100-104"]}
{"id": "C165", "title": "An encrypted share that was altered on the way is not opened", "statement": "Someone sees any number of encrypted shares under one key with different nonces, chooses the nonce and the ciphertext of another encrypted share, of at most L blocks and not the same as any that was sent, and hands it to the receiver. With a random function as block cipher decryptShare opens it with chance at most (L + 1) / 2^128. With AES-128 under a random key the chance is larger by at most the advantage of one test that tells AES-128 from a random function. The two indices of the encrypted share are not protected: whatever is written there, the share is opened and carries these indices.", "quantifier": "every number of shares, all shares, nonces and random choices, every attacker that depends on what was sent, every length below 64 GB; for the indices every suite, key and pair of indices", "why_tests_cant": "A test alters a ciphertext in a few ways and sees it refused. The claim is a bound of 2^-128 on the chance for the best way there is, over all block functions.", "anchors": ["src/dkg/secret_share.rs:292-384", "src/dkg/secret_share.rs:315-317", "src/dkg/secret_share.rs:346-348", "src/lib.rs:1660"]}
{"id": "C166", "title": "Encrypted shares tell nothing but their length", "statement": "With a random function as block cipher, the encrypted shares under one key with different nonces have the same distribution whatever the shares are, and so have ciphertexts of any texts of the same lengths. With AES-128 under a random key a test succeeds on the two with chances that differ by at most two advantages of tests of AES-128. So in C152 the advantage against the cipher can be replaced, for the shipped suite, with advantages against AES-128: whoever reads everything on the wire does as well with ciphertexts of anything else, up to Diffie-Hellman on secp256k1 and AES-128. The same holds for forgeries (C160): colluders who see everything of a key generation and take part in concurrent signing sessions forge with no more chance than the discrete logarithm problem and Diffie-Hellman on secp256k1 and AES-128 explain.", "quantifier": "every number of letters of any length below 64 GB, all different nonces of 12 bytes, all texts, every test, every reader of C152 and every goal", "why_tests_cant": "No run can show that a ciphertext is independent of the text. The claim is about all tests and all block functions together.", "anchors": ["src/dkg/secret_share.rs:292-333", "src/dkg/key_generation.rs:832-849", "src/lib.rs:1660"]}
{"id": "C167", "title": "The hash functions and the cipher of the shipped suite are those of the standards", "statement": "In the model of SHA-256 the round constants and the initial value are the first 32 bits of the fractional parts of the cube and square roots of the first primes; the logical functions are choice, majority and sums of rotations and shifts bit by bit; the compression function is 64 rounds with the recursively defined message schedule; the padding is the shortest one with the bit length at the end; blocks are read as words and the last hash value is written as bytes with the highest byte first. In the model of AES-128 the S-box maps a byte to the affine image of its inverse in the field with 256 elements; rows are shifted and columns multiplied by the matrix of the standard; the round keys satisfy the recursion of the key expansion with powers of x as round constants; there are ten rounds, the last without mixing columns. AES-128 is a permutation of the blocks for every key. The multiplication of GHASH is that of a field with 2^128 elements. Key stream and tag are those of SP 800-38D for every block cipher: counter blocks of nonce and block number from 2 on; the tag is the encrypted block of counter 1 plus the polynomial in the encrypted zero block whose coefficients are the blocks of the ciphertext and its bit length, with bits read from left to right. The message expander, HMAC and HKDF compute the blocks that the equations of RFC 9380, RFC 2104 and RFC 5869 define, for every hash function.", "quantifier": "all messages, tags, blocks, keys, lengths, words, bytes and bit positions", "why_tests_cant": "Test vectors pass through a few table entries and bit patterns; a wrong S-box entry or round constant for a rare input can go unnoticed, and that a keyed map is a permutation cannot be seen from any number of blocks.", "anchors": ["src/lib.rs:1658", "src/lib.rs:1660", "src/dkg/complaint.rs:52", "src/dkg/secret_share.rs:299-302"]}
{"id": "C168", "title": "Nonces are as good as uniform scalars, even if their random bytes are known", "statement": "generate_commitment_share_lists makes every nonce by hashing fresh random bytes together with the signing key. Let the hash function h3 be drawn at random. Whatever is done with the secret and public lists of any number of calls, with any keys and lengths, by anybody who knows all random bytes and may put questions to the hash function at any time: the chance of any outcome differs from that with independent uniform nonces by at most the chance that a question is put, in the game with uniform nonces, from which the signing key of one of the calls is read off, plus the chance that random bytes repeat for the same key. For T nonces with secp256k1 (32 random bytes each, answers of 48 bytes that are reduced) the distance is at most T(T-1)/2^257 + T/2^127 plus the chance of such a question. If the random bytes repeat, the nonces repeat, whatever the hash function.", "quantifier": "for all suites, numbers of calls and lengths of lists, signing keys and generators (also chosen at random and dependent on each other), all finite sets of strings that contain those hashed for nonces, and all programs that use the lists and put any questions, adaptively", "why_tests_cant": "a distribution over all hash functions and an observer that may do anything; tests see single lists with one generator", "anchors": ["src/sign/precomputation.rs:24-35", "src/sign/precomputation.rs:47-55", "src/sign/precomputation.rs:58-74", "src/sign/precomputation.rs:179-206", "src/ciphersuite.rs:89-91", "src/keys.rs:186-196"]}
{"id": "C169", "title": "Signing follows the FROST specification of the IETF", "statement": "The signing part of the crate is the protocol of RFC 9591, the specification that the comments of the crate refer to, for the ciphersuite with the suite's encodings and its hash functions h1 to h5: nonces, binding factors, partial signatures, aggregation, the check of partial signatures and verification. VIOLATED for binding factors: the strings hashed for them (group key left out, four bytes for an index) are never those of the RFC, and for suitable hash functions every partial signature of an RFC signer is refused. Verification is that of the RFC, and the rest of the protocol is that of the RFC for some other functions H1 and H5; the message signed is h4 of the given one.", "quantifier": "for all suites, messages, keys, nonce lists, positions, lists of signers with nonzero indices and sequences of aggregator calls", "why_tests_cant": "Tests run the crate against itself; a deviation from the specification in both roles goes unnoticed, and agreement with it on all inputs needs a proof.", "anchors": ["src/ciphersuite.rs:44-116", "src/sign/signature.rs:150-278", "src/sign/signature.rs:303-341", "src/sign/signature.rs:602-711", "src/sign/precomputation.rs:24-35"]}
{"id": "C170", "title": "Scalars drawn from uniform bytes are uniform", "statement": "If the generator delivers uniform bytes and scalars are drawn from them as by ark-ff (32 bytes at a time, rejected if not below the modulus, read as a Montgomery form), then the scalars drawn one after another are uniform and independent, except for the chance that the bytes at hand run out: the distribution of any finite number of draws, of what new_dealer, new_signer and Complaint::new make of them, differs from that with uniform scalars (C139) by at most the number of draws times the k-th power of the chance of a rejection, given 32 k bytes per draw. For secp256k1 that is 2^(-127 k). So whoever holds fewer than t shares of a dealer guesses its secret with a chance of at most 1/n plus that. Byte strings drawn for nonces are exactly uniform and independent.", "quantifier": "for all odd prime moduli below 2^256, suites, parameters, indices, numbers of draws, supplies k of bytes, events and guessing strategies", "why_tests_cant": "A biased draw (a reduction instead of a rejection, or a draw used twice) yields valid keys and signatures; the distribution of keys cannot be read off test runs.", "anchors": ["src/dkg/participant.rs:128-220", "src/dkg/nizkpok.rs:42-62", "src/dkg/complaint.rs:40-91", "src/dkg/secret_share.rs:296-330", "src/sign/precomputation.rs:24-35"]}
{"id": "C171", "title": "AES-128 is compared with a random permutation", "statement": "In C165 and C166 the shipped cipher is compared with a random function. A test that calls the block cipher q times, each block chosen after the results before, tells a random function from a random permutation of the blocks with an advantage of at most q(q-1)/2^129. Encrypting shares of one pair of participants calls AES once for the key of the tags and three times per share. Hence an altered share is opened with a chance of at most (L+1)/2^128 plus (3N+2)(3N+1)/2^129, and ciphertexts tell nothing but their length up to q(q-1)/2^128, plus the advantage of a test that tells AES-128 from a random permutation, which is the usual assumption about a block cipher.", "quantifier": "for all tests, numbers of questions, shares, nonces without repetition, attackers and ciphertext lengths up to 64 GB", "why_tests_cant": "The statement is about the chance of success of every possible attacker over all keys or permutations of 2^128 blocks.", "anchors": ["src/dkg/secret_share.rs:290-330", "src/dkg/secret_share.rs:331-376", "src/lib.rs:1660"]}
{"id": "C172", "title": "Forging when no random number is exactly uniform", "statement": "C143, C145 and C160 take the coefficients of the honest dealer, the nonces of the honest signers and the answers of the hash functions as uniform scalars. Let them come instead from any source under which the chance of every event differs by at most d from that under uniform scalars. Then colluders that forge with chance at least e + d compute discrete logarithms with the chance that C145 gives for e. On secp256k1, with coefficients drawn from 32(t+2)k uniform bytes by rejection and with every nonce and every answer reduced from 48 uniform bytes, d is (t+2)/2^(127k) + (n+2)(2^32+3)/2^128: with at most 2^40 moves, 2^22 honest signers and a chance p of forging of at least 2^-54, the solver finds one more discrete logarithm than it asks for with chance at least p²/(8(n+1)).", "quantifier": "for all lawful suites over finite fields and all sources for the first part; for all numbers of moves n, thresholds, sets of t-1 colluders, dealer sets, dealings of the other dealers, sets of honest signers and all insiders", "why_tests_cant": "The claim compares the chances of events over all tapes of random bytes for all attackers; a run sees one tape, and the differences are far below what statistics can detect.", "anchors": ["src/lib.rs:1608", "src/utils.rs:79-85", "src/dkg/participant.rs:148-181", "src/sign/precomputation.rs:24-40"]}
{"id": "C173", "title": "Vectors reserved in advance are filled and never outgrown", "statement": "Where the library reserves a vector with `Vec::with_capacity`, the reservation is at least what the vector receives, so that it never moves and leaves no copy of a coefficient or a nonce in released memory, and it is at most the number of elements of the arguments or of the result, so that no input makes the library reserve memory that it does not use.", "quantifier": "for all lawful suites, parameters, generators, secret keys, numbers of nonces, lists of participants, signers, commitments and complaints", "why_tests_cant": "Capacities are not observable in the results, and a reservation for 2^32 participants fails only on machines without the memory; a test fixes the parameters to match the participants.", "anchors": ["src/dkg/participant.rs:169-193", "src/dkg/key_generation.rs:717-731", "src/dkg/key_generation.rs:1116", "src/sign/precomputation.rs:184-197", "src/sign/signature.rs:153-164", "src/sign/signature.rs:445", "src/dkg/complaint.rs:59-77", "src/keys.rs:102-105"]}
{"id": "C174", "title": "Branches, memory accesses and calls do not depend on secrets", "statement": "Two runs of the functions that handle secrets, on the same public data and with whatever secrets and randomness, take the same branches of the crate's own code, access the same positions of vectors and keys of maps, and call the operations of the dependencies in the same order with arguments of the same sizes: creation of participants, dealing of shares, round two (given which shares are good and how the bad ones fail, which complaints make public), computation of the signing key, generation of nonces, comparison of commitment shares, and signing. The only exception is what `drop_share` documents: it tells the length of the list and at which positions the dropped share stands, and nothing more.", "quantifier": "for all suites with fixed-size encodings and a cipher that encrypts, all parameters, indices, pairs of secret keys, polynomials of the same degree, signing keys, nonce lists of the same length, shares, states and randomness", "why_tests_cant": "A test compares outputs; a short-circuiting comparison or an early return that depends on a secret gives the same output.", "anchors": ["src/sign/precomputation.rs:101-106", "src/sign/precomputation.rs:129-134", "src/sign/precomputation.rs:208-227", "src/sign/precomputation.rs:24-74", "src/sign/signature.rs:303-341", "src/dkg/secret_share.rs:66-106", "src/dkg/secret_share.rs:294-361", "src/dkg/nizkpok.rs:42-62", "src/dkg/complaint.rs:40-91", "src/dkg/participant.rs:128-220", "src/dkg/key_generation.rs:832-849", "src/dkg/key_generation.rs:928-984", "src/dkg/key_generation.rs:1022-1048"]}
{"id": "C175", "title": "Debug and release builds agree", "statement": "Every public function that contains a debug assertion or unsigned arithmetic that could overflow (ThresholdParameters::new, bootstrap, new, reshare, to_round_two, sign) gives in a release build exactly the result of a debug build; and where a debug build panics on a failed assertion or an overflow, a release build returns an error and no value.", "quantifier": "every suite, every argument, every state of the RNG, and both build profiles", "why_tests_cant": "tests run in one profile; the two differ only on inputs that a test of the debug profile cannot survive", "anchors": ["src/parameters.rs: ThresholdParameters::new", "src/dkg/key_generation.rs:703-1001", "src/dkg/participant.rs:244-281", "src/sign/signature.rs:303-341"]}
{"id": "C176", "title": "The work of a call is proportional to what it is given", "statement": "On every path through every public function, the number of scalar multiplications in the group and the number of hashed bytes are at most proportional to the size of the arguments: creating a dealer takes at most t + 3 multiplications; the first round at most 5 per participant and 1 more; the second round at most 4 per share plus one per point of the sender's commitment (t in a session from bootstrap); judging a complaint at most 4 plus one per point of the accused's commitment; finishing one per dealer; signing one per signer; verifying a signature 2; aggregation at most 4 per signer and 2 more; and no byte of the arguments is hashed more often than a fixed number of times. A first round with the wrong number of participants, and a second round with fewer than t shares, are refused before this work is done.", "quantifier": "every suite with encodings of fixed length, every argument including malformed ones, every state, and every RNG", "why_tests_cant": "a test measures single inputs; the bound is about the worst of all inputs an attacker can send, on the failing paths too", "anchors": ["src/dkg/participant.rs:128-220", "src/dkg/key_generation.rs:704-1184", "src/keys.rs:95-182", "src/sign/signature.rs:150-341", "src/sign/signature.rs:602-711"]}
{"id": "C177", "title": "A rejected record does not influence the accepted participants", "statement": "In the first round of bootstrap, every accepted participant with an index of its own is dealt a share that is encrypted to the Diffie-Hellman key of the accepted record, whatever records were rejected; so nobody who follows the protocol loses its share, and no session of enough participants who follow the protocol fails, because of a record that was rejected. In a reshare the same holds for the new signers.", "quantifier": "every suite obeying the laws, every parameters, every list of records in every order, every coefficients and RNG, every set of participants that follow the protocol, and every rejected record", "why_tests_cant": "the tests give rejected records an index of their own; the claim is about every list of records that others can send, with every index and in every order", "anchors": ["src/dkg/key_generation.rs:726-849", "src/dkg/key_generation.rs:953-977", "src/dkg/key_generation.rs:1118-1169"]}
{"id": "C178", "title": "False proofs in complaints are found only by luck", "statement": "Let the hash function of the proofs in complaints be drawn at random. Whoever asks it q questions and then presents m complaints, with any knowledge (also of all secrets), without limit on computation and depending on all answers, has among them one whose proof verifies although the disclosed key is not the Diffie-Hellman key of the included public key and that of the accused, with a chance of at most q + m times the chance of a single scalar; on secp256k1 (q + m) / 2^255. So a dealer that follows the protocol and complains about nobody is removed with no more chance by complaints that contain the shares it dealt and the public keys for which they were encrypted. The bound is reached: guessing the challenge makes a false proof for any wrong key with the chance of the guessed scalar.", "quantifier": "every suite with encodings of fixed length that can be read back, every finite set of answers and reduction to scalars, all numbers of questions and complaints, all programs, every key, share and session state", "why_tests_cant": "the claim is a bound on a probability over all hash functions and all strategies of an attacker", "anchors": ["src/dkg/complaint.rs:40-139", "src/dkg/key_generation.rs:1097-1184"]}
{"id": "C179", "title": "Signing with nonces from the lists is as hard to attack as with uniform nonces", "statement": "Let the honest signers take their nonces from the lists that generate_commitment_share_lists made with their signing keys, and let the hash function for nonces be drawn at random, with answers that are reduced to scalars at distance δ from uniform. Somebody takes part in n moves of concurrent signing sessions (C143), may ask that hash function anything at any time, and may know all random bytes that the signers put into their nonces. They forge a signature on a message that no honest signer signed with a chance of at most the sum of: the chance of the same program in C143, where nonces are uniform scalars; the chance in C143 of a program with one move more, which signs with the first signing key that the first program puts into a question; the chance that one signer gets the same random bytes for two nonces; and 4 n |H| δ for |H| honest signers. So by C143 forging is hard if one more discrete logarithm is hard to find, also for t - 1 participants of a key generation with one honest dealer. On secp256k1, with N = 2 n |H| nonces, the last two terms are at most N (N - 1) / 2^257 + N / 2^127.", "quantifier": "every lawful suite, all lists of honest signers, all numbers of moves, every program of the insider, every way in which the keys depend on a secret with nonzero factors, all key generations with t - 1 colluders, every source of random bytes", "why_tests_cant": "the claim is a bound on a probability over all hash functions and all strategies of an attacker", "anchors": ["src/sign/precomputation.rs:24-35", "src/sign/precomputation.rs:58-74", "src/sign/precomputation.rs:179-206", "src/sign/signature.rs:303-345"]}
{"id": "C180", "title": "Forging is hard for t - 1 colluders who see key generation and sign with list nonces", "statement": "One game covers key generation and signing. In key generation t - 1 colluders see everything that the honest dealer and honest participants publish and send: commitments, proofs of knowledge, Diffie-Hellman keys with proofs, all ciphertexts, and their own shares. They choose the dealings of all other dealers, which have to pass the checks of the honest participants. Then they take part in n moves of concurrent signing sessions with honest signers who hold the keys that this key generation gives them and whose nonces come from the lists of generate_commitment_share_lists. They may know all random bytes that go into nonces, may ask the key derivation at any time and the hash function for nonces once the dealings are fixed. The chance that they produce a signature on a message that no honest signer signed is at most the sum of: for every pair of honest participants the chance of a Diffie-Hellman solver and the advantage of a test for the cipher; the chances in C143 of two insiders built from them; the chance that one signer gets the same random bytes for two nonces, which is at most N (N - 1) / 2^257 for N = 2 n |H| nonces with 32 random bytes each; and 4 n |H| δ, where answers of the hash function for nonces are at distance δ from uniform scalars. The Diffie-Hellman solver makes at most c + (n + 2) q guesses for c pairs if the colluders ask the key derivation at most q times before a move. If the solvers of C143 find one more discrete logarithm with chance at most η, and η < w (w / (n + 2) - 1 / |F|) - 2 (n + 1)^2 |H| / |F|, the two insiders contribute at most 2 w.", "quantifier": "every lawful suite, all lists of honest participants, all thresholds, every set of t - 1 colluders, all their programs, all numbers of moves, every source of random bytes, every message sent on every wire", "why_tests_cant": "the claim is a bound on a probability over all key derivations, hash functions and strategies of colluders", "anchors": ["src/dkg/participant.rs:134-214", "src/dkg/secret_share.rs:294-326", "src/dkg/key_generation.rs:832-849", "src/sign/precomputation.rs:179-206", "src/sign/signature.rs:303-345"]}
{"id": "C181", "title": "The state of an aggregator survives writing and reading at any point", "statement": "AggregatorState, BindingFactors, PartialThresholdSignatures, IndividualPublicKeys and NoncePair derive encodings although they are not public. After any history of calls to include_signer and include_partial_signature, failed ones included, the state of an aggregator is read back as it was written, takes 32 + g + k (4 + 2 g) + p (4 + g) + z (4 + s) bytes for k signers, p public keys and z partial signatures (g and s are the sizes of points and scalars), and no other reachable state has an encoding that begins with it. An aggregator that is written and read again after any of its calls, or after finalize, cannot be told from one that is not. The same holds for all computed binding factors and all nonce pairs. Reading does not check what sessions guarantee: a state that lists one signer twice is accepted and passes finalize, whose documentation excludes duplicates, and no history of calls leads to it.", "quantifier": "every suite with lawful encodings, all parameters, group keys and messages, all histories of calls, all points at which the state is written and read, all signer lists", "why_tests_cant": "the claim covers all histories and all places to interrupt them; the repository has no test for these encodings", "anchors": ["src/sign/signature.rs:77-78", "src/sign/signature.rs:102-103", "src/sign/signature.rs:127-128", "src/sign/signature.rs:348-361", "src/sign/precomputation.rs:37-38"]}
{"id": "C182", "title": "The work of a successful call is fixed by what everybody sees", "statement": "The bounds of C176 are exact for calls that succeed, so that the number of scalar multiplications in the group and of hashed bytes of a successful call is a function of the public sizes alone: t + 3 multiplications and the inputs of two proofs for creating a dealer, 2 and one proof for a signer; 5n + 1, 4n + 1 and 3n + 1 for a first round in which nobody is reported (new key, receiver and dealer of a reshared key); 1 plus the points of the sender's commitment for each share of a second round without complaints (t + 1 in a session from bootstrap); one per dealer for finish; one per point of the commitments for computing or confirming a verifying key; one per signer, and exactly the bytes of one session, for a signature share; one per signer and two more for an aggregation; two for a verification, accepted or not.", "quantifier": "every suite with encodings of fixed length, all arguments and states on which the call succeeds, both kinds of build, all secrets and all RNGs", "why_tests_cant": "a benchmark measures single runs; that no secret, random number or position changes the count is a claim about all pairs of runs", "anchors": ["src/dkg/participant.rs:128-220", "src/dkg/key_generation.rs:704-1083", "src/keys.rs:95-182", "src/sign/signature.rs:169-341", "src/sign/signature.rs:602-711"]}
{"id": "C183", "title": "Which bytes are read as nonces", "statement": "With the shipped suite, bytes are read as a nonce with its point exactly if they begin with the stored form of a scalar and a point, and the result is that pair. Fewer than 65 bytes (130 for a pair of nonces) are refused whatever they hold, and so are bytes of any length whose nonces are not below the group order: no nonce is reduced silently. With n the group order, n^2 strings of 65 bytes are read as a nonce with a point and n^4 strings of 130 bytes as a pair of them. Only in n and n^2 of them do the points belong to the nonces: the reader does not check it, and a nonce stored with the point of any other nonce is read without complaint. `sign` then uses the nonce and never the point, for every suite: it returns a share without an error, and the share is invalid for the published points.", "quantifier": "all byte strings of all lengths, all nonces and points, both readers of points for the refusals; all suites, keys, messages, lists and positions for signing", "why_tests_cant": "the repository's test tries one string of 64 and one of 128 bytes; the claim is about all strings, and about how many of 2^520 are accepted", "anchors": ["src/sign/precomputation.rs:76-83", "src/sign/precomputation.rs:108-121", "src/sign/precomputation.rs:254-296", "src/serialization.rs:9-24"]}
{"id": "C184", "title": "How many byte strings are read, and how many of them pass the checks", "statement": "Of the strings of the length of a stored value, with the shipped suite and n the group order: all 2^64 strings of 8 bytes are read as parameters, and 2^31 (2^32 - 1) of them would have been accepted by ThresholdParameters::new; n^2 strings of 65 bytes are read as a signature, and for every group key and every message exactly n of them verify, one for every point; 2^32 n strings of 36 bytes are read as a signing key, and exactly one belongs to a given verifying key; 2^64 n strings of 40 bytes are read as a share, and exactly 2^64 of them verify against a given commitment, one value for every receiver under every name of a sender; 2^32 n strings of 36 bytes are read as a partial signature, and exactly one with the signer's index satisfies the share equation of a given session.", "quantifier": "all byte strings of these lengths, all group keys, messages, verifying keys, commitments and signing sessions, both kinds of build", "why_tests_cant": "the counts are about 2^64 to 2^520 strings; a test that finds no accepted string among some random ones does not bound how many there are", "anchors": ["src/parameters.rs:15-60", "src/sign/signature.rs:57-75", "src/sign/signature.rs:690-711", "src/keys.rs:185-230", "src/dkg/secret_share.rs:44-107", "src/serialization.rs:9-24"]}
