# Formal model of ice-frost: design

Target: `topos-protocol/ice-frost` at the pinned commit in `/repo` (Rust, read as text only, never built or run).
Everything is in Lean 4 (4.33.0) with Mathlib, under `lean/Verif/`. `properties.jsonl` states the properties in
words, `MANIFEST.json` names the theorems, `seeded/LOG.jsonl` records the mutation tests.

## 1. Layout

| file | content |
|---|---|
| `Verif/Base.lean` | byte strings, little-endian integers, ordered maps (`BTreeMap`), `sort`/`dedup` |
| `Verif/Model/*.lean` | the code, function by function, each definition citing file and lines |
| `Verif/Spec.lean` | the independent specification (polynomials as sums, Lagrange products, Schnorr equation, share equation, ...) and the assumed laws of external parts |
| `Verif/Lemmas/*.lean` | auxiliary facts |
| `Verif/Props/*.lean` | the property theorems `Cxx_...`, grouped by subject, each followed by non-vacuity examples |
| `Verif/Cases/*.lean` | further non-vacuity examples: one concrete run of the whole protocol over the toy suite (three honest dealers, one record without commitments, one wrong share, complaints and blame), to which the theorems are applied |
| `Verif/Toy.lean` | a concrete ciphersuite satisfying every assumed law, used by the examples |
| `tools/` | `manifest.py` rebuilds `MANIFEST.json` from theorem names and `notes.json`; `design.py` rebuilds the table below; `axioms.py` rebuilds `AXIOMS.md` |

## 2. How the code is modelled

* The ciphersuite (`C: CipherSuite`) is a structure `Suite F G R`: scalar field `F`, group `G` (an `F`-module,
  written additively), RNG state type `R`, generator, context string, hash functions, codecs, KDF, AEAD and random
  samplers, all as *arbitrary functions*. What is assumed of them is never an axiom: it is an explicit hypothesis of
  each theorem that needs it (section 4).
* `Result` is `Except`; `Fail` is either an `Error` of `src/error.rs` or an explicit `panic` with its kind
  (`expect` on `None`, `debug_assert!`, arithmetic overflow, out-of-bounds index). Functions that cannot panic return
  `Out`, the others `Res`.
* A `dbg : Bool` argument selects debug or release builds wherever `debug_assert!` or overflow checks matter.
* `&mut` arguments become returned values; random number generators are threaded state; consuming methods
  (typestate) become functions between different structure types.
* `u32` is `UInt32`, `usize` positions are `UInt64`, lengths are `Nat`. `BTreeMap<u32, _>` is an association list kept
  sorted by `insert`; that it is sorted is a separate invariant (`BMap.WF`), proved for reachable states (C95), not a
  subtype.
* Loops are folds or structural recursion with the same order of effects and the same early exits.
* Theorems about whole executions quantify over: lists of parties of any length, arbitrary index sets, arbitrary
  delivery orders, arbitrary RNG states, and (C54, C57, C58, C77, C92, C95, C102) arbitrary sequences of API calls.
  Malicious parties are arbitrary values of the message types (C28, C39–C46, C80, C81, C95, C99, C100).
* Statements about secrecy and simulation (C10, C14, C86, C87, C96, C97) are exact counting statements: an explicit
  bijection between the random choices consistent with a view under one secret and under another. C139 states
  them as probability distributions (Mathlib's `PMF`) over a tape of uniform scalars.
  C140 and C141 take the hashes that return scalars as a random oracle and show that forging means computing discrete
  logarithms, also after seeing signatures. C143 covers insiders of concurrent signing sessions, whose honest co-signers
  run the model's `sign`, by a reduction to one-more discrete logarithms. Hash binding (C15, C69, C70, C101) is stated as: an explicit pair of different inputs collides.

### Modelled

| source | model |
|---|---|
| `src/parameters.rs` | `Model/Utils` (`Params.new`), `Model/Codec` |
| `src/utils.rs` | `Model/Utils` |
| `src/ciphersuite.rs` | `Suite`, `h0`–`h5` |
| `src/error.rs` | `Error` and `Display` (not the fields of complaints) |
| `src/serialization.rs` and the derived ark-serialize code of all public types | `Model/Codec` |
| `src/dkg/secret_share.rs` | `Model/SecretShare` |
| `src/dkg/nizkpok.rs` | `Model/Nizk` |
| `src/dkg/complaint.rs` | `Model/Complaint` |
| `src/dkg/participant.rs` | `Model/Participant` |
| `src/dkg/key_generation.rs` | `Model/KeyGeneration` |
| `src/keys.rs` | `Model/Keys` |
| `src/sign/precomputation.rs` | `Model/Precomputation` |
| `src/sign/signature.rs` | `Model/Signature` |
| derived encodings of private types of `src/sign` | `Model/AggregatorCodec` |
| hand-written comparison operators, `Zeroize`/`Drop` | `Model/Compare` |
| buffers released by `encrypt_share`, `decrypt_share`, `NoncePair::new` and their callers | `Model/Memory` |
| derived `Debug` of the types that hold secrets | `Model/DebugText` |
| memory reserved by `from_bytes` | `Model/Reserve` |
| memory reserved by the other functions | `Model/Capacity` |
| branches, memory accesses and calls of the functions that handle secrets | `Model/Trace` |
| scalar multiplications and hash computations of the public functions | `Model/Work` |
| `testing::Secp256k1Sha256` (`src/lib.rs:1637-1666`) and the functions of its dependencies | `Lemmas/Secp256k1`, `Props/Secp256k1`, `Model/Hashing`, `Model/Sha256`, `Model/AesGcm`, `Model/Sampling` |

### Simplified or not modelled

* Physical memory: zeroizing is modelled as the value after the overwrite (C79, C94), and the byte vectors that the
  crate's own code releases are modelled for encryption, decryption and nonce generation (`Model/Memory`, C126), as are
  the buffers left behind when a vector moves during serialisation (C136) or elsewhere (C173); copies the compiler or a dependency makes,
  swapped pages and the like are not.
* Allocation failure, and the panic of `Vec::with_capacity` for a capacity above `isize::MAX` bytes where the caller chooses
  the number (`number_of_shares` of `generate_commitment_share_lists`; the model allows any number). The reservations
  made while decoding are modelled separately from the decoders (`Model/Reserve`, C154), as are those of the other functions
  (`Model/Capacity`, C173).
* Derived `Debug` output of types without secrets, and of the fields of a key generation state after the private key.
* `hash_to_array`'s panic when `HashOutput` has another length than the digest is a separate function
  (`hashToArrayChecked`, C67_hash_output: it depends on the suite only); the other functions use the panic-free version.
* Timing and other side channels below the level of the source: `Model/Trace` (C174) records branches, accesses and calls of
  the crate's own code, but not what a dependency does within one operation nor what the compiler makes of the code.
  Threads (the crate has no shared state).
* The distribution of randomness, except in C139 and C170: `randScalar`, `randBytes` are arbitrary functions of a state. In
  C139 the state is a tape of uniform scalars. In C170 it is a tape of uniform bytes from which scalars are drawn by rejection
  (`Model/Sampling`), and the two are compared; that the operating system delivers uniform bytes is assumed.
* `assert_eq!(self.data, RoundOne {})`, trivially true.
* `tests/`, `benches/` and `#[cfg(test)]` code.

## 3. Properties: what is modelled, how proved, outcome

`partial` means that the property as stated in `properties.jsonl` is false for the code (the negation is then proved,
with a universal or a concrete witness) or that a hypothesis is needed; the theorem named `..._partial` is what holds
and says what is missing.

<!-- table -->
| id | property | status | modelled and proved by | outcome |
|---|---|---|---|---|
| C01 | Threshold parameters are accepted exactly when sound | proved | `Params.new`; case analysis on `u32` | holds |
| C02 | Interpolation coefficients are the Lagrange coefficients at zero | proved | `lagrangeCoeff`; fold invariant, then Mathlib's `Lagrange.interpolate` at 0 | holds |
| C03 | Interpolation at zero reconstructs the secret from any large enough set | proved | `lagrangeCoeff`; fold invariant, then Mathlib's `Lagrange.interpolate` at 0 | holds |
| C04 | Interpolation rejects malformed index lists | partial | `lagrangeCoeff`; exact rejection condition by case analysis | The documented rejection is false for indices outside the list and for index 0: C04_foreign_index_accepted, C04_zero_index_accepted, C04_documented_rejection_fails. The partial theorem gives the exact rejection condition of the code. |
| C05 | Secret shares are exact polynomial evaluations | proved | `evaluatePolynomial`, `evaluateHiding`, `SecretShare.verify`; induction on the coefficient list; injectivity of scalar multiplication of the generator | holds |
| C06 | Public evaluation of commitments matches private evaluation | proved | `evaluatePolynomial`, `evaluateHiding`, `SecretShare.verify`; induction on the coefficient list; injectivity of scalar multiplication of the generator | holds |
| C07 | Feldman share verification is complete and sound | proved | `evaluatePolynomial`, `evaluateHiding`, `SecretShare.verify`; induction on the coefficient list; injectivity of scalar multiplication of the generator | holds |
| C08 | Encrypted shares decrypt to the original share | proved | `encryptShare`/`decryptShare`; codec, KDF and AEAD laws | holds |
| C09 | Both ends of a share transfer derive the same key | proved | `encryptShare`/`decryptShare`; codec, KDF and AEAD laws | holds |
| C10 | Fewer than t shares reveal nothing about a dealer's secret | proved | polynomials of the share model; interpolation and root counting, secrecy as a bijection between coefficient vectors | holds |
| C11 | Any t shares determine the dealer's secret | proved | polynomials of the share model; interpolation and root counting, secrecy as a bijection between coefficient vectors | holds |
| C12 | Honest proofs of knowledge always verify | proved | `nizkProve`/`nizkVerify`; algebra, the hash being an arbitrary (programmable) function | holds |
| C13 | Proofs of knowledge are special-sound | proved | `nizkProve`/`nizkVerify`; algebra, the hash being an arbitrary (programmable) function | holds |
| C14 | Proofs of knowledge reveal nothing beyond the statement | proved | `nizkProve`/`nizkVerify`; algebra, the hash being an arbitrary (programmable) function | holds |
| C15 | Proofs are bound to participant index and public key | proved | `nizkMessage`; injectivity of concatenated fixed-width encodings | holds |
| C16 | new_dealer produces a well-formed dealer | proved | `newInternal`; unfolding the loops with the RNG threaded | holds |
| C17 | new_signer produces a signer without dealing power | proved | `newInternal`; unfolding the loops with the RNG threaded | holds |
| C18 | Round one accepts every honest participant | proved | `newStateInternal`; fold invariant over the participant list of any length | holds |
| C19 | Round one rejects a wrong number of participants | proved | `newStateInternal`; fold invariant over the participant list of any length | holds |
| C20 | Round one classifies participants exactly | proved | `newStateInternal`; fold invariant over the participant list of any length | holds |
| C21 | Round one aborts only when fewer than t participants are valid | proved | `newStateInternal`; fold invariant over the participant list of any length | holds |
| C22 | Round one never panics on received data | partial | `checkParticipant` with explicit panics; exact panic condition | False as stated: C22_missing_proof_panics with C22_attack. The partial theorem excludes exactly those records. C116_bootstrap and C116_new list the result for every input. |
| C23 | No participant is sent another participant's secret | partial | `dealShares`; invariant over the participant list | False as stated: C23_index_zero_receives_secret. The partial theorem assumes no participant announces index 0. |
| C24 | Shares are dealt to valid participants only | partial | `dealShares`; invariant over the participant list | False as stated: C24_misbehaving_receives_share. The partial theorem gives the exact set of receivers. |
| C25 | Dealt shares are the dealer's evaluations for the named receivers | proved | `dealShares`; invariant over the participant list | holds |
| C26 | Resharing sessions enforce the new degree | partial | `dkgNew`; classification as in C20 | False as stated: C26_any_degree_accepted. The partial theorem states what `new` does check. |
| C27 | Honest shares raise no complaint | proved | `toRoundTwo`, `complaintLoop`; invariant over received shares, `BadFor` as independent spec | holds |
| C28 | Complaints are raised exactly for bad shares | proved | `toRoundTwo`, `complaintLoop`; invariant over received shares, `BadFor` as independent spec | holds |
| C29 | Round two rejects short and foreign share lists | proved | `toRoundTwo`, `complaintLoop`; invariant over received shares, `BadFor` as independent spec | holds |
| C30 | Round two aborts exactly when too few dealers remain | partial | `toRoundTwo` in debug and release builds (`dbg`) | False in release builds when complaints outnumber n (wrap-around): C30_overflow. The partial theorem assumes the subtraction does not wrap; C30_bound shows what is guaranteed. C116_to_round_two gives the exact result for every number of complaints, with and without wrap-around. |
| C31 | A stored share was addressed to its holder | partial | `toRoundTwo` in debug and release builds (`dbg`) | False in release builds: C31_release_misaddressed. The partial theorem covers debug builds, and release builds when the shares are addressed to their holder. C31_stored_iff and C31_last_share give the exact content of the file in every build. |
| C32 | Round two insists on a share from every accepted dealer | partial | `toRoundTwo` in debug and release builds (`dbg`) | False as stated: C32_missing_share_accepted. The partial theorem assumes that a share of every dealer is given. |
| C33 | finish derives a key consistent with the public commitments | proved | `finish`, `fromCommitmentsLoop`; invariants, Lagrange algebra | holds |
| C34 | All participants derive the same group key | proved | `finish`, `fromCommitmentsLoop`; invariants, Lagrange algebra | holds |
| C35 | Any t resulting signing keys interpolate to the group secret | proved | `finish`, `fromCommitmentsLoop`; invariants, Lagrange algebra | holds |
| C36 | Honest distributed key generation succeeds end to end | proved | all steps of all parties composed; arbitrary indices, orders and RNG states | holds |
| C37 | finish refuses to produce a key from fewer than t dealers | partial | `blame` then `finish` | The code violates it: complaints made of public data remove every dealer and finish still succeeds with the identity as group key (C37_finish_without_dealers). Proved for a participant that processes only its own complaints. |
| C38 | Individual verifying keys are independent of commitment order | proved | `generateFromCommitments`; permutation invariance | holds |
| C39 | A justified complaint removes exactly the accused dealer | proved | `judge`, `blame`; verdicts as a function of the initial state, set semantics of removal | holds |
| C40 | An unjustified complaint removes its maker, not the dealer | proved | `judge`, `blame`; verdicts as a function of the initial state, set semantics of removal | holds |
| C41 | blame depends only on the set of complaints | proved | `judge`, `blame`; verdicts as a function of the initial state, set semantics of removal | holds |
| C42 | blame keeps participants in agreement | proved | `judge`, `blame`; verdicts as a function of the initial state, set semantics of removal | holds |
| C43 | Complaints against late indices are judged on their merits | partial | `judge`, `blame`; universal attack witnesses, exact conditions under which the property holds | The code violates it: after round one discarded somebody, n is smaller than the largest index and a justified complaint against a dealer beyond n removes its maker (C43_maker_removed, C43_reachable). Proved for dealers with index at most the current n. |
| C44 | Processing complaints one call at a time is equivalent to one call | partial | `judge`, `blame`; universal attack witnesses, exact conditions under which the property holds | The code violates it: a second call with a complaint about an already removed dealer removes the maker (C44_repeated_call). Proved when the later complaints accuse only remaining dealers. C44_two_calls: what two calls remove, and exactly when that is the same as one call. |
| C45 | An honest dealer cannot be framed | partial | `judge`, `blame`; universal attack witnesses, exact conditions under which the property holds | The code violates it: anybody can remove any dealer with a complaint made of public data (C45_bogus_accusation, C45_framed_by_outsider, C45_framed_always). Proved for complaints about genuine shares with the true shared key. |
| C46 | Complaints from new signers cannot remove innocent dealers in a resharing | partial | `judge`, `blame`; universal attack witnesses, exact conditions under which the property holds | The code violates it: an unjustified complaint of new signer j removes old dealer j (C46_index_confusion, C46_rejected_removes). Proved when signer and dealer indices are disjoint. |
| C47 | Complaint proofs are complete | proved | `Complaint.new`/`verify`; algebra | holds |
| C48 | Complaint proofs are special-sound | proved | `Complaint.new`/`verify`; algebra | holds |
| C49 | Resharing preserves the group key | proved | `reshare`, `dkgNew` and the remaining steps composed; induction over the list of epochs | holds |
| C50 | The group key survives every chain of resharings | proved | `reshare`, `dkgNew` and the remaining steps composed; induction over the list of epochs | holds |
| C51 | A single key can be reshared | proved | `reshare`, `dkgNew` and the remaining steps composed; induction over the list of epochs | holds |
| C52 | Published commitments match the secret list | proved | `generateCommitmentShareLists`, `dropShare`, `sign`; induction over histories of calls | holds |
| C53 | drop_share removes exactly the given share once | proved | `generateCommitmentShareLists`, `dropShare`, `sign`; induction over histories of calls | holds |
| C54 | A nonce pair is used at most once | proved | `generateCommitmentShareLists`, `dropShare`, `sign`; induction over histories of calls | holds |
| C55 | A failed sign call consumes nothing | partial | `generateCommitmentShareLists`, `dropShare`, `sign`; induction over histories of calls | A failed call consumes nothing: proved. The second half is false at position usize::MAX, where the call panics instead (C55_max_position_panics); C55_missing_iff_partial covers every other position. |
| C56 | Honest partial signatures satisfy the share equation | proved | `signCore`; share equation from `Spec` | holds |
| C57 | The aggregator's signer list is sorted and free of duplicates | proved | aggregator typestate; induction over histories of `include_*` calls | holds |
| C58 | Inclusion order does not matter | proved | aggregator typestate; induction over histories of `include_*` calls | holds |
| C59 | finalize succeeds exactly when nothing is missing | proved | aggregator typestate; induction over histories of `include_*` calls | holds |
| C60 | finalize enforces the threshold | partial | `includeSigner`, `finalize`; witnesses for every parameter set | The code violates it: the threshold is never checked, zero or one signer finalize for every t (C60_below_threshold_accepted). Only the upper bound n is proved. |
| C61 | A rejected include_signer leaves the aggregator unchanged | partial | `includeSigner`, `finalize`; witnesses for every parameter set | The code violates it: an include_signer call rejected with TooManySigners leaves the signer listed and makes every later finalize fail (C61_rejected_poisons). Proved for the other rejections. |
| C62 | Signer data stay consistent under repeated inclusion | partial | `includeSigner`, `finalize`; witnesses for every parameter set | The code violates it: the commitment share of the first and the public key of the last inclusion are kept (C62_mixed). Proved when all inclusions of the index name the same public key. C62_first_share_last_key: which data are kept, for every history. |
| C63 | aggregate only returns valid signatures | proved | `aggregate`, `culpritsLoop`; exact outcome by algebra on the sums | holds |
| C64 | Enough honest signers always obtain a valid signature | proved | `aggregate`, `culpritsLoop`; exact outcome by algebra on the sums | holds |
| C65 | aggregate never blames an honest signer | proved | `aggregate`, `culpritsLoop`; exact outcome by algebra on the sums | holds |
| C66 | aggregate identifies a culprit whenever it fails | partial | `aggregate`, `culpritsLoop`; exact outcome by algebra on the sums | The code violates it for index 0: IndexIsZero is returned instead of a report (C66_zero_index_no_report). Proved for nonzero indices; C66_deviators_reported gives the exact report when keys are proper, C66_empty_report shows that the condition on the keys is needed. |
| C67 | Aggregation never panics | partial | `aggregate`, `culpritsLoop`; exact outcome by algebra on the sums | The code violates it: sign with an empty signer list, sign at position usize::MAX, and aggregate without signers panic (C67_sign_empty_panics, C55_max_position_panics, C67_aggregate_empty_panics). Proved for all other inputs. C116_sign_table lists the result of sign for every input. |
| C68 | Partial signatures of outsiders and superseded ones have no effect | proved | `aggregate`, `culpritsLoop`; exact outcome by algebra on the sums | holds |
| C69 | Binding factors commit to message, index and the whole commitment list | proved | hash inputs of `h0`–`h5`; injectivity and prefix arguments on bytes | The injectivity part is unconditional given fixed-width point encodings; the last step is stated as an explicit collision because hash functions are opaque. |
| C70 | The challenge commits to nonce, key and message | proved | hash inputs of `h0`–`h5`; injectivity and prefix arguments on bytes | holds |
| C71 | Random oracles are domain separated | proved | hash inputs of `h0`–`h5`; injectivity and prefix arguments on bytes | holds |
| C72 | Every public object round-trips through bytes | proved | `Codec` combinators mirroring the derived ark-serialize code; laws proved per combinator | One theorem per type. Values must fit in memory (vectors shorter than 2^64), maps must be sorted as BTreeMaps are, and a nonce must have the cipher size; C77_states_fit shows reachable states do. |
| C73 | Encodings are canonical | proved | `Codec` combinators mirroring the derived ark-serialize code; laws proved per combinator | holds |
| C74 | from_bytes accepts exactly the canonical encodings | partial | `Codec` combinators mirroring the derived ark-serialize code; laws proved per combinator | False as stated: trailing bytes are ignored (C74_trailing_accepted) and map entries may come in any order (C74_state_two_encodings). The _partial theorems give what holds: for types without maps accepted bytes start with the canonical encoding, assuming points and scalars have one accepted encoding; decoded states always re-encode stably. |
| C75 | Deserialized parameters are sound | partial | `Codec` combinators mirroring the derived ark-serialize code; laws proved per combinator | False as stated: every pair of numbers is accepted (C75_unsound), and a zero threshold makes new_dealer panic. C75_no_session_partial: no key generation or resharing starts with unsound parameters. |
| C76 | Encrypted shares with a wrong nonce length are rejected | proved | `Codec` combinators mirroring the derived ark-serialize code; laws proved per combinator | holds |
| C77 | A DKG session survives save and restore at any point | proved | codec of `DkgState`; session as a function with crashes inserted between all calls | All crash points between calls of one session; states built by bootstrap/new fit their encoding (C77_states_fit). |
| C78 | A saved state cannot be restored into the wrong round | partial | codec of `DkgState`; session as a function with crashes inserted between all calls | False: the round markers are empty, so both rounds write the same bytes (C78_interchangeable). C78_cannot_finish_partial: a fresh round-one state read as round two cannot finish or blame. |
| C79 | Finished sessions erase the shares they consumed | proved | `signingKeyLoop` returns the overwritten map | The overwriting in calculate_signing_key; the zeroizing Drop implementations are modelled separately (C94). |
| C80 | Key generation is robust against malicious dealers | proved | arbitrary dealers (any accepted records and any ciphertexts); invariants of C28, C39 and C33 | holds |
| C81 | Resharing preserves the group key against malicious dealers | partial | as C80 for `dkgNew` | The code violates it: neither the constant term of the new commitment nor its length is checked by `new`; a dealer that reshares another value changes the group key unnoticed (C81_wrong_share_changes_key). Proved when dealers commit to their old verifying share with at most t points. C81_preserved_iff: the exact condition on what the dealers committed to. |
| C82 | Accepted commitments are labelled with their dealer's index | partial | label field of `VssCommitment` left arbitrary | The code violates it: labels are not checked (C82_label_unchecked) and a duplicate label blocks every derivation (C82_derivation_blocked). Proved for matching labels. |
| C83 | Threshold signatures are ordinary Schnorr signatures of the group secret | proved | `aggregate` results versus the single-signer Schnorr specification | holds |
| C84 | Signatures are special-sound | proved | `aggregate` results versus the single-signer Schnorr specification | holds |
| C85 | Reusing a nonce pair reveals the signing key | proved | linear algebra on responses of `sign` | holds |
| C86 | Fewer than t participants learn nothing about the group secret from the key generation's shares | proved | bijections between coefficient vectors with the same view | holds |
| C87 | One honest dealer makes the group key uniform | proved | bijections between coefficient vectors with the same view | holds |
| C88 | Nonces are derived from fresh randomness and the whole signing key | proved | `nonceGenerate` | holds |
| C89 | Delivery order does not matter | proved | permutation invariance of `newStateInternal` and `toRoundTwo` | holds |
| C90 | Round one rejects repeated indices | partial | `newStateInternal` with repeated indices | False as stated: round one accepts several participants with one index and the later record overrides the earlier (C90_duplicate_accepted). Proved when the indices are distinct. C90_last_record: the last accepted record of an index is the one on file, for every list. |
| C91 | Comparison operators satisfy their contracts | partial | `Model/Compare`: the hand-written `PartialOrd`/`Ord`/`PartialEq` | Signer's order is total and consistent with its equality. Participant's partial_cmp violates the PartialOrd contract: a participant equals itself but is incomparable to itself (C91_participant_incomparable). The _partial theorem gives what holds. |
| C92 | Excluding reported signers ends with a signature | proved | loop of attempts; induction on the number of deviating signers | holds |
| C93 | Round two counts dealers, not shares | partial | `toRoundTwo` with repeated senders | False as stated: copies of one share are counted (C93_copies_accepted). Proved when the senders are distinct. C31_last_share: which of several shares of a sender is kept. |
| C94 | Dropped secrets are overwritten | proved | `Model/Compare`: the `Drop`/`Zeroize` implementations as functions on values | holds |
| C95 | Reachable key generation states are well-formed and never panic | proved | inductive reachability relation over API calls; invariants by induction | holds |
| C96 | Refreshing or resharing keeps the secret from mobile adversaries | proved | bijection between all unknown coefficients of a resharing with the same view | holds |
| C97 | A partial signature reveals nothing beyond its validity | proved | `sign` versus a simulator; codec of signatures | holds |
| C98 | A signature has no second form | partial | `sign` versus a simulator; codec of signatures | At most one response per commitment is proved (C98_one_response). The encoding half is false: from_bytes ignores trailing bytes (C98_second_form). C98_bytes_partial: every accepted encoding starts with the canonical one. |
| C99 | finish only returns keys that match the public commitments | partial | `finish` on sessions with arbitrary stored shares; a full run through the interface | False as stated: shares that failed verification stay on file and finish uses them (C99_unblamed_run, a run through the interface; C99_matches_iff gives the exact condition). C99_after_blame_partial: holds once the own complaints were passed to blame. |
| C100 | Degenerate public keys are rejected | partial | records made of identity points; `newStateInternal` | False: a record made of identity points with proofs made from no secret passes every check (C100_identity_accepted) and the share encrypted for it is readable by everybody (C100_share_readable). The _partial theorems: the identity is the only such key. |
| C101 | Proofs of knowledge are bound to their session | partial | two sessions with unrelated inputs; classification of C20 | False: nothing session-specific is hashed, so records can be replayed between sessions (C101_replay, C101_replay_new). C101_bound_partial: proofs are bound to index and key up to a hash collision. |
| C102 | Nonce lists are single-use also across save and restore | partial | histories of `sign` with encoding and decoding of the list | False if an old copy of the list is restored (C102_stale_list_reused; C85 then gives the key). C102_latest_list_partial: saving and restoring the current list at any points never leads to reuse. |
| C103 | Key generation works over the wire | proved | C36 with every message through `toBytes`/`fromBytes` | holds |
| C104 | Equivocation by a dealer is noticed | partial | two sessions with different records of one dealer through the interface | False: honest participants holding different records of one dealer both finish, with different group keys, if the dealer deals consistently to each (C104_equivocation). C104_same_records_partial: equal records give equal group keys. |
| C105 | The group key cannot be influenced after the commitments are public | partial | `blame` with complaints made of public data, then `finish`; bijectivity of the constant-to-key map | False: malicious participants can have any subset of dealers removed after all records are public (C105_any_subset), and for all but one value of the removed dealer's constant the key changes (C105_removal_changes_key). C105_complaints_partial: the key stays an interpolation of committed constants, and complaints that remove nobody do not change it. |
| C106 | Nobody can sign for a finished key generation without shares | partial | C45 attack on every reachable session (C95 relation), then a forged signature | False: in every session that reaches round two bogus complaints lead to a finish with the identity as group key, under which everybody can sign every message (C106_forgeable). C106_other_keys_partial: for other keys no signature is accepted for two messages with different challenges, and every accepted signature is a Schnorr signature with the secret key. |
| C107 | A set of signers obtains a signature exactly when its keys interpolate to the group secret | proved | `sign`, aggregator and `aggregate` with arbitrary keys; exact outcome; `C107_one_short` by the degree of the Lagrange interpolation | holds |
| C108 | Signing works over the wire | proved | C66/C63 flow with every message through `toBytes`/`fromBytes` (`WireOp.read`, `signWire`, `verifyWire`) | holds |
| C109 | Resharing works over the wire | proved | C80 with every message through `toBytes`/`fromBytes` (`reshareWire`, `dkgNewWire`) | holds |
| C110 | bootstrap checks the caller's own data | partial | `bootstrap` with the private inputs replaced arbitrarily | False: bootstrap never compares its own private inputs with the list (C110_unchecked, C110_mismatch). C110_matching_partial: if the caller does pass matching data the session is consistent. |
| C111 | Random oracles of different ciphersuites are separated | partial | distinguishing hash function for any two different inputs; suffix comparison of the tags | False for the digests h4, h5: context strings that extend each other share inputs (C111_digests_overlap). Proved for h0 to h3 with any contexts (C111_field_oracles_partial) and for h4, h5 with contexts of the same length (C111_same_length_partial). |
| C112 | Relabelled shares do not incriminate their dealer | partial | `toRoundTwo` on relabelled shares, `blame` on the resulting complaint | False in release builds for the receiver label: the relabelled share yields a complaint that removes the honest dealer (C112_relabelled_receiver); debug builds panic (C112_debug_panics). C112_relabelled_sender_partial: changed sender labels never remove the dealer they came from. |
| C113 | Every random value is a fresh draw | proved | `newInternal`, `newState`, `dealShares`, `toRoundTwo` against a list of draws counted from the start; `Spec.scalar` names the k-th draw | Draws are positions in the stream of random scalars. C113_independent: with a stream as generator, different positions are independent coordinates. |
| C114 | Key generation steps change only what they must | proved | before and after states of `new`, `bootstrap`, `toRoundTwo`, `blame` compared field by field | Four steps: new, bootstrap, to_round_two and blame. |
| C115 | Interpolation is never wrong, in fields of any size | proved | `lagrangeCoeff` and `finish` without the assumption that indices are distinct scalars; Mathlib's Lagrange interpolation | No assumption on the field. Elsewhere the assumption U32Inj (different u32 are different scalars) is used, which holds for every suite of the crate. |
| C116 | Every failure names its cause | proved | case analysis of every fallible function against a table of causes written with the specification's predicates | holds |
| C117 | Position of a nonce pair | partial | induction over the history of calls: the list is the filter of the original by unused entries; witnesses for the negations; algebra for the mismatch | The code violates the full statement (C117_second_pair_unreachable, C117_wrong_pair_used). Proved instead: where the pair is after any history (C117_position_partial), that using position 0 every time follows the published order (C117_front_partial), and exactly when a signature with the wrong pair is still valid (C117_mismatch_iff). |
| C118 | Order of the signer list given to sign | partial | permutation invariance of the success condition, algebra for the exact condition, uniqueness of the sorted list, explicit field hash for the negation | The code violates the full statement (C118_reordered_list_reported, for some field hash and every list order whose digest differs). Proved: success does not depend on the order, the exact condition under which the other order's signature is valid, and that sorting by index gives the session's list (C118_sorted_partial). |
| C119 | Fewer than t signers lack the group secret | proved | bijection between fibres: adding a multiple of a polynomial that vanishes on the participants shifts the gap by any field element | holds |
| C120 | Key generation against malicious dealers, then signing against malicious signers | partial | composition of C80 (strengthened to expose the commitments) with C92: the derived public keys of t or more signers interpolate to the group key because committed polynomials have at most t coefficients | Proved for accepted dealers whose commitments are labelled with their index and whose indices are in 1..n' (n' accepted dealers). The code checks neither; C82_derivation_blocked and C43 show what happens otherwise. |
| C121 | Resharing against malicious dealers, then signing against malicious signers | partial | robust_records (the core of C80, C81) composed with C92; the liveness part counts bad shares against the number of honest dealers | Proved for dealers whose commitments carry their index, start with their old verifying share and have at most t_new points; the code checks none of this (C81_wrong_share_changes_key, C26_any_degree_accepted, C82_derivation_blocked). C121_honest_dealers_suffice is the liveness part under the same conditions on the other dealers' records. |
| C122 | Withheld shares are noticed | partial | interpolate_received: the polynomial through the received shares, interpolated over both index sets; then roundTwo_good, finish_ok and, for signing, C66 | Violated: C122_withheld_unnoticed shows that to_round_two succeeds without complaint with any t or more shares, that finish returns the group key with a key interpolated from the received shares only, and exactly when that key is right; C122_one_missing: with one share missing it is right for exactly one value of the missing share. C122_victim_reported: in signing the victim, not the dealer, is then reported as misbehaving. C122_self_check_partial is what holds. |
| C123 | A complaint discloses only the disputed share | partial | C28 (form of complaints), C90 (record on file) and the encrypted shares of bootstrap give the key used for the dealt share; interpolate_polyEval for the secret | Violated: C123_dealt_share_disclosed shows that the disclosed key also opens the share that the maker of the complaint dealt to the accused; C123_secret_disclosed: such shares, with those already known, give the maker's secret contribution once there are t of them. C123_accused_learns_nothing_partial and C123_complaint_simulated are what holds: the accused knows the key already and the proof in the complaint discloses nothing more. |
| C124 | What t - 1 participants see of a dealer can be computed from the group key | proved | Lagrange interpolation through 0 and the t - 1 indices, coefficient by coefficient, once for scalars and once in the exponent; groupKey_split for the key | The proof of knowledge is simulated with the hash programmed at one input (C124_record_accepted), as usual in the random oracle model; that a programmed hash is indistinguishable from the code's hash is not a statement about the code. |
| C125 | The new threshold of a resharing is the announced one | partial | From the protocol lemmas: each new signer's key is the Lagrange-weighted sum of the dealers' polynomials at its index. Over a set J the polynomials with at most |J| coefficients interpolate exactly; the one with |J|+1 coefficients and nonzero leading coefficient misses by a nonzero multiple (C107_one_short and nonzero Lagrange weights). Concrete runs in Cases/Degree.lean. | Violated. C125_one_dealer_raises is the negation through the interface (one dealer calls reshare with t'+1), C125_lockout the general form with any polynomial lengths, including the loss of the key for the whole group. C125_short_commitments_partial is what holds: if no commitment has more than t' points the claim is true. That no signature comes out of such a set is C107_signature_iff. |
| C126 | No buffer that held secret data is released without being overwritten | partial | `Model/Memory`: the same functions returning also the byte vectors they release, proved to compute the same results (`*Mem_fst`); the complete list of released buffers by induction over the loops; each nonce is the hash of one of them | Negations: C126_signing_key_left, C126_dealer_secret_left, C126_received_shares_left. What holds: C126_typed_values_partial. |
| C127 | Participants agree on the group key whichever complaints reached them | partial | `blame`, `finish` on two views; removal by `blame_removed`, closed form of `finish` over the remaining dealers (`finish_without`), comparison of the interpolations by C122_one_missing | Negation with the exact condition: C127_undelivered_complaint. What holds: C127_same_verdicts_partial (equal verdicts give equal keys). |
| C128 | Whether and how a call fails does not depend on secrets | proved | Two-run (non-interference) theorems over the branching of bootstrap, new, reshare, to_round_two, finish and sign: the failure is a function of the public view alone (`Spec.roundOneView`, `Spec.roundTwoView`). Timing is not modelled. | holds |
| C129 | Checked resharings keep the group key through any chain, whatever the dealers do | proved | Induction over a chain of runs (`AttackedChain`); each step goes through `robust_records` (C80) with the caller's checks stated as `Spec.RecordsChecked`; the next epoch's verifying shares are those `generateFromCommitments` returns. `C129_step_exists` and `C129_chains_exist` show the steps and chains exist, `C129_start` that a key generation gives the first epoch. | holds |
| C130 | The byte layout of every message and stored object | proved | `Spec.Wire` describes the layout by `List.range`, `flatMap` and `++` without the codec combinators; the encoders of the model are proved equal to it, and lengths are computed from it. | The conventions of ark-serialize 0.4 for integers, vectors, options, maps and structs are in the trusted base; the property fixes which fields are written, in which order and with which prefixes. |
| C131 | One honest dealer makes the whole sharing fresh | proved | Evaluation at `t` distinct points is a bijection on coefficient vectors of length `t` (Lagrange interpolation); `finish` is this evaluation times the nonzero Lagrange coefficient of the dealer plus a constant. | holds |
| C132 | Adversaries below the threshold can neither interrupt nor take over a key generation | partial | Sessions of arbitrary size with arbitrary records and shares; negations construct the attack inside any honest session; the partial theorem covers rejected records and generalises C80. | False: one participant that calls itself a number above the number of accepted participants (or is last after a rejected record) takes the session over. Its wrong shares raise complaints that remove all honest makers; finish then returns its own key as the group key and the shares it chose as signing keys (C132_takeover, C132_takeover_keys). One record without proof of knowledge makes everybody panic (C132_one_record_interrupts). Proved for all other records, dealers with indices in range and complaints of honest participants. |
| C133 | Fewer than t dishonest dealers can neither interrupt a resharing nor replace the key | partial | Shares the core of C132 (receivers and dealers are separate lists there); the partial theorem covers discarded records, arbitrary shares, any quorum of honest dealers, any set of new signers and dishonest new signers with screened complaints. | False: in a resharing by a part of the old signers the index of a dealer may exceed the number of dealers without any further deviation; if the new signers reuse the indices of the honest dealers, such a dealer deals wrong shares, the complaints of the new signers remove the honest dealers, and the new group key is the constant this dealer committed to (C133_reshare_takeover). C133_key_kept_partial: dealers with indices in range, right constants (else C81_wrong_share_changes_key); new signers may be dishonest as well, if their complaints pass the two checks of C135 and their indices are not those of honest dealers (C46). |
| C134 | An individual public key checks against the commitments of exactly its dealers | proved | Explicit form of the generated key (C38_generated_value); the coefficient of the added dealer is not zero, so the two sums agree for exactly one evaluation. | holds |
| C135 | On an authenticated channel complaints cannot remove a participant that follows the protocol | partial | The negation is a complete honest session followed by one complaint of participant j in its own name; everybody removes the honest dealer and finishes with another key. The positive part extends the core of C132 to lists with further complaints that pass the two missing checks. | False: blame compares neither the DH key in a complaint with the maker's nor the included share with the one dealt (C135_authenticated_framing, both ways, in a session that everybody follows). Proved: with these two comparisons made by the application the property holds (C135_screened_partial), up to forged proofs, which hit the single answerable challenge (C135_forgery) and so are found only by luck (C178). |
| C136 | Serialising reserves exactly what it writes | proved | The announced size equals the length for each combinator of the codecs; a vector moves exactly when more is written than reserved (induction over the pieces). | The growth strategy of Vec is part of the trusted reading of the standard library (Model/Memory, writeChunks). |
| C137 | Error texts identify the error and are true | partial | `Props/ErrorTexts.lean`: the constant beginnings of the texts are prefix-free, numbers end at the first non-digit, and the escaping of strings is a prefix code; truth of the texts from C59 and C65. | C137_text and C137_wrapped hold for all errors. The second half is false for finalize: C137_finalize_text_false (it prints that participant 0 and the signers that have not answered provided invalid partial signatures). C137_aggregate_text_partial proves it for aggregate. |
| C138 | Writing a value to a log discloses no secret | partial | `Model/DebugText.lean`, `Props/DebugOutput.lean`: derived `Debug` output as strings; each printed field can be read back from the text; error texts from C128. | The first half is false: every one of these types derives Debug, and C138_debug_reveals shows that the output determines the secret. The texts of errors do not depend on secrets: C138_errors_partial (complaints, which disclose a shared key on purpose, are the subject of C123). |
| C139 | Secrecy as probability distributions | proved | `Props/Distribution.lean`: Mathlib's `PMF`. The image of a uniform distribution under a surjective homomorphism is uniform; `new_dealer` on a tape reads the cells 2 to t+1 (C113); evaluation is surjective (C124), the group polynomial is an affine bijection of the honest dealer's (C119, Lagrange coefficients are not 0); simulators from C14 and C97; for (e) the two preimages of a key, with and without the complaint (C105), differ. | C139_coefficients (a); C139_shares, C139_guess_secret (b); C139_trusted_dealer, C139_group_key, C139_guess_group_secret (c); C139_proof_simulated, C139_signature_simulated (d); C139_late_complaint (e). The distributions concern the shares and keys; public commitments determine the secret in the group, so with them in view only a computational statement could hold, and none is made. |
| C140 | Forging means computing discrete logarithms | proved | `Props/RandomOracle.lean`: the general forking lemma, proved by counting (Cauchy-Schwarz); an oracle that answers from a tape and repeats its answers; `verify` of the model under the suite programmed with the answers; special soundness; the view of t-1 participants computed from a point (C124, C139). (d) by a union bound over the questions. | C140_forgery (a), C140_below_threshold with C140_key_of_view (b), C140_proof_of_knowledge (c), C140_false_complaint (d). The attackers in (a) and (b) do not take part in signing sessions; C143 covers those who do, with a stronger assumption (one-more discrete logarithms). |
| C141 | Seeing signatures does not help to forge another one | proved | The game with the secret and the game with the public key alone coincide under a bijection of the random scalars, as long as no signature repeats a question to the hash; the chance of a repetition is bounded by counting nonces; a forgery in the second game is one for the forking lemma of C140, also when only the signature and not the message is new. | A signature of the group is modelled as the Schnorr signature with the group secret and a uniform nonce, which by C83 is what honest signers and the aggregator produce, with the combined nonce. Forgers who take part in signing sessions themselves are the subject of C143. |
| C142 | Signing only for a list with the own nonce commitments | partial | `Props/OwnPair.lean`: success of `sign` depends on the indices alone (C55); the share equation cancels down to the equation of nonce commitments; the list of reported signers is exact (C65). The example is a session of two honest signers in which one is reported. | False; the documentation only warns that the position has to be that of the published pair. C142_commitments_ignored: sign looks only at the indices of the list. C142_valid_iff: the result is valid exactly if the listed commitment equals the one of the pair used. C142_honest_reported: an honest signer is reported exactly if the aggregator lists it with another nonce commitment. C142_own_pair_partial: a signer that looks for itself makes valid partial signatures. |
| C143 | Taking part in concurrent signing sessions does not help to forge | proved | A second game without secrets in which the responses of honest signers are requests; both games agree move by move (play_ledger). Two runs that share everything up to the critical question are forked (forking lemma of C140 in its general form); they give the group secret, and for every nonce pair used in one or both runs two linear equations of which the solver asks the missing ones. A pair used in both runs at different requests has two different binding factors, except with the chance of coincidence 2n^2|H|/|F|. | The honest signers run the model's sign on their lists of nonce pairs, which loses the pair it used. Nonces are uniform scalars and the hashes to scalars a random oracle; binding factors are asked by naming message and list, and C143 asks that no two different messages or lists named in the game have the same digests. The check that C142 misses is not needed for this proof. C143_questions counts the questions of the solver; the type of the solver gives it points only, never scalars. |
| C144 | Keys as in the documentation | partial | `Props/Documented.lean`, from `finish_phase`; some Lagrange coefficient differs from one since they add up to one and there are at least two of them. | False: finish weights evaluations and commitments with Lagrange coefficients (as in the ICE-FROST paper, where dealers may be those of an earlier group). C144_documented_false is a session with two dealers; C144_documented_partial says exactly when the documented keys are returned, C144_single_dealer that they are with one dealer, and C144_chance that with two or more dealers and random polynomials they are with chance at most 1/|F|. |
| C145 | Dealing commitments and shares does not help to forge | proved | Shares that pass the checks of t participants interpolate to a polynomial with the published commitments, so the game is that of C140 or C143; the bound is monotone where it is positive. | C145_forgery, C145_concurrent_sessions; C145_keys shows that the keys of the game are those that finish returns to participants holding verified shares. Compared with C140 and C143 the colluders need not know polynomials. With fewer than t honest participants one would need to extract the constant terms from the proofs of knowledge (C140_proof_of_knowledge does this for a single record). Colluders see the commitments and their own shares of the honest dealer; its other messages (proofs, encrypted shares for others) are not part of the view. |
| C146 | The record of an honest dealer does not help to forge | proved | Games with answers given before (`Spec.oracleAfter`, `Spec.Insider.playAfter`) equal games without, for an attacker that knows these answers (`knowing_verify`, `knowing_succeeds`); the record is simulated from the commitments by a bijection of the coins (`Spec.RecordCoins.shift`), also when the DH key and the secret coincide; then C145. `C146_record` ties the record to the code. | Random-oracle model. C146_record shows that the record of the game is what new_dealer returns. The encrypted shares between honest participants are not part of the view. The dealings may depend on answers of the hash asked before (parameter known), except on those for binding factors and challenges. |
| C147 | Forging after a resharing means computing discrete logarithms | proved | MobileForgery: map (old polynomial, polynomials of the honest dealers) to (old secret, keys and shares that the colluders hold) is a bijection; commitments are simulated from the old group key; the new keys are affine in the old secret with scale 1, since Lagrange weights of honest dealers and known keys of colluding dealers add up to it; then C140 and C143. | Old keys are modelled as values of a uniformly random polynomial (C139 shows that a key generation with an honest dealer gives this). The colluding new participants know only what they hold after the resharing: an honest dealer that is corrupted later has erased its old key. Signing sessions under the old key are not part of the game. The proofs of knowledge and the encrypted shares of the resharing are not part of the view (see C146). |
| C148 | The shipped suite satisfies the assumed laws | proved | group order by computation and counting (`Lemmas/Secp256k1.lean`), square roots by `a^((p+1)/4)`, encodings by cases | The curve is Mathlib's Weierstrass curve y^2 = x^3 + 7 over the field of the standard; the primality of both numbers is proved with Pratt certificates, (n - 1)G = -G is computed by the kernel, and the number of points is proved to be n. The byte format of arkworks and the constants of the standard are written from memory, since neither is in the repository. C148_canonical holds for a strict reader; C148_loose has a reader that ignores bits, for which the laws hold but CanonicalDec does not. SHA-256, HKDF and AES are arbitrary functions of the right lengths. |
| C149 | A signature does not tell who signed | proved | `Spec.signedBy` runs the documented session with the model's aggregator, `sign`, `finalize` and `aggregate`; `Spec.withRho` replaces the answers of `h1` with a table of independent scalars, as a random oracle gives them in one session. `C149_distribution`: the run equals the Schnorr signature whose nonce is the sum of `d + rho e` over the signers (from C83), and that sum is uniform because adding a constant to one hiding nonce permutes the choices. `C149_signers_hidden`: two sets of signers with keys for the same secret. Not covered: the commitments that signers publish before signing do name them, and the theorem is about the signature alone. | holds |
| C150 | Proofs of knowledge protect against a dishonest majority of dealers | proved | Random-oracle game with rewinding. The check of the result asks m questions (the signature and one proof per dishonest dealer), and one run is forked at each of them (`star_forking`, proved by counting in Lemmas/StarFork.lean). The forks give the logarithm of the group key and of every dishonest dealer's first point; the rest is the honest dealer's. `C150_forgery_after_record` starts with the honest record's answers in the oracle. `C150_bootstrap` and `C150_group_key` connect the game with `bootstrap` and `finish`. Signing sessions with honest participants are not part of this game (they are in C143, C145 and C146, with at least t honest participants). | holds |
| C151 | The documented parameters for a resharing after dealers were discarded | partial | C49_any_receivers with `new` called on ⟨number of remaining dealers, t⟩; counting (pigeonhole) for the late index; C133_reshare_takeover for the attack; C19_new for the refusal. | C151_recipe_partial: honest dealers, any gaps in their indices. C151_old_parameters: the old number of participants is refused. Violation: C151_late_dealer (somebody's index exceeds the number of dealers as soon as there is a gap) and C151_recipe_takeover (that dealer replaces the key, through C133_reshare_takeover). Dishonest dealers with indices in range: C133_key_kept_partial, whose parameters may be the documented ones. |
| C152 | Reading the encrypted shares means computing Diffie-Hellman secrets or breaking the cipher | proved | Hybrid over the pairs: drawing keys of the pairs anew exchanges one answer of the key derivation with a random key, which only a question for the Diffie-Hellman secret of this pair notices; the proofs of knowledge are simulated by programming h0, so the solver needs no DH key of the pair. A second hybrid replaces the ciphertexts. The model link shows what newDealer and bootstrap send in the suite with these functions, and that the suite is lawful. | The key derivation (HKDF) and h0 are random functions here. The bound names the solvers and tests explicitly; that they cannot succeed is not claimed, it is the assumption on the group and the cipher. Complaints, which disclose Diffie-Hellman secrets (C123), and the proof of the secret key (C146) are not part of the view. |
| C153 | Reading the wire does not help t-1 colluders to forge | proved | The whole game (dealing, concurrent sessions, output) is written as one program that asks the key derivation, and is shown to run like the insider of C143 with the key derivation at hand. C152 replaces the wire by ciphertexts of fixed plaintexts under fresh keys; what remains is an insider of C145 whose coins include the DH keys, the functions and the blank wire, by a reordering of coins. | The signing hashes and the hash of proofs of DH keys are random oracles, the key derivation is a random function. Not in the view: the proof of knowledge of the dealer's secret key (added in C158) and complaints (C123). |
| C154 | Reading untrusted bytes reserves no more memory than they justify | partial | Each decoder paired with the list of its reservations, mirroring the codec combinators; the combinators preserve both the existence of greedy inputs and the bound for encodings. | False as stated, given that ark-serialize 0.4 calls Vec::with_capacity with the announced length (trusted reading of the dependency): for every type with a vector a message of 8 to about 120 bytes reserves any amount of memory or panics (C154_short_messages). For encodings the bound holds (C154_encodings_partial), and the reservation is exactly the memory of the vectors in the value (C154_exact_partial); comparing the length with the bytes left would repair it without refusing anything (C154_check_first). |
| C155 | Key generation is correct in every execution on an arbitrary network with restarts | proved | A transition system whose steps call the modelled functions; an inductive invariant says how each node's state and each saved state came about, from which verified shares, agreement and totality follow. C155_honest shows that admissible boards and executions in which everybody finishes exist for all parameters. | holds |
| C156 | Signing is safe and live in every execution on an arbitrary network with restarts | proved | A transition system whose steps call the modelled functions, with a ghost log of answers; an inductive invariant of conservation per list. C156_progress starts from arbitrary states, so executions of any length exist. | The restart step reads the list saved last; with an older one the first claim is false, see C102_stale_list_reused. |
| C157 | Resharing keeps the key in every execution on an arbitrary network, any number of times | proved | The transition system of C155 with `new` as the first step; the invariant is shared. The verifying shares on file interpolate to the sum of the constants, which the caller checked against the earlier epoch. C157_runs shows that every resharing of C129 is an execution, C157_honest that lives of any length exist. | holds |
| C158 | Everything published and sent during key generation does not help t-1 colluders to forge | proved | The game of C153 with the proof in the view. The proof is simulated without loss: nonce, answer of h0 at the point that the proof asks for and an unused value are permuted (proofShift), so that the simulator chooses challenge and response first; if the dealer's secret happens to be its DH key the simulator makes the proof itself. C158_record: the record made by `new_dealer` with these functions is the one in the view. | Complaints are not in the view (C123 treats them). |
| C159 | The life of a key on an arbitrary network: generation, any number of resharings, signing | proved | The invariant of C155/C157 gives for every finished signer the verifying share of the dealers on file; C157_life carries the key over the resharings; C156_progress and C156_not_blamed are applied to the resulting keys. | For key generation the label of the commitments is checked by the caller (the code does not, C82). |
| C160 | The shipped suite in numbers | proved | C158, C147, C157 and C159 applied to the suite of C148; the field has more than 2^255 elements, so that the losses of the fork are at most half of its gain. | holds |
| C161 | No key of the cipher is used twice with the same nonce, up to chance | proved | `Spec.Circle.letter` is the share in the result of `bootstrap` as a function of the random number generator; its key and nonce from the model (C113, C152); counting of tapes for one pair, union over pairs; the key stream of the test suite cancels | holds |
| C162 | No two uses of the hash function hash the same string | proved | `Model/Hashing.lean`: the expander of ark-ff, HMAC and HKDF over an arbitrary hash function; `Props/DomainSeparation.lean`: the length byte at the end makes the tag readable from the end, the tags differ by C71's argument, and the first bytes differ between the constructions. That the listed strings are all that is hashed: the result is unchanged under any function that agrees on them. | holds |
| C163 | The shipped suite, with only the random numbers left open | proved | `Model/Sha256.lean` (FIPS 180-4), `Model/AesGcm.lean` (FIPS 197, SP 800-38D), `Model/Hashing.lean`; `Props/RealSuite.lean`: lengths by induction over blocks, then the laws of C148. The definitions are compared with the published test vectors in the kernel. | holds |
| C164 | Hashing to the field is uniform up to 2^-128 per call | proved | `Props/HashBias.lean`: the bias of a map out of a finite set, a hybrid argument over the calls (bias_many, bias_with), counting of residues below 256^L, then C140_forgery with the loss. | The bytes are assumed uniform here, that is, the expander is the random oracle; C163 has the shipped expander written out (C164_shipped ties the reduction to it). |
| C165 | An encrypted share that was altered on the way is not opened | proved | `Lemmas/Gf128.lean` proves that the multiplication of GHASH is the one of a field with 2^128 elements, `Lemmas/Ghash.lean` that GHASH is a polynomial in its key that determines the ciphertext. `Props/CipherIntegrity.lean`: shifting the hash key and the masks leaves what is sent unchanged, so the forger wins on few members of each orbit. | AES-128 and GHASH are written out (C163); the random function in place of AES enters through the advantage Spec.aesAdvantage. The key is random here; C152 has the key derivation. |
| C166 | Encrypted shares tell nothing but their length | proved | `Props/CipherSecrecy.lean`: a change of the block function at the counters of the nonces turns the ciphertexts of one text into those of the other; the change is a bijection of block functions, so the chances are the same. Then the triangle inequality with AES-128 and C152_wire. | The nonces are different by hypothesis (C161 bounds the chance that they are not); an example shows that with equal nonces a test tells texts apart. |
| C167 | The hash functions and the cipher of the shipped suite are those of the standards | proved | `Props/ShaStandard.lean`: bit-level lemmas, induction over the rounds with the window of the schedule. `Lemmas/Gf256.lean` and `Props/Standards.lean`: bytes as elements of `AdjoinRoot (X^8 + X^4 + X^3 + X + 1)`; all 256 entries of the S-box; injectivity of each step, with the inverse matrix for MixColumns. `Lemmas/Gf128.lean` for GHASH; `Props/GcmTag.lean`: tag and key stream from the bits and bytes of the blocks. `Props/ExpandStandard.lean`: the loops of the expander and of HKDF against recursively defined sequences of blocks. | The sources of sha2 and aes-gcm are not in /repo; the model (C163) follows the standards. This proves the model right against them, not the crates. |
| C168 | Nonces are as good as uniform scalars, even if their random bytes are known | proved | Props/NonceHash: the lists are the answers to the strings of their places (from C52, C88); exchanging the answers at these strings with independent ones is an involution on hash functions and replacements, so that both games agree until one of the strings is asked; a string of that form contains the encoded key; the reduction of the bytes is C164. | holds |
| C169 | Signing follows the FROST specification of the IETF | partial | `Props/Rfc9591.lean` restates the RFC for an arbitrary ciphersuite without reference to the model. For C169_protocol_partial H1 and H5 are defined on the strings of the RFC, whose encodings determine key, digests, identifier and signers, by the values the code computes; all other functions stay. The negative parts compare lengths and count nothing else. | False as stated: C169_strings (a binding factor is never the hash of a string that the RFC prescribes) and C169_refused (with suitable hash functions all partial signatures of RFC signers are refused by the aggregator; C169_accepted_iff is the exact condition). C169_verify, C169_nonce and C169_protocol_partial are what holds: the crate's sessions are sessions of the RFC for a ciphersuite that differs in H1 and H5 only. The RFC is restated from memory in Props/Rfc9591.lean. It also asks a signer to look for its own commitments in the list, see C142. |
| C170 | Scalars drawn from uniform bytes are uniform | proved | `Model/Sampling.lean`: rejection sampling on a tape of bytes. `Props/Sampling.lean`: adding given scalars to the scalars of the accepted blocks is a permutation of the tapes (induction over the tape), so the draws plus independent uniform scalars and the draws themselves have the same distribution unless too few blocks are accepted; that needs k rejected blocks in a row. C113's account of which draw is used where carries this over to the functions of the crate, C139 to the guess. | holds |
| C171 | AES-128 is compared with a random permutation | proved | `Lemmas/Switching.lean`: the permutations and the functions that answer the questions like a given one are counted and compared (descending factorial against power); collisions of answers are bounded by moving one answer at a time. `Props/Permutation.lean`: which blocks GCM asks for, including the one for the tag of what the attacker presents, which depends on what was sent. | holds |
| C172 | Forging when no random number is exactly uniform | proved | `Props/Imperfect.lean`. `Spec.Near f d`: the chance of every event changes by at most d when uniform values are replaced by those that f makes; closed under products and finite families. C172_source puts such a source into the game of C145. C172_coefficients: what the shipped `new_dealer` returns as polynomial is what the game draws from the tape. C172_forgery and C172_numbers use C164 (reduction), C170 (rejection) and the suite of C148. A draw of the game has a binding factor for each of the 2^32 indices, hence the factor. | holds |
| C173 | Vectors reserved in advance are filled and never outgrown | partial | `Model/Capacity.lean` mirrors each reservation with what is pushed and the buffers left behind by moving (`pushAll`, `writeChunks`); by induction a vector moves exactly when it receives more than was reserved; the contents are shown equal to what the functions of the model return. | Holds for the secrets (coefficients, nonces), and for every vector but three: `encode_group_commitment_list` reserves four bytes per signer too few and moves for every list of signers; `new_state_internal` reserves `n` participants before it checks how many it was given; `SignatureAggregator::new` reserves `t` signers before there is one. The negations are proved for all sizes. |
| C174 | Branches, memory accesses and calls do not depend on secrets | proved | `Model/Trace.lean` writes these functions once more with the list of observable steps; `C174_values` shows that they compute what the other model files compute, and the other theorems that the lists of steps of two runs are equal, by induction over the loops. For `drop_share` equality of the steps is equivalent to equality of the pattern of equal entries. | At the level of the source: one step of a dependency (a field or group operation, a hash, the cipher) is atomic, and what the compiler makes of the code is not modelled. |
| C175 | Debug and release builds agree | partial | `Props/Builds.lean`: every model function with a `dbg` argument is compared at `true` and `false`, by induction over the loops. In round one valid and blamed participants add up to n, so the subtraction cannot overflow and the new parameters are sound unless t = 0. | Holds for ThresholdParameters::new (C175_parameters), for bootstrap, new and reshare (C175_round_one: identical when t is not 0, which is the only case in which they panic), and for sign (C175_sign: they differ only at the position usize::MAX, where both refuse and keep the nonces). False for to_round_two: C175_overflow (more bad shares than n) and C175_misaddressed (share for another receiver) are calls on which a debug build panics and a release build succeeds. C175_same_partial is agreement wherever the debug build does not panic; C175_round_two_partial gives conditions on the input of to_round_two under which it does not. |
| C176 | The work of a call is proportional to what it is given | partial | `Model/Work.lean` records the multiplications and hash computations of the public functions; `Props/Work.lean` proves that without them they are the functions of the model (C176_values), and bounds both counts by induction over the loops. That only one commitment is checked per share uses that a BTreeMap has every key once. For the failing aggregation the exact count of the search loop is proved, and `aggregate_cases` gives sessions that reach it. | Every bound on multiplications and, except for a failing aggregation, on hashed bytes is proved (C176_create, C176_round_one, C176_round_two, C176_round_two_bootstrap, C176_blame, C176_finish, C176_keys, C176_sign, C176_verify, C176_aggregate_partial). False for the hashed bytes of a failing aggregation: C176_failed_aggregation shows that one which reports misbehaving signers has hashed the whole list of the k signers k times more, and C176_failed_aggregation_exists that any set of signers can bring that about. Field multiplications, such as those of the Lagrange coefficients, are not counted. |
| C177 | A rejected record does not influence the accepted participants | partial | `Props/Rejected.lean`: the map of shares is described exactly by induction over the loop of `new_state_internal` that deals them; the bad session is built from the completeness theorems for the first round, decryption under the wrong key, and the judgement of complaints, for every set of honest participants. | False in the code: shares are dealt over the whole list of records, the rejected ones included, into a map keyed by index, so the last record with an index decides (C177_last_record_receives, exact). C177_rejected_record_ends_session: one rejected record with the index of a participant that follows the protocol makes all others encrypt that participant's share to a key of somebody else; it complains about everybody as the protocol prescribes, the complaints are upheld, all dealers are discarded, and finish returns the neutral element as group key. Proved (C177_other_indices_partial): the claim for lists in which no rejected record has the index of an accepted one. C177_reshare: in a reshare, too, the last record with an index decides, accepted or not. |
| C178 | False proofs in complaints are found only by luck | proved | `Props/Forged.lean`: for every string at most one answer allows a false proof (C48 and the injectivity of the encoding); by induction over the attacker's program, redrawing one value of the random function at a time, some question gets a bad answer with a chance of at most the number of questions times that of a single one. C178_dealer_removed adds what `blame` removes (C39, C40). | holds |
| C179 | Signing with nonces from the lists is as hard to attack as with uniform nonces | proved | `Props/NonceGame.lean`: the game depends only on the answers to questions asked before two digests of signer lists collide, so the strings behind the nonces may get separate answers unless one is asked or two are equal (`same_until_asked` of C168); then the answers are replaced by uniform scalars (C172); then the pairs in the lists are exchanged with pairs drawn at each move by a bijection of the random choices that follows the play; a question with a signing key lets a second insider sign any message. C179_hard adds C143 and C179_below_threshold the key generation. Restriction: in move k an announcing signer takes pair k of its list, so lists have n pairs. | holds |
| C180 | Forging is hard for t - 1 colluders who see key generation and sign with list nonces | proved | `Props/WholeGame.lean`: the colluders are a program that asks two functions (`Spec.Duo`); with the hash function for nonces fixed the whole game is a reader of the wire, so C152_wire replaces keys by random ones and ciphertexts by those of fixed messages; the rest of the wire and the proof of the honest dealer is then simulated as in C158, and what remains is C179_below_threshold for an asker that has the simulated wire among its coins; keys of accepted dealings are those of polynomials (C145). C180_hard adds C143, C180_questions counts guesses, C180_bytes bounds repeated random bytes. Restriction: while they choose their dealings the colluders do not ask the hash function for nonces. | holds |
| C181 | The state of an aggregator survives writing and reading at any point | proved | `Model/AggregatorCodec` writes the derived encodings. Every reachable state has distinct signer indices and well-formed maps (the invariant of C57), so that the round trips of C72 apply; restarts are removed one by one by induction on the history. The accepted state that no session reaches is built explicitly. | holds |
| C182 | The work of a successful call is fixed by what everybody sees | proved | Model/Trace and Model/Work (the counted versions of the functions, tied to the model by C176_values); Props/WorkExact: a calculus of exact costs conditional on the result (Spec.Costs), by induction over the loops. Examples: an honest key generation of three, a signature share, an aggregation. | holds |
| C183 | Which bytes are read as nonces | proved | Model/Codec (commitmentCodec, commitmentShareCodec) over the concrete secp256k1 suite of C148; Props/NonceBytes: refusals from what the two decoders consume, the counts by a bijection between accepted strings and values (canonical decoding and round trip) and the number of points of the curve. The counts are for the strict reader of points. Signing: from what a successful `sign` returns. Examples: the strings of the repository's test, the order itself as second nonce, a signer with a damaged nonce. | holds |
| C184 | How many byte strings are read, and how many of them pass the checks | proved | Model/Codec over the concrete secp256k1 suite of C148; Props/ByteCounts: accepted strings correspond one to one to values (readAs_ncard of C183), values that pass a check to the values of the other fields (natCard_graph: every point has one discrete logarithm), sound parameters to pairs b < a < 2^32. For the strict reader of points. Examples: unsound parameters that are read, a session of two signers. | holds |
<!-- /table -->

## 4. Trusted base

* Lean's kernel (4.33.0) and Mathlib's definitions that occur in statements (`Field`, `Module`, `ZMod`, `Finset.sum`,
  `Polynomial`, `List.Perm`, ...).
* Axioms: `propext`, `Classical.choice`, `Quot.sound`, nothing else. `AXIOMS.md` lists them per theorem. No `sorry`,
  no own axioms, no `native_decide`, no `bv_decide`.
* The reading of the Rust source into `Verif/Model`, including the behaviour of the standard library as modelled in
  `Verif/Base` (`BTreeMap`, `sort`, `dedup`, integer wrap-around).
* The conventions of the derived ark-serialize code as modelled in `Model/Codec`: fields in declaration order,
  `u32`/`u64` little-endian, vectors and maps with a 64-bit length prefix, `Option` with a boolean byte, maps decoded
  by inserting entries in the order read. For C154 also: vectors are reserved at the announced length before the first
  element is read, maps are not (`Model/Reserve`).
* Assumed laws of external crates, always hypotheses:

| hypothesis | content | assumed of |
|---|---|---|
| `Suite.GroupLaws` | `a ↦ a • gen` is a bijection `F → G` | `C::G`, a group of prime order with generator |
| `Suite.CodecLaws` | fixed width, decoding reads back what was written | ark-serialize for points and scalars |
| `Suite.CipherLaws` | key derivation succeeds, decryption inverts encryption, buffers are filled | hkdf, aead, rand |
| `Suite.U32Inj` | different `u32` are different scalars | field order above 2^32 |
| `Suite.CanonicalDec` | accepted point and scalar bytes are canonical (only C74, C98) | ark-serialize; false for some encodings of infinity, hence only used in `_partial` theorems |
| `Suite.ShortCiphertexts` | ciphertexts of scalars are shorter than 2^64 bytes (only C77, C78, C75, C103) | aead |

  `Lemmas/PrimeOrder.lean` derives `GroupLaws` and `U32Inj` from what a ciphersuite documents, a group of prime order
  `p ≥ 2^32` with a generator that is not the identity, and shows that `GroupLaws` asks for no more
  (`groupLaws_of_prime_order`, `u32Inj_of_large_prime`, `card_of_groupLaws`); `Cases/RealSize.lean` proves that the
  order of secp256k1, the suite of the crate's documentation and tests, is such a prime.
  For that suite itself C148 proves every law in the table from the definition of the curve and the shape of its encodings
  and cipher, with arbitrary functions for SHA-256, HKDF, the key stream and the tag; what remains trusted there is that
  the external crates implement this curve, these encodings and a cipher of this shape. C163 also writes out SHA-256, the
  field hasher, HKDF and AES-128-GCM (C167 proves SHA-256, AES, GHASH, the expander, HMAC and HKDF to be what the standards define; the kernel compares
  all of them with published test vectors) and leaves only the random
  numbers open; what remains trusted is that the external crates implement these functions.
  `Toy.lawful`, `Toy.short_ciphertexts` show that the laws can be met together. No theorem assumes anything about hash
  functions or about AES: where a theorem speaks of chances, the randomness is in its statement. C140-C147, C150, C152,
  C153, C158, C160, C168, C179 and C180 draw the answers of hashes and of the key derivation at random, C164 the bytes before they
  are reduced; C170 draws the bytes of the generator, C172 both; C165 and C166 draw the block function at random (C171: a
  permutation) and state the distance to AES-128 as an advantage, a number that no theorem bounds.

## 5. Disagreements found between the code and its properties

Each item is proved as a theorem about the model.

1. *Interpolation* accepts an index outside the list and index 0 as `my_index`, against its documentation (C04). The
   repository's own test for this passes only because its list also contains 0.
2. *Index 0* is accepted in received records; honest dealers then send it `f(0)`, their secret (C23).
3. *A record without proof of knowledge* makes every receiver panic in round one (C22).
4. *Misbehaving participants* are still dealt shares (C24).
5. *`new`* (resharing) checks neither the number of commitment points (C26) nor that the constant term is the dealer's
   old public share (C81): a single dealer changes the group key unnoticed.
6. *Commitment labels* (`VerifiableSecretSharingCommitment::index`) are not compared with the sender (C82).
7. *Repeated indices* in round one are accepted, the last record wins (C90); copies of one share count towards the
   threshold in round two (C93); shares of some dealers may be missing (C32).
8. *Release builds*: the subtraction `n - complaints` wraps (C30), receiver labels are not checked (C31); so `to_round_two`
   succeeds in a release build where a debug build panics (C175).
9. *`blame`*: uses the reduced `n` as index bound and so removes honest complainers (C43); is not idempotent over
   calls (C44); lets anybody remove any participant with a complaint made of public data, since neither the accused
   key nor the ciphertext in a complaint is authenticated (C45); confuses old and new indices in resharings (C46).
10. *`finish`* does not check that `t` dealers remain, with none left it returns the identity as group key (C37); it
    uses shares that failed verification if `blame` was not called (C99).
11. *Aggregator*: the threshold is not enforced (C60); `include_signer` mutates the state before rejecting, which
    blocks the aggregator forever (C61); repeated inclusion mixes first commitment and last public key (C62); an
    index-0 signer hides culprits (C66); no signers: panic (C67).
12. *`sign`*: panics for an empty signer list and for position `usize::MAX` (C55, C67); restoring an old nonce list
    reuses nonces (C102).
13. *Encodings*: trailing bytes ignored, maps accepted unsorted (C74, C98); decoded parameters not validated, `t = 0`
    then panics in `new_dealer` (C75); saved states can be read into the wrong round (C78).
14. *`Participant`'s `PartialOrd`* is inconsistent with its `PartialEq` (C91).
15. *Identity keys* are accepted (C100); *proofs are not bound to a session* (C101).
16. *No agreement on records*: a dealer who shows different records to different participants is not noticed (C104).
17. *Late influence on the key*: by item 9 anybody removes dealers after seeing all records and so chooses among the
    keys of all subsets (C105), down to the identity key under which everybody can sign (C106).
18. *`bootstrap`* does not compare the private inputs with the caller's own record (C110).
19. *`h4`/`h5`* hash a plain concatenation, so that context strings extending each other share inputs (C111).
20. *Labels of shares* are not authenticated: changing the receiver label in transit incriminates the dealer in
    release builds and panics in debug builds (C112).
21. *Positions of nonce pairs* drift: `drop_share` deletes the entry, so that a later call with a published position
    uses another pair or fails (C117).
22. *`sign` hashes the signer list as given*, the aggregator the sorted one: an honest signer with another order is
    reported as misbehaving (C118).
23. *Withheld shares* are not noticed: with `t` or more shares `to_round_two` succeeds without complaint, `finish`
    interpolates over the received shares but derives the group key from all commitments, and the resulting key is wrong
    unless the missing shares happen to be the predicted ones. In signing the victim is then reported (C122).
24. *Complaints disclose more than the disputed share*: the same static Diffie-Hellman key encrypts the shares of both
    directions, so a published complaint of `i` about `l` also opens the share that `i` dealt to `l`. Enough complaints
    (with shares held by colluding participants) disclose the secret contribution of `i`, who stays in the session (C123).
25. *A resharing can silently change the threshold*: `new` does not look at the number of committed points, so one dealer
    with a longer polynomial raises the threshold of the whole new group, up to locking all of it out, without any error,
    complaint or change of the group key (C125).
26. *Secrets stay in released buffers*: the serialised signing key in `NoncePair::new`, the serialised or decrypted
    evaluations and the derived encryption keys in `encrypt_share` and `decrypt_share` are plain `Vec<u8>` dropped without
    being overwritten (C126).
27. *Complaints that do not reach everybody split the group key*: those who receive an upheld complaint drop the dealer,
    the others keep it, and the two group keys differ unless the dropped secret is the predicted one (C127).
28. *One participant can take over a key generation* (consequence of C43 and of C37): indices of records are not checked
    against `n`, but `blame` takes every complaint about an index above the number of accepted participants as made up.
    A dealer with such an index deals wrong shares to everybody, all honest participants complain and are removed for it,
    and `finish` returns the dealer's own public key as the group key, with signing keys of its choice (C132). The
    documentation (`src/lib.rs:5-9`) promises robustness against adversaries below the threshold.
29. *One dealer can take over a resharing* (same cause, and the index confusion of C46): a quorum of old signers such as
    {1, 2, 4} has a dealer above the number of dealers without anybody lying about indices. If the new signers use the
    indices of the honest dealers, complaints about that dealer remove the honest dealers, and the new group key is whatever
    the remaining one committed to (C133).
30. *Authenticated messages do not protect against false complaints*: the documentation assumes that messages are signed by
    their senders and that the shares in complaints are publicly retrievable, but `blame` neither looks up the share nor
    compares the DH key of a complaint with its maker's. A participant can, in its own name, have any honest dealer with an
    index in range removed. With the two comparisons made by the application, nobody who follows the protocol is removed
    (C135).
31. *`finalize` prints something false* (C137): its error is `MisbehavingParticipants`, whose text is "These participants
    provided invalid partial signatures", while it lists the signers that have provided none, and participant 0.
32. *Secrets are printed* (C138): the types that hold secrets erase them when dropped, but derive `Debug`, whose output
    contains the secrets in full; a single `{:?}` or `dbg!` on a key, a share, a nonce list or a session state discloses it.
33. *`sign` does not look for its own nonce commitments in the list* (C142): RFC 9591, section 5.2, has every signer check them; here a
    warning in the documentation leaves it to the caller to pass the right position. A list
    with other commitments for it costs the signer a nonce pair, and an honest signer is then reported as misbehaving.
34. *The documented key formulas are not those of the code* (C144): the module documentation gives plain sums, the code
    weights them with Lagrange coefficients. Similar slips: `ThresholdParameters::new` is documented to panic for `n <= t`,
    but accepts `n = t` (C01); the documented proof of knowledge hashes a context `Φ`, the code does not (C101).
35. *The documented parameters for a resharing after discards bring dealers out of range* (C151): the documentation asks for
    201-out-of-263 parameters when 37 of 300 participants were discarded. Unless these were exactly the last 37, somebody with
    an index above 263 remains as a dealer, and item 29 applies.
36. *Announced lengths are trusted* (C154): a message of a few bytes makes `from_bytes` reserve any amount of memory, or panic
    with a capacity overflow. This rests on the reading of `ark-serialize` in `Model/Reserve`; the crate neither limits
    the length of its input nor catches the panic.
37. *Binding factors are not those of RFC 9591* (C169): the comments refer to the IETF specification of FROST, and the
    functions h1 to h5 have its names, but the group key is left out of the string hashed for a binding factor, and an index is
    written with four bytes instead of as a scalar. Signers of the crate and of the RFC cannot sign together. Signatures
    verify as in the RFC (for the hash h4 of the message).
38. *Reservations that do not match* (C173): `encode_group_commitment_list` reserves room for the points but not for the
    indices, so that its vector moves for every list of signers (public data; it only costs a copy). `new_state_internal`
    reserves `n` participants before it compares `n` with the number of participants, and the aggregator `t` signers: with
    parameters read from bytes, up to 2^32 - 1 elements each are reserved where an error is to be returned.
39. *A failing aggregation hashes the list of signers again for every signer* (C176): `aggregate` calls
    `commitment_for_participant` for each of the k signers (src/sign/signature.rs:665-670), and that encodes and hashes message and list of
    all k signers anew (lines 210-240), although the binding factors have been computed at the beginning of `aggregate`. One wrong
    response makes the aggregator hash about k times as much as a successful aggregation.
40. *A rejected record can end the session* (C177): shares are dealt over all records, the rejected ones included, into a map keyed by
    index (src/dkg/key_generation.rs:832-849). A record without any valid proof, with the index of an honest participant and later in the
    list, makes every honest dealer encrypt that participant's share to the key in the rejected record. The participant cannot decrypt,
    complains about everybody, and the others, who judge with the key on file, uphold the complaints and remove every dealer (items 4,
    7 and 10 together).
41. *A decoded aggregator state is not checked* (C181): bytes that list one signer twice are read as a state, and `finalize` passes it on,
    although the documentation of `Finalized` excludes duplicates. The type is private and the crate never reads it from bytes, so only
    code inside the crate could run into this.
42. *Stored nonces are not checked against their points* (C183): a `Commitment` is documented as "a pair of a secret and a commitment to
    it", but all n² pairs of a scalar and a point are read, and only n of them are such pairs. A signer whose nonce was damaged
    in storage signs without an error, and its share is invalid for the points that it published (`C183_damaged_nonce`).

## 6. Mutation tests

The model was copied outside `/verif`, edited like a realistic bug, and everything rebuilt; `seeded/LOG.jsonl` has one
line per edit with the claims it breaks and the theorems that failed. A theorem that still proved although its claim
became false was tightened in `/verif`; see the field `tightened`.

`theorems_failed` lists the property theorems that no longer check, either in their own proof or in a lemma they rest on.
A theorem can be on the list only because a lemma's proof script does not fit the edited definition any more, so the
list is an upper bound; the theorems not on the list certainly still hold of the edited model, unless `stopped_early` is set: then
checking stopped as soon as every expected claim had failed. A lemma that only the kernel rejects stays in the compiled file of the
edited copy, and theorems that use it are then missing from the list; the `note` says so where it was seen (`b10/ba5`). Every expected claim that
still proved was examined, and is either still true (see `note`) or was tightened.

## 7. The repository's own tests

Every assertion of the tests in `/repo` was compared with the model. The theorems below state it for all inputs; no
assertion contradicts the model.

| Test | Theorems |
|---|---|
| `precomputation.rs`: `secret_pair`, `secret_pair_into_commitment_share`, `commitment_share_list_generate` | C52, C88 |
| `precomputation.rs`: `drop_used_commitment_shares` | C53 |
| `precomputation.rs`, `signature.rs`, `key_generation.rs`, `secret_share.rs`, `nizkpok.rs`, `parameters.rs`: `test_serialization` | C72, C77 (states at any point of a session), C130. That `[255; 64]` and `[255; 128]` are refused as nonces: C183, for all strings that are too short or hold a number that is not below the order. |
| `signature.rs`: `signing_and_verification_single_party`, `_1_out_of_1`, `_1_out_of_2`, `_3_out_of_5`, `_2_out_of_3`; `tests/ice_frost.rs`: `signing_and_verification_3_out_of_5` | C36, C64, C63 |
| `signature.rs`: `signing_and_verification_static_2_out_of_3`, `_into_3_out_of_5` | C49, C64 |
| `signature.rs`: `aggregator_get_signers` | C57, C58, C62 |
| `signature.rs`: `signature_from_incomplete_set` (one dealer refused in round one, one removed in round two, then signing) | C120 |
| `utils.rs`: `invalid_lagrange_interpolation` | C04. The third case (index not in the list) passes only because the list also contains 0; see item 1 of section 5. |
| `key_generation.rs`: `nizk_of_secret_key`; `nizkpok.rs`: `test_nizkpok` | C12, C16 |
| `key_generation.rs`: `secret_share_from_one_coefficients`, `secret_share_participant_index_zero` | C05, C06, C07 |
| `key_generation.rs`: `single_party_keygen`, `keygen_3_out_of_5` | C36, C35 |
| `key_generation.rs`: `keygen_2_out_of_3_with_malicious_party_high_degree_commitment_polynomial` | C20 |
| `key_generation.rs`: `keygen_static_2_out_of_3_with_common_participants` (a dealer record among the receivers) | C49_any_receivers |
| `key_generation.rs`: `keygen_static_2_out_of_3_into_3_out_of_5`, `_single_party_into_2_out_of_3`, `_2_out_of_3_into_single_party`; `tests/ice_frost.rs`: `resharing_from_non_frost_key` | C49, C51, C64 |
| `key_generation.rs`: `encrypt_and_decrypt` | C08 |
| `key_generation.rs`: `keygen_verify_complaint` | C28 (one complaint), C39 (the returned key), C40 (wrong complaint), C42 (same group key, also for the removed dealer) |
| `key_generation.rs`: `keygen_verify_complaint_during_resharing` | C39, C81, C121 |
| `key_generation.rs`: `individual_public_key_share` | C127 (the group key of a participant that did not process the complaint differs, and the one exception), C33, C38, C134 |
| `participant.rs`: `index_zero_is_invalid` | C16, C116_participants |
