{
 "C01": "`Params.new`; case analysis on `u32`",
 "C02": "`lagrangeCoeff`; fold invariant, then Mathlib's `Lagrange.interpolate` at 0",
 "C03": "`lagrangeCoeff`; fold invariant, then Mathlib's `Lagrange.interpolate` at 0",
 "C04": "`lagrangeCoeff`; exact rejection condition by case analysis",
 "C05": "`evaluatePolynomial`, `evaluateHiding`, `SecretShare.verify`; induction on the coefficient list; injectivity of scalar multiplication of the generator",
 "C06": "`evaluatePolynomial`, `evaluateHiding`, `SecretShare.verify`; induction on the coefficient list; injectivity of scalar multiplication of the generator",
 "C07": "`evaluatePolynomial`, `evaluateHiding`, `SecretShare.verify`; induction on the coefficient list; injectivity of scalar multiplication of the generator",
 "C08": "`encryptShare`/`decryptShare`; codec, KDF and AEAD laws",
 "C09": "`encryptShare`/`decryptShare`; codec, KDF and AEAD laws",
 "C10": "polynomials of the share model; interpolation and root counting, secrecy as a bijection between coefficient vectors",
 "C11": "polynomials of the share model; interpolation and root counting, secrecy as a bijection between coefficient vectors",
 "C12": "`nizkProve`/`nizkVerify`; algebra, the hash being an arbitrary (programmable) function",
 "C13": "`nizkProve`/`nizkVerify`; algebra, the hash being an arbitrary (programmable) function",
 "C14": "`nizkProve`/`nizkVerify`; algebra, the hash being an arbitrary (programmable) function",
 "C15": "`nizkMessage`; injectivity of concatenated fixed-width encodings",
 "C16": "`newInternal`; unfolding the loops with the RNG threaded",
 "C17": "`newInternal`; unfolding the loops with the RNG threaded",
 "C18": "`newStateInternal`; fold invariant over the participant list of any length",
 "C19": "`newStateInternal`; fold invariant over the participant list of any length",
 "C20": "`newStateInternal`; fold invariant over the participant list of any length",
 "C21": "`newStateInternal`; fold invariant over the participant list of any length",
 "C22": "`checkParticipant` with explicit panics; exact panic condition",
 "C23": "`dealShares`; invariant over the participant list",
 "C24": "`dealShares`; invariant over the participant list",
 "C25": "`dealShares`; invariant over the participant list",
 "C26": "`dkgNew`; classification as in C20",
 "C27": "`toRoundTwo`, `complaintLoop`; invariant over received shares, `BadFor` as independent spec",
 "C28": "`toRoundTwo`, `complaintLoop`; invariant over received shares, `BadFor` as independent spec",
 "C29": "`toRoundTwo`, `complaintLoop`; invariant over received shares, `BadFor` as independent spec",
 "C30": "`toRoundTwo` in debug and release builds (`dbg`)",
 "C31": "`toRoundTwo` in debug and release builds (`dbg`)",
 "C32": "`toRoundTwo` in debug and release builds (`dbg`)",
 "C33": "`finish`, `fromCommitmentsLoop`; invariants, Lagrange algebra",
 "C34": "`finish`, `fromCommitmentsLoop`; invariants, Lagrange algebra",
 "C35": "`finish`, `fromCommitmentsLoop`; invariants, Lagrange algebra",
 "C36": "all steps of all parties composed; arbitrary indices, orders and RNG states",
 "C37": "`blame` then `finish`",
 "C38": "`generateFromCommitments`; permutation invariance",
 "C39": "`judge`, `blame`; verdicts as a function of the initial state, set semantics of removal",
 "C40": "`judge`, `blame`; verdicts as a function of the initial state, set semantics of removal",
 "C41": "`judge`, `blame`; verdicts as a function of the initial state, set semantics of removal",
 "C42": "`judge`, `blame`; verdicts as a function of the initial state, set semantics of removal",
 "C43": "`judge`, `blame`; universal attack witnesses, exact conditions under which the property holds",
 "C44": "`judge`, `blame`; universal attack witnesses, exact conditions under which the property holds",
 "C45": "`judge`, `blame`; universal attack witnesses, exact conditions under which the property holds",
 "C46": "`judge`, `blame`; universal attack witnesses, exact conditions under which the property holds",
 "C47": "`Complaint.new`/`verify`; algebra",
 "C48": "`Complaint.new`/`verify`; algebra",
 "C49": "`reshare`, `dkgNew` and the remaining steps composed; induction over the list of epochs",
 "C50": "`reshare`, `dkgNew` and the remaining steps composed; induction over the list of epochs",
 "C51": "`reshare`, `dkgNew` and the remaining steps composed; induction over the list of epochs",
 "C52": "`generateCommitmentShareLists`, `dropShare`, `sign`; induction over histories of calls",
 "C53": "`generateCommitmentShareLists`, `dropShare`, `sign`; induction over histories of calls",
 "C54": "`generateCommitmentShareLists`, `dropShare`, `sign`; induction over histories of calls",
 "C55": "`generateCommitmentShareLists`, `dropShare`, `sign`; induction over histories of calls",
 "C56": "`signCore`; share equation from `Spec`",
 "C57": "aggregator typestate; induction over histories of `include_*` calls",
 "C58": "aggregator typestate; induction over histories of `include_*` calls",
 "C59": "aggregator typestate; induction over histories of `include_*` calls",
 "C60": "`includeSigner`, `finalize`; witnesses for every parameter set",
 "C61": "`includeSigner`, `finalize`; witnesses for every parameter set",
 "C62": "`includeSigner`, `finalize`; witnesses for every parameter set",
 "C63": "`aggregate`, `culpritsLoop`; exact outcome by algebra on the sums",
 "C64": "`aggregate`, `culpritsLoop`; exact outcome by algebra on the sums",
 "C65": "`aggregate`, `culpritsLoop`; exact outcome by algebra on the sums",
 "C66": "`aggregate`, `culpritsLoop`; exact outcome by algebra on the sums",
 "C67": "`aggregate`, `culpritsLoop`; exact outcome by algebra on the sums",
 "C68": "`aggregate`, `culpritsLoop`; exact outcome by algebra on the sums",
 "C69": "hash inputs of `h0`–`h5`; injectivity and prefix arguments on bytes",
 "C70": "hash inputs of `h0`–`h5`; injectivity and prefix arguments on bytes",
 "C71": "hash inputs of `h0`–`h5`; injectivity and prefix arguments on bytes",
 "C72": "`Codec` combinators mirroring the derived ark-serialize code; laws proved per combinator",
 "C73": "`Codec` combinators mirroring the derived ark-serialize code; laws proved per combinator",
 "C74": "`Codec` combinators mirroring the derived ark-serialize code; laws proved per combinator",
 "C75": "`Codec` combinators mirroring the derived ark-serialize code; laws proved per combinator",
 "C76": "`Codec` combinators mirroring the derived ark-serialize code; laws proved per combinator",
 "C77": "codec of `DkgState`; session as a function with crashes inserted between all calls",
 "C78": "codec of `DkgState`; session as a function with crashes inserted between all calls",
 "C79": "`signingKeyLoop` returns the overwritten map",
 "C80": "arbitrary dealers (any accepted records and any ciphertexts); invariants of C28, C39 and C33",
 "C81": "as C80 for `dkgNew`",
 "C82": "label field of `VssCommitment` left arbitrary",
 "C83": "`aggregate` results versus the single-signer Schnorr specification",
 "C84": "`aggregate` results versus the single-signer Schnorr specification",
 "C85": "linear algebra on responses of `sign`",
 "C86": "bijections between coefficient vectors with the same view",
 "C87": "bijections between coefficient vectors with the same view",
 "C88": "`nonceGenerate`",
 "C89": "permutation invariance of `newStateInternal` and `toRoundTwo`",
 "C90": "`newStateInternal` with repeated indices",
 "C91": "`Model/Compare`: the hand-written `PartialOrd`/`Ord`/`PartialEq`",
 "C92": "loop of attempts; induction on the number of deviating signers",
 "C93": "`toRoundTwo` with repeated senders",
 "C94": "`Model/Compare`: the `Drop`/`Zeroize` implementations as functions on values",
 "C95": "inductive reachability relation over API calls; invariants by induction",
 "C96": "bijection between all unknown coefficients of a resharing with the same view",
 "C97": "`sign` versus a simulator; codec of signatures",
 "C98": "`sign` versus a simulator; codec of signatures",
 "C99": "`finish` on sessions with arbitrary stored shares; a full run through the interface",
 "C100": "records made of identity points; `newStateInternal`",
 "C101": "two sessions with unrelated inputs; classification of C20",
 "C102": "histories of `sign` with encoding and decoding of the list",
 "C103": "C36 with every message through `toBytes`/`fromBytes`",
 "C107": "`sign`, aggregator and `aggregate` with arbitrary keys; exact outcome; `C107_one_short` by the degree of the Lagrange interpolation",
 "C108": "C66/C63 flow with every message through `toBytes`/`fromBytes` (`WireOp.read`, `signWire`, `verifyWire`)",
 "C104": "two sessions with different records of one dealer through the interface",
 "C105": "`blame` with complaints made of public data, then `finish`; bijectivity of the constant-to-key map",
 "C106": "C45 attack on every reachable session (C95 relation), then a forged signature",
 "C109": "C80 with every message through `toBytes`/`fromBytes` (`reshareWire`, `dkgNewWire`)",
 "C110": "`bootstrap` with the private inputs replaced arbitrarily",
 "C111": "distinguishing hash function for any two different inputs; suffix comparison of the tags",
 "C112": "`toRoundTwo` on relabelled shares, `blame` on the resulting complaint",
 "C113": "`newInternal`, `newState`, `dealShares`, `toRoundTwo` against a list of draws counted from the start; `Spec.scalar` names the k-th draw",
 "C114": "before and after states of `new`, `bootstrap`, `toRoundTwo`, `blame` compared field by field",
 "C115": "`lagrangeCoeff` and `finish` without the assumption that indices are distinct scalars; Mathlib's Lagrange interpolation",
 "C116": "case analysis of every fallible function against a table of causes written with the specification's predicates",
 "C117": "induction over the history of calls: the list is the filter of the original by unused entries; witnesses for the negations; algebra for the mismatch",
 "C118": "permutation invariance of the success condition, algebra for the exact condition, uniqueness of the sorted list, explicit field hash for the negation",
 "C119": "bijection between fibres: adding a multiple of a polynomial that vanishes on the participants shifts the gap by any field element",
 "C120": "composition of C80 (strengthened to expose the commitments) with C92: the derived public keys of t or more signers interpolate to the group key because committed polynomials have at most t coefficients",
 "C121": "robust_records (the core of C80, C81) composed with C92; the liveness part counts bad shares against the number of honest dealers",
 "C122": "interpolate_received: the polynomial through the received shares, interpolated over both index sets; then roundTwo_good, finish_ok and, for signing, C66",
 "C123": "C28 (form of complaints), C90 (record on file) and the encrypted shares of bootstrap give the key used for the dealt share; interpolate_polyEval for the secret",
 "C124": "Lagrange interpolation through 0 and the t - 1 indices, coefficient by coefficient, once for scalars and once in the exponent; groupKey_split for the key",
 "C125": "From the protocol lemmas: each new signer's key is the Lagrange-weighted sum of the dealers' polynomials at its index. Over a set J the polynomials with at most |J| coefficients interpolate exactly; the one with |J|+1 coefficients and nonzero leading coefficient misses by a nonzero multiple (C107_one_short and nonzero Lagrange weights). Concrete runs in Cases/Degree.lean.",
 "C126": "`Model/Memory`: the same functions returning also the byte vectors they release, proved to compute the same results (`*Mem_fst`); the complete list of released buffers by induction over the loops; each nonce is the hash of one of them",
 "C127": "`blame`, `finish` on two views; removal by `blame_removed`, closed form of `finish` over the remaining dealers (`finish_without`), comparison of the interpolations by C122_one_missing",
 "C128": "Two-run (non-interference) theorems over the branching of bootstrap, new, reshare, to_round_two, finish and sign: the failure is a function of the public view alone (`Spec.roundOneView`, `Spec.roundTwoView`). Timing is not modelled.",
 "C129": "Induction over a chain of runs (`AttackedChain`); each step goes through `robust_records` (C80) with the caller's checks stated as `Spec.RecordsChecked`; the next epoch's verifying shares are those `generateFromCommitments` returns. `C129_step_exists` and `C129_chains_exist` show the steps and chains exist, `C129_start` that a key generation gives the first epoch.",
 "C130": "`Spec.Wire` describes the layout by `List.range`, `flatMap` and `++` without the codec combinators; the encoders of the model are proved equal to it, and lengths are computed from it.",
 "C131": "Evaluation at `t` distinct points is a bijection on coefficient vectors of length `t` (Lagrange interpolation); `finish` is this evaluation times the nonzero Lagrange coefficient of the dealer plus a constant.",
 "C132": "Sessions of arbitrary size with arbitrary records and shares; negations construct the attack inside any honest session; the partial theorem covers rejected records and generalises C80.",
 "C133": "Shares the core of C132 (receivers and dealers are separate lists there); the partial theorem covers discarded records, arbitrary shares, any quorum of honest dealers, any set of new signers and dishonest new signers with screened complaints.",
 "C134": "Explicit form of the generated key (C38_generated_value); the coefficient of the added dealer is not zero, so the two sums agree for exactly one evaluation.",
 "C135": "The negation is a complete honest session followed by one complaint of participant j in its own name; everybody removes the honest dealer and finishes with another key. The positive part extends the core of C132 to lists with further complaints that pass the two missing checks.",
 "C136": "The announced size equals the length for each combinator of the codecs; a vector moves exactly when more is written than reserved (induction over the pieces).",
 "C137": "`Props/ErrorTexts.lean`: the constant beginnings of the texts are prefix-free, numbers end at the first non-digit, and the escaping of strings is a prefix code; truth of the texts from C59 and C65.",
 "C138": "`Model/DebugText.lean`, `Props/DebugOutput.lean`: derived `Debug` output as strings; each printed field can be read back from the text; error texts from C128.",
 "C139": "`Props/Distribution.lean`: Mathlib's `PMF`. The image of a uniform distribution under a surjective homomorphism is uniform; `new_dealer` on a tape reads the cells 2 to t+1 (C113); evaluation is surjective (C124), the group polynomial is an affine bijection of the honest dealer's (C119, Lagrange coefficients are not 0); simulators from C14 and C97; for (e) the two preimages of a key, with and without the complaint (C105), differ.",
 "C140": "`Props/RandomOracle.lean`: the general forking lemma, proved by counting (Cauchy-Schwarz); an oracle that answers from a tape and repeats its answers; `verify` of the model under the suite programmed with the answers; special soundness; the view of t-1 participants computed from a point (C124, C139). (d) by a union bound over the questions.",
 "C141": "The game with the secret and the game with the public key alone coincide under a bijection of the random scalars, as long as no signature repeats a question to the hash; the chance of a repetition is bounded by counting nonces; a forgery in the second game is one for the forking lemma of C140, also when only the signature and not the message is new.",
 "C142": "`Props/OwnPair.lean`: success of `sign` depends on the indices alone (C55); the share equation cancels down to the equation of nonce commitments; the list of reported signers is exact (C65). The example is a session of two honest signers in which one is reported.",
 "C143": "A second game without secrets in which the responses of honest signers are requests; both games agree move by move (play_ledger). Two runs that share everything up to the critical question are forked (forking lemma of C140 in its general form); they give the group secret, and for every nonce pair used in one or both runs two linear equations of which the solver asks the missing ones. A pair used in both runs at different requests has two different binding factors, except with the chance of coincidence 2n^2|H|/|F|.",
 "C144": "`Props/Documented.lean`, from `finish_phase`; some Lagrange coefficient differs from one since they add up to one and there are at least two of them.",
 "C145": "Shares that pass the checks of t participants interpolate to a polynomial with the published commitments, so the game is that of C140 or C143; the bound is monotone where it is positive.",
 "C146": "Games with answers given before (`Spec.oracleAfter`, `Spec.Insider.playAfter`) equal games without, for an attacker that knows these answers (`knowing_verify`, `knowing_succeeds`); the record is simulated from the commitments by a bijection of the coins (`Spec.RecordCoins.shift`), also when the DH key and the secret coincide; then C145. `C146_record` ties the record to the code.",
 "C147": "MobileForgery: map (old polynomial, polynomials of the honest dealers) to (old secret, keys and shares that the colluders hold) is a bijection; commitments are simulated from the old group key; the new keys are affine in the old secret with scale 1, since Lagrange weights of honest dealers and known keys of colluding dealers add up to it; then C140 and C143.",
 "C148": "group order by computation and counting (`Lemmas/Secp256k1.lean`), square roots by `a^((p+1)/4)`, encodings by cases",
 "C149": "`Spec.signedBy` runs the documented session with the model's aggregator, `sign`, `finalize` and `aggregate`; `Spec.withRho` replaces the answers of `h1` with a table of independent scalars, as a random oracle gives them in one session. `C149_distribution`: the run equals the Schnorr signature whose nonce is the sum of `d + rho e` over the signers (from C83), and that sum is uniform because adding a constant to one hiding nonce permutes the choices. `C149_signers_hidden`: two sets of signers with keys for the same secret. Not covered: the commitments that signers publish before signing do name them, and the theorem is about the signature alone.",
 "C150": "Random-oracle game with rewinding. The check of the result asks m questions (the signature and one proof per dishonest dealer), and one run is forked at each of them (`star_forking`, proved by counting in Lemmas/StarFork.lean). The forks give the logarithm of the group key and of every dishonest dealer's first point; the rest is the honest dealer's. `C150_forgery_after_record` starts with the honest record's answers in the oracle. `C150_bootstrap` and `C150_group_key` connect the game with `bootstrap` and `finish`. Signing sessions with honest participants are not part of this game (they are in C143, C145 and C146, with at least t honest participants).",
 "C151": "C49_any_receivers with `new` called on ⟨number of remaining dealers, t⟩; counting (pigeonhole) for the late index; C133_reshare_takeover for the attack; C19_new for the refusal.",
 "C152": "Hybrid over the pairs: drawing keys of the pairs anew exchanges one answer of the key derivation with a random key, which only a question for the Diffie-Hellman secret of this pair notices; the proofs of knowledge are simulated by programming h0, so the solver needs no DH key of the pair. A second hybrid replaces the ciphertexts. The model link shows what newDealer and bootstrap send in the suite with these functions, and that the suite is lawful.",
 "C153": "The whole game (dealing, concurrent sessions, output) is written as one program that asks the key derivation, and is shown to run like the insider of C143 with the key derivation at hand. C152 replaces the wire by ciphertexts of fixed plaintexts under fresh keys; what remains is an insider of C145 whose coins include the DH keys, the functions and the blank wire, by a reordering of coins.",
 "C154": "Each decoder paired with the list of its reservations, mirroring the codec combinators; the combinators preserve both the existence of greedy inputs and the bound for encodings.",
 "C155": "A transition system whose steps call the modelled functions; an inductive invariant says how each node's state and each saved state came about, from which verified shares, agreement and totality follow. C155_honest shows that admissible boards and executions in which everybody finishes exist for all parameters.",
 "C156": "A transition system whose steps call the modelled functions, with a ghost log of answers; an inductive invariant of conservation per list. C156_progress starts from arbitrary states, so executions of any length exist.",
 "C157": "The transition system of C155 with `new` as the first step; the invariant is shared. The verifying shares on file interpolate to the sum of the constants, which the caller checked against the earlier epoch. C157_runs shows that every resharing of C129 is an execution, C157_honest that lives of any length exist.",
 "C158": "The game of C153 with the proof in the view. The proof is simulated without loss: nonce, answer of h0 at the point that the proof asks for and an unused value are permuted (proofShift), so that the simulator chooses challenge and response first; if the dealer's secret happens to be its DH key the simulator makes the proof itself. C158_record: the record made by `new_dealer` with these functions is the one in the view.",
 "C159": "The invariant of C155/C157 gives for every finished signer the verifying share of the dealers on file; C157_life carries the key over the resharings; C156_progress and C156_not_blamed are applied to the resulting keys.",
 "C160": "C158, C147, C157 and C159 applied to the suite of C148; the field has more than 2^255 elements, so that the losses of the fork are at most half of its gain.",
 "C161": "`Spec.Circle.letter` is the share in the result of `bootstrap` as a function of the random number generator; its key and nonce from the model (C113, C152); counting of tapes for one pair, union over pairs; the key stream of the test suite cancels",
 "C162": "`Model/Hashing.lean`: the expander of ark-ff, HMAC and HKDF over an arbitrary hash function; `Props/DomainSeparation.lean`: the length byte at the end makes the tag readable from the end, the tags differ by C71's argument, and the first bytes differ between the constructions. That the listed strings are all that is hashed: the result is unchanged under any function that agrees on them.",
 "C163": "`Model/Sha256.lean` (FIPS 180-4), `Model/AesGcm.lean` (FIPS 197, SP 800-38D), `Model/Hashing.lean`; `Props/RealSuite.lean`: lengths by induction over blocks, then the laws of C148. The definitions are compared with the published test vectors in the kernel.",
 "C164": "`Props/HashBias.lean`: the bias of a map out of a finite set, a hybrid argument over the calls (bias_many, bias_with), counting of residues below 256^L, then C140_forgery with the loss.",
 "C165": "`Lemmas/Gf128.lean` proves that the multiplication of GHASH is the one of a field with 2^128 elements, `Lemmas/Ghash.lean` that GHASH is a polynomial in its key that determines the ciphertext. `Props/CipherIntegrity.lean`: shifting the hash key and the masks leaves what is sent unchanged, so the forger wins on few members of each orbit.",
 "C166": "`Props/CipherSecrecy.lean`: a change of the block function at the counters of the nonces turns the ciphertexts of one text into those of the other; the change is a bijection of block functions, so the chances are the same. Then the triangle inequality with AES-128 and C152_wire.",
 "C167": "`Props/ShaStandard.lean`: bit-level lemmas, induction over the rounds with the window of the schedule. `Lemmas/Gf256.lean` and `Props/Standards.lean`: bytes as elements of `AdjoinRoot (X^8 + X^4 + X^3 + X + 1)`; all 256 entries of the S-box; injectivity of each step, with the inverse matrix for MixColumns. `Lemmas/Gf128.lean` for GHASH; `Props/GcmTag.lean`: tag and key stream from the bits and bytes of the blocks. `Props/ExpandStandard.lean`: the loops of the expander and of HKDF against recursively defined sequences of blocks.",
 "C168": "Props/NonceHash: the lists are the answers to the strings of their places (from C52, C88); exchanging the answers at these strings with independent ones is an involution on hash functions and replacements, so that both games agree until one of the strings is asked; a string of that form contains the encoded key; the reduction of the bytes is C164.",
 "C169": "`Props/Rfc9591.lean` restates the RFC for an arbitrary ciphersuite without reference to the model. For C169_protocol_partial H1 and H5 are defined on the strings of the RFC, whose encodings determine key, digests, identifier and signers, by the values the code computes; all other functions stay. The negative parts compare lengths and count nothing else.",
 "C170": "`Model/Sampling.lean`: rejection sampling on a tape of bytes. `Props/Sampling.lean`: adding given scalars to the scalars of the accepted blocks is a permutation of the tapes (induction over the tape), so the draws plus independent uniform scalars and the draws themselves have the same distribution unless too few blocks are accepted; that needs k rejected blocks in a row. C113's account of which draw is used where carries this over to the functions of the crate, C139 to the guess.",
 "C171": "`Lemmas/Switching.lean`: the permutations and the functions that answer the questions like a given one are counted and compared (descending factorial against power); collisions of answers are bounded by moving one answer at a time. `Props/Permutation.lean`: which blocks GCM asks for, including the one for the tag of what the attacker presents, which depends on what was sent.",
 "C172": "`Props/Imperfect.lean`. `Spec.Near f d`: the chance of every event changes by at most d when uniform values are replaced by those that f makes; closed under products and finite families. C172_source puts such a source into the game of C145. C172_coefficients: what the shipped `new_dealer` returns as polynomial is what the game draws from the tape. C172_forgery and C172_numbers use C164 (reduction), C170 (rejection) and the suite of C148. A draw of the game has a binding factor for each of the 2^32 indices, hence the factor.",
 "C173": "`Model/Capacity.lean` mirrors each reservation with what is pushed and the buffers left behind by moving (`pushAll`, `writeChunks`); by induction a vector moves exactly when it receives more than was reserved; the contents are shown equal to what the functions of the model return.",
 "C174": "`Model/Trace.lean` writes these functions once more with the list of observable steps; `C174_values` shows that they compute what the other model files compute, and the other theorems that the lists of steps of two runs are equal, by induction over the loops. For `drop_share` equality of the steps is equivalent to equality of the pattern of equal entries.",
 "C175": "`Props/Builds.lean`: every model function with a `dbg` argument is compared at `true` and `false`, by induction over the loops. In round one valid and blamed participants add up to n, so the subtraction cannot overflow and the new parameters are sound unless t = 0.",
 "C176": "`Model/Work.lean` records the multiplications and hash computations of the public functions; `Props/Work.lean` proves that without them they are the functions of the model (C176_values), and bounds both counts by induction over the loops. That only one commitment is checked per share uses that a BTreeMap has every key once. For the failing aggregation the exact count of the search loop is proved, and `aggregate_cases` gives sessions that reach it.",
 "C177": "`Props/Rejected.lean`: the map of shares is described exactly by induction over the loop of `new_state_internal` that deals them; the bad session is built from the completeness theorems for the first round, decryption under the wrong key, and the judgement of complaints, for every set of honest participants.",
 "C178": "`Props/Forged.lean`: for every string at most one answer allows a false proof (C48 and the injectivity of the encoding); by induction over the attacker's program, redrawing one value of the random function at a time, some question gets a bad answer with a chance of at most the number of questions times that of a single one. C178_dealer_removed adds what `blame` removes (C39, C40).",
 "C179": "`Props/NonceGame.lean`: the game depends only on the answers to questions asked before two digests of signer lists collide, so the strings behind the nonces may get separate answers unless one is asked or two are equal (`same_until_asked` of C168); then the answers are replaced by uniform scalars (C172); then the pairs in the lists are exchanged with pairs drawn at each move by a bijection of the random choices that follows the play; a question with a signing key lets a second insider sign any message. C179_hard adds C143 and C179_below_threshold the key generation. Restriction: in move k an announcing signer takes pair k of its list, so lists have n pairs.",
 "C180": "`Props/WholeGame.lean`: the colluders are a program that asks two functions (`Spec.Duo`); with the hash function for nonces fixed the whole game is a reader of the wire, so C152_wire replaces keys by random ones and ciphertexts by those of fixed messages; the rest of the wire and the proof of the honest dealer is then simulated as in C158, and what remains is C179_below_threshold for an asker that has the simulated wire among its coins; keys of accepted dealings are those of polynomials (C145). C180_hard adds C143, C180_questions counts guesses, C180_bytes bounds repeated random bytes. Restriction: while they choose their dealings the colluders do not ask the hash function for nonces.",
 "C181": "`Model/AggregatorCodec` writes the derived encodings. Every reachable state has distinct signer indices and well-formed maps (the invariant of C57), so that the round trips of C72 apply; restarts are removed one by one by induction on the history. The accepted state that no session reaches is built explicitly.",
 "C182": "Model/Trace and Model/Work (the counted versions of the functions, tied to the model by C176_values); Props/WorkExact: a calculus of exact costs conditional on the result (Spec.Costs), by induction over the loops. Examples: an honest key generation of three, a signature share, an aggregation.",
 "C183": "Model/Codec (commitmentCodec, commitmentShareCodec) over the concrete secp256k1 suite of C148; Props/NonceBytes: refusals from what the two decoders consume, the counts by a bijection between accepted strings and values (canonical decoding and round trip) and the number of points of the curve. The counts are for the strict reader of points. Signing: from what a successful `sign` returns. Examples: the strings of the repository's test, the order itself as second nonce, a signer with a damaged nonce.",
 "C184": "Model/Codec over the concrete secp256k1 suite of C148; Props/ByteCounts: accepted strings correspond one to one to values (readAs_ncard of C183), values that pass a check to the values of the other fields (natCard_graph: every point has one discrete logarithm), sound parameters to pairs b < a < 2^32. For the strict reader of points. Examples: unsound parameters that are read, a session of two signers."
}