import Verif.Model.Keys

/-! # `src/sign/precomputation.rs` -/

namespace IceFrost

variable {F G R : Type} [Field F] [DecidableEq F] [AddCommGroup G] [Module F G] [DecidableEq G]

/-- `nonce_generate`, `src/sign/precomputation.rs:24-35`. Also returns the RNG state. -/
def nonceGenerate (S : Suite F G R) (sk : IndividualSigningKey F) (rng : R) : F × R :=
  let (randomBytes, rng) := S.randBytes S.hashLen rng
  (S.h3 (randomBytes ++ (signingKeyCodec S).enc sk), rng)

/-- `NoncePair::new` followed by `CommitmentShare::from`, `src/sign/precomputation.rs:47-55, 58-74`. -/
def newCommitmentShare (S : Suite F G R) (sk : IndividualSigningKey F) (rng : R) : CommitmentShare F G × R :=
  let (d, rng) := nonceGenerate S sk rng
  let (e, rng) := nonceGenerate S sk rng
  (⟨⟨d, d • S.gen⟩, ⟨e, e • S.gen⟩⟩, rng)

/-- `CommitmentShare::publish`, `src/sign/precomputation.rs:138-140`. -/
def CommitmentShare.publish (c : CommitmentShare F G) : G × G := (c.hidingC.commit, c.bindingC.commit)

/-- The loop of `generate_commitment_share_lists`, `src/sign/precomputation.rs:186-191`. -/
def commitmentShares (S : Suite F G R) (sk : IndividualSigningKey F) : Nat → R → List (CommitmentShare F G) × R
  | 0, rng => ([], rng)
  | k + 1, rng =>
    let (c, rng) := newCommitmentShare S sk rng
    let (cs, rng) := commitmentShares S sk k rng
    (c :: cs, rng)

/-- `generate_commitment_share_lists`, `src/sign/precomputation.rs:179-206`. -/
def generateCommitmentShareLists (S : Suite F G R) (rng : R) (sk : IndividualSigningKey F) (number : Nat) :
    PublicCommitmentShareList G × List (CommitmentShare F G) :=
  let (commitments, _) := commitmentShares S sk number rng
  (⟨sk.index, commitments.map (·.publish)⟩, commitments)

/-- The scan of `drop_share`, `src/sign/precomputation.rs:212-222`: position of the *last* equal entry;
`index = -1` is `none`. -/
def lastIndexLoop (share : CommitmentShare F G) : Nat → List (CommitmentShare F G) → Option Nat → Option Nat
  | _, [], index => index
  | i, s :: l, index => lastIndexLoop share (i + 1) l (if s = share then some i else index)

/-- `SecretCommitmentShareList::drop_share`, `src/sign/precomputation.rs:211-227`. -/
def dropShare (list : List (CommitmentShare F G)) (share : CommitmentShare F G) : List (CommitmentShare F G) :=
  match lastIndexLoop share 0 list none with
  | some i => list.eraseIdx i
  | none => list

end IceFrost
