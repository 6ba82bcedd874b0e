import Verif.Model.Keys
import Verif.Model.Precomputation

/-!
# Derived `Debug` output of the types that hold secrets

`#[derive(Debug)]` prints a struct as `Name { field: value, field: value }` and a tuple struct as `Name(value)`; `Vec` is
printed as `[value, value]`. How the curve library prints scalars and points is a parameter.
-/

namespace IceFrost

/-- How the curve library prints scalars and points, and the text of the `PhantomData` marker. -/
structure Printer (F G : Type) where
  scalar : F → String
  point : G → String
  phantom : String

variable {F G : Type}

/-- `{:?}` for the entries of a `Vec` after the first. -/
def debugVecRest {α : Type} (f : α → String) : List α → String
  | [] => "]"
  | a :: l => ", " ++ (f a ++ debugVecRest f l)

/-- `{:?}` for a `Vec`. -/
def debugVec {α : Type} (f : α → String) : List α → String
  | [] => "[]"
  | a :: l => "[" ++ (f a ++ debugVecRest f l)

/-- `DiffieHellmanPrivateKey`, `src/keys.rs:22-23`. -/
def debugDhPrivateKey (P : Printer F G) (x : F) : String := "DiffieHellmanPrivateKey(" ++ (P.scalar x ++ ")")

/-- `IndividualSigningKey`, `src/keys.rs:186-192`. -/
def debugSigningKey (P : Printer F G) (k : IndividualSigningKey F) : String :=
  "IndividualSigningKey { index: " ++ (toString k.index.toNat ++ (", key: " ++ (P.scalar k.key ++ " }")))

/-- `SecretShare`, `src/dkg/secret_share.rs:45-54`. -/
def debugSecretShare (P : Printer F G) (s : SecretShare F) : String :=
  "SecretShare { sender_index: " ++ (toString s.senderIndex.toNat ++ (", receiver_index: " ++
    (toString s.receiverIndex.toNat ++ (", polynomial_evaluation: " ++ (P.scalar s.eval ++ " }")))))

/-- `Coefficients`, `src/dkg/secret_share.rs:32-33`. -/
def debugCoefficients (P : Printer F G) (l : List F) : String := "Coefficients(" ++ (debugVec P.scalar l ++ ")")

/-- `Commitment`, `src/sign/precomputation.rs:77-83`. -/
def debugCommitment (P : Printer F G) (c : Commitment F G) : String :=
  "Commitment { secret: " ++ (P.scalar c.secret ++ (", commit: " ++ (P.point c.commit ++ " }")))

/-- `CommitmentShare`, `src/sign/precomputation.rs:109-119`. -/
def debugCommitmentShare (P : Printer F G) (c : CommitmentShare F G) : String :=
  "CommitmentShare { hiding: " ++ (debugCommitment P c.hidingC ++ (", binding: " ++
    (debugCommitment P c.bindingC ++ " }")))

/-- `SecretCommitmentShareList`, `src/sign/precomputation.rs:145-149`. -/
def debugSecretCommitmentShareList (P : Printer F G) (l : List (CommitmentShare F G)) : String :=
  "SecretCommitmentShareList { commitments: " ++ (debugVec (debugCommitmentShare P) l ++ " }")

/-- `ThresholdParameters`, `src/parameters.rs:13-22`. -/
def debugParams (P : Printer F G) (p : Params) : String :=
  "ThresholdParameters { n: " ++ (toString p.n.toNat ++ (", t: " ++ (toString p.t.toNat ++ (", _phantom: " ++
    (P.phantom ++ " }")))))

/-- `DistributedKeyGeneration`, `BoxedState` and `ActualState`, `src/dkg/key_generation.rs:519-555`. The text after the
private key is left as a parameter. -/
def debugDkgState (P : Printer F G) (rest : DkgState F G → String) (d : DkgState F G) : String :=
  "DistributedKeyGeneration { state: BoxedState(ActualState { parameters: " ++ (debugParams P d.parameters ++
    (", index: " ++ (toString d.index.toNat ++ (", dh_private_key: " ++ (debugDhPrivateKey P d.dhPrivateKey ++
    (", dh_public_key: " ++ rest d))))))

end IceFrost
