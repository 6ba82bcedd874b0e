import Verif.Base
import Verif.Model.Types
import Verif.Model.Codec
import Verif.Model.Utils
import Verif.Model.Nizk
import Verif.Model.SecretShare
import Verif.Model.Complaint
import Verif.Model.KeyGeneration
import Verif.Model.Participant
import Verif.Model.Keys
import Verif.Model.Precomputation
import Verif.Model.Signature
import Verif.Model.Compare
import Verif.Spec
import Verif.Lemmas.Base
import Verif.Lemmas.Algebra
import Verif.Lemmas.Suite
import Verif.Lemmas.PrimeOrder
import Verif.Lemmas.Shares
import Verif.Lemmas.RoundOne
import Verif.Toy
import Verif.Props.Params
import Verif.Props.Lagrange
import Verif.Props.Shares
import Verif.Props.Nizk
import Verif.Props.Participants
import Verif.Props.RoundOne
import Verif.Lemmas.RoundTwo
import Verif.Props.RoundTwo
import Verif.Lemmas.Finish
import Verif.Props.Finish
import Verif.Lemmas.Protocol
import Verif.Props.Dkg
import Verif.Lemmas.Blame
import Verif.Props.Blame
import Verif.Props.Robust
import Verif.Lemmas.Signing
import Verif.Lemmas.Aggregator
import Verif.Props.Signing
import Verif.Props.Aggregation
import Verif.Props.SignEndToEnd
import Verif.Props.SigningExamples
import Verif.Lemmas.Codec
import Verif.Props.Transcripts
import Verif.Props.Serialization
import Verif.Props.Restore
import Verif.Props.SignatureTheory
import Verif.Props.Secrecy
import Verif.Props.FinishExamples
import Verif.Props.Order
import Verif.Props.AbortLoop
import Verif.Props.Sessions
import Verif.Props.MobileSecrecy
import Verif.Props.SignatureForms
import Verif.Props.Unblamed
import Verif.Props.Wire
import Verif.Props.SignAny
import Verif.Props.Attacks
import Verif.Props.ReshareWire
import Verif.Props.Oracles
import Verif.Props.Fresh
import Verif.Props.Frame
import Verif.Props.SmallFields
import Verif.Props.Errors
import Verif.Props.StateTables
import Verif.Props.Positions
import Verif.Props.Below
import Verif.Props.RobustSign
import Verif.Props.Tables
import Verif.Props.Exact
import Verif.Props.ReshareSign
import Verif.Props.Withheld
import Verif.Props.Disclosure
import Verif.Props.Simulation
import Verif.Cases.Session
import Verif.Cases.RoundOne
import Verif.Cases.RoundTwo
import Verif.Cases.Blame
import Verif.Cases.Robust
import Verif.Cases.Reshare
import Verif.Cases.Sign
import Verif.Cases.Codec
import Verif.Props.Degree
import Verif.Cases.Degree
import Verif.Model.Memory
import Verif.Props.Memory
import Verif.Props.Views
import Verif.Cases.Views
import Verif.Cases.RealSize
import Verif.Props.NonInterference
import Verif.Props.RobustChain
import Verif.Props.WireFormat
import Verif.Props.FreshSharing
import Verif.Props.Takeover
import Verif.Props.ReshareTakeover
import Verif.Props.DealerSet
import Verif.Props.Receivers
import Verif.Props.Authentic
import Verif.Cases.More
import Verif.Props.Buffers
import Verif.Props.ErrorTexts
import Verif.Props.DebugOutput
import Verif.Props.Distribution
import Verif.Props.RandomOracle
import Verif.Props.ChosenMessage
import Verif.Props.OwnPair
import Verif.Props.Concurrent
import Verif.Props.ConcurrentInvariants
import Verif.Props.ConcurrentFork
import Verif.Props.ConcurrentSolver
import Verif.Props.ConcurrentBound
import Verif.Props.Documented
import Verif.Props.Dealings
import Verif.Props.DealerRecord
import Verif.Props.MobileForgery
import Verif.Lemmas.Secp256k1
import Verif.Props.Secp256k1
import Verif.Props.Anonymous
import Verif.Lemmas.StarFork
import Verif.Props.DishonestMajority
import Verif.Props.Recipe
import Verif.Props.Eavesdrop
import Verif.Props.TappedForgery
import Verif.Model.Reserve
import Verif.Props.Reserve
import Verif.Props.Network
import Verif.Props.SignNetwork
import Verif.Props.ReshareNetwork
import Verif.Props.RecordOnWire
import Verif.Props.Lifetime
import Verif.Props.Concrete
import Verif.Props.CipherNonces
import Verif.Model.Hashing
import Verif.Props.DomainSeparation
import Verif.Model.Sha256
import Verif.Model.AesGcm
import Verif.Props.RealSuite
import Verif.Props.HashBias
import Verif.Props.CipherIntegrity
import Verif.Props.CipherSecrecy
import Verif.Props.Standards
import Verif.Props.GcmTag
import Verif.Props.ShaStandard
import Verif.Props.ExpandStandard
import Verif.Props.NonceHash
import Verif.Props.Rfc9591
import Verif.Model.Sampling
import Verif.Props.Sampling
import Verif.Lemmas.Switching
import Verif.Props.Permutation
import Verif.Props.Imperfect
import Verif.Model.Capacity
import Verif.Props.Capacity
import Verif.Props.ReserveExact
import Verif.Model.Trace
import Verif.Props.Trace
import Verif.Props.Builds
import Verif.Model.Work
import Verif.Props.Work
import Verif.Props.Rejected
import Verif.Props.Forged
import Verif.Props.NonceGame
import Verif.Props.WholeGame
import Verif.Model.AggregatorCodec
import Verif.Props.AggregatorSaved
import Verif.Props.WorkExact
import Verif.Props.NonceBytes
import Verif.Props.ByteCounts
