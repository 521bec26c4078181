import Verif.Model.Res
import Verif.Model.Engine
import Verif.Model.Utils
import Verif.Model.Groth16Types
import Verif.Model.Keygen
import Verif.Model.Encryption
import Verif.Model.Commitment
import Verif.Model.Protocol
import Verif.Model.Circuit
import Verif.Model.Fft
import Verif.Model.Groth16
import Verif.Model.Setup
import Verif.Model.Serde
import Verif.Spec
import Verif.Instances
import Verif.InstancesFft
import Verif.SpecAgm
import Verif.Fixtures
import Verif.Lemmas.Basic
import Verif.Lemmas.Bytes
import Verif.Lemmas.Window
import Verif.Lemmas.Keys
import Verif.Lemmas.Combine
import Verif.Lemmas.Enc
import Verif.Lemmas.Dec
import Verif.Lemmas.ReEnc
import Verif.Lemmas.Circuit
import Verif.Lemmas.Fft
import Verif.Lemmas.Groth16
import Verif.Lemmas.Gens
import Verif.Lemmas.Serde
import Verif.Lemmas.Agm
import Verif.Lemmas.Sound
import Verif.Lemmas.Honest
import Verif.Lemmas.Count
import Verif.Props.Chunking
import Verif.Props.Keys
import Verif.Props.Encrypt
import Verif.Props.Decrypt
import Verif.Props.Release
import Verif.Props.Aggregate
import Verif.Props.ReEncrypt
import Verif.Props.Leak
import Verif.Props.Batch
import Verif.Props.Commit
import Verif.Props.Circuit
import Verif.Props.Gadgets
import Verif.Props.Groth16
import Verif.Props.Hash
import Verif.Props.Setup
import Verif.Props.Generic
import Verif.Props.Serde
import Verif.Props.Verified
import Verif.Props.Both
import Verif.Props.Sound
import Verif.Props.Error
import Verif.SpecSec
import Verif.Lemmas.Sec
import Verif.Lemmas.SecGame
import Verif.Lemmas.SecProof
import Verif.Props.Secrecy
import Verif.Props.SecrecyProof
import Verif.Lemmas.SecDkg
import Verif.Props.SecrecyDkg
import Verif.Props.Rogue
import Verif.Model.Parallel
import Verif.Props.Parallel
import Verif.Props.Encoding
import Verif.SpecDkg
import Verif.Lemmas.Span
import Verif.Lemmas.SoundDkg
import Verif.Props.SoundDkg
import Verif.Props.RangeDkg
import Verif.Props.Forge
import Verif.SpecAdaptive
import Verif.Lemmas.Adaptive
import Verif.Props.Adaptive
import Verif.Props.AdaptiveDkg
import Verif.Props.AdaptiveRange
import Verif.Props.Rerandomise
import Verif.Props.Nested
import Verif.Props.ShareForgery
import Verif.Props.Forward
import Verif.Props.Malleable
import Verif.Props.Window
import Verif.Props.MalleableError
import Verif.Props.SerdeExact
import Verif.Props.WrongKey
import Verif.Props.Abort
import Verif.Props.Fresh
import Verif.Props.AdaptiveMalleable
import Verif.Props.ChosenCiphertextNeeded
import Verif.Props.ReEncOracle
import Verif.Props.MalleableDkg
import Verif.Props.ChosenCiphertextNuNeeded
import Verif.Props.Candidates
import Verif.Props.Link
import Verif.Props.ReGameNeeded
import Verif.Props.Bls
import Verif.Props.BlsDkg
import Verif.Props.BlsCoalition
import Verif.Props.Delivery
import Verif.Props.DkgTapes
import Verif.Examples.Basic
import Verif.Examples.Groth
import Verif.Examples.Games
import Verif.Examples.More
import Verif.Examples.Range
import Verif.Props.MaliciousAggregation
import Verif.Props.Tally
import Verif.Props.TallyNeeded
import Verif.Props.TallyTapes
import Verif.Props.Randomness
import Verif.Props.Untrusted
import Verif.Props.Oversized
import Verif.Props.Delivered
import Verif.Props.Redelivered
import Verif.Props.Restart
import Verif.Props.Poll
import Verif.Props.OpenPoll
import Verif.Props.Whole
import Verif.Props.Work
import Verif.Props.Shift
import Verif.Props.Liveness
import Verif.Props.ProvedPoll
import Verif.Props.ProvedLive
import Verif.Props.WholeProved
import Verif.Props.CopiedBallots
import Verif.Props.Macros
import Verif.Props.TestPrograms
import Verif.Props.Flaky
import Verif.Props.Many
import Verif.Props.Pairings
import Verif.Props.Loss
import Verif.Props.Residue
import Verif.Props.Bounded
