import Verif.Props.Domain
import Verif.Props.Worker
import Verif.Props.Fft
import Verif.Props.FftKernels
import Verif.Props.LdeIgnore
import Verif.Props.Lde
import Verif.Props.Poly
import Verif.Props.Merkle
import Verif.Props.Transcript
import Verif.Props.Fri
import Verif.Props.Air
import Verif.Props.Arp
import Verif.Props.Trace
import Verif.Props.TraceHistory
import Verif.Props.Ali
import Verif.Props.Stark
import Verif.Props.Soundness
import Verif.Spec.Interactive
import Verif.Props.Interactive
import Verif.Props.Verify
import Verif.Props.Vdf
import Verif.Props.Fp2
import Verif.Props.RealFields
import Verif.Props.FriProto
import Verif.Props.Tensor
import Verif.Props.Hasher
import Verif.Props.Fp2Order
import Verif.Props.Binding
import Verif.Props.IopEq
import Verif.Props.ChallengeSchedule
import Verif.Props.Machine
import Verif.Spec.ProverChallenges
import Verif.Lemmas.Sizes
import Verif.Lemmas.Draws
import Verif.Lemmas.ProverRun
import Verif.Props.ProverChallenges
import Verif.Spec.Outcome
import Verif.Props.Outcome
import Verif.Props.OutcomeWord
import Verif.Lemmas.RunH
import Verif.Props.FriOutcome
import Verif.Props.FriAgree
import Verif.Spec.HonestRun
import Verif.Props.HonestRun
import Verif.Lemmas.LdeExact
import Verif.Props.LdeExact
import Verif.Lemmas.ProverTotal
import Verif.Lemmas.ProveOutcome
import Verif.Lemmas.NoErr
import Verif.Props.ProverOutcome
import Verif.Props.SingleWitness
import Verif.Props.DeepAli
import Verif.Props.Proximity
import Verif.Props.Sampling
import Verif.Props.Claims
import Verif.Model.Density
import Verif.Props.Supported
import Verif.Spec.LastLayer
import Verif.Lemmas.RunAny
import Verif.Lemmas.RunAnyV
import Verif.Props.AnyWorker
import Verif.Props.VdfVerdict
import Verif.Spec.Densities
import Verif.Props.Densities
import Verif.Props.ManyDensities
import Verif.Props.Refusals
import Verif.Props.Report
import Verif.Props.Profile
import Verif.Props.ProofShape
import Verif.Props.SameProof
import Verif.Props.Uniform
import Verif.Spec.Tasks
import Verif.Props.Tasks
import Verif.Props.LastLayer
import Verif.Model.Cost
import Verif.Spec.Cost
import Verif.Lemmas.Cost
import Verif.Lemmas.CostV
import Verif.Props.Cost
import Verif.Model.MachineVerifier
import Verif.Props.MachineVerifier
import Verif.Spec.Statement
import Verif.Props.Statement
import Verif.Model.ProverCost
import Verif.Spec.ProverCost
import Verif.Lemmas.ProverCost
import Verif.Lemmas.ProverCostP
import Verif.Props.ProverCost
import Verif.Model.FftCost
import Verif.Spec.FftCost
import Verif.Props.FftCost
import Verif.Spec.Hiding
import Verif.Lemmas.Hiding
import Verif.Props.Hiding
import Verif.Model.SetupCost
import Verif.Spec.SetupCost
import Verif.Lemmas.SetupCost
import Verif.Props.SetupCost
import Verif.Model.ProverOps
import Verif.Spec.ProverOps
import Verif.Lemmas.ProverOps
import Verif.Lemmas.ProverOpsPoly
import Verif.Lemmas.ProverOpsAli
import Verif.Lemmas.ProverOpsG
import Verif.Lemmas.ProverOpsFri
import Verif.Lemmas.ProverOpsDeep
import Verif.Props.ProverOps
import Verif.Spec.ReadParts
import Verif.Props.ReadParts
import Verif.Spec.ProverBound
import Verif.Lemmas.ProverBound
import Verif.Props.ProverBound
import Verif.Lemmas.HalfDistance
import Verif.Spec.Game
import Verif.Lemmas.Game
import Verif.Props.Game
import Verif.Spec.Delay
import Verif.Props.Delay
import Verif.Props.Floor
import Verif.Props.Traced
import Verif.Spec.DigestGame
import Verif.Spec.Opened
import Verif.Props.DigestGame
import Verif.Spec.Oracle
import Verif.Lemmas.Oracle
import Verif.Lemmas.OracleRun
import Verif.Lemmas.OracleGame
import Verif.Props.RandomOracle
import Verif.Props.VdfOracle
import Verif.Props.ProofNeeds
import Verif.Model.MachineProver
import Verif.Props.MachineProver
import Verif.Props.ReleaseSpan
