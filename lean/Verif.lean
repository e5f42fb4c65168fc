import Verif.Props.Modulus
import Verif.Props.Utils
import Verif.Props.Ntt
import Verif.Props.Rns
import Verif.Props.Rq
import Verif.Props.RqIff
import Verif.Props.BfvParams
import Verif.Props.Bfv
import Verif.Props.Ksk
import Verif.Props.BfvMul
import Verif.Props.Omr
import Verif.Props.Pvw
import Verif.Props.Pir
import Verif.Props.Unpack
import Verif.Props.Server
import Verif.Props.RqExtra
import Verif.Props.BfvExtra
import Verif.Props.Circuit
import Verif.Props.Levels
import Verif.Props.Switch
import Verif.Props.Default
import Verif.Props.Protocol
import Verif.Props.Decrypt
import Verif.Props.Unsafe
import Verif.Props.Reject
import Verif.Props.Sampling
import Verif.Props.PvwFailure
import Verif.Props.Misc
import Verif.Model.Tests
import Verif.Props.Tests
import Verif.Spec.Simd
import Verif.Props.Simd
import Verif.Spec.Leveled
import Verif.Props.Leveled
import Verif.Props.Noise
import Verif.Props.Machine
import Verif.Spec.Rlwe
import Verif.Proofs.Rlwe
import Verif.Props.Rlwe
import Verif.Proofs.TailRows
import Verif.Props.NoiseTail
import Verif.Spec.Privacy
import Verif.Props.Privacy
import Verif.Model.Repair
import Verif.Props.Repair
import Verif.Props.RepairPir
import Verif.Props.RepairSimd
import Verif.Props.SimdCapacity
import Verif.Proofs.Leftover
import Verif.Spec.PvwPrivacy
import Verif.Props.PvwPrivacy
import Verif.Spec.RgswPrivacy
import Verif.Props.RgswPrivacy
import Verif.Proofs.Repair
import Verif.Props.RepairMore
import Verif.Props.OmrDetect
import Verif.Props.Builds
import Verif.Props.RingIso
import Verif.Props.NttSampler
import Verif.Proofs.SelectAny
import Verif.Props.AnySize
import Verif.Model.Rand
import Verif.Spec.Random
import Verif.Proofs.Random
import Verif.Props.Random
import Verif.Spec.Seed
import Verif.Proofs.Seed
import Verif.Proofs.Certify
import Verif.Props.Concrete
import Verif.Model.Prints
import Verif.Spec.Prints
import Verif.Proofs.Scatter
import Verif.Props.Prints
import Verif.Props.RepairBits
import Verif.Props.Contracts
import Verif.Props.NttContracts
import Verif.Model.Accessors
import Verif.Props.Accessors
import Verif.Model.Leak
import Verif.Proofs.Leak
import Verif.Proofs.LeakSim
import Verif.Proofs.LeakRelease
import Verif.Props.Leak
import Verif.Model.LeakKeys
import Verif.Proofs.LeakKeys
import Verif.Props.LeakKeys
import Verif.Props.Traces
import Verif.Model.RepairTests
import Verif.Props.RepairTests
import Verif.Model.Debug
import Verif.Props.Debug
import Verif.Model.Sha
import Verif.Spec.Sha
import Verif.Props.SeedExpansion
import Verif.Model.Prime
import Verif.Spec.Prime
import Verif.Props.PrimeTest
import Verif.Props.PrimeRuns
import Verif.Spec.Shape
import Verif.Props.Robust
import Verif.Spec.Adaptive
import Verif.Props.Adaptive
import Verif.Props.Attack
import Verif.Spec.Weighted
import Verif.Proofs.Weighted
import Verif.Props.Weighted
import Verif.Props.FunctionPrivacy
import Verif.Spec.Sizes
import Verif.Props.Sizes
import Verif.Props.AnyEntries
import Verif.Props.Succeeds
import Verif.Spec.Forge
import Verif.Props.Integrity
import Verif.Props.Compressed
import Verif.Spec.Detect
import Verif.Props.Detect
import Verif.Spec.Readme
import Verif.Proofs.Readme
import Verif.Props.Readme
import Verif.Spec.ClueLength
import Verif.Proofs.ClueLength
import Verif.Props.ClueLength
import Verif.Spec.Recipients
import Verif.Proofs.Hybrid
import Verif.Props.Recipients
import Verif.Spec.Accept
import Verif.Proofs.BfvAccept
import Verif.Props.Accept
import Verif.Spec.Insiders
import Verif.Props.Insiders
import Verif.Spec.Oracle
import Verif.Props.Oracle
import Verif.Props.WrongKey
import Verif.Spec.Linear
import Verif.Props.Linear
import Verif.Spec.Reaction
import Verif.Props.Reaction
import Verif.Spec.ClientReaction
import Verif.Props.ClientReaction
import Verif.Spec.Watch
import Verif.Proofs.LeakExact
import Verif.Proofs.LeakSign
import Verif.Props.Watch
import Verif.Model.LeakServer
import Verif.Proofs.LeakServer
import Verif.Props.LeakServer
import Verif.Model.RepairLeak
import Verif.Proofs.RepairLeak
import Verif.Props.Mask
import Verif.Proofs.ExpandTail
import Verif.Props.ExpandTail
import Verif.Proofs.AnswerTail
import Verif.Props.AnswerTail
import Verif.Model.Cost
import Verif.Spec.Cost
import Verif.Proofs.Cost
import Verif.Proofs.CostServer
import Verif.Props.Cost
import Verif.Model.Stop
import Verif.Spec.Stop
import Verif.Proofs.Stop
import Verif.Props.Stop
import Verif.Props.Examples
import Verif.Proofs.StopTail
import Verif.Props.StopTail
import Verif.Model.CostClient
import Verif.Proofs.CostClient
import Verif.Props.CostClient
import Verif.Model.CostMul
import Verif.Proofs.CostMul
import Verif.Props.CostMul
import Verif.Spec.Attained
import Verif.Proofs.Attained
import Verif.Props.Attained
import Verif.Spec.Laws
import Verif.Props.Laws
import Verif.Spec.SimdExact
import Verif.Props.SimdExact
import Verif.Spec.Reuse
import Verif.Props.Reuse
import Verif.Props.SwitchLaws
import Verif.Spec.KnownErrors
import Verif.Props.KnownErrors
import Verif.Props.Committing
import Verif.Spec.External
import Verif.Props.External
import Verif.Props.RandomCt
import Verif.Spec.AddClue
import Verif.Props.AddClue
import Verif.Spec.KeyFix
import Verif.Props.KeyFix
import Verif.Spec.Refresh
import Verif.Props.Refresh
import Verif.Spec.OpenClue
import Verif.Props.OpenClue
