import Verif.Props.Base
import Verif.Props.Poly
import Verif.Props.Flp
import Verif.Props.Xof
import Verif.Props.Prio3
import Verif.Props.Idpf
import Verif.Props.Poplar1
import Verif.Props.Poplar1Main
import Verif.Props.PingPong
import Verif.Props.Shamir
import Verif.Props.Constructors
import Verif.Props.Fuel
import Verif.Props.Custom
import Verif.Props.Derive
import Verif.Props.TestVectors
import Verif.Props.Privacy
import Verif.Props.Reject
import Verif.Props.Hiding
import Verif.Props.Poplar1Privacy
import Verif.Props.Robustness
import Verif.Props.PrivacyActive
import Verif.Props.RobustGame
import Verif.Props.TestVdafs
import Verif.Spec.RandomOracle
import Verif.Proofs.RomGame
import Verif.Proofs.RomPair
import Verif.Proofs.RomBad
import Verif.Proofs.RomMain
import Verif.Proofs.RomKey
import Verif.Props.RandomOracle
import Verif.Props.Poplar1Game
import Verif.Spec.PrivacyOracle
import Verif.Proofs.PrivacyQuery
import Verif.Proofs.PrivacyTransport
import Verif.Proofs.PrivacyGuess
import Verif.Proofs.PrivacyCount
import Verif.Proofs.PrivacyModified
import Verif.Proofs.PrivacyBound
import Verif.Props.PrivacyOracle
import Verif.Props.GenTestVec
import Verif.Proofs.StreamSample
import Verif.Spec.Poplar1Oracle
import Verif.Proofs.PoplarTree
import Verif.Proofs.PoplarShard
import Verif.Proofs.PoplarCount
import Verif.Proofs.PoplarHonest
import Verif.Proofs.PoplarCells
import Verif.Proofs.PoplarIdeal
import Verif.Proofs.PoplarCouple
import Verif.Proofs.PoplarGood
import Verif.Proofs.PoplarMix
import Verif.Proofs.PoplarAct
import Verif.Proofs.PoplarHits
import Verif.Proofs.PoplarRe
import Verif.Proofs.PoplarTau
import Verif.Proofs.PoplarPlay
import Verif.Proofs.PoplarRom
import Verif.Props.Poplar1Oracle
import Verif.Spec.PingPongAttack
import Verif.Proofs.Simulate
import Verif.Proofs.PingPongPrio3
import Verif.Proofs.PingPongSim
import Verif.Proofs.PingPongReduce
import Verif.Props.PingPongAttack
import Verif.Proofs.PingPongPoplar1
import Verif.Proofs.PingPongPoplarSim
import Verif.Proofs.PingPongPoplarReduce
import Verif.Props.PingPongPoplar
import Verif.Spec.PingPongRobust
import Verif.Proofs.PingPongRobust
import Verif.Proofs.PingPongRobustPrio3
import Verif.Proofs.PingPongRobustPoplar
import Verif.Props.PingPongRobust
import Verif.Spec.Binding
import Verif.Proofs.FewProofs
import Verif.Proofs.Binding
import Verif.Proofs.BindingJoint
import Verif.Proofs.BindingPoplar
import Verif.Props.Binding
import Verif.Spec.PingPongOpen
import Verif.Proofs.OracleTree
import Verif.Proofs.OpenSim
import Verif.Proofs.OpenCost
import Verif.Proofs.OpenView
import Verif.Proofs.OpenPrio3
import Verif.Proofs.OpenPoplar
import Verif.Props.PingPongOpen
import Verif.Props.PingPongOpenPoplar
import Verif.Model.AnyFlp
import Verif.Spec.AnyFlp
import Verif.Proofs.AnyFlp
import Verif.Proofs.AnyFlpSound
import Verif.Proofs.AnyFlpInst
import Verif.Proofs.AnyFlpCodec
import Verif.Props.AnyFlp
import Verif.Model.TestHarness
import Verif.Spec.TestHarness
import Verif.Proofs.TestHarness
import Verif.Props.TestHarness
import Verif.Proofs.Forge
import Verif.Proofs.Reuse
import Verif.Proofs.Params
import Verif.Proofs.Twice
import Verif.Props.Necessary
import Verif.Proofs.Twin
import Verif.Props.OneMeasurement
import Verif.Spec.HeavyHitters
import Verif.Proofs.HeavyHitters
import Verif.Props.HeavyHitters
import Verif.Spec.RobustAggregate
import Verif.Proofs.RobustAggregate
import Verif.Props.RobustAggregate
import Verif.Proofs.HeavyOnce
import Verif.Spec.HeavyOracle
import Verif.Proofs.HeavyOracle
import Verif.Props.HeavyOracle
import Verif.Spec.Sizes
import Verif.Proofs.Sizes
import Verif.Props.Sizes
import Verif.Spec.Completeness
import Verif.Proofs.SampleLaw
import Verif.Proofs.Completeness
import Verif.Proofs.SampleTail
import Verif.Props.Completeness
import Verif.Spec.WireSizes
import Verif.Proofs.WireSizes
import Verif.Props.WireSizes
import Verif.Spec.Agreement
import Verif.Proofs.Agreement
import Verif.Props.Agreement
import Verif.Spec.AgreementAll
import Verif.Proofs.AgreementAll
import Verif.Props.AgreementAll
import Verif.Props.ShardArgs
import Verif.Proofs.ReportUnique
import Verif.Proofs.ReportUniqueTree
import Verif.Props.ReportUnique
import Verif.Model.TypeParams
import Verif.Spec.TypeParams
import Verif.Proofs.TypeParams
import Verif.Props.TypeParams
import Verif.Spec.ChunkLength
import Verif.Proofs.ChunkLength
import Verif.Props.ChunkLength
import Verif.Spec.LevelConsistency
import Verif.Proofs.LevelConsistency
import Verif.Props.LevelConsistency
import Verif.Spec.Influence
import Verif.Proofs.Influence
import Verif.Props.Influence
import Verif.Proofs.VecSizes
import Verif.Props.VecSizes
import Verif.Props.FlpArgs
import Verif.Proofs.BatchSplit
import Verif.Props.BatchSplit
import Verif.Vectors
