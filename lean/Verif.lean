import Verif.Prog
import Verif.Float.Round
import Verif.Float.F64
import Verif.Float.Lemmas
import Verif.Stats
import Verif.Individual
import Verif.Slice
import Verif.Population
import Verif.Random
import Verif.Interpolate
import Verif.Spec
import Verif.Neighbors
import Verif.Crossover
import Verif.Mutation
import Verif.Selection
import Verif.SpecSelection
import Verif.Float.Sqrt
import Verif.Proofs.RealArith
import Verif.Proofs.Stats
import Verif.Proofs.StatsF64
import Verif.Proofs.Population
import Verif.Proofs.Random
import Verif.Proofs.Interpolate
import Verif.Proofs.Neighbors
import Verif.Proofs.Gpx2
import Verif.Proofs.Scx
import Verif.Proofs.Erx
import Verif.Proofs.Pmx
import Verif.Proofs.Ox
import Verif.Proofs.Cx
import Verif.Proofs.Mutation
import Verif.Proofs.Selection
import Verif.Proofs.Wheel
import Verif.Proofs.WheelF64
import Verif.Proofs.Linear
import Verif.Props.Stats
import Verif.Props.Population
import Verif.Props.Random
import Verif.Props.Interpolate
import Verif.Props.Neighbors
import Verif.Props.Crossover
import Verif.Props.Mutation
import Verif.Props.Selection
import Verif.Props.Linear
import Verif.Model
import Verif.Algorithm
import Verif.Evolution
import Verif.ProgSame
import Verif.SpecModel
import Verif.SpecAlgorithm
import Verif.Proofs.Model
import Verif.Proofs.Algorithm
import Verif.Props.Model
import Verif.Props.Algorithm
import Verif.Proofs.Evolution
import Verif.Props.Evolution
import Verif.Props.Total
import Verif.OneMax
import Verif.Proofs.OneMax
import Verif.Props.OneMax
import Verif.Props.OneMaxOps
import Verif.Proofs.Distribution
import Verif.Props.Distribution
import Verif.Proofs.Total
import Verif.Proofs.Convergence
import Verif.Proofs.GaConvergence
import Verif.Proofs.Ladder
import Verif.Proofs.GaLadder
import Verif.Props.Convergence
import Verif.Proofs.Stuck
import Verif.Props.Stuck
import Verif.Props.Dispatch
import Verif.Props.Ladder
import Verif.Props.Wheel
import Verif.Proofs.OneMaxClimb
import Verif.Props.OneMaxConvergence
import Verif.Props.OneMaxRandom
import Verif.Proofs.AgaLadder
import Verif.Props.AgaConvergence
import Verif.SpecRun
import Verif.Proofs.Generation
import Verif.Props.Generation
import Verif.SpecOffspring
import Verif.Proofs.Partitions
import Verif.Props.Partitions
import Verif.Props.Offspring
import Verif.Release
import Verif.Props.Release
import Verif.Display
import Verif.Props.Display
import Verif.Proofs.Spread
import Verif.Props.Spread
import Verif.Proofs.CrossLadder
import Verif.Props.CrossLadder
import Verif.Props.OneMaxAga
import Verif.SpecFloat
import Verif.Props.Float
import Verif.Props.Pressure
import Verif.Proofs.WheelNeg
import Verif.Props.WheelNeg
import Verif.Proofs.LinearF64
import Verif.Props.LinearF64
import Verif.Sampling
import Verif.Proofs.Sampling
import Verif.Props.Sampling
import Verif.Rand
import Verif.Proofs.Rand
import Verif.Props.Rand
import Verif.Proofs.SmallRng
import Verif.Props.SmallRng
import Verif.Route
import Verif.Props.Route
import Verif.Props.Trap
import Verif.Props.StatsError
import Verif.Props.Parallel
import Verif.ParallelRun
import Verif.Props.ParallelRun
import Verif.FloatText
import Verif.Props.FloatText
import Verif.Props.Documentation
import Verif.Props.DocAsserts
import Verif.Bench
import Verif.SpecBench
import Verif.Proofs.Bench
import Verif.Props.Bench
import Verif.Proofs.Drift
import Verif.Props.Drift
import Verif.Proofs.Mixing
import Verif.Props.Mixing
import Verif.Reentrant
import Verif.Proofs.Reentrant
import Verif.Props.Reentrant
import Verif.Proofs.Renaming
import Verif.Props.Renaming
import Verif.Proofs.Stagnation
import Verif.Props.Stagnation
import Verif.Coupling
import Verif.SpecHomomorphism
import Verif.Proofs.Homomorphism
import Verif.Props.Homomorphism
import Verif.Props.Deterministic
import Verif.Proofs.Cooling
import Verif.Props.Cooling
import Verif.Proofs.Loci
import Verif.Props.Loci
import Verif.SpecTour
import Verif.Proofs.Tour
import Verif.Props.Tour
import Verif.Proofs.SameTrip
import Verif.Props.SameTrip
import Verif.Proofs.AdaptiveF64
import Verif.Props.AdaptiveF64
import Verif.Proofs.Agreement
import Verif.Props.Agreement
import Verif.Props.Speed
import Verif.Proofs.Takeover
import Verif.Props.Takeover
import Verif.ReleaseRun
import Verif.Props.ReleaseRun
import Verif.Props.FromIndividual
import Verif.Calls
import Verif.Proofs.Calls
import Verif.Props.Calls
import Verif.Props.RouteAga
import Verif.Writing
import Verif.Props.Writing
import Verif.Memory
import Verif.Props.Memory
import Verif.Proofs.Placement
import Verif.Props.Placement
import Verif.Shared
import Verif.Proofs.Shared
import Verif.Props.Shared
import Verif.Proofs.Play
import Verif.Props.Play
import Verif.Cost
import Verif.Proofs.Cost
import Verif.Props.Cost
import Verif.CostGpx2
import Verif.Proofs.CostGpx2
import Verif.Props.CostGpx2
import Verif.CostStrategy
import Verif.Proofs.CostStrategy
import Verif.Props.CostStrategy
import Verif.Unwind
import Verif.Proofs.Unwind
import Verif.Props.Unwind
import Verif.SpecSchema
import Verif.Proofs.Schema
import Verif.Props.Schema
import Verif.SpecDraws
import Verif.Proofs.Draws
import Verif.Props.Draws
import Verif.Proofs.Gain
import Verif.Props.Gain
import Verif.Asking
import Verif.Proofs.Asking
import Verif.Props.Asking
import Verif.Props.Fisher
import Verif.Props.Strength
import Verif.Props.Mixture
import Verif.Props.Waiting
import Verif.Proofs.Slow
import Verif.Props.Slow
import Verif.Proofs.Potential
import Verif.Proofs.OneMaxSlow
import Verif.Props.Potential
import Verif.Props.SlowIndividual
import Verif.StrategyEq
import Verif.Props.StrategyEq
import Verif.Props.StrategyRun
import Verif.Props.OddBoltzmann
import Verif.Props.LinearBias
import Verif.Props.LinearHuge
import Verif.Props.LoneParent
import Verif.Props.LoneRun
import Verif.Props.LinearPanicRun
import Verif.Props.RareCrossover
import Verif.Props.CrossRate
import Verif.Props.CloneRate
import Verif.Props.Dominant
import Verif.Props.ParentOrder
import Verif.Props.QuietGeneration
