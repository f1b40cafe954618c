import Verif.Model.Py
import Verif.Model.Globals
import Verif.Model.Elements
import Verif.Model.Graph
import Verif.Spec.Globals
import Verif.Spec.Elements
import Verif.Spec.Graph
import Verif.Lemmas.Globals
import Verif.Lemmas.Elements
import Verif.Lemmas.Graph
import Verif.Lemmas.Traverse
import Verif.Props.Globals
import Verif.Props.Elements
import Verif.Props.Graph
import Verif.Props.Traverse
import Verif.Model.Flux
import Verif.Spec.Flux
import Verif.Lemmas.Flux
import Verif.Props.Flux
import Verif.Props.Flux2
import Verif.Props.Flux3
import Verif.Model.Transform
import Verif.Spec.Transform
import Verif.Lemmas.Transform
import Verif.Lemmas.Transform2
import Verif.Lemmas.Unimodular
import Verif.Lemmas.ChargeSpace
import Verif.Lemmas.T2
import Verif.Lemmas.ConstructT2
import Verif.Lemmas.LibExists
import Verif.Lemmas.ExampleCircuit
import Verif.Props.Transform
import Verif.Props.GramSchmidt
import Verif.Props.SecondTransform
import Verif.Model.Coupling
import Verif.Spec.Coupling
import Verif.Lemmas.Coupling
import Verif.Props.Coupling
import Verif.Model.Ops
import Verif.Lemmas.Ops
import Verif.Lemmas.Hamil
import Verif.Props.Ops
import Verif.Model.Index
import Verif.Model.State
import Verif.Spec.Index
import Verif.Spec.State
import Verif.Lemmas.State
import Verif.Props.Index
import Verif.Props.State
import Verif.Model.CircuitPhys
import Verif.Lemmas.CircuitPhys
import Verif.Lemmas.LcBuild
import Verif.Spec.CircuitState
import Verif.Lemmas.CircuitState
import Verif.Lemmas.LcState
import Verif.Props.CircuitState
import Verif.Model.Grad
import Verif.Model.Noise
import Verif.Spec.Grad
import Verif.Lemmas.Grad
import Verif.Lemmas.Eigen
import Verif.Props.Grad
import Verif.Props.Eigen
import Verif.Model.NoiseBuild
import Verif.Lemmas.BuildKeys
import Verif.Lemmas.Dephasing
import Verif.Props.SecondDeriv
import Verif.Props.Dephasing
import Verif.Spec.Rates
import Verif.Lemmas.Rates
import Verif.Props.Rates
import Verif.Model.Params
import Verif.Props.Params
import Verif.Model.Copy
import Verif.Spec.Copy
import Verif.Lemmas.Copy
import Verif.Props.Copy
import Verif.Model.System
import Verif.Spec.System
import Verif.Lemmas.System
import Verif.Props.System
import Verif.Props.SystemHam
import Verif.Model.Special
import Verif.Props.Special
import Verif.Model.Phase
import Verif.Spec.Phase
import Verif.Lemmas.Hermite
import Verif.Lemmas.Phase
import Verif.Props.Phase
import Verif.Props.PhaseOps
import Verif.Model.Sweep
import Verif.Props.Converge
import Verif.Props.Sweep
import Verif.Model.Symbolic
import Verif.Spec.Symbolic
import Verif.Spec.Constructed
import Verif.Lemmas.Constructed
import Verif.Props.FinalModes
import Verif.Props.Symbolic
import Verif.Props.Constructed
import Verif.Model.Describe
import Verif.Spec.Fluxonium
import Verif.Lemmas.Fluxonium
import Verif.Props.Describe
import Verif.Props.Fluxonium
import Verif.Props.Inputs
import Verif.Model.Torch
import Verif.Spec.Torch
import Verif.Lemmas.Torch
import Verif.Props.Torch
import Verif.Model.Tracking
import Verif.Props.Tracking
import Verif.Model.Readers
import Verif.Spec.Readers
import Verif.Props.Readers
import Verif.Lemmas.Perturb
import Verif.Spec.Levels
import Verif.Props.Levels
import Verif.Props.LevelsSession
import Verif.Props.LevelsExample
import Verif.Props.DephasingLevels
import Verif.Props.DephasingExample
import Verif.Props.GoldenRule
import Verif.Props.Transmon
import Verif.Props.TransmonExample
import Verif.Spec.Islands
import Verif.Lemmas.Islands
import Verif.Props.Islands
import Verif.Props.Islands2
import Verif.Props.Islands3
import Verif.Spec.Reversal
import Verif.Lemmas.Reversal
import Verif.Props.Reversal
import Verif.Props.SimpleSpectrum
import Verif.Spec.Truncation
import Verif.Lemmas.Interlace
import Verif.Lemmas.Truncation
import Verif.Props.Truncation
import Verif.Model.PhaseGrid
import Verif.Spec.PhaseGrid
import Verif.Props.PhaseGrid
import Verif.Spec.Linear
import Verif.Lemmas.Linear
import Verif.Props.Linear
import Verif.Props.LinearExample
import Verif.Lemmas.ChargeShift
import Verif.Spec.ChargePeriod
import Verif.Props.ChargePeriod
import Verif.Lemmas.Weyl
import Verif.Spec.Stability
import Verif.Props.Stability
import Verif.Props.FluxDist
import Verif.Lemmas.FluxInteger
import Verif.Props.FluxPeriod
import Verif.Model.DecRateGrad
import Verif.Spec.DecRateGrad
import Verif.Lemmas.DecRateGrad
import Verif.Props.DecRateGrad
import Verif.Lemmas.ThreeStates
import Verif.Props.DecRateGradExample
import Verif.Spec.Merge
import Verif.Lemmas.Merge
import Verif.Props.Merge
import Verif.Lemmas.MergeIslands
import Verif.Lemmas.MergeEls
import Verif.Lemmas.MergeIsland2
import Verif.Lemmas.MergeSystem
import Verif.Lemmas.MergeCoef
import Verif.Lemmas.MergeSpace
import Verif.Props.MergeCircuit
import Verif.Spec.Parallel
import Verif.Lemmas.Parallel
import Verif.Lemmas.LoopFree
import Verif.Props.Parallel
import Verif.Model.LinAlg
import Verif.Spec.LinAlg
import Verif.Props.LinAlg
import Verif.Lemmas.Relabel
import Verif.Props.Relabel
import Verif.Props.RelabelLoops
import Verif.Model.SweepLoss
import Verif.Props.SweepLoss
import Verif.Props.SweepLossExample
import Verif.Spec.Reported
import Verif.Props.DephasingSession
import Verif.Props.DephasingCharge
import Verif.Props.DephasingSessionExample
import Verif.Spec.Resonator
import Verif.Props.ResonatorLoss
import Verif.Props.ResonatorLossExample
import Verif.Model.GradSession
import Verif.Props.ResonatorSlope
import Verif.Props.ResonatorSlopeExample
import Verif.Props.IslandSlope
import Verif.Props.IslandSlopeSession
import Verif.Props.IslandSlopeExample
import Verif.Props.IslandSlopeRefuted
import Verif.Lemmas.Engines
import Verif.Lemmas.EngineBuild
import Verif.Spec.Engines
import Verif.Props.Engines
import Verif.Model.Listing
import Verif.Spec.Listing
import Verif.Lemmas.Listing
import Verif.Props.Listing
import Verif.Spec.Reground
import Verif.Lemmas.Reground
import Verif.Props.Reground
import Verif.Model.Shared
import Verif.Spec.Shared
import Verif.Lemmas.Shared
import Verif.Props.Shared
import Verif.Spec.MonoCap
import Verif.Lemmas.MonoCap
import Verif.Props.MonoCap
import Verif.Model.Lists
import Verif.Spec.Lists
import Verif.Props.Lists
import Verif.Model.Failure
import Verif.Spec.Failure
import Verif.Props.Failure
import Verif.Spec.FromEnd
import Verif.Props.FromEnd
import Verif.Props.FromEndExample
import Verif.Spec.Scaling
import Verif.Props.Scaling
import Verif.Props.ScalingExample
import Verif.Lemmas.Parity
import Verif.Props.Parity
import Verif.Props.ParityExample
import Verif.Spec.Voltage
import Verif.Lemmas.Voltage
import Verif.Props.Voltage
import Verif.Props.VoltageExample
import Verif.Lemmas.Parts
import Verif.Props.Parts
import Verif.Props.PartsSession
import Verif.Props.PartsExample
import Verif.Spec.Participation
import Verif.Lemmas.Participation
import Verif.Props.NetworkLoss
import Verif.Props.NetworkLossExample
import Verif.Spec.Floating
import Verif.Lemmas.Floating
import Verif.Props.Floating
import Verif.Props.FloatingDraws
import Verif.Props.FloatingExample
import Verif.Spec.ModeCount
import Verif.Lemmas.ModeCount
import Verif.Props.ModeCount
import Verif.Spec.Grounded
import Verif.Lemmas.Grounded
import Verif.Lemmas.GroundedOps
import Verif.Props.Grounded
import Verif.Props.GroundedExample
import Verif.Spec.Rayleigh
import Verif.Lemmas.Rayleigh
import Verif.Props.Rayleigh
import Verif.Spec.LoopSigns
import Verif.Lemmas.Network
import Verif.Lemmas.LoopSigns
import Verif.Props.LoopSigns
import Verif.Props.LoopSignsHeld
import Verif.Props.LoopSignsExample
import Verif.Spec.FluxKinds
import Verif.Lemmas.FluxKinds
import Verif.Props.FluxKinds
import Verif.Props.FluxKindsExample
import Verif.Spec.Ladders
import Verif.Lemmas.Ladders
import Verif.Props.Ladders
import Verif.Props.LaddersExample
import Verif.Props.HeldBound
import Verif.Props.HeldBoundExample
import Verif.Lemmas.KyFan
import Verif.Props.Concave
import Verif.Props.ConcaveExample
import Verif.Model.SystemSession
import Verif.Spec.SystemSession
import Verif.Lemmas.SystemSession
import Verif.Props.SystemSession
import Verif.Props.SystemFit
import Verif.Props.SystemFitExample
import Verif.Props.ListingTerms
import Verif.Props.LevelsElement
import Verif.Model.SweepObject
import Verif.Spec.SweepObject
import Verif.Props.SweepObject
import Verif.Props.SweepObjectExample
import Verif.Spec.SolverChoice
import Verif.Props.SolverChoice
import Verif.Props.SolverChoiceExample
import Verif.Spec.ThermalSession
import Verif.Props.ThermalSession
import Verif.Props.ThermalSessionExample
import Verif.Props.ReversalRates
import Verif.Props.ReversalRatesExample
import Verif.Props.NewElements
import Verif.Props.ParamLists
