import Verif.Base
import Verif.Lemmas.Absorb
import Verif.Lemmas.Annealing
import Verif.Lemmas.Arrays
import Verif.Lemmas.Attr
import Verif.Lemmas.Boltzmann
import Verif.Lemmas.Bqm
import Verif.Lemmas.Columns
import Verif.Lemmas.ColumnsConvert
import Verif.Lemmas.ColumnsPhysical
import Verif.Lemmas.Compile
import Verif.Lemmas.Congruence
import Verif.Lemmas.CongruenceLoops
import Verif.Lemmas.Constraint
import Verif.Lemmas.ConstraintNames
import Verif.Lemmas.Conv
import Verif.Lemmas.Core
import Verif.Lemmas.DeleteFix
import Verif.Lemmas.Dict
import Verif.Lemmas.Equality
import Verif.Lemmas.FixGone
import Verif.Lemmas.Frame
import Verif.Lemmas.Getters
import Verif.Lemmas.Group
import Verif.Lemmas.Inv
import Verif.Lemmas.IsingNames
import Verif.Lemmas.Merge
import Verif.Lemmas.MergeFrame
import Verif.Lemmas.MergeVars
import Verif.Lemmas.Mixing
import Verif.Lemmas.Monad
import Verif.Lemmas.Npp
import Verif.Lemmas.NppAttn
import Verif.Lemmas.NppFilter
import Verif.Lemmas.NppRun
import Verif.Lemmas.NppStream
import Verif.Lemmas.NppTies
import Verif.Lemmas.Numbering
import Verif.Lemmas.Ordered
import Verif.Lemmas.PhysicalCalls
import Verif.Lemmas.Pipeline
import Verif.Lemmas.Proper
import Verif.Lemmas.Prune
import Verif.Lemmas.Rect
import Verif.Lemmas.Registered
import Verif.Lemmas.Rounding
import Verif.Lemmas.RoundingConstraint
import Verif.Lemmas.RoundingPenalty
import Verif.Lemmas.RoundingPhysical
import Verif.Lemmas.RoundingSolve
import Verif.Lemmas.RoundingSpin
import Verif.Lemmas.Run
import Verif.Lemmas.RunErrors
import Verif.Lemmas.Samples
import Verif.Lemmas.SolveAlike
import Verif.Lemmas.Solver
import Verif.Lemmas.Stream
import Verif.Lemmas.Sweeps
import Verif.Lemmas.Terms
import Verif.Lemmas.ToPhysical
import Verif.Lemmas.Tsp
import Verif.Lemmas.TspMap
import Verif.Lemmas.Update
import Verif.Lemmas.Usable
import Verif.Lemmas.VarsInv
import Verif.Lemmas.World
import Verif.Model.Aggregate
import Verif.Model.Attenuation
import Verif.Model.Columns
import Verif.Model.Constraint
import Verif.Model.ConstraintText
import Verif.Model.Convert
import Verif.Model.Core
import Verif.Model.DWave
import Verif.Model.Equality
import Verif.Model.Getters
import Verif.Model.JsonText
import Verif.Model.Npp
import Verif.Model.NppInt
import Verif.Model.NppStream
import Verif.Model.NppText
import Verif.Model.OptiganHttp
import Verif.Model.Options
import Verif.Model.Output
import Verif.Model.Physical
import Verif.Model.PhysicalCalls
import Verif.Model.Pipeline
import Verif.Model.Printing
import Verif.Model.Profile
import Verif.Model.PubSub
import Verif.Model.PubSubCity
import Verif.Model.PublisherText
import Verif.Model.Rounding
import Verif.Model.RoundingConstraint
import Verif.Model.RoundingPhysical
import Verif.Model.RoundingSpin
import Verif.Model.Samplers
import Verif.Model.Samples
import Verif.Model.SetObjects
import Verif.Model.Solver
import Verif.Model.Stream
import Verif.Model.Tsp
import Verif.Model.TspText
import Verif.Model.Types
import Verif.Model.Utils
import Verif.Model.Warnings
import Verif.Model.World
import Verif.Props.Acceptance
import Verif.Props.Aggregate
import Verif.Props.AggregateExact
import Verif.Props.Attenuation
import Verif.Props.AttenuationDefault
import Verif.Props.AttenuationExact
import Verif.Props.Attributes
import Verif.Props.AttributesExact
import Verif.Props.Columns
import Verif.Props.ConstraintText
import Verif.Props.Constraints
import Verif.Props.Construction
import Verif.Props.Conversion
import Verif.Props.ConversionActive
import Verif.Props.ConversionLeft
import Verif.Props.DeleteConstraints
import Verif.Props.DeleteExact
import Verif.Props.DeleteFix
import Verif.Props.DeleteLeft
import Verif.Props.Depends
import Verif.Props.EndToEnd
import Verif.Props.Equality
import Verif.Props.EqualityPhysical
import Verif.Props.Examples
import Verif.Props.FixConstraints
import Verif.Props.FixLeft
import Verif.Props.Getters
import Verif.Props.History
import Verif.Props.Instances
import Verif.Props.InstancesMore
import Verif.Props.InstancesSolver
import Verif.Props.Interactions
import Verif.Props.IsingSolve
import Verif.Props.JsonText
import Verif.Props.Merge
import Verif.Props.MergeExact
import Verif.Props.Npp
import Verif.Props.NppAttn
import Verif.Props.NppFilter
import Verif.Props.NppInt
import Verif.Props.NppStream
import Verif.Props.NppText
import Verif.Props.NppTies
import Verif.Props.OptiganEndToEnd
import Verif.Props.OptiganHttp
import Verif.Props.Options
import Verif.Props.Output
import Verif.Props.Penalty
import Verif.Props.PhysicalCalls
import Verif.Props.PhysicalConvert
import Verif.Props.PhysicalEnergy
import Verif.Props.PhysicalExact
import Verif.Props.PhysicalFailure
import Verif.Props.PhysicalFrame
import Verif.Props.PhysicalMade
import Verif.Props.PhysicalState
import Verif.Props.PhysicalSuccess
import Verif.Props.PhysicalTerms
import Verif.Props.Pipeline
import Verif.Props.Printing
import Verif.Props.PrintingLines
import Verif.Props.Profile
import Verif.Props.PubSub
import Verif.Props.PubSubCity
import Verif.Props.PublisherText
import Verif.Props.Pyqubo
import Verif.Props.PyquboExact
import Verif.Props.Ragged
import Verif.Props.RaggedCalls
import Verif.Props.ReaddExact
import Verif.Props.Registry
import Verif.Props.Rounding
import Verif.Props.RoundingConstraint
import Verif.Props.RoundingPhysical
import Verif.Props.RoundingSpin
import Verif.Props.Samplers
import Verif.Props.SamplersEndToEnd
import Verif.Props.Samples
import Verif.Props.SetObjects
import Verif.Props.SizeExact
import Verif.Props.SolveAlike
import Verif.Props.SolverAccept
import Verif.Props.SolverArgs
import Verif.Props.SolverBase
import Verif.Props.SolverBoltzmann
import Verif.Props.SolverConnected
import Verif.Props.SolverEnergy
import Verif.Props.SolverMade
import Verif.Props.SolverMixing
import Verif.Props.SolverReach
import Verif.Props.SolverSchedule
import Verif.Props.SolverUsable
import Verif.Props.Stream
import Verif.Props.StreamExact
import Verif.Props.StreamHeld
import Verif.Props.StreamState
import Verif.Props.Tidy
import Verif.Props.TidyExact
import Verif.Props.TidyMore
import Verif.Props.Tsp
import Verif.Props.TspPipelineText
import Verif.Props.TspText
import Verif.Props.Utils
import Verif.Props.Variables
import Verif.Props.Warnings
import Verif.Props.Whole
import Verif.Props.World
import Verif.Spec.Acceptance
import Verif.Spec.Args
import Verif.Spec.Arrays
import Verif.Spec.Boltzmann
import Verif.Spec.Constraint
import Verif.Spec.Energy
import Verif.Spec.Equality
import Verif.Spec.Getters
import Verif.Spec.History
import Verif.Spec.Npp
import Verif.Spec.NppFilter
import Verif.Spec.NppStream
import Verif.Spec.NppText
import Verif.Spec.NppTies
import Verif.Spec.Orders
import Verif.Spec.Output
import Verif.Spec.Physical
import Verif.Spec.PhysicalCalls
import Verif.Spec.Pipeline
import Verif.Spec.PubSub
import Verif.Spec.Pyqubo
import Verif.Spec.Reach
import Verif.Spec.Registry
import Verif.Spec.Rounding
import Verif.Spec.RoundingConstraint
import Verif.Spec.RoundingPhysical
import Verif.Spec.RoundingSpin
import Verif.Spec.Samples
import Verif.Spec.Solver
import Verif.Spec.Stream
import Verif.Spec.Tsp
import Verif.Spec.Utils
import Verif.Spec.Warnings
import Verif.Spec.World
