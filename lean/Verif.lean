import Verif.Audit
import Verif.BN.Assembly
import Verif.BN.Circuit
import Verif.BN.CircuitLemmas
import Verif.BN.CircuitNode
import Verif.BN.CircuitNodeLemmas
import Verif.BN.CircuitNodeNeat
import Verif.BN.Forward
import Verif.BN.ForwardLemmas
import Verif.BN.FromTable
import Verif.BN.Messages
import Verif.Circuit.Attach
import Verif.Circuit.Batch
import Verif.Circuit.BatchLemmas
import Verif.Circuit.CondBalanced
import Verif.Circuit.CondDensity
import Verif.Circuit.CondInv
import Verif.Circuit.CondKind
import Verif.Circuit.CondLeaf
import Verif.Circuit.CondPass
import Verif.Circuit.CondPruned
import Verif.Circuit.CondReady
import Verif.Circuit.CondTree
import Verif.Circuit.CondUnion
import Verif.Circuit.Conditional
import Verif.Circuit.CopyLemmas
import Verif.Circuit.Denotes
import Verif.Circuit.DetAttach
import Verif.Circuit.DetSum
import Verif.Circuit.DetSumLemmas
import Verif.Circuit.Equality
import Verif.Circuit.EqualityLemmas
import Verif.Circuit.Factorized
import Verif.Circuit.FiniteMoment
import Verif.Circuit.Gauge
import Verif.Circuit.Induced
import Verif.Circuit.Integral
import Verif.Circuit.Interaction
import Verif.Circuit.InteractionLemmas
import Verif.Circuit.Join
import Verif.Circuit.JoinLemmas
import Verif.Circuit.Json
import Verif.Circuit.JsonLemmas
import Verif.Circuit.LeafMix
import Verif.Circuit.Marginal
import Verif.Circuit.MarginalLemmas
import Verif.Circuit.Mixture
import Verif.Circuit.Mode
import Verif.Circuit.ModeLemmas
import Verif.Circuit.Moment
import Verif.Circuit.MomentLemmas
import Verif.Circuit.MomentMix
import Verif.Circuit.MomentRange
import Verif.Circuit.MomentValue
import Verif.Circuit.Mount
import Verif.Circuit.MountLayered
import Verif.Circuit.MountLemmas
import Verif.Circuit.MoveLemmas
import Verif.Circuit.MultinomialCircuit
import Verif.Circuit.Neat
import Verif.Circuit.NodesWeights
import Verif.Circuit.NodesWeightsLemmas
import Verif.Circuit.Normalize
import Verif.Circuit.NormalizeLemmas
import Verif.Circuit.ProbLemmas
import Verif.Circuit.Probability
import Verif.Circuit.Query
import Verif.Circuit.Rename
import Verif.Circuit.Sample
import Verif.Circuit.SampleLemmas
import Verif.Circuit.SampleRandom
import Verif.Circuit.SampleRandomLemmas
import Verif.Circuit.Shallow
import Verif.Circuit.ShallowL1
import Verif.Circuit.ShallowL1Lemmas
import Verif.Circuit.ShallowLoop
import Verif.Circuit.ShallowMain
import Verif.Circuit.ShallowProd
import Verif.Circuit.ShallowProduct
import Verif.Circuit.ShallowRec
import Verif.Circuit.ShallowSum
import Verif.Circuit.ShallowTree
import Verif.Circuit.ShallowValue
import Verif.Circuit.ShallowView
import Verif.Circuit.Simplify
import Verif.Circuit.SimplifyLemmas
import Verif.Circuit.SimplifyStep
import Verif.Circuit.Structure
import Verif.Circuit.Subgraph
import Verif.Circuit.Support
import Verif.Circuit.SupportLemmas
import Verif.Circuit.Transform
import Verif.Circuit.TransformLemmas
import Verif.Circuit.UniformLemmas
import Verif.Circuit.UniformMeasure
import Verif.Circuit.ValueLemmas
import Verif.Circuit.Woven
import Verif.Circuit.WovenLayered
import Verif.Dist.Batch
import Verif.Dist.BatchLemmas
import Verif.Dist.CdfMeasure
import Verif.Dist.CondLemmas
import Verif.Dist.Conditional
import Verif.Dist.DictLemmas
import Verif.Dist.Discrete
import Verif.Dist.DiscreteLemmas
import Verif.Dist.FitLemmas
import Verif.Dist.GaussMoment
import Verif.Dist.Hash
import Verif.Dist.LawLemmas
import Verif.Dist.Leaf
import Verif.Dist.LeafLemmas
import Verif.Dist.Mode
import Verif.Dist.ModeLemmas
import Verif.Dist.Moment
import Verif.Dist.MomentLemmas
import Verif.Dist.MoveLemmas
import Verif.Dist.Multinomial
import Verif.Dist.MultinomialJson
import Verif.Dist.MultinomialLemmas
import Verif.Dist.Sampling
import Verif.Dist.SamplingLemmas
import Verif.Dist.Transform
import Verif.Dist.TransformLemmas
import Verif.Events.Algebra
import Verif.Events.Basic
import Verif.Events.Sets
import Verif.Graph.Basic
import Verif.Graph.Bfs
import Verif.Graph.BfsReach
import Verif.Graph.EvalLemmas
import Verif.Graph.Iso
import Verif.Graph.Pass
import Verif.Graph.Refine
import Verif.Graph.RefineError
import Verif.Graph.Valid
import Verif.Graph.ValidLemmas
import Verif.Heap.Basic
import Verif.Heap.Frame
import Verif.Heap.MapLeaf
import Verif.Heap.Sim
import Verif.Heap.SimCircuit
import Verif.Heap.World
import Verif.Jax.Arrays
import Verif.Jax.Classify
import Verif.Jax.ClassifyLemmas
import Verif.Jax.Convert
import Verif.Jax.ConvertLayers
import Verif.Jax.ConvertLemmas
import Verif.Jax.ConvertMain
import Verif.Jax.Coupling
import Verif.Jax.CouplingLemmas
import Verif.Jax.Fit
import Verif.Jax.FitLemmas
import Verif.Jax.FitNumbers
import Verif.Jax.FitPositive
import Verif.Jax.Indices
import Verif.Jax.IndicesLemmas
import Verif.Jax.Json
import Verif.Jax.LayerMass
import Verif.Jax.LayerMassMain
import Verif.Jax.Layers
import Verif.Jax.LayersLemmas
import Verif.Jax.ToNx
import Verif.Jax.ToNxBuild
import Verif.Jax.ToNxFinal
import Verif.Jax.ToNxLemmas
import Verif.Jax.ToNxMain
import Verif.Jax.ToNxStructure
import Verif.Jax.ToNxValue
import Verif.Learn.Config
import Verif.Learn.ConfigFit
import Verif.Learn.ConfigLemmas
import Verif.Learn.FrameFit
import Verif.Learn.Jpt
import Verif.Learn.JptColumn
import Verif.Learn.JptConditionLemmas
import Verif.Learn.JptFit
import Verif.Learn.JptMarginal
import Verif.Learn.JptMode
import Verif.Learn.JptMomentsLemmas
import Verif.Learn.JptSeparate
import Verif.Learn.JptSupportLemmas
import Verif.Learn.JptUni
import Verif.Learn.JptUniLemmas
import Verif.Learn.Nyga
import Verif.Learn.NygaFit
import Verif.Learn.NygaGeometry
import Verif.Learn.NygaLemmas
import Verif.Learn.NygaMixture
import Verif.Learn.NygaMixtureLemmas
import Verif.Learn.NygaObject
import Verif.Learn.Preprocess
import Verif.Learn.Refit
import Verif.Learn.RefitLemmas
import Verif.Learn.RegionCircuit
import Verif.Learn.RegionCircuitLemmas
import Verif.Learn.RegionCircuitMain
import Verif.Learn.RegionGraph
import Verif.Learn.RegionGraphLemmas
import Verif.Learn.RegionTree
import Verif.Learn.Variables
import Verif.MonteCarlo.Circuit
import Verif.MonteCarlo.CircuitDensity
import Verif.MonteCarlo.Estimator
import Verif.Num.LogP
import Verif.Props.Aliasing
import Verif.Props.Arrays
import Verif.Props.Batch
import Verif.Props.BayesianNetwork
import Verif.Props.CircuitNode
import Verif.Props.CircuitNodeTotal
import Verif.Props.Classify
import Verif.Props.Commute
import Verif.Props.Conditional
import Verif.Props.ConditionalDensity
import Verif.Props.ConditionalExamples
import Verif.Props.ConditionalPieces
import Verif.Props.Confined
import Verif.Props.Consistent
import Verif.Props.Convert
import Verif.Props.ConvertLeaves
import Verif.Props.ConvertMixed
import Verif.Props.Copies
import Verif.Props.Coupling
import Verif.Props.DetSum
import Verif.Props.Equality
import Verif.Props.Evidence
import Verif.Props.EvidenceOrder
import Verif.Props.ExampleTools
import Verif.Props.Examples
import Verif.Props.Factorized
import Verif.Props.FrameFit
import Verif.Props.FromTable
import Verif.Props.Hash
import Verif.Props.Histories
import Verif.Props.Independence
import Verif.Props.Indices
import Verif.Props.Interaction
import Verif.Props.Jpt
import Verif.Props.JptCondition
import Verif.Props.JptMarginal
import Verif.Props.JptMode
import Verif.Props.JptMoments
import Verif.Props.JptPredict
import Verif.Props.JptRange
import Verif.Props.JptSupport
import Verif.Props.JptUni
import Verif.Props.LayerFit
import Verif.Props.LayerJson
import Verif.Props.LayerMass
import Verif.Props.Layers
import Verif.Props.LeafConditional
import Verif.Props.LeafDiscrete
import Verif.Props.Likeliest
import Verif.Props.Marginal
import Verif.Props.Mode
import Verif.Props.Moments
import Verif.Props.MonteCarlo
import Verif.Props.MonteCarloBias
import Verif.Props.MonteCarloCircuit
import Verif.Props.Mount
import Verif.Props.MountNetwork
import Verif.Props.Move
import Verif.Props.Multinomial
import Verif.Props.MultinomialJson
import Verif.Props.NetworkCircuit
import Verif.Props.NodesWeights
import Verif.Props.Normalize
import Verif.Props.Nyga
import Verif.Props.NygaMixture
import Verif.Props.NygaObject
import Verif.Props.Plain
import Verif.Props.Posterior
import Verif.Props.PosteriorMode
import Verif.Props.PosteriorSupport
import Verif.Props.Preprocess
import Verif.Props.Probability
import Verif.Props.Pruned
import Verif.Props.Queries
import Verif.Props.Refit
import Verif.Props.RegionCircuit
import Verif.Props.RegionGraph
import Verif.Props.Rename
import Verif.Props.Sample
import Verif.Props.SampleLaw
import Verif.Props.Sampling
import Verif.Props.Shallow
import Verif.Props.ShallowL1
import Verif.Props.ShallowL1Examples
import Verif.Props.Simplify
import Verif.Props.Structure
import Verif.Props.Subgraph
import Verif.Props.Support
import Verif.Props.ToNx
import Verif.Props.Transform
import Verif.Props.TreeConfig
import Verif.Props.UniformBox
import Verif.Props.UniformDensity
import Verif.Props.UniformMeasure
import Verif.Props.UniformUnion
import Verif.Props.Unions
import Verif.Props.Valid
import Verif.Spec.Aliasing
import Verif.Spec.Arrays
import Verif.Spec.BN
import Verif.Spec.Batch
import Verif.Spec.CircuitNode
import Verif.Spec.Classify
import Verif.Spec.Conditioning
import Verif.Spec.Convert
import Verif.Spec.Coupling
import Verif.Spec.Density
import Verif.Spec.Equality
import Verif.Spec.Eval
import Verif.Spec.Evidence
import Verif.Spec.Expectation
import Verif.Spec.Fit
import Verif.Spec.FitRun
import Verif.Spec.FrameFit
import Verif.Spec.Histories
import Verif.Spec.Indices
import Verif.Spec.Integral
import Verif.Spec.Jpt
import Verif.Spec.JptCondition
import Verif.Spec.JptMarginal
import Verif.Spec.JptMode
import Verif.Spec.JptMoments
import Verif.Spec.JptRange
import Verif.Spec.JptSupport
import Verif.Spec.Law
import Verif.Spec.LayerMass
import Verif.Spec.Layers
import Verif.Spec.Mode
import Verif.Spec.MonteCarlo
import Verif.Spec.MonteCarloCircuit
import Verif.Spec.Mounting
import Verif.Spec.Move
import Verif.Spec.Multinomial
import Verif.Spec.NoNormal
import Verif.Spec.Nyga
import Verif.Spec.Paths
import Verif.Spec.Preprocess
import Verif.Spec.Pruned
import Verif.Spec.Refit
import Verif.Spec.RegionCircuit
import Verif.Spec.RegionGraph
import Verif.Spec.Rename
import Verif.Spec.Renamed
import Verif.Spec.Sample
import Verif.Spec.Sampling
import Verif.Spec.Shallow
import Verif.Spec.Sharing
import Verif.Spec.Support
import Verif.Spec.ToNx
import Verif.Spec.Transform
import Verif.Spec.TreeConfig
import Verif.Spec.Uniform
import Verif.Spec.Valid
import Verif.Spec.Value
