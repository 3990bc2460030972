import Verif.Audit
import Verif.BN
import Verif.BucketState
import Verif.Decision
import Verif.DecisionNet
import Verif.Dtype
import Verif.Dynamic
import Verif.Exact
import Verif.Examples.Complete
import Verif.Examples.Converge
import Verif.Examples.Decision
import Verif.Examples.Factor
import Verif.Examples.Fit
import Verif.Examples.History
import Verif.Examples.IO
import Verif.Examples.Network
import Verif.Examples.Rate
import Verif.Examples.RepoTests
import Verif.Examples.Rewrite
import Verif.Examples.RoundedDecision
import Verif.Examples.RoundedSampling
import Verif.Examples.Sampling
import Verif.Examples.Sensitive
import Verif.Examples.Separation
import Verif.Examples.Tree
import Verif.Examples.UnrollGraph
import Verif.Examples.Utility
import Verif.Factor
import Verif.Generator
import Verif.HashNet
import Verif.Heap
import Verif.HeapQuery
import Verif.IO
import Verif.JoinTree
import Verif.Lemmas.Active
import Verif.Lemmas.Ascent
import Verif.Lemmas.Blind
import Verif.Lemmas.BlindLoad
import Verif.Lemmas.BlindState
import Verif.Lemmas.Bucket
import Verif.Lemmas.BucketSize
import Verif.Lemmas.Build
import Verif.Lemmas.BuildSpec
import Verif.Lemmas.Calibrate
import Verif.Lemmas.Chain
import Verif.Lemmas.Classic
import Verif.Lemmas.CliqueSize
import Verif.Lemmas.Clusters
import Verif.Lemmas.Complete
import Verif.Lemmas.Connected
import Verif.Lemmas.Construct
import Verif.Lemmas.Converge
import Verif.Lemmas.Create
import Verif.Lemmas.CreateAny
import Verif.Lemmas.DNet
import Verif.Lemmas.Decision
import Verif.Lemmas.DecisionNet
import Verif.Lemmas.Dependent
import Verif.Lemmas.DocView
import Verif.Lemmas.Double
import Verif.Lemmas.Draw
import Verif.Lemmas.Dtype
import Verif.Lemmas.DtypeDecision
import Verif.Lemmas.DtypeProg
import Verif.Lemmas.DtypeTree
import Verif.Lemmas.Dynamic
import Verif.Lemmas.Ergodic
import Verif.Lemmas.Escape
import Verif.Lemmas.Exchange
import Verif.Lemmas.FactorMarg
import Verif.Lemmas.FactorMisc
import Verif.Lemmas.FactorOp
import Verif.Lemmas.Feedback
import Verif.Lemmas.Fit
import Verif.Lemmas.Forest
import Verif.Lemmas.Forget
import Verif.Lemmas.ForgetMany
import Verif.Lemmas.ForgetManySoft
import Verif.Lemmas.ForgetSlices
import Verif.Lemmas.ForgetSoft
import Verif.Lemmas.Forward
import Verif.Lemmas.Frame
import Verif.Lemmas.Generator
import Verif.Lemmas.GeneratorUse
import Verif.Lemmas.HashCoherent
import Verif.Lemmas.HashGraph
import Verif.Lemmas.HashLocal
import Verif.Lemmas.HashNet
import Verif.Lemmas.HashStep
import Verif.Lemmas.Heap
import Verif.Lemmas.HeapMake
import Verif.Lemmas.HeapMul
import Verif.Lemmas.HeapOps
import Verif.Lemmas.HeapOther
import Verif.Lemmas.HeapQuery
import Verif.Lemmas.HeapSim
import Verif.Lemmas.HeapTree
import Verif.Lemmas.Hugin
import Verif.Lemmas.Isolated
import Verif.Lemmas.Jeffrey
import Verif.Lemmas.Joint
import Verif.Lemmas.Kahn
import Verif.Lemmas.Kernel
import Verif.Lemmas.Leaf
import Verif.Lemmas.Leak
import Verif.Lemmas.LeftOut
import Verif.Lemmas.Load
import Verif.Lemmas.Loaded
import Verif.Lemmas.Markov
import Verif.Lemmas.MarkovBlanket
import Verif.Lemmas.NDArray
import Verif.Lemmas.Naive
import Verif.Lemmas.NetInv
import Verif.Lemmas.NetInv2
import Verif.Lemmas.NetLookup
import Verif.Lemmas.NetRename
import Verif.Lemmas.NetSig
import Verif.Lemmas.NetStep
import Verif.Lemmas.NetView
import Verif.Lemmas.Network
import Verif.Lemmas.Node
import Verif.Lemmas.Optimize
import Verif.Lemmas.Order
import Verif.Lemmas.Over
import Verif.Lemmas.ParseAny
import Verif.Lemmas.ParseDoc
import Verif.Lemmas.Path
import Verif.Lemmas.Perturb
import Verif.Lemmas.Polytree
import Verif.Lemmas.Py
import Verif.Lemmas.Query
import Verif.Lemmas.QuerySim
import Verif.Lemmas.Rand
import Verif.Lemmas.RangeLoad
import Verif.Lemmas.RangeQuery
import Verif.Lemmas.RangeTree
import Verif.Lemmas.Rate
import Verif.Lemmas.Refuse
import Verif.Lemmas.Rewrite
import Verif.Lemmas.RoundTrip
import Verif.Lemmas.Rounded
import Verif.Lemmas.RoundedBound
import Verif.Lemmas.RoundedChain
import Verif.Lemmas.RoundedCount
import Verif.Lemmas.RoundedDecision
import Verif.Lemmas.RoundedDynamic
import Verif.Lemmas.RoundedForward
import Verif.Lemmas.RoundedKernel
import Verif.Lemmas.RoundedNet
import Verif.Lemmas.RoundedOff
import Verif.Lemmas.RoundedRange
import Verif.Lemmas.RoundedRun
import Verif.Lemmas.RoundedShape
import Verif.Lemmas.RoundedSoftFeedback
import Verif.Lemmas.RoundedTrap
import Verif.Lemmas.RoundedTree
import Verif.Lemmas.RoundedUtility
import Verif.Lemmas.RoundedVE
import Verif.Lemmas.RoundedWheel
import Verif.Lemmas.Rules
import Verif.Lemmas.Scale
import Verif.Lemmas.Schedule
import Verif.Lemmas.Sensitive
import Verif.Lemmas.Sensor
import Verif.Lemmas.Separation
import Verif.Lemmas.SetEvidence
import Verif.Lemmas.Sharp
import Verif.Lemmas.SharpCount
import Verif.Lemmas.Skew
import Verif.Lemmas.SoftEvidence
import Verif.Lemmas.SoftFeedback
import Verif.Lemmas.SoftTree
import Verif.Lemmas.Span
import Verif.Lemmas.SpecFile
import Verif.Lemmas.Splits
import Verif.Lemmas.Strategy
import Verif.Lemmas.Sum
import Verif.Lemmas.Swap
import Verif.Lemmas.TableRoom
import Verif.Lemmas.TableText
import Verif.Lemmas.Targets
import Verif.Lemmas.TreeHist
import Verif.Lemmas.Uniform
import Verif.Lemmas.Unroll
import Verif.Lemmas.UnrollNet
import Verif.Lemmas.UnrollSoft
import Verif.Lemmas.Utility
import Verif.Lemmas.Wheel
import Verif.Lemmas.WideOrder
import Verif.Lemmas.XmlDoc
import Verif.NDArray
import Verif.Network
import Verif.Node
import Verif.Order
import Verif.Props.Ascent
import Verif.Props.BucketSize
import Verif.Props.BucketTree
import Verif.Props.Chain
import Verif.Props.CliqueSize
import Verif.Props.Complete
import Verif.Props.Construct
import Verif.Props.Converge
import Verif.Props.Decision
import Verif.Props.DecisionNet
import Verif.Props.Draw
import Verif.Props.Dtype
import Verif.Props.Dynamic
import Verif.Props.Exact
import Verif.Props.Exchange
import Verif.Props.Factor
import Verif.Props.FactorQuery
import Verif.Props.Fit
import Verif.Props.Forget
import Verif.Props.ForgetMany
import Verif.Props.ForgetManySoft
import Verif.Props.ForgetSoft
import Verif.Props.ForgetTwo
import Verif.Props.Generator
import Verif.Props.Greedy
import Verif.Props.HashNet
import Verif.Props.Heap
import Verif.Props.HeapQuery
import Verif.Props.IO
import Verif.Props.JoinTree
import Verif.Props.LeftOut
import Verif.Props.Network
import Verif.Props.Node
import Verif.Props.PosteriorDraw
import Verif.Props.RangeTree
import Verif.Props.Rate
import Verif.Props.Requests
import Verif.Props.Rewrite
import Verif.Props.Rounded
import Verif.Props.RoundedAscent
import Verif.Props.RoundedDecision
import Verif.Props.RoundedDynamic
import Verif.Props.RoundedRange
import Verif.Props.RoundedSampling
import Verif.Props.RoundedSoftFeedback
import Verif.Props.RoundedTree
import Verif.Props.Sampling
import Verif.Props.Scale
import Verif.Props.Sensitive
import Verif.Props.Sensor
import Verif.Props.Separation
import Verif.Props.Sharp
import Verif.Props.Targets
import Verif.Props.Unroll
import Verif.Props.UnrollGraph
import Verif.Props.Utility
import Verif.Props.WideOrder
import Verif.Py
import Verif.Rounded
import Verif.RoundedDecision
import Verif.RoundedDynamic
import Verif.RoundedSampling
import Verif.Sampling
import Verif.Spec.Ascent
import Verif.Spec.BucketSize
import Verif.Spec.CliqueSize
import Verif.Spec.Construct
import Verif.Spec.Converge
import Verif.Spec.Decision
import Verif.Spec.DecisionNet
import Verif.Spec.Draw
import Verif.Spec.Dtype
import Verif.Spec.Dynamic
import Verif.Spec.Fit
import Verif.Spec.Forest
import Verif.Spec.Forget
import Verif.Spec.ForgetMany
import Verif.Spec.Generator
import Verif.Spec.Graph
import Verif.Spec.Greedy
import Verif.Spec.HashNet
import Verif.Spec.Heap
import Verif.Spec.HeapQuery
import Verif.Spec.IO
import Verif.Spec.JoinTree
import Verif.Spec.Joint
import Verif.Spec.LeftOut
import Verif.Spec.Moral
import Verif.Spec.NetState
import Verif.Spec.Network
import Verif.Spec.Node
import Verif.Spec.Polytree
import Verif.Spec.PosteriorDraw
import Verif.Spec.Rand
import Verif.Spec.Range
import Verif.Spec.RangeTree
import Verif.Spec.Rate
import Verif.Spec.Requests
import Verif.Spec.Rewrite
import Verif.Spec.Rounded
import Verif.Spec.RoundedAscent
import Verif.Spec.RoundedDecision
import Verif.Spec.RoundedDynamic
import Verif.Spec.RoundedSampling
import Verif.Spec.RoundedTree
import Verif.Spec.Sampling
import Verif.Spec.Schedule
import Verif.Spec.Sensitive
import Verif.Spec.Sensor
import Verif.Spec.Separation
import Verif.Spec.Soft
import Verif.Spec.Sum
import Verif.Spec.Targets
import Verif.Spec.Uniform
import Verif.Spec.Unroll
import Verif.Spec.Utility
