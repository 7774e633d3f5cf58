import Verif.Graph.Basic
import Verif.Graph.Forest
import Verif.Structure.Model
import Verif.Structure.Lemmas
import Verif.Structure.Props
import Verif.BBN.Sum
import Verif.BBN.Model
import Verif.BBN.Table
import Verif.BBN.TreeSum
import Verif.BBN.Propagate
import Verif.BBN.JoinTree
import Verif.BBN.Kruskal
import Verif.BBN.Triangulate
import Verif.BBN.Spec
import Verif.BBN.Query
import Verif.BBN.Answer
import Verif.BBN.Original
import Verif.BBN.Local
import Verif.BBN.Props
import Verif.BBN.PropsTree
import Verif.BBN.Engine
import Verif.BBN.EngineInv
import Verif.BBN.Ancestral
import Verif.BBN.SpecDo
import Verif.BBN.EngineProps
import Verif.BBN.Sample
import Verif.BBN.SampleLemmas
import Verif.BBN.SampleProps
import Verif.BBN.SampleFloat
import Verif.BBN.SampleFloatLaw
import Verif.BBN.Rounding
import Verif.BBN.RoundingSim
import Verif.BBN.RoundingQuery
import Verif.BBN.RoundingProps
import Verif.BBN.EngineFloat
import Verif.BBN.EngineFloatInv
import Verif.BBN.EngineFloatProps
import Verif.BBN.EngineFloatWitness
import Verif.BBN.QueryCongr
import Verif.BBN.EngineHeap
import Verif.BBN.EngineHeapSpec
import Verif.BBN.EngineHeapLemmas
import Verif.BBN.EngineHeapRep
import Verif.BBN.EngineHeapSim
import Verif.BBN.EngineHeapProps
import Verif.Network.Model
import Verif.Network.Lemmas
import Verif.Network.Spec
import Verif.Network.Fit
import Verif.Network.Tables
import Verif.Network.Props
import Verif.Network.PropsFit
import Verif.Network.PropsPredict
import Verif.Network.Pattern
import Verif.Network.PropsIncomplete
import Verif.Network.ToEngine
import Verif.Network.Witness
import Verif.Network.PropsStates
import Verif.Discretiser.Model
import Verif.Discretiser.Spec
import Verif.Discretiser.Props
import Verif.Transform.Model
import Verif.Transform.Spec
import Verif.Transform.Props
import Verif.Notears.Acyclic
import Verif.Notears.Model
import Verif.Notears.Spec
import Verif.Notears.Loop
import Verif.Notears.Props
import Verif.Notears.PropsPandas
import Verif.Notears.Witness
import Verif.Notears.Deriv
import Verif.Notears.Objective
import Verif.Notears.PropsObjective
import Verif.Notears.WitnessObjective
import Verif.Str.Basic
import Verif.Dynotears.Model
import Verif.Dynotears.Spec
import Verif.Dynotears.Props
import Verif.Dynotears.PropsPandas
import Verif.Dynotears.Objective
import Verif.Dynotears.Witness
import Verif.Str.Dict
import Verif.Mapper.Model
import Verif.Mapper.Spec
import Verif.Mapper.Props
import Verif.Mapper.IntProps
import Verif.Mapper.PropsSchema
import Verif.Evaluation.Model
import Verif.Evaluation.Spec
import Verif.Evaluation.PropsCurve
import Verif.Evaluation.Props
import Verif.Evaluation.Witness
import Verif.Generators.Model
import Verif.Generators.Spec
import Verif.Generators.Props
import Verif.Generators.Dynamic
import Verif.Generators.DynamicSpec
import Verif.Generators.DynamicProps
import Verif.Generators.Topo
import Verif.Generators.Simulate
import Verif.Generators.SimulateProps
import Verif.Generators.Witness
import Verif.Generators.Poisson
import Verif.Generators.Gp
import Verif.Generators.GpProps
import Verif.Generators.Sem
import Verif.Generators.SemSpec
import Verif.Generators.Blocks
import Verif.Generators.Binary
import Verif.Generators.SemLemmas
import Verif.Generators.SemRun
import Verif.Generators.SemProps
import Verif.Generators.SemWitness
import Verif.Pytorch.Link
import Verif.Pytorch.LinkProps
import Verif.Pytorch.Reconstruct
import Verif.Pytorch.Expand
import Verif.Pytorch.ExpandSpec
import Verif.Pytorch.ExpandLemmas
import Verif.Pytorch.ExpandProps
import Verif.Pytorch.ExpandTabu
import Verif.Pytorch.ExpandNames
import Verif.Pytorch.Mlp
import Verif.Pytorch.MlpProps
import Verif.Pytorch.Fit
import Verif.Pytorch.Collapse
import Verif.Pytorch.CollapseProps
import Verif.Pytorch.Loss
import Verif.Pytorch.LossProps
import Verif.Pytorch.Learn
import Verif.Pytorch.LearnProps
import Verif.Pytorch.LearnAcyclic
import Verif.Pytorch.LearnPandas
import Verif.Pytorch.LearnExamples
import Verif.Sklearn.Model
import Verif.Sklearn.Pure
import Verif.Sklearn.Facts
import Verif.Sklearn.PropsFit
import Verif.Sklearn.PropsPredict
import Verif.Sklearn.PropsClf
import Verif.Sklearn.PropsCoef
import Verif.Sklearn.PropsLinear
import Verif.Sklearn.PropsRefit
import Verif.Sklearn.Examples
import Verif.Sklearn.PropsFailed
import Verif.Sklearn.FailedExample
import Verif.Float.Basic
import Verif.Float.Sum
import Verif.Plots.Color
import Verif.Plots.ColorProps
import Verif.Plots.ColorMain
import Verif.Plots.Attr
import Verif.Plots.AttrProps
import Verif.Plots.AttrMain
import Verif.Generators.Wrappers
import Verif.Generators.WrappersProps
import Verif.Generators.WrappersWitness
import Verif.Generators.Stationary
import Verif.Generators.StationarySpec
import Verif.Generators.StationaryProps
import Verif.Generators.StationaryWitness
import Verif.Notears.Optimal
import Verif.Notears.PropsOptimal
import Verif.Dynotears.Optimal
import Verif.Pytorch.Optimal
import Verif.Notears.WitnessOptimal
import Verif.Notears.Multiplier
import Verif.Notears.PropsMultiplier
import Verif.Dynotears.Multiplier
import Verif.Notears.WitnessMultiplier
import Verif.Pytorch.Smooth
import Verif.Pytorch.Multiplier
import Verif.Pytorch.Effects
import Verif.Pytorch.WitnessMultiplier
import Verif.BBN.Conditionals
import Verif.BBN.Names
import Verif.Graph.DSep
import Verif.BBN.DSep
import Verif.BBN.PropsDSep
import Verif.BBN.Backdoor
import Verif.BBN.PropsAct
import Verif.BBN.Policy
import Verif.BBN.PropsPolicy
import Verif.BBN.Diverge
import Verif.Network.Likelihood
import Verif.BBN.LocalMarkov
import Verif.Network.PredictQuery
import Verif.Network.Counts
import Verif.BBN.Coherent
import Verif.Notears.Reorder
import Verif.Notears.WitnessReorder
import Verif.Notears.Moments
import Verif.Network.FitFloat
import Verif.Network.QueryFloat
import Verif.Network.WitnessFloat
import Verif.BBN.MinFill
import Verif.BBN.Chordal
import Verif.Dynotears.Moments
import Verif.Dynotears.Reorder
import Verif.Dynotears.WitnessMoments
import Verif.Pytorch.Rows
import Verif.Pytorch.WitnessRows
import Verif.Sklearn.Rows
import Verif.Sklearn.WitnessRows
import Verif.Float.Mono
import Verif.Discretiser.Float
import Verif.Discretiser.PropsFloat
import Verif.Sklearn.Plot
import Verif.Sklearn.PropsPlot
import Verif.Evaluation.PropsFrequency
import Verif.Evaluation.PropsReport
import Verif.Generators.Law.Props
import Verif.Generators.Law.Logit
import Verif.Generators.Law.Witness
import Verif.Network.Pipeline
import Verif.Generators.Law.ErdosMean
import Verif.Generators.Law.Barabasi
import Verif.Generators.Law.BarabasiMean
import Verif.Generators.Law.StructWitness
import Verif.Notears.PropsIdentify
import Verif.Notears.WitnessIdentify
import Verif.Simulate.Moments
import Verif.Simulate.Learn
import Verif.Simulate.Witness
import Verif.Consistent.Frequency
import Verif.Consistent.Truth
import Verif.Consistent.Estimate
import Verif.Consistent.Joint
import Verif.Consistent.Props
import Verif.Consistent.Witness
import Verif.BBN.SampleMany
import Verif.BBN.SampleIid
import Verif.BBN.SampleIidWitness
import Verif.Consistent.Rows
import Verif.Consistent.RoundTrip
import Verif.Consistent.RoundTripWitness
import Verif.Notears.Penalty
import Verif.Dynotears.Penalty
import Verif.Notears.MinimaExist
import Verif.Dynotears.Identify
import Verif.Dynotears.PropsIdentify
import Verif.Dynotears.WitnessIdentify
import Verif.Plots.Display
import Verif.Pytorch.Identify
import Verif.Pytorch.WitnessIdentify
import Verif.Consistent.Predict
import Verif.Consistent.Causal
import Verif.Pytorch.IdentifyBias
import Verif.Sklearn.Recover
import Verif.Sklearn.WitnessRecover
import Verif.Recover.Average
import Verif.Recover.Noise
import Verif.Recover.Spec
import Verif.Recover.Props
import Verif.Recover.Witness
import Verif.Recover.Lags
import Verif.Recover.DynSpec
import Verif.Recover.Martingale
import Verif.Recover.DynProps
import Verif.Recover.Stable
import Verif.Recover.DynGenerated
import Verif.Recover.DynStream
import Verif.Recover.DynWitness
import Verif.BBN.RenameSpec
import Verif.BBN.Rename
import Verif.Network.Rename
import Verif.Network.WitnessRename
import Verif.Consistent.Stream
import Verif.Evaluation.Limit
import Verif.Evaluation.LimitWitness
import Verif.Consistent.Enough
import Verif.Consistent.SampleFrequency
import Verif.Consistent.SampleFrequencyWitness
import Verif.Discretiser.Balance
import Verif.Discretiser.Population
import Verif.Discretiser.PopulationWitness
import Verif.Network.EquivalentWitness
import Verif.Network.FrequenciesWitness
import Verif.Network.Scores
import Verif.Network.ScoresWitness
import Verif.BBN.Exchange
import Verif.Network.EquivalentDo
import Verif.Network.FitDo
import Verif.Network.EquivalentDoWitness
import Verif.Consistent.CausalMany
import Verif.Consistent.CausalManyWitness
import Verif.Evaluation.Trained
import Verif.Evaluation.TrainedWitness
import Verif.Generators.Law.DynamicSpec
import Verif.Generators.Law.Dynamic
import Verif.Generators.Law.DynamicMean
import Verif.Generators.Law.DynamicWitness
import Verif.BBN.FrontDoor
import Verif.BBN.PropsFrontDoor
import Verif.Recover.DynFrame
import Verif.Recover.DynFrameWitness
import Verif.Recover.TorchSpec
import Verif.Recover.Torch
import Verif.Recover.TorchWitness
import Verif.Consistent.Limit
import Verif.Consistent.LimitLinked
import Verif.Consistent.AnyLaw
import Verif.Consistent.AnyLawProps
import Verif.Consistent.AnyLawPredict
import Verif.Consistent.Closest
import Verif.Consistent.AnyLawWitness
import Verif.Network.LeaveOut
import Verif.Network.LeaveOutWitness
import Verif.Sklearn.Units
import Verif.Sklearn.WitnessUnits
import Verif.Network.Prior
import Verif.Network.PriorWitness
import Verif.Network.Pooled
import Verif.Network.PooledWitness
import Verif.Network.Stable
import Verif.Network.StableWitness
import Verif.Discretiser.Units
import Verif.Evaluation.Extremes
import Verif.Evaluation.ExtremesWitness
import Verif.Evaluation.ReportBounds
