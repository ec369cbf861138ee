import Verif.Model.Arith
import Verif.Model.Belief
import Verif.Model.Categoric
import Verif.Model.Evidence
import Verif.Model.Factor
import Verif.Model.Function
import Verif.Model.Gibbs
import Verif.Model.Graph
import Verif.Model.Heap
import Verif.Model.Insert
import Verif.Model.Json
import Verif.Model.Models
import Verif.Model.Names
import Verif.Model.Outcome
import Verif.Model.Pool
import Verif.Model.Query
import Verif.Model.Range
import Verif.Model.Report
import Verif.Model.Rounded
import Verif.Model.Special
import Verif.Model.Strategy
import Verif.Model.Text
import Verif.Model.Train
import Verif.Model.Trainer
import Verif.Model.Word
import Verif.Model.Xml
import Verif.Spec.Alike
import Verif.Spec.Basic
import Verif.Spec.Changed
import Verif.Spec.Cluster
import Verif.Spec.CrfGradient
import Verif.Spec.CrfPrudent
import Verif.Spec.CrfSafety
import Verif.Spec.Document
import Verif.Spec.Exec
import Verif.Spec.Gibbs
import Verif.Spec.GibbsLaw
import Verif.Spec.Gradient
import Verif.Spec.Graph
import Verif.Spec.Import
import Verif.Spec.Joint
import Verif.Spec.Json
import Verif.Spec.Law
import Verif.Spec.Likelihood
import Verif.Spec.Models
import Verif.Spec.Pool
import Verif.Spec.Prudent
import Verif.Spec.Race
import Verif.Spec.Repeat
import Verif.Spec.Report
import Verif.Spec.Rounding
import Verif.Spec.Safety
import Verif.Spec.Scale
import Verif.Spec.Sign
import Verif.Spec.Strategy
import Verif.Spec.Sums
import Verif.Spec.Text
import Verif.Spec.Trainer
import Verif.Spec.Weight
import Verif.Spec.Xml
import Verif.Lemmas.AMap
import Verif.Lemmas.Absorb
import Verif.Lemmas.AbsorbAll
import Verif.Lemmas.AbsorbParts
import Verif.Lemmas.AbsorbReach
import Verif.Lemmas.Alike
import Verif.Lemmas.Ask
import Verif.Lemmas.Assign
import Verif.Lemmas.BeliefExact
import Verif.Lemmas.Calm
import Verif.Lemmas.Clusters
import Verif.Lemmas.Component
import Verif.Lemmas.Concave
import Verif.Lemmas.Conditional
import Verif.Lemmas.Crf
import Verif.Lemmas.CrfDefined
import Verif.Lemmas.CrfGradient
import Verif.Lemmas.CrfLikelihood
import Verif.Lemmas.CrfReach
import Verif.Lemmas.CrfSafety
import Verif.Lemmas.CrfShared
import Verif.Lemmas.CrfSound
import Verif.Lemmas.CrfTrain
import Verif.Lemmas.Cycle
import Verif.Lemmas.Document
import Verif.Lemmas.DocumentAll
import Verif.Lemmas.DocumentState
import Verif.Lemmas.Exact
import Verif.Lemmas.Ext
import Verif.Lemmas.Factor
import Verif.Lemmas.Frequency
import Verif.Lemmas.FullConditional
import Verif.Lemmas.Function
import Verif.Lemmas.Gibbs
import Verif.Lemmas.GibbsLaw
import Verif.Lemmas.GibbsLimit
import Verif.Lemmas.GibbsParallel
import Verif.Lemmas.Gradient
import Verif.Lemmas.Graph
import Verif.Lemmas.GraphSpec
import Verif.Lemmas.Group
import Verif.Lemmas.Import
import Verif.Lemmas.ImportState
import Verif.Lemmas.InsertInv
import Verif.Lemmas.Inv
import Verif.Lemmas.Joint
import Verif.Lemmas.JointExact
import Verif.Lemmas.JointPositive
import Verif.Lemmas.JointSingle
import Verif.Lemmas.JointSummed
import Verif.Lemmas.Json
import Verif.Lemmas.JsonInsert
import Verif.Lemmas.JsonRead
import Verif.Lemmas.JsonTrip
import Verif.Lemmas.Likelihood
import Verif.Lemmas.Loopy
import Verif.Lemmas.LoopySame
import Verif.Lemmas.Marginal
import Verif.Lemmas.Max
import Verif.Lemmas.Merge
import Verif.Lemmas.Nan
import Verif.Lemmas.Near
import Verif.Lemmas.Net
import Verif.Lemmas.Pool
import Verif.Lemmas.PoolLive
import Verif.Lemmas.Positive
import Verif.Lemmas.Propagate
import Verif.Lemmas.Quant
import Verif.Lemmas.QueryInv
import Verif.Lemmas.Race
import Verif.Lemmas.Range
import Verif.Lemmas.Reach
import Verif.Lemmas.Repeat
import Verif.Lemmas.RepeatRun
import Verif.Lemmas.Report
import Verif.Lemmas.Res
import Verif.Lemmas.Rounded
import Verif.Lemmas.Safety
import Verif.Lemmas.Sampling
import Verif.Lemmas.Scale
import Verif.Lemmas.ScaleGraph
import Verif.Lemmas.ScaleJoint
import Verif.Lemmas.ScaleRun
import Verif.Lemmas.Sign
import Verif.Lemmas.SignState
import Verif.Lemmas.Sound
import Verif.Lemmas.Special
import Verif.Lemmas.Strategy
import Verif.Lemmas.Sweep
import Verif.Lemmas.Tally
import Verif.Lemmas.Text
import Verif.Lemmas.TrainDefined
import Verif.Lemmas.Trainer
import Verif.Lemmas.Tree
import Verif.Lemmas.TreeSet
import Verif.Lemmas.Tuners
import Verif.Lemmas.Weight
import Verif.Lemmas.Word
import Verif.Lemmas.XmlInsert
import Verif.Lemmas.XmlRead
import Verif.Lemmas.XmlTrip
import Verif.Props.Bayes
import Verif.Props.Categoric
import Verif.Props.Changed
import Verif.Props.ChangedMap
import Verif.Props.Cluster
import Verif.Props.Concave
import Verif.Props.Concrete
import Verif.Props.Crf
import Verif.Props.CrfGradient
import Verif.Props.CrfSafety
import Verif.Props.Distribution
import Verif.Props.Document
import Verif.Props.Exact
import Verif.Props.ExactMap
import Verif.Props.Examples
import Verif.Props.Factor
import Verif.Props.FactorOps
import Verif.Props.Fresh
import Verif.Props.FullConditional
import Verif.Props.Gibbs
import Verif.Props.GibbsLimit
import Verif.Props.Gradient
import Verif.Props.Graph
import Verif.Props.Import
import Verif.Props.Insert
import Verif.Props.Joint
import Verif.Props.JointPositive
import Verif.Props.JointSingle
import Verif.Props.JointSummed
import Verif.Props.Json
import Verif.Props.Law
import Verif.Props.Loopy
import Verif.Props.Models
import Verif.Props.Names
import Verif.Props.Pool
import Verif.Props.Propagation
import Verif.Props.Repeat
import Verif.Props.Report
import Verif.Props.Rounding
import Verif.Props.RoundingMap
import Verif.Props.Safety
import Verif.Props.Sampling
import Verif.Props.Scale
import Verif.Props.ScaleJoint
import Verif.Props.Schedule
import Verif.Props.Special
import Verif.Props.Strategy
import Verif.Props.Text
import Verif.Props.Threads
import Verif.Props.TrainExamples
import Verif.Props.TrainSet
import Verif.Props.Trainer
import Verif.Props.Weights
import Verif.Props.Word
import Verif.Props.Xml
import Verif.Tests.Functions
import Verif.Tests.Models
