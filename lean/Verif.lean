import Verif.Basic
import Verif.Bloom.Props
import Verif.Bloom.Rate
import Verif.Bloom.RateProps
import Verif.Cuckoo.Props
import Verif.Cuckoo.RateProps
import Verif.Reservoir.Props
import Verif.Reservoir.Joint
import Verif.Utils.Props
import Verif.Utils.Shuffle
import Verif.Metrics.Props
import Verif.Ltc.Props
import Verif.Chained.Props
import Verif.Bayes.Props
import Verif.Mcnn.Props
import Verif.Mcnn.SplitProps
import Verif.Mlp.Props
import Verif.Mondrian.Props
import Verif.Mondrian.LawProps
import Verif.Mondrian.KernelProps
import Verif.Mondrian.KernelMore
import Verif.Mondrian.Twin
import Verif.Unbound.Props
import Verif.Hoeffding.Props
import Verif.Coarse.Props
import Verif.Coarse.Leaf
import Verif.Coarse.LeafRun
import Verif.Coarse.LeafHist
import Verif.Coarse.SplitProps
import Verif.Coarse.Tour
import Verif.Coarse.Public
import Verif.Coarse.PublicSpec
import Verif.Coarse.Boxes
import Verif.Coarse.PublicProps
import Verif.Coarse.NoTrim
import Verif.Coarse.NoTrimRun
import Verif.Coarse.NoTrimProps
import Verif.Coarse.Optimize
import Verif.Coarse.OptTwin
import Verif.Coarse.OptTree
import Verif.Coarse.OptRun
import Verif.Coarse.OptProps
import Verif.Coarse.Same
import Verif.Coarse.Print
import Verif.Coarse.PrintProps
import Verif.Coarse.PrintRun
import Verif.Coarse.PrintFinal
import Verif.Mondrian.Units
import Verif.Mondrian.UnitsRun
import Verif.Unbound.Units
import Verif.Mcnn.Units
import Verif.Bayes.Units
import Verif.Ltc.TimeUnit
import Verif.Mondrian.Unseen
import Verif.Rounding.Float
import Verif.Rounding.Samplers
import Verif.Rounding.Probability
import Verif.Mondrian.Choose
import Verif.Rounding.Mondrian
import Verif.Rounding.Bayes
import Verif.Rounding.Mcnn
import Verif.Rounding.McnnError
import Verif.Rounding.McnnExact
import Verif.Rounding.Ltc
import Verif.Coarse.OtterProps
import Verif.Coarse.Ideal
import Verif.Coarse.IdealProps
import Verif.Mlp.Descent
import Verif.Hoeffding.Evidence
import Verif.Hoeffding.EvidenceProps
import Verif.Hoeffding.EvidenceWitness
import Verif.Hoeffding.Twin
import Verif.Hoeffding.TwinProps
import Verif.Coarse.Down
import Verif.Coarse.Confine
import Verif.Coarse.Forced
import Verif.Coarse.DownProps
import Verif.Mcnn.Participation
import Verif.Reservoir.Long
import Verif.Chained.Long
import Verif.Chained.Sample
import Verif.Chained.SampleProps
import Verif.Rounding.Metrics
import Verif.Coarse.View
import Verif.Coarse.ViewExtend
import Verif.Coarse.ViewTrim
import Verif.Coarse.ViewRun
import Verif.Coarse.ViewProps
import Verif.Mondrian.Distribution
import Verif.Coarse.Unseen
import Verif.Coarse.Kernel
import Verif.Metrics.Overflow
import Verif.Mcnn.Counters
import Verif.Rounding.McnnTime
import Verif.Mondrian.Counters
import Verif.Mcnn.Separated
import Verif.Chained.Copies
import Verif.Bayes.Settings
import Verif.Mcnn.Settings
import Verif.Mlp.Converge
import Verif.Ltc.Symmetry
import Verif.Ltc.Near
import Verif.Coarse.Average
import Verif.Hoeffding.Copies
import Verif.Hoeffding.CopiesProps
import Verif.Mcnn.IntModel
import Verif.Mcnn.IntLemmas
import Verif.Mcnn.IntRun
import Verif.Mcnn.IntProps
import Verif.Mlp.Symmetry
import Verif.Bayes.Decision
import Verif.Hoeffding.Sides
import Verif.Hoeffding.SidesProps
import Verif.Mondrian.ApartSpec
import Verif.Mondrian.Apart
import Verif.Mondrian.ApartRun
import Verif.Mondrian.ApartProps
import Verif.Mondrian.BatchSpec
import Verif.Mondrian.Batch
import Verif.Mondrian.BatchGrow
import Verif.Mondrian.BatchAdd
import Verif.Mondrian.BatchDraw
import Verif.Mondrian.BatchRun
import Verif.Mondrian.BatchProps
import Verif.Mondrian.BatchJoint
import Verif.Mondrian.BatchPredict
import Verif.Mondrian.BatchPredictProps
import Verif.Coarse.LawProps
import Verif.Mondrian.Leaves
import Verif.Mondrian.LeavesProps
import Verif.Coarse.LeavesProps
import Verif.Bayes.Consistent
import Verif.Mondrian.Learn
import Verif.Mondrian.LearnProps
import Verif.Coarse.LearnProps
import Verif.Ltc.Pieces
import Verif.Reservoir.Estimate
import Verif.Reservoir.EstimateProps
import Verif.Hoeffding.Grow
import Verif.Hoeffding.GrowProps
import Verif.Hoeffding.Majority
import Verif.Metrics.Estimate
import Verif.Reservoir.ExpEstimate
import Verif.Reservoir.Tail
import Verif.Mondrian.Many
import Verif.Mondrian.ManyProps
import Verif.Coarse.ManyProps
import Verif.Cuckoo.RelocateProps
import Verif.Metrics.Copies
import Verif.Rounding.Perceptron
import Verif.Reservoir.Grid
import Verif.Utils.Closed
import Verif.Mondrian.Closed
import Verif.Utils.Grid
import Verif.Reservoir.ExpGrid
import Verif.Chained.Memory
import Verif.Unbound.Closed
import Verif.Mondrian.ClosedRun
import Verif.Utils.PickGrid
import Verif.Mondrian.Few
import Verif.Unbound.Few
import Verif.Chained.Grid
import Verif.Utils.ExpGrid
import Verif.Mondrian.FewTimes
import Verif.Unbound.FewTimes
import Verif.Coarse.Few
import Verif.Mondrian.Seen
import Verif.Unbound.Seen
import Verif.Mondrian.Cost
import Verif.Unbound.Cost
import Verif.Unbound.CostTotal
