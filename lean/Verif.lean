import Verif.Props.UnionFind
import Verif.Props.UnionFindLabels
import Verif.Props.Sorting
import Verif.Props.Buffer
import Verif.Props.BuildCost
import Verif.Props.KDTree
import Verif.Props.Search
import Verif.Props.Distances
import Verif.Props.Levenshtein
import Verif.Props.DBSCAN
import Verif.Props.Matrix
import Verif.Props.Bounds
import Verif.Props.Random
import Verif.Props.Statistics
import Verif.Props.ClosestPair
import Verif.Props.Boruvka
import Verif.Props.Dendrogram
import Verif.Props.HDBSCAN
import Verif.Props.KMeans
import Verif.Props.KMeansFit
import Verif.Props.KMedoids
import Verif.Props.KMedoidsFit
import Verif.Props.FasterPAM
import Verif.Props.FasterMSC
import Verif.Props.PAMBuild
import Verif.Props.Silhouette
import Verif.Props.DualTree
import Verif.Props.BoruvkaDual
import Verif.Props.BoruvkaThree
import Verif.Props.Balance
import Verif.Props.SearchBatch
import Verif.Props.DBSCANOrder
import Verif.Props.DBSCANTrace
import Verif.Props.Rounding
import Verif.Props.RoundingTree
import Verif.Props.SingleLinkage
import Verif.Props.Origin
import Verif.Props.SearchOrder
import Verif.Props.DensityTree
import Verif.Props.Serialize
import Verif.Props.BoxSearch
import Verif.Props.MachineIndex
import Verif.Props.MachineInt
import Verif.Props.KMeansConvergence
import Verif.Props.DBSCANGeometry
import Verif.Props.HDBSCANGeometry
import Verif.Props.KMeansGeometry
import Verif.Props.KMeansOrder
import Verif.Props.KMeansRounding
import Verif.Props.KMeansRange
import Verif.Props.Parallel
import Verif.Props.ParallelFind
import Verif.Props.SearchParallel
import Verif.Props.Lifetime
import Verif.Props.Seed
import Verif.Props.NonFinite
import Verif.Props.Scale
import Verif.Props.SharedIndices
import Verif.Props.DefaultTree
import Verif.Props.Degenerate
import Verif.Props.ClosestPairAgree
import Verif.Props.RefCount
import Verif.Props.TightLength
import Verif.Props.DBSCANSubset
import Verif.Props.BoruvkaSubset
import Verif.Props.DBSCANIntegral
import Verif.Props.Equality
import Verif.Props.SortCost
import Verif.Props.Units
import Verif.Props.Fitted
import Verif.Props.KMedoidsTies
import Verif.Props.KMedoidsFitMSC
import Verif.Props.AliasRounded
import Verif.Props.SilhouetteRounding
import Verif.Props.CentreMachine
import Verif.Props.HamerlyBound
import Verif.Props.FasterMSCCycle
import Verif.Props.RoundingRange
import Verif.Props.RoundingRangeTree
import Verif.Props.CondensedRounding
import Verif.Props.ReachabilityRange
import Verif.Props.HDBSCANRange
import Verif.Props.FasterPAMRounding
import Verif.Props.KMedoidsFitRounding
import Verif.Props.PAMBuildRounding
import Verif.Props.KMedoidsInt
import Verif.Props.FasterMSCInt
