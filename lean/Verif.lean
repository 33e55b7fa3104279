import Verif.Base
import Verif.Sparse
import Verif.SparseLemmas
import Verif.Graph
import Verif.GraphLemmas
import Verif.Spec.WGraph
import Verif.GraphMutate
import Verif.GraphCache
import Verif.Props.Construct
import Verif.Props.Mutate
import Verif.Props.Laplacian
import Verif.Props.Isolated
import Verif.Props.Cache
import Verif.Props.Pointers
import Verif.GraphOpsLemmas
import Verif.Props.GraphOps
import Verif.Props.Named
import Verif.Props.Subgraph
import Verif.Props.Lines
import Verif.Props.Edgelist
import Verif.Concrete
import Verif.Props.Adjacencylist
import Verif.SortEdgelist
import Verif.Props.SortEdgelist
import Verif.Convert
import Verif.Props.Convert
import Verif.LocalGraph
import Verif.Props.LocalGraph
import Verif.Spec.Reach
import Verif.Components
import Verif.Props.Components
import Verif.Cluster
import Verif.Spec.Cut
import Verif.ClusterLemmas
import Verif.Props.SymDiff
import Verif.Props.Conductance
import Verif.Props.Sweep
import Verif.Spec.Pagerank
import Verif.PagerankLemmas
import Verif.Props.Pagerank
import Verif.Props.LocalCluster
import Verif.Props.DiskLocal
import Verif.Props.Metrics
import Verif.Props.MutualInfo
import Verif.Props.Random
import Verif.Props.RandomIO
import Verif.Props.Data
import Verif.Props.Lsh
import Verif.Props.LshProb
import Verif.ThreadPool
import Verif.ThreadPoolLemmas
import Verif.Props.ThreadPool
import Verif.Batch
import Verif.Kde
import Verif.Props.Kde
import Verif.Props.Batch
import Verif.Ckns
import Verif.CknsLemmas
import Verif.Props.Ckns
import Verif.Props.Shells
import Verif.Props.SharedRng
import Verif.Similarity
import Verif.Props.Similarity
import Verif.Props.ApproxSimilarity
import Verif.Spectrum
import Verif.Spec.Eigen
import Verif.Props.Spectrum
import Verif.Props.SpectralTheorem
import Verif.Props.PowerMethod
import Verif.Cheeger
import Verif.CheegerMath
import Verif.Props.Cheeger
import Verif.Props.CheegerExamples
import Verif.Mersenne
import Verif.Props.Mersenne
import Verif.KMeans
import Verif.Spec.KMeans
import Verif.KMeansLemmas
import Verif.Props.KMeans
import Verif.SpectralCluster
import Verif.Props.ZeroEigen
import Verif.Props.SpectralCluster
import Verif.Props.SpectralClusterExamples
import Verif.FileSystem
import Verif.Props.CrashSafety
import Verif.Props.CrashSafetyExamples
import Verif.Props.ConvertFiles
import Verif.Props.Concurrent
import Verif.Props.RandomCount
import Verif.Props.LshUniversal
import Verif.Props.SbmDistribution
import Verif.PermStats
import Verif.Props.CknsAccuracy
import Verif.Props.CknsGuarantee
import Verif.Props.CknsLimits
import Verif.Props.LshMeasure
import Verif.RandomDraws
import Verif.AsgLaw
import Verif.Props.AsgSampling
import Verif.StepLaw
import Verif.SbmLaw
import Verif.Props.SbmApprox
import Verif.Props.SbmSource
import Verif.WeightCache
import Verif.Props.WeightCache
import Verif.PlusPlus
import Verif.Props.KMeansGuarantee
import Verif.Props.KMeansRandom
import Verif.AclMath
import Verif.Props.AclGuarantee
import Verif.Tools
import Verif.Props.Tools
import Verif.Vectors
import Verif.Props.Vectors
import Verif.Rounding
import Verif.RoundingLemmas
import Verif.Props.Rounding
import Verif.RoundingSweep
import Verif.RoundingSweepLemmas
import Verif.Props.RoundingSweep
import Verif.RoundingGraph
import Verif.Props.RoundingGraph
import Verif.Props.RoundingMetrics
import Verif.RoundingKde
import Verif.Props.RoundingKde
import Verif.RoundingLsh
import Verif.Props.RoundingLsh
import Verif.Decimal
import Verif.DecimalLemmas
import Verif.Props.Decimal
import Verif.Spec.Recovery
import Verif.RecoveryMath
import Verif.Props.SpectralRecovery
import Verif.Props.SpectralRecoveryExamples
import Verif.EquitableMath
import Verif.Spec.Equitable
import Verif.Props.Equitable
import Verif.Props.EquitableExamples
import Verif.Spec.Typical
import Verif.TypicalMath
import Verif.Props.SbmRecovery
import Verif.Concentration
import Verif.Props.SbmCoupling
import Verif.Props.SbmTypical
import Verif.Props.SbmConsistent
import Verif.Props.RandomConcentration
import Verif.RoundingIndex
import Verif.Props.RoundingIndex
import Verif.Props.PowerRandom
import Verif.RoundingMatrices
import Verif.Props.RoundingMatrices
import Verif.Special
import Verif.Props.Special
import Verif.Props.SpecialOps
import Verif.Props.SpecialFiles
import Verif.Spec.Points
import Verif.PointsMath
import Verif.Props.Points
import Verif.Props.Locality
import Verif.RoundingSimilarity
import Verif.Props.RoundingSimilarity
import Verif.RoundingKMeans
import Verif.Props.RoundingKMeans
import Verif.Spec.Inexact
import Verif.InexactMath
import Verif.Props.Inexact
import Verif.Props.InexactExamples
import Verif.ComponentsMath
import Verif.Props.AsgCuts
import Verif.Props.AsgComponents
import Verif.Props.KMeansInteger
import Verif.RoundingAsg
import Verif.Props.RoundingAsg
import Verif.Props.RoundingAsgLaw
import Verif.SpectralPerturb
import Verif.RoundingSpectral
import Verif.Props.RoundingSpectral
import Verif.RoundingCheeger
import Verif.Props.RoundingCheeger
import Verif.RoundingPower
import Verif.Props.RoundingPower
import Verif.RoundingInfo
import Verif.Props.RoundingInfo
import Verif.Props.RoundingAsgCuts
import Verif.Props.RoundingEquitable
import Verif.Props.RoundingPoints
import Verif.Props.RoundingLocalCluster
import Verif.Props.SbmWords
import Verif.Props.AsgWords
import Verif.Props.EndToEndWords
import Verif.Props.RoundingDisk
import Verif.Ieee
import Verif.Props.IeeeLocal
import Verif.Props.IeeeDisk
import Verif.Props.IeeeMatrices
