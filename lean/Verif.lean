import Verif.Cxx
import Verif.Props.UnionFind
import Verif.Props.UndoUnionFind
import Verif.Props.UnionFindVariants
import Verif.Props.WeightedUnionFind
import Verif.Props.Fenwick
import Verif.Props.SegmentTree
import Verif.Props.LazySegmentTree
import Verif.Props.DualSegmentTree
import Verif.Props.Aggregation
import Verif.Props.SparseTable
import Verif.Props.SlidingWindowMinimum
import Verif.Props.BinaryHeap
import Verif.Props.IntervalHeap
import Verif.Props.DoubleEndedPriorityQueue
import Verif.Props.RangeSet
import Verif.Props.FenwickTreeSet
import Verif.Props.ExtGcd
import Verif.Props.ModArith
import Verif.Props.NumberUtil
import Verif.Props.Transform
import Verif.Props.Util
import Verif.Props.String
import Verif.Props.Graph
import Verif.Props.Algorithm
import Verif.Props.XorBase
import Verif.Props.Quotient
import Verif.Props.Gauss
import Verif.Props.SternBrocot
import Verif.Props.WaveletMatrix
import Verif.Props.CompressedWavelet
import Verif.Props.BinaryTrie
import Verif.Props.RedBlack
import Verif.Props.RedBlackHeap
import Verif.Props.PersistentArray
import Verif.Props.PersistentUnionFind
import Verif.Props.HornSAT
import Verif.Props.FunctionalGraph
import Verif.Props.Kruscal
import Verif.Props.Triangles
import Verif.Props.SCCTournament
import Verif.Props.MinMaxFloyd
import Verif.Props.ComplementBFS
import Verif.Props.EulerTour
import Verif.Props.LevelAncestor
import Verif.Props.GetTreePath
import Verif.Props.FindCentroids
import Verif.Props.TreeIso
import Verif.Props.Rerooting
import Verif.Props.HLD
import Verif.Props.AuxTree
import Verif.Props.RMQpm1
import Verif.Props.LCA
import Verif.Props.DiscreteLog
import Verif.Props.WheelSieve
import Verif.Props.MillerRabin
import Verif.Props.FastFactorize
import Verif.Props.Tetration
import Verif.Props.SlopeTrick
import Verif.Props.MinModLinear
import Verif.Props.CartesianTree
import Verif.Props.ConvexHullTrick
import Verif.Props.UnionFindLazy
import Verif.Props.Dirichlet
import Verif.Props.SumOfMultiplicative
import Verif.Props.LowLink
import Verif.Props.TwoEdge
import Verif.Props.Biconnected
import Verif.Props.BlockCutForest
import Verif.Props.MinPlusConvolution
import Verif.Props.ModTables
import Verif.Props.ChromaticNumber
import Verif.Props.Mo
import Verif.Props.BinomialSum
import Verif.Props.MergeHistoryForest
import Verif.Props.OrderMod
import Verif.Props.BerlekampMassey
import Verif.Props.Eulerian
import Verif.Props.BipartiteMatching
import Verif.Props.ModSqrt
import Verif.Props.LiChao
import Verif.Props.MonotonicCHT
import Verif.Props.RangeSetComposite
import Verif.Props.RangeCountDistinct
import Verif.Props.MobiusFunction
import Verif.Props.TwoSat
import Verif.Props.CycleDetection
import Verif.Props.Rational
import Verif.Props.Bezout
import Verif.Props.PrioritySum
import Verif.Props.PersistentTree
import Verif.Props.OfflineConnectivity
import Verif.Props.DynamicBitSet
import Verif.Props.SparseSegmentTree
import Verif.Props.SparseLazySegmentTree
import Verif.Props.FindDenominators
import Verif.Props.SegmentTree2D
import Verif.Props.RangeMode
import Verif.Props.PalindromicTree
import Verif.Props.SuffixAutomaton
import Verif.Props.SuffixAutomatonQuery
import Verif.Props.Modint
import Verif.Props.Sequences
import Verif.Props.SegmentTreeBeats
import Verif.Props.CsrGraph
import Verif.Props.Rot90
import Verif.Props.CsrGraphDfs
import Verif.Props.SumCount
import Verif.Props.AffineClamp
import Verif.Props.DefaultVector
import Verif.Props.RandomWalk
import Verif.Props.ConvolutionNaive
import Verif.Props.UnsignedBigint
