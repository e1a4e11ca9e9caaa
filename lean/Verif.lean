import Verif.Res
import Verif.ResLemmas
import Verif.WPM
import Verif.Spec.Add
import Verif.Spec.Bcsc
import Verif.Spec.Bins
import Verif.Spec.BlockCsc
import Verif.Spec.Chain
import Verif.Spec.Coarsen
import Verif.Spec.Comp
import Verif.Spec.CompCount
import Verif.Spec.Cost
import Verif.Spec.Csv
import Verif.Spec.Cuts
import Verif.Spec.Dagp
import Verif.Spec.Fill
import Verif.Spec.Forest
import Verif.Spec.FusedLevels
import Verif.Spec.Graph
import Verif.Spec.Greedy
import Verif.Spec.Group
import Verif.Spec.Ic0
import Verif.Spec.Inspect
import Verif.Spec.Listing
import Verif.Spec.Mat
import Verif.Spec.Merge
import Verif.Spec.MergeGraphs
import Verif.Spec.Metis
import Verif.Spec.Metrics
import Verif.Spec.MmioText
import Verif.Spec.MtxText
import Verif.Spec.Pack
import Verif.Spec.PartWeight
import Verif.Spec.Reduce
import Verif.Spec.Sched
import Verif.Spec.Search
import Verif.Spec.Solve
import Verif.Spec.Sparse
import Verif.Spec.SpmpLevels
import Verif.Spec.SpmpMat
import Verif.Spec.SpmpOracle
import Verif.Spec.Stat
import Verif.Spec.Super
import Verif.Spec.SymFactor
import Verif.Spec.Tasks
import Verif.Spec.TestUtils
import Verif.Spec.TreeLevel
import Verif.Spec.TreeSplit
import Verif.Spec.TreeSum
import Verif.Spec.TwoD
import Verif.Model.Aggressive
import Verif.Model.ArraySize
import Verif.Model.Bcsc
import Verif.Model.BcscMtx
import Verif.Model.Bench
import Verif.Model.CC
import Verif.Model.Chain
import Verif.Model.Collection
import Verif.Model.Cost
import Verif.Model.Csv
import Verif.Model.DagTest
import Verif.Model.Dagp
import Verif.Model.DemoMain
import Verif.Model.DemoStat
import Verif.Model.DenseText
import Verif.Model.Etree
import Verif.Model.Exec
import Verif.Model.Final
import Verif.Model.FusedLevels
import Verif.Model.GenMtx
import Verif.Model.Glc
import Verif.Model.Greedy
import Verif.Model.Group
import Verif.Model.GroupGraph
import Verif.Model.Harness
import Verif.Model.Hdagg
import Verif.Model.Ic0
import Verif.Model.Ic0Csr
import Verif.Model.Ic0CsrMain
import Verif.Model.Ic0Demo
import Verif.Model.Ic0Main
import Verif.Model.Inspector
import Verif.Model.LFactor
import Verif.Model.Lbc
import Verif.Model.LbcBlocked
import Verif.Model.LbcCsc
import Verif.Model.LbcDemo
import Verif.Model.LbcMain
import Verif.Model.LbcSeq
import Verif.Model.LbcTree
import Verif.Model.LbcUtils
import Verif.Model.LevelSet
import Verif.Model.Machine
import Verif.Model.Measure
import Verif.Model.Merge
import Verif.Model.MergeGraphs
import Verif.Model.MergeInner
import Verif.Model.Metis
import Verif.Model.Metrics
import Verif.Model.Mmio
import Verif.Model.MtxRead
import Verif.Model.MtxStream
import Verif.Model.MultiLevels
import Verif.Model.P2P
import Verif.Model.P2PBuild
import Verif.Model.P2PCount
import Verif.Model.PartWeight
import Verif.Model.Pipeline
import Verif.Model.PostGroup
import Verif.Model.PostOrder
import Verif.Model.PostSplit
import Verif.Model.Prepare
import Verif.Model.Profile
import Verif.Model.QueueLevels
import Verif.Model.ReadMtx
import Verif.Model.RowPattern
import Verif.Model.RunGroup
import Verif.Model.SmallUtil
import Verif.Model.Sparse
import Verif.Model.Sparsify
import Verif.Model.SpicoV2
import Verif.Model.SpmpHdagg
import Verif.Model.SpmpLevels
import Verif.Model.Stat
import Verif.Model.StatSp
import Verif.Model.Super
import Verif.Model.Symm
import Verif.Model.TestUtils
import Verif.Model.TextBlock
import Verif.Model.TransSym
import Verif.Model.TreeGroup
import Verif.Model.TreePost
import Verif.Model.TreeUtil
import Verif.Model.UnitTest
import Verif.Model.Utils
import Verif.Proof.Aggressive
import Verif.Proof.Bcsc
import Verif.Proof.BcscCompress
import Verif.Proof.Bfs
import Verif.Proof.BlockBfs
import Verif.Proof.BlockComps
import Verif.Proof.BlockCsc
import Verif.Proof.BlockDfs
import Verif.Proof.BlockLevels
import Verif.Proof.Blocks
import Verif.Proof.BnLevels
import Verif.Proof.BnSuper
import Verif.Proof.Bridge
import Verif.Proof.Bucket
import Verif.Proof.CC
import Verif.Proof.CCRun
import Verif.Proof.CCSpec
import Verif.Proof.Chain
import Verif.Proof.Cliques
import Verif.Proof.Coarsen
import Verif.Proof.Commute
import Verif.Proof.CompCount
import Verif.Proof.ComputeCC
import Verif.Proof.ComputeEtree
import Verif.Proof.ConvCN
import Verif.Proof.Counts
import Verif.Proof.Counts1
import Verif.Proof.Counts2
import Verif.Proof.Counts3
import Verif.Proof.DagpGraph
import Verif.Proof.DagpLevels
import Verif.Proof.DagpSched
import Verif.Proof.Dense
import Verif.Proof.Ereach
import Verif.Proof.Etree
import Verif.Proof.Exec
import Verif.Proof.ExecGroup
import Verif.Proof.ExecLevels
import Verif.Proof.ExecRow
import Verif.Proof.ExecSched
import Verif.Proof.ExecSeq
import Verif.Proof.Extend
import Verif.Proof.Final
import Verif.Proof.FusedLevels
import Verif.Proof.FusedRun
import Verif.Proof.Glc
import Verif.Proof.Graph
import Verif.Proof.Greedy
import Verif.Proof.GreedyMerge
import Verif.Proof.GroupDag
import Verif.Proof.GroupLevels
import Verif.Proof.Hdagg
import Verif.Proof.Ic0
import Verif.Proof.Ic0Column
import Verif.Proof.Ic0Csr
import Verif.Proof.Ic0Demo
import Verif.Proof.Ic0Order
import Verif.Proof.Ic0Par
import Verif.Proof.Ic0Threads
import Verif.Proof.Inspect
import Verif.Proof.Kahn
import Verif.Proof.LPattern
import Verif.Proof.LbcAll
import Verif.Proof.LbcBlocked
import Verif.Proof.LbcComps
import Verif.Proof.LbcCsc
import Verif.Proof.LbcDemo
import Verif.Proof.LbcDfs
import Verif.Proof.LbcEmit
import Verif.Proof.LbcExt
import Verif.Proof.LbcLoops
import Verif.Proof.LbcPar
import Verif.Proof.LbcSeqAll
import Verif.Proof.LbcTree
import Verif.Proof.LbcTreeHeight
import Verif.Proof.LbcWin
import Verif.Proof.LevelRun
import Verif.Proof.LevelSet
import Verif.Proof.LevelSetOk
import Verif.Proof.Merge
import Verif.Proof.MergeGraphs
import Verif.Proof.Metis
import Verif.Proof.MetisSym
import Verif.Proof.Metrics
import Verif.Proof.MtxBad
import Verif.Proof.MtxRead
import Verif.Proof.MtxScan
import Verif.Proof.MtxStream
import Verif.Proof.MtxWrite
import Verif.Proof.MultiLevels
import Verif.Proof.P2P
import Verif.Proof.P2PBuild
import Verif.Proof.P2PPlan
import Verif.Proof.P2PRegion
import Verif.Proof.P2PRun
import Verif.Proof.Pack
import Verif.Proof.PartWeight
import Verif.Proof.Paths
import Verif.Proof.Pipeline
import Verif.Proof.PostGroup
import Verif.Proof.PostOrder
import Verif.Proof.PostPos
import Verif.Proof.PostSplit
import Verif.Proof.PostSplit2
import Verif.Proof.QueueLevels
import Verif.Proof.ReadMtx
import Verif.Proof.Relabel
import Verif.Proof.Renumber
import Verif.Proof.Rhs
import Verif.Proof.RowPattern
import Verif.Proof.RowTree
import Verif.Proof.RunDag
import Verif.Proof.RunGroup
import Verif.Proof.SchedBuild
import Verif.Proof.SchedLoop
import Verif.Proof.SchedWin
import Verif.Proof.Slices
import Verif.Proof.SmallUtil
import Verif.Proof.Solve
import Verif.Proof.SparseConv
import Verif.Proof.SparseHalf
import Verif.Proof.SparseLoop
import Verif.Proof.SparsePerm
import Verif.Proof.SparseSort
import Verif.Proof.Sparsify
import Verif.Proof.SpicoV2
import Verif.Proof.SpmpHdagg
import Verif.Proof.SpmpLevels
import Verif.Proof.Stat
import Verif.Proof.Super
import Verif.Proof.SuperDag
import Verif.Proof.SymFactor
import Verif.Proof.Symm
import Verif.Proof.TestUtils
import Verif.Proof.TransSym
import Verif.Proof.TreeBfs
import Verif.Proof.TreeCost
import Verif.Proof.TreeDag
import Verif.Proof.TreeHeight
import Verif.Proof.TreeLevel
import Verif.Proof.TreeLoop
import Verif.Proof.TreePost
import Verif.Proof.TreeTrav
import Verif.Proof.TreeUtil
import Verif.Proof.Triplets
import Verif.Proof.TwoD
import Verif.Proof.Ungroup
import Verif.Proof.Windows
import Verif.Props.Aggressive
import Verif.Props.ArraySize
import Verif.Props.Bcsc
import Verif.Props.BcscMtx
import Verif.Props.Bench
import Verif.Props.Bins
import Verif.Props.CC
import Verif.Props.Chain
import Verif.Props.Coarsen
import Verif.Props.Collection
import Verif.Props.ComputeCC
import Verif.Props.ConvCN
import Verif.Props.Copy
import Verif.Props.Cost
import Verif.Props.Counts
import Verif.Props.Csv
import Verif.Props.DagTest
import Verif.Props.Dagp
import Verif.Props.DemoFile
import Verif.Props.DemoMain
import Verif.Props.DemoStat
import Verif.Props.DenseRows
import Verif.Props.DenseText
import Verif.Props.Etree
import Verif.Props.Exec
import Verif.Props.Final
import Verif.Props.FusedLevels
import Verif.Props.GenMtx
import Verif.Props.Glc
import Verif.Props.Greedy
import Verif.Props.GreedyMerge
import Verif.Props.GroupDag
import Verif.Props.GroupGraph
import Verif.Props.Harness
import Verif.Props.Hdagg
import Verif.Props.Height
import Verif.Props.Ic0
import Verif.Props.Ic0Csr
import Verif.Props.Ic0CsrMain
import Verif.Props.Ic0Demo
import Verif.Props.Ic0Main
import Verif.Props.Inspect
import Verif.Props.LFactor
import Verif.Props.Lbc
import Verif.Props.LbcBlocked
import Verif.Props.LbcCsc
import Verif.Props.LbcDag
import Verif.Props.LbcMain
import Verif.Props.LbcSeq
import Verif.Props.LbcTree
import Verif.Props.LevelSet
import Verif.Props.Measure
import Verif.Props.Merge
import Verif.Props.MergeGraphs
import Verif.Props.MergeInner
import Verif.Props.Metis
import Verif.Props.MetisCoarse
import Verif.Props.Metrics
import Verif.Props.Mmio
import Verif.Props.MtxText
import Verif.Props.MultiLevels
import Verif.Props.P2P
import Verif.Props.P2PCount
import Verif.Props.PartWeight
import Verif.Props.Permutation
import Verif.Props.Pipeline
import Verif.Props.PostGroup
import Verif.Props.PostOrder
import Verif.Props.PostSplit
import Verif.Props.Prepare
import Verif.Props.Profile
import Verif.Props.Program
import Verif.Props.QueueLevels
import Verif.Props.ReadMtx
import Verif.Props.Rhs
import Verif.Props.RowPattern
import Verif.Props.RunGroup
import Verif.Props.RunGroupV2
import Verif.Props.SizeArith
import Verif.Props.SmallUtil
import Verif.Props.Solve
import Verif.Props.Sparse
import Verif.Props.SparsePerm
import Verif.Props.Sparsify
import Verif.Props.SpicoV2
import Verif.Props.SpmpHdagg
import Verif.Props.Stat
import Verif.Props.StatSp
import Verif.Props.Super
import Verif.Props.SymFactor
import Verif.Props.Symm
import Verif.Props.TestUtils
import Verif.Props.TextBlock
import Verif.Props.TransSym
import Verif.Props.TreeGroup
import Verif.Props.TreePost
import Verif.Props.TreeUtil
import Verif.Props.Triplets
import Verif.Props.TwoD
import Verif.Props.Ungroup
import Verif.Props.UnitTest
