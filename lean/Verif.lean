import Verif.Encoding.ByteTheorems
import Verif.Encoding.PdTheorems
import Verif.Encoding.AmTheorems
import Verif.Encoding.AmIter
import Verif.Encoding.AmIntersect
import Verif.Encoding.AmFilter
import Verif.Encoding.AmMutate
import Verif.Atomics.Theorems
import Verif.Seq.Intersect
import Verif.Seq.Filter
import Verif.Buckets.Reach
import Verif.Buckets.Examples
import Verif.Buckets.Parallel
import Verif.Subset.Theorems
import Verif.EdgeMap.Link
import Verif.Hash.Seq
import Verif.Graph.Csr
import Verif.Graph.Text
import Verif.Graph.Transpose
import Verif.Graph.Mutate
import Verif.Graph.Sample
import Verif.Graph.MutateByte
import Verif.Graph.MutateIter
import Verif.Graph.Relabel
import Verif.Conc.UFFinal
import Verif.Algo.BFS
import Verif.Algo.BellmanFord
import Verif.Algo.WBFS
import Verif.Algo.Delta
import Verif.Algo.Widest
import Verif.Algo.KCore
import Verif.Algo.KCoreFA
import Verif.EdgeMap.Once
import Verif.EdgeMap.Count
import Verif.EdgeMap.Zero
import Verif.Algo.MIS
import Verif.Algo.Coloring
import Verif.Spec.Loop
import Verif.Spec.Match
import Verif.Spec.MISStep
import Verif.Spec.GetEdges
import Verif.Algo.Triangle
import Verif.Algo.Forest
import Verif.Algo.Kruskal
import Verif.Algo.LDD
import Verif.Algo.Degeneracy
import Verif.Algo.Charikar
import Verif.Algo.Orders
import Verif.Conc.Par
import Verif.Algo.Components
import Verif.Algo.BFSCC
import Verif.Algo.SV
import Verif.Algo.SVBatch
import Verif.Algo.LabelProp
import Verif.Algo.KOut
import Verif.Algo.Sampling
import Verif.EdgeMap.Total
import Verif.Graph.Contract
import Verif.Algo.SDB14
import Verif.EdgeMap.Accum
import Verif.Algo.PageRank
import Verif.Algo.PageRankDelta
import Verif.Algo.Betweenness
import Verif.Algo.Betweenness2
import Verif.Hash.Resizable
import Verif.Algo.SccSearch
import Verif.Algo.SCC
import Verif.Algo.SccHang
import Verif.Algo.SpanForest
import Verif.Algo.BFSSF
import Verif.Algo.SVSF
import Verif.Algo.LPSF
import Verif.Conc.ExecL
import Verif.Algo.LiuTarjan
import Verif.Algo.LTShort
import Verif.Algo.LTBatch
import Verif.Algo.LTSF
import Verif.Algo.CCCheck
import Verif.Algo.SFFrame
import Verif.Algo.UFSample
import Verif.Algo.LDDEdges
import Verif.Algo.SDB14SF
import Verif.Algo.BKV12
import Verif.Algo.Spanner
import Verif.Algo.SetCover
import Verif.Algo.Yoshida
import Verif.Conc.SimpleUnion
import Verif.Algo.SFSample
import Verif.Clique.Seqs
import Verif.Clique.Rec
import Verif.Clique.Count
import Verif.Clique.Graph
import Verif.Clique.Bugs
import Verif.Clique.Update
import Verif.Clique.Peel
import Verif.Clique.ApproxPeel
import Verif.Bicc.Tree
import Verif.Bicc.Leaf
import Verif.Bicc.Forest
import Verif.Bicc.Number
import Verif.Bicc.Csr
import Verif.Bicc.Preorder
import Verif.Bicc.Low
import Verif.Bicc.Main
import Verif.Bicc.Exists
import Verif.Boruvka.Cut
import Verif.Boruvka.Model
import Verif.Boruvka.Inner
import Verif.Boruvka.Round
import Verif.Boruvka.Main
import Verif.Boruvka.Limits
import Verif.Boruvka.Sample
import Verif.Scan.Model
import Verif.Scan.Index
import Verif.Scan.Cores
import Verif.Scan.Attach
import Verif.Scan.Main
import Verif.Scan.Exists
import Verif.Scan.Merge
import Verif.Scan.Sim
import Verif.Scan.SimMain
import Verif.Scan.MinHash
import Verif.Scan.SimHash
import Verif.Scan.Utils
import Verif.EdgeMap.Pure
import Verif.Scan.Naive
import Verif.Cycle.Tuples
import Verif.Cycle.Five
import Verif.Cycle.Escape
import Verif.Cycle.Experiment
import Verif.Conc.Jayanti
import Verif.Algo.CoSimRank
import Verif.Hist.CountSort
import Verif.Hist.Table
import Verif.Hist.Heavy
import Verif.Hist.Regions
import Verif.Hist.Histogram
import Verif.Hist.Reduce
import Verif.Hist.EdgeCount
import Verif.Convert.Encode
import Verif.Convert.File
import Verif.Convert.Converter
import Verif.Convert.ConverterWrong
import Verif.Convert.ConverterDir
import Verif.Convert.Binary
import Verif.Convert.ToChars
import Verif.Convert.EdgeList
import Verif.Convert.Reorder
import Verif.Convert.Snap
import Verif.Gen.Rmat
import Verif.Gen.Barabasi
import Verif.Seq.Kth
import Verif.Seq.FilterIndex
import Verif.Cli.CommandLine
import Verif.Clique.Split
import Verif.Clique.Inter
import Verif.Clique.Neigh
import Verif.Clique.Sparsify
import Verif.EdgeMap.Compressed
import Verif.Algo.Verifiers
import Verif.Conc.UFBatch
import Verif.Graph.RelabelGraph
import Verif.Graph.Ownership
import Verif.Graph.EdgeLists
import Verif.Hash.TableOps
import Verif.Algo.WidestBF
import Verif.Seq.Frequent
import Verif.Graph.PtrCopy
import Verif.Atomics.Counters
import Verif.Scan.Compact
import Verif.Algo.TriangleOrders
import Verif.Algo.Stergiou
import Verif.Graph.ReadODirect
import Verif.Bicc.Stats
