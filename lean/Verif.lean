import Verif.Props.EdgeList
import Verif.Props.Binary
import Verif.Props.CsrBuild
import Verif.Props.CsrOps
import Verif.Props.CsrReorder
import Verif.Props.Build
import Verif.Props.Relabel
import Verif.Props.Util
import Verif.Props.BitVector
import Verif.Props.Ranges
import Verif.Props.Bfs
import Verif.Props.Dobfs
import Verif.Props.Sssp
import Verif.Props.DeltaPar
import Verif.Props.Cc
import Verif.Props.CcVerify
import Verif.Props.Mis
import Verif.Props.Triangle
import Verif.Props.Jaccard
import Verif.Props.SpMat
import Verif.Props.Dsu
import Verif.Props.Kruskal
import Verif.Props.DisjointSet
import Verif.Props.Brandes
import Verif.Props.BrandesPar
import Verif.Props.Worklist
import Verif.Props.PathRanges
import Verif.Props.DagRange
import Verif.Props.DfsRange
import Verif.Props.MatrixMarket
import Verif.Props.DagMis
import Verif.Props.PageRank
import Verif.Props.BackEdge
import Verif.Props.MaxFlow
import Verif.Props.BoykovKolmogorov
import Verif.Props.BfsEdges
import Verif.Props.ConfigModel
import Verif.Props.KCore
import Verif.Props.TriangleExp
import Verif.Props.BiAdjacency
import Verif.Props.BiMatrixMarket
import Verif.Props.BfsExp
import Verif.Props.BfsDirExp
import Verif.Props.CcExp
import Verif.Props.SvExp
import Verif.Props.LpExp
import Verif.Props.CcV1Exp
import Verif.Props.BfsCc
import Verif.Props.BcVerify
import Verif.Props.DeltaExp
import Verif.Props.PageRankExp
import Verif.Props.PageRankV2
import Verif.Props.PageRankThreshold
import Verif.Props.PageRankResidual
import Verif.Props.BcExp
import Verif.Props.BcExpPar
import Verif.Props.BcRace
import Verif.Props.Zip
import Verif.Props.SortBy
import Verif.Props.JonesExp
import Verif.Props.Splice
import Verif.Props.MmFile
import Verif.Props.Bench
import Verif.Props.BcWork
import Verif.Props.BcAsync
import Verif.Props.BcNoAbs
import Verif.Props.TcBench
import Verif.Props.SsspBench
import Verif.Props.CcBench
import Verif.Props.AdjList
import Verif.Props.Iterators
import Verif.Props.BfsBench
import Verif.Spec.PageRankEdges
import Verif.Props.PrBench
import Verif.Spec.EdgeBetweenness
import Verif.Props.BcBench
import Verif.Props.DsetOut
import Verif.Props.CcV1Term
import Verif.Props.Tools
import Verif.Props.SourceCheck
import Verif.Props.Shared
import Verif.Props.Times
import Verif.Props.Aos
import Verif.Props.Oracle
import Verif.Props.Overlap
import Verif.Props.Apb
import Verif.Props.ApbSearch
import Verif.Props.Stream
import Verif.Props.DfsEdges
import Verif.Props.Timer
import Verif.Props.TypeCode
import Verif.Props.Soa
import Verif.Props.BitOwner
import Verif.Props.BenchLog
import Verif.Props.ApbDijkstra
import Verif.Props.ApbExec
import Verif.Props.Imdb
import Verif.Props.PermIter
import Verif.Props.DsetPar
import Verif.Props.BfsCcPar
import Verif.Props.SsspWrap
import Verif.Props.SsspSigned
import Verif.Props.Outcomes
import Verif.Model.BinaryShort
import Verif.Props.CutShort
