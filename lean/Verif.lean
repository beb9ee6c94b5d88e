import Verif.Model.Base
import Verif.Model.IndexHeap
import Verif.Model.GraphOps
import Verif.Props.IndexHeap
import Verif.Props.Containers
import Verif.Props.Dijkstra
import Verif.Props.Graph
import Verif.Props.CCH
import Verif.Props.CCHCustomization
import Verif.Props.CCHQuery
import Verif.Props.Separator
import Verif.Spec.Bits
import Verif.Model.BitVec
import Verif.Proof.BitVec
import Verif.Proof.RankSelect
import Verif.Props.BitVec
import Verif.Spec.Heap
import Verif.Model.Heap
import Verif.Proof.Heap
import Verif.Props.Heap
import Verif.Spec.FileSystem
import Verif.Model.IO
import Verif.Proof.IO
import Verif.Props.IO
import Verif.Model.BiDijkstra
import Verif.Proof.BiDijkstra
import Verif.Props.BiDijkstra
import Verif.Model.Alt
import Verif.Proof.Alt
import Verif.Props.Alt
import Verif.Model.TailMapper
import Verif.Proof.TailMapper
import Verif.Props.TailMapper
import Verif.Spec.Sequences
import Verif.Model.Sequences
import Verif.Proof.Sequences
import Verif.Props.Sequences
import Verif.Spec.Potential
import Verif.Model.Potential
import Verif.Props.Potential
import Verif.Spec.Merging
import Verif.Model.Merging
import Verif.Proof.Merging
import Verif.Props.Merging
import Verif.Spec.Plf
import Verif.Model.Plf
import Verif.Proof.Plf
import Verif.Proof.PlfBounds
import Verif.Props.Plf
import Verif.Spec.TimedPaths
import Verif.Model.TdDijkstra
import Verif.Proof.TdDijkstra
import Verif.Proof.TdGraph
import Verif.Props.TdDijkstra
import Verif.Model.CCHPotential
import Verif.Spec.Hierarchy
import Verif.Proof.CCHPotential
import Verif.Proof.CHPotential
import Verif.Props.CCHPotential
import Verif.Spec.Nearest
import Verif.Model.DijkstraVisit
import Verif.Model.NearestNeighbor
import Verif.Proof.DijkstraVisit
import Verif.Proof.NearestNeighbor
import Verif.Props.NearestNeighbor
import Verif.Spec.ManyTargets
import Verif.Model.RPHAST
import Verif.Proof.RPHAST
import Verif.Props.RPHAST
import Verif.Model.HubLabels
import Verif.Proof.HubLabels
import Verif.Props.HubLabels
import Verif.Model.Perfect
import Verif.Proof.Perfect
import Verif.Proof.Rebuild
import Verif.Proof.PerfectQuery
import Verif.Props.Perfect
import Verif.Model.Directed
import Verif.Proof.Directed
import Verif.Proof.Reduced
import Verif.Proof.DirectedBuild
import Verif.Props.Directed
import Verif.Spec.CH
import Verif.Model.CH
import Verif.Proof.CHQuery
import Verif.Proof.CHLists
import Verif.Proof.CHWitness
import Verif.Proof.CHContract
import Verif.Proof.CHBuild
import Verif.Props.CH
import Verif.Proof.BiAStar
import Verif.Props.BiAStar
import Verif.Model.TopoDijkstra
import Verif.Model.Topocore
import Verif.Proof.TopoDijkstra
import Verif.Proof.Topocore
import Verif.Props.TopoDijkstra
import Verif.Proof.TopocoreBuild
import Verif.Props.Topocore
import Verif.Model.BiTopo
import Verif.Spec.Topo
import Verif.Proof.TopoEngine
import Verif.Proof.BiTopo
import Verif.Props.BiTopo
import Verif.Model.BiTopoMT
import Verif.Proof.BiTopoMT
import Verif.Props.BiTopoMT
import Verif.Spec.SubPaths
import Verif.Model.SubPaths
import Verif.Proof.SubPaths
import Verif.Proof.SubPathsScan
import Verif.Proof.SubPathsRound
import Verif.Proof.SubPathsFind
import Verif.Proof.SubPathsDij
import Verif.Proof.SubPathsUbs
import Verif.Proof.SubPathsLen
import Verif.Props.SubPaths
import Verif.Model.CCHPathPot
import Verif.Proof.PathPot
import Verif.Proof.PathPotUnpack
import Verif.Proof.PathPotOracle
import Verif.Proof.PathPotRanks
import Verif.Props.CchSubPaths
import Verif.Spec.FixSubPaths
import Verif.Model.FixSubPaths
import Verif.Proof.FixSubPaths
import Verif.Proof.FixSubPathsLoop
import Verif.Proof.FixSubPathsRun
import Verif.Proof.PathStats
import Verif.Proof.NaiveSubPaths
import Verif.Proof.PathStatsRun
import Verif.Props.FixSubPaths
import Verif.Model.ForbiddenPaths
import Verif.Model.MultiCrit
import Verif.Model.TrafficAware
import Verif.Proof.ForbiddenActive
import Verif.Proof.MultiCritAbs
import Verif.Proof.ForbiddenBlocked
import Verif.Proof.ForbiddenStep
import Verif.Spec.TrafficAware
import Verif.Proof.MultiCritMerge
import Verif.Proof.MultiCritRun
import Verif.Proof.MultiCritSearch
import Verif.Proof.MultiCritPath
import Verif.Proof.TrafficAwarePaths
import Verif.Proof.TrafficAwareForbid
import Verif.Proof.TrafficAwareSearch
import Verif.Proof.TrafficAwareLoop
import Verif.Proof.TrafficAwareQuery
import Verif.Props.TrafficAware
import Verif.Model.HeuristicTraffic
import Verif.Proof.HeuristicSearch
import Verif.Proof.HeuristicPath
import Verif.Proof.HeuristicSim
import Verif.Props.HeuristicTraffic
import Verif.Model.TdAStar
import Verif.Proof.TdAStar
import Verif.Props.TdAStar
import Verif.Model.MultiMetric
import Verif.Proof.MultiMetricAbs
import Verif.Proof.MultiMetricPot
import Verif.Proof.MultiMetricGraph
import Verif.Proof.MultiMetricTime
import Verif.Proof.MultiMetricSelect
import Verif.Proof.MultiMetricPre
import Verif.Proof.MultiMetricBuilt
import Verif.Proof.MultiMetricQuery
import Verif.Props.MultiMetric
import Verif.Spec.Report
import Verif.Model.Report
import Verif.Proof.Report
import Verif.Proof.ReportDup
import Verif.Props.Report
import Verif.Model.LinkSpeed
import Verif.Proof.LinkSpeed
import Verif.Props.LinkSpeed
import Verif.Model.Average
import Verif.Proof.Average
import Verif.Props.Average
import Verif.Spec.Alternatives
import Verif.Model.Penalty
import Verif.Spec.PenaltySearch
import Verif.Proof.PenaltyIds
import Verif.Proof.Penalty
import Verif.Proof.PenaltyLoop
import Verif.Proof.PenaltyRun
import Verif.Proof.PenaltyJudge
import Verif.Props.Penalty
import Verif.Spec.TravelTime
import Verif.Model.FlPlf
import Verif.Proof.FlPlf
import Verif.Proof.FlLink
import Verif.Proof.FlLinkLoop
import Verif.Proof.FlLinkMain
import Verif.Proof.FlInverse
import Verif.Props.FlPlf
import Verif.Spec.Faster
import Verif.Model.FlMerge
import Verif.Proof.FlMergeCur
import Verif.Proof.FlMergeGeo
import Verif.Proof.FlMergeStep
import Verif.Proof.FlMergeSide
import Verif.Proof.FlMergeLoop
import Verif.Proof.FlMergeMain
import Verif.Props.FlMerge
import Verif.Spec.Bounds
import Verif.Model.FlApprox
import Verif.Proof.FlApprox
import Verif.Proof.FlBounds
import Verif.Proof.FlBoundsMain
import Verif.Props.FlApprox
import Verif.Spec.Trip
import Verif.Spec.UpDown
import Verif.Model.Catchup
import Verif.Spec.CatchupGraph
import Verif.Proof.CatchupTree
import Verif.Proof.CatchupCorridor
import Verif.Proof.CatchupMasks
import Verif.Proof.CatchupPath
import Verif.Proof.CatchupSearch
import Verif.Proof.CatchupAStar
import Verif.Proof.CatchupQuery
import Verif.Proof.CatchupServes
import Verif.Props.Catchup
import Verif.Spec.FtdInput
import Verif.Model.FtdCustomize
import Verif.Proof.FtdCombine
import Verif.Proof.FtdMerge
import Verif.Proof.FtdArc
import Verif.Proof.FtdTriangles
import Verif.Proof.FtdLoop
import Verif.Proof.FtdGraph
import Verif.Props.Ftd
import Verif.Spec.CatchupPath
import Verif.Proof.CatchupParents
import Verif.Props.CatchupPath
import Verif.Model.FlTdDijkstra
import Verif.Spec.FlTdDijkstra
import Verif.Proof.FlTdDijkstra
import Verif.Props.FlTdDijkstra
import Verif.Model.Here
import Verif.Spec.Here
import Verif.Proof.Here
import Verif.Props.Here
import Verif.Model.FlTdGraph
import Verif.Spec.FlTdGraph
import Verif.Proof.FlTdGraph
import Verif.Props.FlTdGraph
import Verif.Spec.FtdPre
import Verif.Model.FtdPre
import Verif.Proof.FtdPre
import Verif.Proof.FtdPerfect
import Verif.Proof.FtdPreOK
import Verif.Proof.FtdInit
import Verif.Proof.FtdStands
import Verif.Props.FtdPre
import Verif.Spec.FtdPost
import Verif.Model.FtdPost
import Verif.Proof.FtdPost
import Verif.Props.FtdPost
import Verif.Spec.LiveTime
import Verif.Model.FlLive
import Verif.Proof.FlLive
import Verif.Props.FlLive
import Verif.Spec.Validity
import Verif.Model.Validity
import Verif.Proof.Validity
import Verif.Proof.ValiditySched
import Verif.Props.Validity
import Verif.Spec.Disconnected
import Verif.Model.Disconnected
import Verif.Proof.Disconnected
import Verif.Props.Disconnected
import Verif.Spec.Sources
import Verif.Model.Sources
import Verif.Proof.Sources
import Verif.Props.Sources
import Verif.Spec.LiveUntil
import Verif.Model.LiveUntil
import Verif.Proof.LiveUntil
import Verif.Props.LiveUntil
import Verif.Spec.MinMax
import Verif.Model.MinMax
import Verif.Spec.MinMaxBounds
import Verif.Proof.MinMax
import Verif.Props.MinMax
import Verif.Model.IntervalMin
import Verif.Spec.IntervalMinBounds
import Verif.Props.IntervalMin
import Verif.Proof.IntervalMin
import Verif.Props.IntervalMinReads
