import Verif.Core.Basic
import Verif.Core.Chain
import Verif.Core.ChainInv
import Verif.Core.ChainOps
import Verif.Core.Tape
import Verif.Core.Heap
import Verif.Core.HeapInv
import Verif.Core.Emb
import Verif.Core.EmbInv
import Verif.Core.EmbBuild
import Verif.Core.EmbInit
import Verif.Core.Search
import Verif.Core.SearchInv
import Verif.Core.FindChain
import Verif.Core.FindShort
import Verif.Core.Order
import Verif.Core.Stats
import Verif.Core.Run
import Verif.Core.RunInv
import Verif.Core.RunPass
import Verif.Graph.Input
import Verif.Graph.Comp
import Verif.Graph.UnionFind
import Verif.Graph.CompInv
import Verif.Graph.Param
import Verif.Graph.ParamInv
import Verif.Graph.ProcInv
import Verif.Graph.Find
import Verif.Spec.Minor
import Verif.Core.Undo
import Verif.Graph.Result
import Verif.Props.Demo
import Verif.Props.Embedding
import Verif.Props.State
import Verif.Core.RunPost
import Verif.Props.Improve
import Verif.Core.Dijkstra
import Verif.Core.Totals
import Verif.Core.Quick
import Verif.Core.QuickInv
import Verif.Par.Jobs
import Verif.Props.Search
import Verif.Graph.InitLinks
import Verif.Graph.QuickFind
import Verif.Props.Input
import Verif.Props.Quick
import Verif.Props.SkipInit
import Verif.Py.Graph
import Verif.Py.Diag
import Verif.Py.DiagInv
import Verif.Py.Labels
import Verif.Props.Diagnose
import Verif.Py.Parse
import Verif.Py.ParseInv
import Verif.Py.CallInv
import Verif.Props.Labels
import Verif.Py.Quality
import Verif.Props.Quality
import Verif.Py.Multi
import Verif.Py.MultiInv
import Verif.Props.Multi
import Verif.Props.Valid
import Verif.Py.Feasible
import Verif.Py.FeasibleInv
import Verif.Py.FeasibleNum
import Verif.Props.Feasible
import Verif.Py.Lattice
import Verif.Py.Chimera
import Verif.Props.Lattice
import Verif.Py.Subgraph
import Verif.Py.SubgraphInv
import Verif.Props.Subgraph
import Verif.Py.Grid
import Verif.Props.Grid
import Verif.Py.Errors
import Verif.Props.Errors
import Verif.Py.Connected
import Verif.Props.Connected
import Verif.Bus.Bits
import Verif.Bus.BitsInv
import Verif.Bus.Coord
import Verif.Bus.CoordInv
import Verif.Bus.Topo
import Verif.Spec.Lattice
import Verif.Bus.Frag
import Verif.Bus.Kind
import Verif.Bus.MaskInv
import Verif.Bus.EdgeInv
import Verif.Bus.Next
import Verif.Bus.NextInv
import Verif.Bus.Count
import Verif.Props.Tables
import Verif.Props.Masks
import Verif.Spec.Clique
import Verif.Bus.Bundle
import Verif.Bus.BundleInv
import Verif.Bus.Line
import Verif.Bus.EllInv
import Verif.Props.BusDemo
import Verif.Props.Bundles
import Verif.Bus.Clique
import Verif.Bus.CliqueMem
import Verif.Bus.CliqueInv
import Verif.Bus.CliqueDP
import Verif.Spec.Nested
import Verif.Bus.NestedInv
import Verif.Props.CliqueSearch
import Verif.Bus.Small
import Verif.Bus.SmallInv
import Verif.Props.Small
import Verif.Bus.Yield
import Verif.Bus.YieldInv
import Verif.Bus.BestInv
import Verif.Props.BestCliques
import Verif.Cache.Dict
import Verif.Cache.Clique
import Verif.Cache.CliqueInv
import Verif.Cache.MergeInv
import Verif.Props.CliqueCache
import Verif.Bus.Biclique
import Verif.Bus.BicliqueMem
import Verif.Bus.BicliqueInv
import Verif.Bus.BicliqueRect
import Verif.Bus.BicliqueBest
import Verif.Cache.Biclique
import Verif.Cache.BicliqueInv
import Verif.Props.Bicliques
import Verif.Bus.Find
import Verif.Bus.FindInv
import Verif.Props.OneShot
import Verif.Cache.Disk
import Verif.Cache.DiskInv
import Verif.Cache.DiskSys
import Verif.Cache.DiskRef
import Verif.Props.Disk
import Verif.Rng.Fast
import Verif.Rng.FastInv
import Verif.Props.Rng
import Verif.Cache.Serial
import Verif.Cache.SerialInv
import Verif.Cache.IdentInv
import Verif.Props.Serial
import Verif.Spec.Pack
import Verif.Pack.Grid
import Verif.Pack.Pack
import Verif.Pack.Cells
import Verif.Pack.GridInv
import Verif.Pack.FindInv
import Verif.Pack.SplitInv
import Verif.Pack.PackInv
import Verif.Pack.SortInv
import Verif.Pack.RunInv
import Verif.Pack.FinishInv
import Verif.Pack.ReplayInv
import Verif.Pack.TotalInv
import Verif.Pack.DemoSort
import Verif.Pack.TopInv
import Verif.Pack.Helpers
import Verif.Pack.HelpersInv
import Verif.Props.Pack
import Verif.Spec.Layout
import Verif.Spec.Cross
import Verif.Lay.Layout
import Verif.Lay.LayoutInv
import Verif.Lay.Intersect
import Verif.Lay.IntersectInv
import Verif.Lay.Closest
import Verif.Lay.ClosestInv
import Verif.Lay.PlaceInv
import Verif.Props.Layout
import Verif.Props.Crossings
import Verif.Props.Closest
import Verif.Lay.Find
import Verif.Props.LayoutFind
import Verif.Props.Prompt
import Verif.Spec.Components
import Verif.Lay.Components
import Verif.Lay.ComponentsInv
import Verif.Props.Components
import Verif.Lay.PNorm
import Verif.Props.PNorm
import Verif.Lay.PNormDeriv
import Verif.Props.PNormGrad
import Verif.Lay.GraphLayout
import Verif.Props.GraphLayout
import Verif.Props.Greedy
import Verif.Spec.Eden
import Verif.Eden.Eden
import Verif.Eden.Lines
import Verif.Eden.Blocks
import Verif.Eden.Table
import Verif.Eden.Native
import Verif.Eden.Cliques
import Verif.Props.Eden
import Verif.Eden.Biclique
import Verif.Eden.BicliqueInv
import Verif.Eden.BicliqueBest
import Verif.Props.EdenBiclique
import Verif.Spec.Processor
import Verif.Eden.Wrap
import Verif.Eden.Coords
import Verif.Eden.Covers
import Verif.Eden.Best
import Verif.Eden.Random
import Verif.Props.EdenProcessor
import Verif.Eden.Yield
import Verif.Props.EdenYield
import Verif.Props.EdenSquare
import Verif.Core.Restart
import Verif.Graph.Restart
import Verif.Graph.Miner
import Verif.Graph.MinerInv
import Verif.Graph.MinerHist
import Verif.Props.Miner
import Verif.Core.Wide
import Verif.Core.WideInv
import Verif.Core.Table
import Verif.Props.Wide
import Verif.Core.FillRun
import Verif.Graph.FillFind
import Verif.Props.Fill
import Verif.Core.Signed
import Verif.Core.SignedInv
import Verif.Graph.Signed
import Verif.Graph.SignedInv
import Verif.Props.Signed
import Verif.Py.Options
import Verif.Py.OptionsInv
import Verif.Props.Options
import Verif.Props.Timeout
import Verif.Spec.Matching
import Verif.Cache.Regular
import Verif.Cache.RegularInv
import Verif.Cache.Matching
import Verif.Props.Regular
import Verif.Cache.Mine
import Verif.Cache.MineInv
import Verif.Cache.MineKeep
import Verif.Props.Mine
import Verif.Cache.Wrapper
import Verif.Props.Wrapper
import Verif.Spec.Names
import Verif.Cache.Label
import Verif.Props.Label
import Verif.Cache.Clear
import Verif.Props.Clear
import Verif.Par.Chunks
import Verif.Par.Threads
import Verif.Par.ThreadsInv
import Verif.Par.RangesInv
import Verif.Par.CallInv
import Verif.Props.Threads
import Verif.Bus.Fragment
import Verif.Spec.Fragment
import Verif.Bus.FragmentInv
import Verif.Bus.FragmentMem
import Verif.Props.Fragment
import Verif.Cache.Entry
import Verif.Bus.CliqueNum
import Verif.Bus.MaskOnly
import Verif.Spec.Missing
import Verif.Bus.Few
import Verif.Props.Repeat
import Verif.Props.RepeatCases
import Verif.Spec.Rename
import Verif.Py.RenameInv
import Verif.Props.Rename
import Verif.Cache.EntryBi
import Verif.Spec.Piece
import Verif.Bus.Lies
import Verif.Props.RepeatBi
import Verif.Props.Guarantee
import Verif.Props.GuaranteeCases
import Verif.Props.GuaranteeClique
import Verif.Props.GuaranteeCliqueCases
import Verif.Spec.Draws
import Verif.Eden.Boxes
import Verif.Eden.Pick
import Verif.Eden.Steer
import Verif.Eden.Tower
import Verif.Eden.Odds
import Verif.Props.Uniform
import Verif.Spec.SubOptions
import Verif.Py.SubOptions
import Verif.Py.SubOptionsLemmas
import Verif.Props.SubOptions
import Verif.Core.Edgeless
import Verif.Graph.Edgeless
import Verif.Props.Edgeless
import Verif.Core.Diagnose
import Verif.Core.DiagnoseInv
import Verif.Props.SelfCheck
import Verif.Props.SelfCheckExact
import Verif.Bus.Iterate
import Verif.Bus.IterateInv
import Verif.Bus.IterateAll
import Verif.Props.CliqueIterator
import Verif.Props.SubgraphComplete
import Verif.Props.Maximal
import Verif.Props.MultiSubgraph
import Verif.Props.SubMaximal
import Verif.Props.Share
import Verif.Props.SubBound
import Verif.Props.BicliqueShort
