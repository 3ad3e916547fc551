import Verif.Model.Util
import Verif.Model.Map
import Verif.Model.Options
import Verif.Spec
import Verif.History
import Verif.Proofs.Util
import Verif.Proofs.Lists
import Verif.Proofs.Trie
import Verif.Proofs.Inv
import Verif.Proofs.Split
import Verif.Proofs.MakeBucket
import Verif.Proofs.Find
import Verif.Proofs.Reach
import Verif.Proofs.Refine
import Verif.Proofs.Refine2
import Verif.Proofs.Run
import Verif.Proofs.Example
import Verif.Props.Arith
import Verif.Props.Options
import Verif.Props.Sequential
import Verif.Proofs.StepEff
import Verif.Proofs.Ends
import Verif.Proofs.Count
import Verif.Proofs.Depth
import Verif.Props.Structure
import Verif.Props.Static
import Verif.Proofs.Held
import Verif.Proofs.Core
import Verif.Proofs.Crowd
import Verif.Props.Counting
import Verif.Props.Spread
import Verif.Props.Crash
import Verif.Props.RMap
import Verif.Model.Pool
import Verif.Proofs.Pool
import Verif.Proofs.Pool2
import Verif.Props.Pool
import Verif.Proofs.RMap
import Verif.Proofs.RMap2
import Verif.Model.RMap
import Verif.Model.Embedded
import Verif.Proofs.EmbFind
import Verif.Proofs.EmbTrie
import Verif.Proofs.EmbPool
import Verif.Proofs.EmbInv
import Verif.Proofs.EmbSplit
import Verif.Proofs.EmbOps
import Verif.Proofs.EmbRun
import Verif.Props.Embedded
import Verif.Props.Embedded2
import Verif.Proofs.EmbDel
import Verif.Proofs.EmbDel2
import Verif.Proofs.EmbDel3
import Verif.Proofs.EmbDel4
import Verif.Props.EmbDel
import Verif.Props.EmbPurge
import Verif.Proofs.EmbProv
import Verif.Props.EmbProv
import Verif.Model.Conc
import Verif.Proofs.Conc
import Verif.Proofs.Conc2
import Verif.Proofs.Conc3
import Verif.Proofs.Conc4
import Verif.Proofs.Conc5
import Verif.Proofs.Conc6
import Verif.Proofs.Conc7
import Verif.Proofs.ConcExec
import Verif.Proofs.Conc8
import Verif.Props.Conc
import Verif.Props.Conc2
import Verif.Proofs.Conc9
import Verif.Props.Conc3
import Verif.Props.Conc4
import Verif.Model.EConc
import Verif.Proofs.EConc
import Verif.Proofs.EConc2
import Verif.Proofs.EConc3
import Verif.Proofs.EConc4
import Verif.Props.EConc
import Verif.Props.EConc2
import Verif.Props.Provenance
import Verif.Props.NoConfusion
import Verif.Props.RMapProv
import Verif.Model.Slots
import Verif.Proofs.Slots
import Verif.Proofs.Slots2
import Verif.Props.Slots
import Verif.Model.RConc
import Verif.Proofs.RConc
import Verif.Proofs.RConc2
import Verif.Proofs.RConc3
import Verif.Proofs.RConc4
import Verif.Proofs.RConc5
import Verif.Props.RConc
import Verif.Model.EmbList
import Verif.Proofs.EmbList
import Verif.Proofs.EmbList2
import Verif.Proofs.EmbList3
import Verif.Proofs.EmbList4
import Verif.Proofs.EmbList5
import Verif.Proofs.EmbList6
import Verif.Proofs.EmbList7
import Verif.Proofs.EmbList8
import Verif.Proofs.EmbList9
import Verif.Props.EmbList
import Verif.Proofs.Conc10
import Verif.Props.Conc5
import Verif.Proofs.PerKey
import Verif.Props.PerKey
import Verif.Proofs.EmbWork
import Verif.Props.EmbWork
import Verif.Model.Walk
import Verif.Proofs.Walk
import Verif.Proofs.Walk2
import Verif.Props.Walk
import Verif.Model.LConc
import Verif.Proofs.LConc
import Verif.Proofs.LConc2
import Verif.Props.LConc
import Verif.Model.EmbSearch
import Verif.Props.EmbSearch
import Verif.Model.EmbWalk
import Verif.Proofs.EmbWalk
import Verif.Props.EmbWalk
import Verif.Model.LiveOpt
import Verif.Props.LiveOpt
import Verif.Model.Hold
import Verif.Proofs.Hold
import Verif.Props.Hold
import Verif.SpecCell
import Verif.Proofs.Conc11
import Verif.Props.Conc6
import Verif.Props.Conc7
import Verif.Props.Conc8
import Verif.Props.EConc3
import Verif.Props.Sim
import Verif.Props.Locate
import Verif.Props.Cost
import Verif.Props.Fill
import Verif.Props.Dump
import Verif.Props.Conc9
import Verif.Props.Conc10
import Verif.Props.Conc11
import Verif.Model.PoolMgr
import Verif.Props.PoolMgr
import Verif.Props.Dump2
import Verif.Props.Dump3
import Verif.Model.ESplit
import Verif.Proofs.ESplit
import Verif.Proofs.ESplit2
import Verif.Props.ESplit
import Verif.Proofs.EmbFill
import Verif.Props.EmbFill
import Verif.Model.TestSet
import Verif.Model.EmbCost
import Verif.Proofs.EmbCost
import Verif.Props.EmbCost
import Verif.Props.Memory
import Verif.Props.Lost
import Verif.Props.Content
import Verif.Props.Quiet
import Verif.Proofs.EmbRoom
import Verif.Props.Few
import Verif.Props.Told
import Verif.Props.Sum
import Verif.Props.Div
import Verif.Model.NearEntry
import Verif.Props.Near
import Verif.Props.Shown
