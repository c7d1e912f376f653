import Verif.Word
import Verif.Prog
import Verif.Code
import Verif.Conc
import Verif.AMap
import Verif.Fast
import Verif.Fixed.Logic
import Verif.Fixed.Map
import Verif.Fixed.Ops
import Verif.Fixed.Spec
import Verif.Fixed.Sys
import Verif.Seq.Logic
import Verif.Seq.Inv
import Verif.Seq.Steps
import Verif.Seq.Spec
import Verif.Seq.Put
import Verif.Seq.Main
import Verif.Seq.Top
import Verif.Seq.Ops
import Verif.Props.Seq
import Verif.Reopen
import Verif.Seq.Scan
import Verif.Seq.CutOpen
import Verif.Props.Reopen
import Verif.Lin
import Verif.Props.Witness
import Verif.Par.Logic
import Verif.Par.Inv
import Verif.Par.Spec
import Verif.Par.Map
import Verif.Par.Ops
import Verif.Props.Conc
import Verif.Seq.Fuel
import Verif.Seq.Total
import Verif.Seq.Crowd
import Verif.Seq.Grow
import Verif.Props.Finish
import Verif.Props.Growth
import Verif.Props.Fixed
import Verif.Own.Spec
import Verif.Own.Near
import Verif.Own.Logic
import Verif.Own.Get
import Verif.Own.Put
import Verif.Own.Ops
import Verif.Own.Sys
import Verif.Own.End
import Verif.Own.Good
import Verif.Own.Phases
import Verif.Props.Own
import Verif.Props.Phases
import Verif.Durable.Disc
import Verif.Durable.Spec
import Verif.Durable.Time
import Verif.Durable.Read
import Verif.Durable.Get
import Verif.Durable.Distinct
import Verif.Durable.Guard
import Verif.Durable.Last
import Verif.Durable.Crash
import Verif.Props.Durable
import Verif.Durable.Owned
import Verif.Durable.OwnedLast
import Verif.Props.OneWriter
import Verif.Props.Crashes
import Verif.Durable.Sessions
import Verif.Props.Sessions
import Verif.Props.Restarts
import Verif.Own.Reopened
import Verif.Props.Rejoin
import Verif.Props.Recount
import Verif.Props.Readback
import Verif.Props.Refound
import Verif.Ucf
import Verif.Props.Containers
import Verif.Props.Bits
import Verif.XXHash
import Verif.Props.XXHash
import Verif.Names
import Verif.Props.Names
import Verif.Persist
import Verif.Props.Persist
import Verif.Harness
import Verif.Props.Harness
import Verif.KCAS.Code
import Verif.KCAS.Bits
import Verif.KCAS.Logic
import Verif.KCAS.Seq
import Verif.KCAS.Ops
import Verif.KCAS.Calls
import Verif.KCAS.Decide
import Verif.KCAS.Crash
import Verif.KCAS.Recover
import Verif.KCAS.RecoverW
import Verif.KCAS.RecoverRun
import Verif.KCAS.RecoverHalt
import Verif.Props.KCASBits
import Verif.Props.KCAS
import Verif.Props.Recover
import Verif.Workload
import Verif.Props.Workload
import Verif.SelfTest
import Verif.Own.Check
import Verif.Own.Contents
import Verif.Own.Verdict
import Verif.Props.SelfTest
import Verif.Props.Asserts
import Verif.Live.Stuck
import Verif.Live.Sys
import Verif.Props.Lockfree
import Verif.Live.Bound
import Verif.Live.Own
import Verif.Live.Pace
import Verif.Live.Deep
import Verif.Live.Free
import Verif.Live.FreeOps
import Verif.Live.FreeSys
import Verif.Props.Progress
import Verif.LinSearch
import Verif.Props.Spurious
import Verif.Props.Winner
import Verif.Random
import Verif.Props.Random
import Verif.Props.Lock
import Verif.Par.Path
import Verif.Par.Find
import Verif.Props.Path
import Verif.XXStream
import Verif.Props.Stream
import Verif.XXH3
import Verif.Props.XXH3
import Verif.Own.Shift
import Verif.Own.Eras
import Verif.Clevel.Mem
import Verif.Clevel.Code
import Verif.Clevel.Logic
import Verif.Clevel.Inv
import Verif.Clevel.Search
import Verif.Clevel.Change
import Verif.Clevel.Erase
import Verif.Clevel.Find
import Verif.Clevel.Expand
import Verif.Clevel.Insert
import Verif.Clevel.Round
import Verif.Clevel.Seq
import Verif.Clevel.Conc
import Verif.Clevel.Rely
import Verif.Clevel.Cut
import Verif.Clevel.Reopen
import Verif.Clevel.RoundCut
import Verif.Clevel.Mover
import Verif.Props.Clevel
import Verif.Props.ClevelConc
import Verif.Props.ClevelCrash
import Verif.Pmem.Mem
import Verif.Pmem.Code
import Verif.Pmem.Index
import Verif.Pmem.Inv
import Verif.Pmem.Locks
import Verif.Pmem.Lists
import Verif.Pmem.Data
import Verif.Pmem.Move
import Verif.Pmem.Logic
import Verif.Pmem.Acquire
import Verif.Pmem.Race
import Verif.Pmem.Calls
import Verif.Pmem.Grow
import Verif.Pmem.System
import Verif.Pmem.Crash
import Verif.Pmem.Hist
import Verif.Pmem.Size
import Verif.Props.Pmem
import Verif.Pmem.Tls
import Verif.Props.Tls
import Verif.Pmem.Vec
import Verif.Pmem.VecRep
import Verif.Pmem.SegVec
import Verif.Pmem.SegRep
import Verif.Props.Vector
import Verif.Props.SegVector
import Verif.CCEH.Model
import Verif.CCEH.Inv
import Verif.Props.CCEH
import Verif.LevelHash.Model
import Verif.LevelHash.Inv
import Verif.Props.LevelHash
import Verif.Clht.Model
import Verif.Clht.Inv
import Verif.Props.Clht
