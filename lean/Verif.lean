import Verif.Blocklist.Point
import Verif.Props.Blocklist
import Verif.Props.BlocklistPoint
import Verif.Props.BlocklistExact
import Verif.Props.AccessExact
import Verif.Props.Crash
import Verif.Props.Refs
import Verif.Props.Hooks
import Verif.Props.Codec
import Verif.Props.CacheTree
import Verif.Props.CacheOps
import Verif.Props.CacheTxn
import Verif.Props.CacheRewrite
import Verif.Props.FSReply
import Verif.Props.FSDir
import Verif.Props.DirChange
import Verif.Props.FSKeep
import Verif.Props.InMemory
import Verif.Props.InMemEdit
import Verif.Props.Local
import Verif.Props.Handles
import Verif.Props.Request
import Verif.Props.Conc
import Verif.Props.FSConc
import Verif.MT.Fair
import Verif.Props.FSLive
import Verif.Props.FSOrigin
import Verif.Props.OneCall
import Verif.Props.Wire
import Verif.Props.CacheBytes
import Verif.Fuse.Result
import Verif.Fuse.Session
import Verif.Main.Mount
import Verif.Props.Result
import Verif.Props.Session
import Verif.Props.Main
import Verif.Props.MainPaths
import Verif.Backend.LocalIO
import Verif.Props.LocalIO
import Verif.Blocklist.FullModel
import Verif.Blocklist.Full
import Verif.Props.Full
import Verif.Conform.Basic
import Verif.MT.Saw
import Verif.Props.FSMulti
import Verif.Blocklist.MapModel
import Verif.Props.Mapping
import Verif.Cache.CachedDir
import Verif.Cache.Objects
import Verif.Props.CachedDir
import Verif.Props.Objects
import Verif.Conform.Blocklist
import Verif.Conform.BlocklistLoop1
import Verif.Conform.BlocklistLoop2
import Verif.Conform.BlocklistLoop3
import Verif.Conform.Records
import Verif.Conform.InMemory
import Verif.Conform.Cache
import Verif.Conform.FS
import Verif.FS.ByteModel
import Verif.FS.Bytewise
import Verif.Props.FSBytes
import Verif.Props.FSLeak
import Verif.Props.Damaged
import Verif.Props.FSCrash
import Verif.Conc.ByteModel
import Verif.Conc.Bytewise
import Verif.MT.ByteModel
import Verif.MT.Bytewise
import Verif.Props.FSBytesMulti
import Verif.Backend.HostTree
import Verif.Props.LocalFS
import Verif.Props.LocalMT
import Verif.Props.LocalWhole
import Verif.Props.LocalWalk
import Verif.Props.FSListMT
import Verif.Props.LocalList
import Verif.Props.LocalBytes
import Verif.Props.LocalDemo
import Verif.Props.LocalDir
import Verif.Props.LinkFit
import Verif.Cache.Procs
import Verif.Props.Procs
import Verif.Backend.MemHeap
import Verif.Backend.MemTree
import Verif.Backend.MemAbs
import Verif.Props.MemHeap
import Verif.Props.Life
import Verif.Props.Monotonic
import Verif.Props.LifeBytes
import Verif.Backend.Posix
import Verif.Props.Posix
import Verif.Props.Contain
import Verif.FS.Kernel
import Verif.Props.Fresh
import Verif.Cache.Refuse
import Verif.Cache.RefuseRun
import Verif.Props.Refuse
import Verif.MT.Frozen
import Verif.Props.Frozen
import Verif.Props.FrozenBytes
import Verif.FS.Absence
import Verif.Props.Absence
import Verif.FS.Frame
import Verif.Props.Frame
import Verif.Props.Asked
import Verif.Cache.Pointers
import Verif.Cache.PointersSim
import Verif.Props.Pointers
import Verif.Blocklist.Power
import Verif.Props.Power
import Verif.Blocklist.Lives
import Verif.Blocklist.Sane
import Verif.Props.Lives
import Verif.Props.Recovered
import Verif.Blocklist.Grid
import Verif.Blocklist.Dump
import Verif.Props.Dump
import Verif.Props.Storage
import Verif.Props.Twice
import Verif.Props.Order
import Verif.Props.Records
import Verif.Props.Walked
import Verif.Props.Links
import Verif.Props.WalkedBytes
import Verif.Props.Expiry
import Verif.Props.Offline
import Verif.Props.OfflineBytes
import Verif.Props.FrameBytes
import Verif.Props.AbsenceBytes
import Verif.Props.DirBytes
import Verif.Props.LinkFitBytes
import Verif.Props.ListBytes
