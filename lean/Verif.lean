import Verif.Model.Again
import Verif.Model.Attic
import Verif.Model.Bloom
import Verif.Model.Blotter
import Verif.Model.Callers
import Verif.Model.Closed
import Verif.Model.Cmd
import Verif.Model.Commands
import Verif.Model.Config
import Verif.Model.Crash
import Verif.Model.Csv
import Verif.Model.Disk
import Verif.Model.Dmd
import Verif.Model.DmdConc
import Verif.Model.Enron
import Verif.Model.Faults
import Verif.Model.Find
import Verif.Model.Float
import Verif.Model.Fnames
import Verif.Model.FnamesString
import Verif.Model.Go
import Verif.Model.Indexer
import Verif.Model.Json
import Verif.Model.JsonOut
import Verif.Model.Late
import Verif.Model.Live
import Verif.Model.Lock
import Verif.Model.LockWin
import Verif.Model.Main
import Verif.Model.Making
import Verif.Model.NewDoc
import Verif.Model.Path
import Verif.Model.Pipe
import Verif.Model.Pointers
import Verif.Model.Post
import Verif.Model.Poster
import Verif.Model.Program
import Verif.Model.Query
import Verif.Model.Race
import Verif.Model.ReadFaults
import Verif.Model.Resources
import Verif.Model.Reuse
import Verif.Model.Run
import Verif.Model.Sched
import Verif.Model.Shard
import Verif.Model.Shared
import Verif.Model.Shatter
import Verif.Model.Sigma
import Verif.Model.Stats
import Verif.Model.Strconv
import Verif.Model.Strings
import Verif.Model.Text
import Verif.Model.Token
import Verif.Model.Twin
import Verif.Model.Usage
import Verif.Model.Utf8
import Verif.Proof.Again
import Verif.Proof.AnyAppend
import Verif.Proof.AnyDir
import Verif.Proof.AnyDrawn
import Verif.Proof.AnyGet
import Verif.Proof.AnyNext
import Verif.Proof.AnyNum
import Verif.Proof.AnyOrder
import Verif.Proof.AnySession
import Verif.Proof.AnyShardAdd
import Verif.Proof.AnyTable
import Verif.Proof.AnyTableAdd
import Verif.Proof.Blocks
import Verif.Proof.Blotter
import Verif.Proof.Callers
import Verif.Proof.Closed
import Verif.Proof.ConfigExact
import Verif.Proof.ConfigJson
import Verif.Proof.Crash
import Verif.Proof.CrashAppend
import Verif.Proof.CrashLink
import Verif.Proof.CrashOps
import Verif.Proof.CrashRun
import Verif.Proof.CrashShard
import Verif.Proof.Csv
import Verif.Proof.Cut
import Verif.Proof.CutAppend
import Verif.Proof.Damaged
import Verif.Proof.DamagedIndex
import Verif.Proof.DamagedNext
import Verif.Proof.Disk
import Verif.Proof.Dmd
import Verif.Proof.Faults
import Verif.Proof.FaultsFile
import Verif.Proof.FaultsIndex
import Verif.Proof.FaultsPoster
import Verif.Proof.FaultsRead
import Verif.Proof.FaultsSession
import Verif.Proof.FaultsShard
import Verif.Proof.FaultsWitness
import Verif.Proof.Find
import Verif.Proof.Float
import Verif.Proof.FloatStats
import Verif.Proof.FloatSum
import Verif.Proof.Fnames
import Verif.Proof.FnamesIO
import Verif.Proof.FnamesTrunc
import Verif.Proof.Full
import Verif.Proof.FullHistory
import Verif.Proof.FullPosts
import Verif.Proof.Hang
import Verif.Proof.Index
import Verif.Proof.IndexPosts
import Verif.Proof.Indexer
import Verif.Proof.Json
import Verif.Proof.JsonExact
import Verif.Proof.JsonTame
import Verif.Proof.JsonText
import Verif.Proof.JsonWrite
import Verif.Proof.LatePages
import Verif.Proof.Layout
import Verif.Proof.LimAny
import Verif.Proof.ListX
import Verif.Proof.LiveFiles
import Verif.Proof.LiveGet
import Verif.Proof.LiveMeta
import Verif.Proof.LiveNext
import Verif.Proof.LiveRead
import Verif.Proof.Local
import Verif.Proof.LocalHeads
import Verif.Proof.LocalMeta
import Verif.Proof.Lost
import Verif.Proof.Lower
import Verif.Proof.Main
import Verif.Proof.Misuse
import Verif.Proof.Moments
import Verif.Proof.NamesFile
import Verif.Proof.NextLim
import Verif.Proof.Numeral
import Verif.Proof.ParseInt
import Verif.Proof.Passage
import Verif.Proof.Path
import Verif.Proof.PathOrder
import Verif.Proof.PathSpec
import Verif.Proof.PostsRead
import Verif.Proof.PowerLoss
import Verif.Proof.Query
import Verif.Proof.Quiet
import Verif.Proof.Race
import Verif.Proof.RaceBad
import Verif.Proof.ReadFaults
import Verif.Proof.ReadFaultsAppend
import Verif.Proof.ReadFaultsQuery
import Verif.Proof.Reads
import Verif.Proof.ReadsNext
import Verif.Proof.Resources
import Verif.Proof.Reuse
import Verif.Proof.ReuseAny
import Verif.Proof.Sched
import Verif.Proof.SchedHeld
import Verif.Proof.SchedLive
import Verif.Proof.SchedMap
import Verif.Proof.SchedStuck
import Verif.Proof.SchedTerm
import Verif.Proof.SchedWrap
import Verif.Proof.Shard
import Verif.Proof.Shared
import Verif.Proof.Shatter
import Verif.Proof.Sigma
import Verif.Proof.Size
import Verif.Proof.Text
import Verif.Proof.Token
import Verif.Proof.TwinIndex
import Verif.Proof.TwinPoster
import Verif.Proof.TwinQuery
import Verif.Proof.TwinSession
import Verif.Proof.TwinShard
import Verif.Proof.Utf8
import Verif.Proof.Utf8Char
import Verif.Proof.Varint
import Verif.Proof.Words
import Verif.Props.Again
import Verif.Props.Alike
import Verif.Props.AnyAppend
import Verif.Props.AnyCmds
import Verif.Props.AnyConfig
import Verif.Props.AnyDir
import Verif.Props.AnyDrawn
import Verif.Props.AnyExtract
import Verif.Props.AnyGet
import Verif.Props.AnyLike
import Verif.Props.AnyLikeAll
import Verif.Props.AnyNext
import Verif.Props.AnySession
import Verif.Props.Bloom
import Verif.Props.BloomMade
import Verif.Props.BlotCmd
import Verif.Props.Blotter
import Verif.Props.Callers
import Verif.Props.Closed
import Verif.Props.Commands
import Verif.Props.Config
import Verif.Props.ConfigExact
import Verif.Props.ConfigFile
import Verif.Props.ConfigRun
import Verif.Props.Confused
import Verif.Props.Crash
import Verif.Props.CrashAppend
import Verif.Props.Cut
import Verif.Props.CutAppend
import Verif.Props.Damaged
import Verif.Props.Disk
import Verif.Props.Dmd
import Verif.Props.DmdConc
import Verif.Props.Enron
import Verif.Props.Exit
import Verif.Props.Extract
import Verif.Props.Faults
import Verif.Props.Find
import Verif.Props.Fnames
import Verif.Props.Full
import Verif.Props.FullGet
import Verif.Props.FullLim
import Verif.Props.FullNext
import Verif.Props.FullPaths
import Verif.Props.FullSessions
import Verif.Props.IndexCmd
import Verif.Props.InspectJson
import Verif.Props.JsonOut
import Verif.Props.Large
import Verif.Props.LargeAny
import Verif.Props.Late
import Verif.Props.LatePages
import Verif.Props.Like
import Verif.Props.LimAny
import Verif.Props.Live
import Verif.Props.LiveNext
import Verif.Props.Local
import Verif.Props.LocalHeads
import Verif.Props.LocalMeta
import Verif.Props.Lock
import Verif.Props.LockWin
import Verif.Props.Main
import Verif.Props.MakeAny
import Verif.Props.Making
import Verif.Props.Memory
import Verif.Props.NewDoc
import Verif.Props.NextLim
import Verif.Props.Noisy
import Verif.Props.Numbers
import Verif.Props.PathOrder
import Verif.Props.Pipe
import Verif.Props.Pointers
import Verif.Props.Posts
import Verif.Props.PowerLoss
import Verif.Props.Query
import Verif.Props.Quiet
import Verif.Props.Race
import Verif.Props.ReadFaults
import Verif.Props.Reads
import Verif.Props.Resources
import Verif.Props.Reuse
import Verif.Props.Run
import Verif.Props.Sched
import Verif.Props.Sequence
import Verif.Props.Shard
import Verif.Props.Shared
import Verif.Props.Shatter
import Verif.Props.Sigma
import Verif.Props.Size
import Verif.Props.Stats
import Verif.Props.Strings
import Verif.Props.Text
import Verif.Props.Token
import Verif.Props.Tree
import Verif.Props.Trigram
import Verif.Props.Twin
import Verif.Props.Unblot
import Verif.Props.Usage
import Verif.Props.UsageText
import Verif.Spec.AnyAppend
import Verif.Spec.AnyCmds
import Verif.Spec.AnyDir
import Verif.Spec.AnyDrawn
import Verif.Spec.AnyGet
import Verif.Spec.AnyNext
import Verif.Spec.AnySession
import Verif.Spec.Closed
import Verif.Spec.CommandLine
import Verif.Spec.ConfigExact
import Verif.Spec.ConfigJson
import Verif.Spec.Csv
import Verif.Spec.Damage
import Verif.Spec.Disk
import Verif.Spec.DocBlots
import Verif.Spec.Heads
import Verif.Spec.Index
import Verif.Spec.IntLit
import Verif.Spec.Json
import Verif.Spec.JsonNum
import Verif.Spec.JsonOut
import Verif.Spec.LatePages
import Verif.Spec.Layout
import Verif.Spec.Lines
import Verif.Spec.Local
import Verif.Spec.Misuse
import Verif.Spec.Moments
import Verif.Spec.Numeral
import Verif.Spec.Path
import Verif.Spec.PathOrder
import Verif.Spec.Postings
import Verif.Spec.PowerLoss
import Verif.Spec.Quiet
import Verif.Spec.Records
import Verif.Spec.Reuse
import Verif.Spec.Runs
import Verif.Spec.Sigma
import Verif.Spec.Size
import Verif.Spec.Text
import Verif.Spec.Trigram
import Verif.Spec.Twin
import Verif.Spec.Window
