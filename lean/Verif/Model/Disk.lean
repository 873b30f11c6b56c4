import Verif.Model.Query
/-! # Where the files of an index are: config.go, remove.go, and the paths used in index.go and indexer.go

Several indexes on one disk, in directories anywhere, and one program after the other working on them.  A path leads to a place: a list of
directory names, found from the working directory by the walk the operating system makes, which is the one `filepath.Abs` makes when there are no
symbolic links.  There are none here.  Directories other than the ones of indexes are not modelled: parents are taken to exist.  Locks are in
Model/Lock; the lock file is beside the directory and is never removed. -/

namespace Dupi

/-- the index directories there are, by place -/
abbrev Disk := List Bytes → Option Dir

namespace Disk

/-- where a path leads a process with working directory `cwd` -/
def resolve (cwd p : Bytes) : List Bytes := cleanComps [] (splitSlash (absPath cwd p))

/-- the files in a directory; opening any file of a directory that does not exist fails as if the file did not exist -/
def dir (k : Disk) (p : List Bytes) : Dir := (k p).getD Dir.empty

/-- the directory at `p` (made with `os.Mkdir`, or there before) has new contents -/
def set (k : Disk) (p : List Bytes) (d : Dir) : Disk := fun q => if q = p then some d else k q

/-- `os.RemoveAll`: the directory and all below it -/
def removeAll (k : Disk) (p : List Bytes) : Disk := fun q => if p <+: q then none else k q

/-- config.go:109-115 with config.go:44-50, 85-87: the configuration of the directory at the root, which `DefaultConfig` makes absolute -/
def readConfig (J : CfgCodec) (k : Disk) (cwd root : Bytes) : M Config := Config.readFrom J (k.dir (resolve cwd (absPath cwd root)))

end Disk

/-- index.go:55-76: the rest of opening an index, from the files in the directory `d` -/
def Index.openWith (srt : Sorter) (c : Config) (d : Dir) : M Index := do
  let dmd ← d.read .dmd
  let fnm ← d.read .fnm
  let t ← Fnames.read fnm
  if c.numShards < 0 then panic'
  else
    let xs ← Index.openShards srt d c.numShards.toNat 0
    return ⟨c, dmd, t, xs⟩

/-- indexer.go:116-160: the rest of opening an index for appending, from the files in the directory `d` -/
def Indexer.openWith (c : Config) (d : Dir) : M Indexer := do
  let n ← makeShards c
  let a ← Dmd.newAdder (d .dmd) c.docFlushRate
  let fnm ← d.read .fnm
  let t ← Fnames.read fnm
  c.tokenConfig.fromConfig
  let xs ← openShards d n 0
  let bs ← makeBlotters c
  return ⟨c, ⟨t, a, d .dmd⟩, bs, xs⟩

namespace Disk

/-- index.go:39-76: the configuration is read at `root`, all other files at the place `IndexRoot` of the configuration leads to -/
def openIndex (J : CfgCodec) (srt : Sorter) (k : Disk) (cwd root : Bytes) : M Index := do
  let c ← readConfig J k cwd root
  Index.openWith srt c (k.dir (resolve cwd c.indexRoot))

/-- indexer.go:86-96, 116-160 -/
def openIndexer (J : CfgCodec) (k : Disk) (cwd root : Bytes) : M Indexer := do
  let c ← readConfig J k cwd root
  Indexer.openWith c (k.dir (resolve cwd c.indexRoot))

/-- what programs do, with the working directory of each -/
inductive Op where
  /-- `IndexerFromConfig` (indexer.go:42-84; `CreateIndexer` calls it with the configuration of `NewConfig`), documents are added, `Close` -/
  | create (cwd : Bytes) (c : Config) (docs : List Doc)
  /-- `OpenIndexer`, documents are added, `Close` -/
  | append (cwd root : Bytes) (docs : List Doc)
  /-- `OpenIndex`, `RemoveIndex` -/
  | remove (cwd root : Bytes)
  /-- `OpenIndexer`, documents are added, `RemoveIndexer` -/
  | discard (cwd root : Bytes) (docs : List Doc)

/-- Effects on the disk.  Everything but the configuration read at the beginning is found through `IndexRoot` of the configuration
(config.go:85-107); so is what `RemoveIndex` and `RemoveIndexer` remove (remove.go:19-35, index.go:96-98, indexer.go:175-177). -/
inductive Step (u : Uni) (J : CfgCodec) (srt : Sorter) (k : Disk) : Op → Disk → Prop where
  /-- indexer.go:55: `os.Mkdir` fails when there is a directory -/
  | create {cwd : Bytes} {c : Config} {x : Indexer} {docs : List Doc} {d : Dir} : k (resolve cwd c.indexRoot) = none →
      Indexer.create c = .ok x → Indexer.Session u J cwd x docs Dir.empty d → Step u J srt k (.create cwd c docs) (k.set (resolve cwd c.indexRoot) d)
  | append {cwd root : Bytes} {x : Indexer} {docs : List Doc} {d : Dir} : openIndexer J k cwd root = .ok x →
      Indexer.Session u J cwd x docs (k.dir (resolve cwd x.config.indexRoot)) d →
      Step u J srt k (.append cwd root docs) (k.set (resolve cwd x.config.indexRoot) d)
  /-- remove.go:19-26 -/
  | remove {cwd root : Bytes} {x : Index} : openIndex J srt k cwd root = .ok x →
      Step u J srt k (.remove cwd root) (k.removeAll (resolve cwd x.config.indexRoot))
  /-- remove.go:28-35 -/
  | discard {cwd root : Bytes} {x : Indexer} {docs : List Doc} {d : Dir} : openIndexer J k cwd root = .ok x →
      Indexer.Session u J cwd x docs (k.dir (resolve cwd x.config.indexRoot)) d →
      Step u J srt k (.discard cwd root docs) ((k.set (resolve cwd x.config.indexRoot) d).removeAll (resolve cwd x.config.indexRoot))

/-- one program after the other -/
inductive Steps (u : Uni) (J : CfgCodec) (srt : Sorter) : Disk → List Op → Disk → Prop where
  | nil {k : Disk} : Steps u J srt k [] k
  | snoc {k k' k'' : Disk} {ops : List Op} {op : Op} : Steps u J srt k ops k' → Step u J srt k' op k'' → Steps u J srt k (ops ++ [op]) k''

/-- a disk without indexes -/
def empty : Disk := fun _ => none

/-- `cp -r`: what is in the directory at `p`, also at `q` -/
def copy (k : Disk) (p q : List Bytes) : Disk := fun r => if r = q then k p else k r

/-- `mv` -/
def move (k : Disk) (p q : List Bytes) : Disk := fun r => if r = q then k p else if r = p then none else k r

end Disk
end Dupi
