import Verif.Model.Files
import Verif.Model.Partition

/-!
# File listing

Models crates/core/src/table/listing.rs and `get_leaf_dirs` of crates/core/src/storage/mod.rs.  The
iteration order of a `HashMap` is unspecified; the model uses the order of insertion, and the
theorems are stated up to the order of the results; Model/Orders.lean has arbitrary orders.
-/

namespace Hudi

/-- `FileLister::should_exclude_for_listing` (crates/core/src/table/listing.rs:59-61). -/
def shouldExclude (name : Str) : Bool :=
  startsWith partitionMetafieldPrefix name || endsWith c!".crc" name

/-- `get_or_default(BaseFileFormat).to::<String>()` (crates/core/src/table/listing.rs:64-67). -/
def baseFileFormatOf (o : Opts) : Res Str := do (← Cfg.baseFileFormat.getOrDefault o).toStr

/-- The base files and log files seen so far, by file id
(crates/core/src/table/listing.rs:71-72). -/
structure Listed where
  bases : List (Str × List BaseFile)
  logs : List (Str × List LogFile)
  deriving DecidableEq, Repr

/-- One iteration of the loop over the listed files (crates/core/src/table/listing.rs:74-107): a name
that is neither a base file's nor a log file's is skipped. -/
def listStep (format : Str) (acc : Listed) (m : FileMeta) : Res Listed :=
  if shouldExclude m.name then .ok acc
  else if endsWith (c!"." ++ format) m.name then do
    let b ← BaseFile.fromMeta m
    return { acc with bases := hmPush b.fileId b acc.bases }
  else
    match LogFile.fromMeta m with
    | .ok l => .ok { acc with logs := hmPush l.fileId l acc.logs }
    | .err _ => .ok acc
    | .panic => .panic

/-- One iteration of the loop over the file ids (crates/core/src/table/listing.rs:111-120). -/
def listGroup (partition : Str) (logs : List (Str × List LogFile)) (e : Str × List BaseFile) :
    Res FileGroup := do
  let g ← (FileGroup.new e.1 partition).addBaseFiles e.2
  g.addLogFiles ((hmGet e.1 logs).getD [])

/-- `FileLister::list_file_groups_for_partition` (crates/core/src/table/listing.rs:63-123). -/
def listFileGroups (o : Opts) (t : Tree) (partition : Str) : Res (List FileGroup) := do
  let format ← baseFileFormatOf o
  let acc ← Res.foldL (listStep format) ⟨[], []⟩ (listFiles t partition)
  Res.mapL (listGroup partition acc.logs) acc.bases

/-- The height of a directory tree. Used at crates/core/src/storage/mod.rs:269-289. -/
def Tree.height : Tree → Nat
  | .nil => 0
  | .file _ _ _ rest => rest.height
  | .dir _ sub rest => max (sub.height + 1) rest.height

/-- `get_leaf_dirs` (crates/core/src/storage/mod.rs:269-289) below the directory `subdir`.  The first
argument bounds the depth of the recursion: the code recurses without bound, the model stops with
`panic` when the bound is exceeded. -/
def leafDirs : Nat → Tree → Str → Res (List Str)
  | 0, _, _ => .panic
  | n + 1, t, subdir =>
    match listDirs t subdir with
    | [] => .ok [subdir]
    | ds => do
      let ls ← Res.mapL (fun d => leafDirs n t (pathPush subdir d)) ds
      return ls.flatten

/-- `LAKE_FORMAT_METADATA_DIRS` (crates/core/src/metadata/mod.rs:21-29). -/
def lakeFormatMetadataDirs : List Str := [c!".hoodie", c!"_delta_log", c!"metadata"]

/-- `FileLister::list_relevant_partition_paths` (crates/core/src/table/listing.rs:125-151). -/
def relevantPartitions (A : Arrow) (o : Opts) (t : Tree) (p : Pruner) : Res (List Str) := do
  if (← isTablePartitioned o) = false then Res.ok [[]]
  else do
    let top := (listDirs t []).filter (fun d => !lakeFormatMetadataDirs.contains d)
    let ls ← Res.mapL (leafDirs (t.height + 1) t) top
    let paths := ls.flatten
    if paths.isEmpty || p.isEmpty then Res.ok paths
    else return paths.filter (p.shouldInclude A)

/-- `get_or_default(ListingParallelism).to::<usize>()`
(crates/core/src/table/listing.rs:167-170). -/
def listingParallelismOf (o : Opts) : Res Nat := do
  (← Cfg.listingParallelism.getOrDefault o).toUsize

/-- The file groups of one partition with its path (crates/core/src/table/listing.rs:172-175). -/
def listWithPath (o : Opts) (t : Tree) (path : Str) : Res (Str × List FileGroup) := do
  return (path, ← listFileGroups o t path)

/-- `FileLister::list_file_groups_for_relevant_partitions`
(crates/core/src/table/listing.rs:153-187).  The partitions are listed concurrently; each result is
inserted under its own path, so the order of completion only decides which of several errors is
returned, and the model takes the first.  With a parallelism of 0, `buffer_unordered(0)` never polls
anything and the call never returns: `panic` here also stands for "no answer". -/
def listRelevant (A : Arrow) (o : Opts) (t : Tree) (p : Pruner) :
    Res (List (Str × List FileGroup)) := do
  if (← isTablePartitioned o) = false then do
    let gs ← listFileGroups o t []
    return [([], gs)]
  else do
    let paths ← relevantPartitions A o t p
    let par ← listingParallelismOf o
    if par = 0 then Res.panic
    else do
      let es ← Res.mapL (listWithPath o t) paths
      return hmOfList es

end Hudi
