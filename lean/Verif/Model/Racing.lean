import Verif.Model.Reader

/-!
# Reading while the table is written

The other modules give a call one store, the same for all the requests the call makes.  Here every request
of one read is answered by a store of its own, so that other processes may change the table between any two
of them.  The functions are those of `Timeline`, `Listing`, `FsView`, `Table` and `Reader`, with the store of
each request made explicit.  What stays atomic is a single request: one listing of a directory, one lookup of
a file's metadata, one read of a file.  Reading a parquet file takes several requests in the code; base files
are not changed after they are written.
-/

namespace Hudi

/-- The contents of the storage when each request of a read is answered: the metadata of an instant that is gone
through (a replacecommit, in a read of a snapshot), the metadata of the latest commit, the file the schema is taken from, the subdirectories of a directory, the files
of a partition, the metadata of the base file at a path, and the contents of the file at a path.
Used at crates/core/src/table/mod.rs:320-335. -/
structure Race where
  replaced : Instant → Tree
  latest : Tree
  schema : Tree
  dirs : Str → Tree
  files : Str → Tree
  sizes : Str → Tree
  data : Str → Tree

/-- `get_replaced_file_groups_as_of` (crates/core/src/timeline/mod.rs:312-330). -/
def Timeline.replacedAsOfR (E : Env) (tl : Timeline) (R : Race) (ts : Str) : Res (List FileGroup) := do
  let s ← completedActionsInRange E.ltz [.replaceCommit] tl.opts none (some ts)
  Res.foldL
    (fun acc i => do
      let md ← instantMetadata (R.replaced i) i
      return fgExtend acc (← buildReplacedFileGroups md)) [] (s.select tl.completed)

/-- `Table::get_partition_schema` (crates/core/src/table/mod.rs:207-224) with `get_latest_schema`
(crates/core/src/timeline/mod.rs:257-310). -/
def Table.partitionSchemaR (tb : Table) (R : Race) : Res Schema := do
  let fields ← partitionFieldsOf tb.opts
  let schema ← schemaOfCommit R.schema (← tb.timeline.latestMetadata R.latest)
  return schema.filter (fun f => fields.contains f.name)

/-- `get_leaf_dirs` (crates/core/src/storage/mod.rs:269-289) below the directory `subdir`.  The first
argument bounds the depth of the recursion: the code recurses without bound, the model stops with `panic` when
the bound is exceeded, here also if directories keep being created below those visited. -/
def leafDirsR : Nat → Race → Str → Res (List Str)
  | 0, _, _ => .panic
  | n + 1, R, subdir =>
    match listDirs (R.dirs subdir) subdir with
    | [] => .ok [subdir]
    | ds => do
      let ls ← Res.mapL (fun d => leafDirsR n R (pathPush subdir d)) ds
      return ls.flatten

/-- `FileLister::list_relevant_partition_paths` (crates/core/src/table/listing.rs:125-151). -/
def relevantPartitionsR (A : Arrow) (o : Opts) (depth : Nat) (R : Race) (p : Pruner) : Res (List Str) := do
  if (← isTablePartitioned o) = false then Res.ok [[]]
  else do
    let top := (listDirs (R.dirs []) []).filter (fun d => !lakeFormatMetadataDirs.contains d)
    let ls ← Res.mapL (leafDirsR depth R) top
    let paths := ls.flatten
    if paths.isEmpty || p.isEmpty then Res.ok paths
    else return paths.filter (p.shouldInclude A)

/-- The file groups of one partition with its path (crates/core/src/table/listing.rs:172-175). -/
def listWithPathR (o : Opts) (R : Race) (path : Str) : Res (Str × List FileGroup) :=
  listWithPath o (R.files path) path

/-- `FileLister::list_file_groups_for_relevant_partitions`
(crates/core/src/table/listing.rs:153-187); see `listRelevant`. -/
def listRelevantR (A : Arrow) (o : Opts) (depth : Nat) (R : Race) (p : Pruner) :
    Res (List (Str × List FileGroup)) := do
  if (← isTablePartitioned o) = false then do
    let gs ← listFileGroups o (R.files []) []
    return [([], gs)]
  else do
    let paths ← relevantPartitionsR A o depth R p
    let par ← listingParallelismOf o
    if par = 0 then Res.panic
    else do
      let es ← Res.mapL (listWithPathR o R) paths
      return hmOfList es

/-- The body of the inner loop of `collect_file_slices_as_of`
(crates/core/src/table/fs_view.rs:83-90): the slice of one file group, if it has one.  The update of the
handle's cache is left out. -/
def pickGroupR (R : Race) (ts : Str) (excl : List FileGroup) (g : FileGroup) : Res (List FileSlice) :=
  if fgContains excl g then .ok []
  else
    match mapLastLe ts g.slices with
    | none => .ok []
    | some (_, s) => do
      let s' ← s.loadMetadata (R.sizes s.basePath)
      return [s']

/-- `FileSystemView::get_file_slices_as_of` through a fresh handle
(crates/core/src/table/fs_view.rs:57-105): the partitions are loaded into the empty cache, and then the slices
of the included ones are collected. -/
def viewSlicesAsOfR (A : Arrow) (o : Opts) (depth : Nat) (R : Race) (ts : Str) (p : Pruner)
    (excl : List FileGroup) : Res (List FileSlice) := do
  let m ← listRelevantR A o depth R p
  let ls ← Res.mapL (pickGroupR R ts excl)
    (((hmExtend [] m).filter (fun e => p.shouldInclude A e.1)).flatMap Prod.snd)
  return ls.flatten

/-- `Table::get_file_slices_internal` (crates/core/src/table/mod.rs:320-335) through a fresh handle. -/
def Table.fileSlicesInternalR (E : Env) (A : Arrow) (tb : Table) (depth : Nat) (R : Race) (ts : Str)
    (filters : List Filter) : Res (List FileSlice) := do
  let excl ← tb.timeline.replacedAsOfR E R ts
  let schema ← tb.partitionSchemaR R
  let pruner ← Pruner.new A filters schema tb.opts
  viewSlicesAsOfR A tb.opts depth R ts pruner excl

/-- `FileGroupReader::read_file_slice_by_base_file_path`
(crates/core/src/file_group/reader.rs:153-169). -/
def readBaseFileR (A : Arrow) (o : Opts) (R : Race) (path : Str) : Res Batch :=
  readBaseFile A o (R.data path) path

/-- One iteration of the first loop of `scan`
(crates/core/src/file_group/log_file/scanner.rs:52-67). -/
def scanFileR (C : Codec) (ltz : LocalTz) (o : Opts) (R : Race) (range : InstantRange) (path : Str) :
    Res (List LogBlock × List Str) := scanFile C ltz o (R.data path) range path

/-- `LogFileScanner::scan` (crates/core/src/file_group/log_file/scanner.rs:43-80). -/
def scanLogsR (C : Codec) (ltz : LocalTz) (o : Opts) (R : Race) (range : InstantRange) (paths : List Str) :
    Res (List (List Batch)) := do
  let files ← Res.mapL (scanFileR C ltz o R range) paths
  let targets := files.flatMap Prod.snd
  let kept ← Res.mapL (survivingBatches targets) (files.flatMap Prod.fst)
  return kept.filterMap id

/-- The second branch of `read_file_slice` (crates/core/src/file_group/reader.rs:204-226). -/
def readMergedR (C : Codec) (A : Arrow) (M : MergeEnv A) (ltz : LocalTz) (o : Opts) (R : Race)
    (s : FileSlice) : Res Batch := do
  let base ← readBaseFileR A o R s.basePath
  let range ← logScanRange o
  let logs ← scanLogsR C ltz o R range (s.logFiles.map s.logPath)
  mergeRecordBatches A M o base.schema (base :: logs.flatten)

/-- `FileGroupReader::read_file_slice` (crates/core/src/file_group/reader.rs:194-227). -/
def readFileSliceR (C : Codec) (A : Arrow) (M : MergeEnv A) (ltz : LocalTz) (o : Opts) (R : Race)
    (s : FileSlice) : Res Batch :=
  if s.hasLogFile = false then readBaseFileR A o R s.basePath
  else do
    let readOptimized ← (← Cfg.useReadOptimizedMode.getOrDefault o).toBool
    if readOptimized then readBaseFileR A o R s.basePath
    else readMergedR C A M ltz o R s

/-- `Table::read_snapshot_internal` (crates/core/src/table/mod.rs:432-447) through a fresh handle. -/
def Table.readSnapshotInternalR (E : Env) (A : Arrow) (C : Codec) (M : MergeEnv A) (tb : Table) (depth : Nat)
    (R : Race) (ts : Str) (filters : List Filter) : Res (List Batch) := do
  let ss ← tb.fileSlicesInternalR E A depth R ts filters
  let o := tb.readerOpts [(Cfg.fileGroupEndTimestamp.key, ts)]
  Res.mapL (readFileSliceR C A M E.ltz o R) ss

/-- `Table::read_snapshot` (crates/core/src/table/mod.rs:409-416) through a fresh handle. -/
def Table.readSnapshotR (E : Env) (A : Arrow) (C : Codec) (M : MergeEnv A) (tb : Table) (depth : Nat)
    (R : Race) (filters : List (Str × Str × Str)) : Res (List Batch) :=
  match tb.timeline.latestTimestamp with
  | some ts => do
    let fs ← fromStrTuples filters
    tb.readSnapshotInternalR E A C M depth R ts fs
  | none => .ok []

/-- `Table::read_snapshot_as_of` (crates/core/src/table/mod.rs:423-430) through a fresh handle. -/
def Table.readSnapshotAsOfR (E : Env) (A : Arrow) (C : Codec) (M : MergeEnv A) (tb : Table) (depth : Nat)
    (R : Race) (ts : Str) (filters : List (Str × Str × Str)) : Res (List Batch) := do
  let fs ← fromStrTuples filters
  tb.readSnapshotInternalR E A C M depth R ts fs

/-- One iteration of the loop of `get_file_groups_between` (crates/core/src/timeline/mod.rs:347-354). -/
def betweenStepR (R : Race) (acc : List FileGroup × List FileGroup) (i : Instant) :
    Res (List FileGroup × List FileGroup) := betweenStep (R.replaced i) acc i

/-- `get_file_groups_between` (crates/core/src/timeline/mod.rs:334-361). -/
def Timeline.fileGroupsBetweenR (E : Env) (tl : Timeline) (R : Race) (start stop : Option Str) :
    Res (List FileGroup) := do
  let s ← completedActionsInRange E.ltz defaultLoadingActions tl.opts start stop
  let r ← Res.foldL (betweenStepR R) ([], []) (s.select tl.completed)
  return fgDifference r.1 r.2

/-- `Table::get_file_slices_between_internal` (crates/core/src/table/mod.rs:363-380). -/
def Table.fileSlicesBetweenInternalR (E : Env) (tb : Table) (R : Race) (start stop : Str) :
    Res (List FileSlice) := do
  let gs ← tb.timeline.fileGroupsBetweenR E R (some start) (some stop)
  return gs.filterMap (fun g => g.sliceAsOf stop)

/-- `Table::read_incremental_records` (crates/core/src/table/mod.rs:456-481). -/
def Table.readIncrementalR (E : Env) (A : Arrow) (C : Codec) (M : MergeEnv A) (tb : Table) (R : Race)
    (start : Str) (stop : Option Str) : Res (List Batch) :=
  match stop.or tb.timeline.latestTimestamp with
  | none => .ok []
  | some stop => do
    let ss ← tb.fileSlicesBetweenInternalR E R start stop
    let o := tb.readerOpts [(Cfg.fileGroupStartTimestamp.key, start), (Cfg.fileGroupEndTimestamp.key, stop)]
    Res.mapL (readFileSliceR C A M E.ltz o R) ss

/-- A race in which nothing happens. Used at crates/core/src/table/mod.rs:320-335. -/
def Race.still (t : Tree) : Race :=
  ⟨fun _ => t, t, t, fun _ => t, fun _ => t, fun _ => t, fun _ => t⟩

end Hudi
