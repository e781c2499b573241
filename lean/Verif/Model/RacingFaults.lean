import Verif.Model.Faults
import Verif.Model.Racing

/-!
# Calls whose requests fail or are answered at different moments

The functions of `Faults`, where every request may fail, with the storage that answers each request made
explicit as in `Racing`, so that other processes may change the table between any two requests.  The handle
keeps its cache from call to call.
-/

namespace Hudi

/-! ## Timeline -/

/-- `get_replaced_file_groups_as_of` (crates/core/src/timeline/mod.rs:312-330). -/
def Timeline.replacedAsOfRF (E : Env) (tl : Timeline) (R : Race) (ts : Str) : Io (List FileGroup) := do
  let s ← Io.lift (completedActionsInRange E.ltz [.replaceCommit] tl.opts none (some ts))
  Io.foldL
    (fun acc i => do
      let md ← instantMetadataF (R.replaced i) i
      let gs ← Io.lift (buildReplacedFileGroups md)
      return fgExtend acc gs) [] (s.select tl.completed)

/-- `get_latest_schema` (crates/core/src/timeline/mod.rs:257-310). -/
def Timeline.latestSchemaRF (tl : Timeline) (R : Race) : Io Schema := do
  let md ← tl.latestMetadataF R.latest
  schemaOfCommitF R.schema md

/-- `get_file_groups_between` (crates/core/src/timeline/mod.rs:334-361). -/
def Timeline.fileGroupsBetweenRF (E : Env) (tl : Timeline) (R : Race) (start stop : Option Str) :
    Io (List FileGroup) := do
  let s ← Io.lift (completedActionsInRange E.ltz defaultLoadingActions tl.opts start stop)
  let r ← Io.foldL (fun acc i => betweenStepF (R.replaced i) acc i) ([], []) (s.select tl.completed)
  return fgDifference r.1 r.2

/-! ## Listing -/

/-- `get_leaf_dirs` (crates/core/src/storage/mod.rs:269-289); see `leafDirsR`. -/
def leafDirsRF : Nat → Race → Str → Io (List Str)
  | 0, _, _ => Io.lift .panic
  | k + 1, R, subdir => do
    let ds ← Io.request .storage (.ok (listDirs (R.dirs subdir) subdir))
    match ds with
    | [] => Io.lift (.ok [subdir])
    | d :: ds => do
      let ls ← Io.mapL (fun d => leafDirsRF k R (pathPush subdir d)) (d :: ds)
      return ls.flatten

/-- `FileLister::list_relevant_partition_paths` (crates/core/src/table/listing.rs:125-151). -/
def relevantPartitionsRF (A : Arrow) (o : Opts) (depth : Nat) (R : Race) (p : Pruner) : Io (List Str) := do
  let partitioned ← Io.lift (isTablePartitioned o)
  if partitioned = false then Io.lift (.ok [[]])
  else do
    let top ← Io.request .storage (.ok (listDirs (R.dirs []) []))
    let ls ← Io.mapL (leafDirsRF depth R) (top.filter (fun d => !lakeFormatMetadataDirs.contains d))
    let paths := ls.flatten
    if paths.isEmpty || p.isEmpty then Io.lift (.ok paths)
    else return paths.filter (p.shouldInclude A)

/-- `FileLister::list_file_groups_for_relevant_partitions`
(crates/core/src/table/listing.rs:153-187); see `listRelevant`. -/
def listRelevantRF (A : Arrow) (o : Opts) (depth : Nat) (R : Race) (p : Pruner) :
    Io (List (Str × List FileGroup)) := do
  let partitioned ← Io.lift (isTablePartitioned o)
  if partitioned = false then do
    let gs ← listFileGroupsF o (R.files []) []
    return [([], gs)]
  else do
    let paths ← relevantPartitionsRF A o depth R p
    let par ← Io.lift (listingParallelismOf o)
    if par = 0 then Io.lift .panic
    else do
      let es ← Io.mapL (fun path => listWithPathF o (R.files path) path) paths
      return hmOfList es

/-! ## File system view -/

/-- The body of the inner loop of `collect_file_slices_as_of`
(crates/core/src/table/fs_view.rs:83-90). -/
def collectGroupRF (R : Race) (ts : Str) (excl : List FileGroup) (g : FileGroup) :
    Io (FileGroup × Option FileSlice) :=
  if fgContains excl g then Io.lift (.ok (g, none))
  else
    match mapLastLe ts g.slices with
    | none => Io.lift (.ok (g, none))
    | some (k, s) => do
      let s' ← s.loadMetadataF (R.sizes s.basePath)
      return ({ g with slices := mapInsert k s' g.slices }, some s')

/-- The inner loop (crates/core/src/table/fs_view.rs:82-91).  When a file group fails, the ones before it have
already been updated. -/
def collectGroupsRF (R : Race) (ts : Str) (excl : List FileGroup) :
    List FileGroup → Faults → Nat → Nat × List FileGroup × Res (List FileSlice)
  | [], _, n => (n, [], .ok [])
  | g :: gs, F, n =>
    match collectGroupRF R ts excl g F n with
    | (n', .ok (g', s)) =>
      let r := collectGroupsRF R ts excl gs F n'
      (r.1, g' :: r.2.1, do return s.toList ++ (← r.2.2))
    | (n', .err e) => (n', g :: gs, .err e)
    | (n', .panic) => (n', g :: gs, .panic)

/-- The loop of `collect_file_slices_as_of` over the cached partitions
(crates/core/src/table/fs_view.rs:71-94). -/
def collectSlicesRF (A : Arrow) (R : Race) (ts : Str) (p : Pruner) (excl : List FileGroup) (F : Faults) :
    Nat → Cache → Nat × Cache × Res (List FileSlice)
  | n, [] => (n, [], .ok [])
  | n, (path, gs) :: rest =>
    if p.shouldInclude A path = false then
      let r := collectSlicesRF A R ts p excl F n rest
      (r.1, (path, gs) :: r.2.1, r.2.2)
    else
      let a := collectGroupsRF R ts excl gs F n
      match a.2.2 with
      | .ok l =>
        let r := collectSlicesRF A R ts p excl F a.1 rest
        (r.1, (path, a.2.1) :: r.2.1, do return l ++ (← r.2.2))
      | .err e => (a.1, (path, a.2.1) :: rest, .err e)
      | .panic => (a.1, (path, a.2.1) :: rest, .panic)

/-- `FileSystemView::get_file_slices_as_of` (crates/core/src/table/fs_view.rs:96-105): the cache is extended
when all listings have come back. -/
def viewSlicesAsOfRF (A : Arrow) (o : Opts) (depth : Nat) (R : Race) (ts : Str) (p : Pruner)
    (excl : List FileGroup) : IoQuery (List FileSlice) := fun F n c =>
  match listRelevantRF A o depth R p F n with
  | (n', .ok m) => collectSlicesRF A R ts p excl F n' (hmExtend c m)
  | (n', .err e) => (n', c, .err e)
  | (n', .panic) => (n', c, .panic)

/-! ## Table -/

/-- `Table::get_partition_schema` (crates/core/src/table/mod.rs:207-224). -/
def Table.partitionSchemaRF (tb : Table) (R : Race) : Io Schema := do
  let fields ← Io.lift (partitionFieldsOf tb.opts)
  let schema ← tb.timeline.latestSchemaRF R
  return schema.filter (fun f => fields.contains f.name)

/-- `Table::get_file_slices_internal` (crates/core/src/table/mod.rs:320-335). -/
def Table.fileSlicesInternalRF (E : Env) (A : Arrow) (tb : Table) (depth : Nat) (R : Race) (ts : Str)
    (filters : List Filter) : IoQuery (List FileSlice) := do
  let excl ← IoQuery.lift (tb.timeline.replacedAsOfRF E R ts)
  let schema ← IoQuery.lift (tb.partitionSchemaRF R)
  let pruner ← IoQuery.lift (Io.lift (Pruner.new A filters schema tb.opts))
  viewSlicesAsOfRF A tb.opts depth R ts pruner excl

/-- `Table::get_file_slices` (crates/core/src/table/mod.rs:294-301). -/
def Table.fileSlicesRF (E : Env) (A : Arrow) (tb : Table) (depth : Nat) (R : Race)
    (filters : List (Str × Str × Str)) : IoQuery (List FileSlice) :=
  match tb.timeline.latestTimestamp with
  | some ts => do
    let fs ← IoQuery.lift (Io.lift (fromStrTuples filters))
    tb.fileSlicesInternalRF E A depth R ts fs
  | none => pure []

/-- `Table::get_file_slices_as_of` (crates/core/src/table/mod.rs:311-318). -/
def Table.fileSlicesAsOfRF (E : Env) (A : Arrow) (tb : Table) (depth : Nat) (R : Race) (ts : Str)
    (filters : List (Str × Str × Str)) : IoQuery (List FileSlice) := do
  let fs ← IoQuery.lift (Io.lift (fromStrTuples filters))
  tb.fileSlicesInternalRF E A depth R ts fs

/-- `Table::get_file_slices_splits_internal` (crates/core/src/table/mod.rs:267-285). -/
def Table.fileSlicesSplitsInternalRF (E : Env) (A : Arrow) (tb : Table) (depth : Nat) (R : Race) (k : Nat)
    (ts : Str) (filters : List Filter) : IoQuery (List (List FileSlice)) := do
  let l ← tb.fileSlicesInternalRF E A depth R ts filters
  IoQuery.lift (Io.lift (splitSlices k l))

/-- `Table::get_file_slices_splits` (crates/core/src/table/mod.rs:236-248). -/
def Table.fileSlicesSplitsRF (E : Env) (A : Arrow) (tb : Table) (depth : Nat) (R : Race) (k : Nat)
    (filters : List (Str × Str × Str)) : IoQuery (List (List FileSlice)) :=
  match tb.timeline.latestTimestamp with
  | some ts => do
    let fs ← IoQuery.lift (Io.lift (fromStrTuples filters))
    tb.fileSlicesSplitsInternalRF E A depth R k ts fs
  | none => pure []

/-- `Table::get_file_slices_splits_as_of` (crates/core/src/table/mod.rs:256-265). -/
def Table.fileSlicesSplitsAsOfRF (E : Env) (A : Arrow) (tb : Table) (depth : Nat) (R : Race) (k : Nat)
    (ts : Str) (filters : List (Str × Str × Str)) : IoQuery (List (List FileSlice)) := do
  let fs ← IoQuery.lift (Io.lift (fromStrTuples filters))
  tb.fileSlicesSplitsInternalRF E A depth R k ts fs

/-- `Table::get_file_slices_between_internal` (crates/core/src/table/mod.rs:363-380). -/
def Table.fileSlicesBetweenInternalRF (E : Env) (tb : Table) (R : Race) (start stop : Str) :
    Io (List FileSlice) := do
  let gs ← tb.timeline.fileGroupsBetweenRF E R (some start) (some stop)
  return gs.filterMap (fun g => g.sliceAsOf stop)

/-- `Table::get_file_slices_between` (crates/core/src/table/mod.rs:345-361). -/
def Table.fileSlicesBetweenRF (E : Env) (tb : Table) (R : Race) (start stop : Option Str) :
    Io (List FileSlice) :=
  match stop.or tb.timeline.latestTimestamp with
  | none => Io.lift (.ok [])
  | some stop => tb.fileSlicesBetweenInternalRF E R (start.getD earliestStart) stop

/-! ## Reading -/

/-- `FileGroupReader::read_file_slice_by_base_file_path`
(crates/core/src/file_group/reader.rs:153-169). -/
def readBaseFileRF (A : Arrow) (o : Opts) (R : Race) (path : Str) : Io Batch :=
  readBaseFileF A o (R.data path) path

/-- `LogFileScanner::scan` (crates/core/src/file_group/log_file/scanner.rs:43-80). -/
def scanLogsRF (C : Codec) (ltz : LocalTz) (o : Opts) (R : Race) (range : InstantRange) (paths : List Str) :
    Io (List (List Batch)) := do
  let files ← Io.mapL (fun path => scanFileF C ltz o (R.data path) range path) paths
  Io.lift (do
    let kept ← Res.mapL (survivingBatches (files.flatMap Prod.snd)) (files.flatMap Prod.fst)
    return kept.filterMap id)

/-- The second branch of `read_file_slice` (crates/core/src/file_group/reader.rs:204-226). -/
def readMergedRF (C : Codec) (A : Arrow) (M : MergeEnv A) (ltz : LocalTz) (o : Opts) (R : Race)
    (s : FileSlice) : Io Batch := do
  let base ← readBaseFileRF A o R s.basePath
  let range ← Io.lift (logScanRange o)
  let logs ← scanLogsRF C ltz o R range (s.logFiles.map s.logPath)
  Io.lift (mergeRecordBatches A M o base.schema (base :: logs.flatten))

/-- `FileGroupReader::read_file_slice` (crates/core/src/file_group/reader.rs:194-227). -/
def readFileSliceRF (C : Codec) (A : Arrow) (M : MergeEnv A) (ltz : LocalTz) (o : Opts) (R : Race)
    (s : FileSlice) : Io Batch :=
  if s.hasLogFile = false then readBaseFileRF A o R s.basePath
  else do
    let readOptimized ← Io.lift (do (← Cfg.useReadOptimizedMode.getOrDefault o).toBool)
    if readOptimized then readBaseFileRF A o R s.basePath
    else readMergedRF C A M ltz o R s

/-- `Table::read_snapshot_internal` (crates/core/src/table/mod.rs:432-447). -/
def Table.readSnapshotInternalRF (E : Env) (A : Arrow) (C : Codec) (M : MergeEnv A) (tb : Table) (depth : Nat)
    (R : Race) (ts : Str) (filters : List Filter) : IoQuery (List Batch) := do
  let ss ← tb.fileSlicesInternalRF E A depth R ts filters
  IoQuery.lift (Io.mapL (readFileSliceRF C A M E.ltz (tb.readerOpts [(Cfg.fileGroupEndTimestamp.key, ts)]) R) ss)

/-- `Table::read_snapshot` (crates/core/src/table/mod.rs:409-416). -/
def Table.readSnapshotRF (E : Env) (A : Arrow) (C : Codec) (M : MergeEnv A) (tb : Table) (depth : Nat)
    (R : Race) (filters : List (Str × Str × Str)) : IoQuery (List Batch) :=
  match tb.timeline.latestTimestamp with
  | some ts => do
    let fs ← IoQuery.lift (Io.lift (fromStrTuples filters))
    tb.readSnapshotInternalRF E A C M depth R ts fs
  | none => pure []

/-- `Table::read_snapshot_as_of` (crates/core/src/table/mod.rs:423-430). -/
def Table.readSnapshotAsOfRF (E : Env) (A : Arrow) (C : Codec) (M : MergeEnv A) (tb : Table) (depth : Nat)
    (R : Race) (ts : Str) (filters : List (Str × Str × Str)) : IoQuery (List Batch) := do
  let fs ← IoQuery.lift (Io.lift (fromStrTuples filters))
  tb.readSnapshotInternalRF E A C M depth R ts fs

/-- `Table::read_incremental_records` (crates/core/src/table/mod.rs:456-481). -/
def Table.readIncrementalRF (E : Env) (A : Arrow) (C : Codec) (M : MergeEnv A) (tb : Table) (R : Race)
    (start : Str) (stop : Option Str) : Io (List Batch) :=
  match stop.or tb.timeline.latestTimestamp with
  | none => Io.lift (.ok [])
  | some stop => do
    let ss ← tb.fileSlicesBetweenInternalRF E R start stop
    Io.mapL (readFileSliceRF C A M E.ltz (tb.readerOpts
      [(Cfg.fileGroupStartTimestamp.key, start), (Cfg.fileGroupEndTimestamp.key, stop)]) R) ss

end Hudi
