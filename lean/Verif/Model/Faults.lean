import Verif.Model.Reader
import Verif.Model.TableBuilder
import Verif.Model.DataFusion

/-!
# Requests to the storage that fail

In the other modules a request to the storage is answered from the store.  Here every request of a call may
instead fail (a timeout, a lost connection, a refused access): the functions are those of `Timeline`, `Listing`,
`FsView`, `Table`, `Reader` and `TableBuilder`, with their requests made explicit and numbered in the order in
which they are made.  One call of a function of `Storage` counts as one request; where it makes several to the
object store (a parquet file is read in pieces, a long listing in pages), it fails if one of them does
(crates/core/src/storage/mod.rs:87-256).  Requests that the code makes concurrently (the listings of partitions,
the reads of file slices) are made in order here; since the call fails if one of them does, the order only decides
which error is reported.  A call whose future is dropped while a request is pending leaves the handle as a call
does in which that request fails.
-/

namespace Hudi

/-- Which of the requests of a call fail, by their number.
Used at crates/core/src/storage/mod.rs:87-256. -/
abbrev Faults := Nat → Bool

/-- A computation that makes requests: from the number of requests made before, the number of requests made
then, and the outcome. Used at crates/core/src/storage/mod.rs:87-256. -/
abbrev Io (α : Type) := Faults → Nat → Nat × Res α

/-- A computation that makes no requests. Used at crates/core/src/storage/mod.rs:87-256. -/
def Io.lift {α : Type} (r : Res α) : Io α := fun _ n => (n, r)

/-- The `?` operator after an `.await`. Used at crates/core/src/storage/mod.rs:87-256. -/
def Io.bind {α β : Type} (x : Io α) (f : α → Io β) : Io β := fun F n =>
  match x F n with
  | (n', .ok a) => f a F n'
  | (n', .err e) => (n', .err e)
  | (n', .panic) => (n', .panic)

instance : Monad Io where
  pure a := Io.lift (.ok a)
  bind := Io.bind

/-- A request, and what is made of its answer without further requests.  A request that fails is an error of the
kind `e`. Used at crates/core/src/storage/mod.rs:87-256. -/
def Io.request {α : Type} (e : ErrKind) (r : Res α) : Io α := fun F n =>
  (n + 1, if F n then .err e else r)

/-- See `Res.mapL`. Used at crates/core/src/file_group/log_file/scanner.rs:52-67. -/
def Io.mapL {α β : Type} (f : α → Io β) : List α → Io (List β)
  | [] => Io.lift (.ok [])
  | x :: xs => do
    let y ← f x
    let ys ← Io.mapL f xs
    return y :: ys

/-- See `Res.foldL`. Used at crates/core/src/timeline/mod.rs:347-354. -/
def Io.foldL {α β : Type} (f : β → α → Io β) : β → List α → Io β
  | b, [] => Io.lift (.ok b)
  | b, x :: xs => do
    let b' ← f b x
    Io.foldL f b' xs

/-- A computation that makes requests and works on the cache of the handle's file system view.
Used at crates/core/src/table/fs_view.rs:38-42. -/
abbrev IoQuery (α : Type) := Faults → Nat → Cache → Nat × Cache × Res α

/-- A computation that does not use the cache. Used at crates/core/src/table/mod.rs:320-335. -/
def IoQuery.lift {α : Type} (x : Io α) : IoQuery α := fun F n c => ((x F n).1, c, (x F n).2)

/-- The `?` operator after an `.await`. Used at crates/core/src/table/mod.rs:320-335. -/
def IoQuery.bind {α β : Type} (x : IoQuery α) (f : α → IoQuery β) : IoQuery β := fun F n c =>
  match x F n c with
  | (n', c', .ok a) => f a F n' c'
  | (n', c', .err e) => (n', c', .err e)
  | (n', c', .panic) => (n', c', .panic)

instance : Monad IoQuery where
  pure a := IoQuery.lift (Io.lift (.ok a))
  bind := IoQuery.bind

/-! ## Timeline -/

/-- `Timeline::get_instant_metadata` (crates/core/src/timeline/mod.rs:198-204). -/
def instantMetadataF (t : Tree) (i : Instant) : Io (List (Str × Json)) :=
  Io.request .storage (instantMetadata t i)

/-- `get_latest_commit_metadata` (crates/core/src/timeline/mod.rs:214-219). -/
def Timeline.latestMetadataF (tl : Timeline) (t : Tree) : Io (List (Str × Json)) :=
  match tl.completed.getLast? with
  | some i => instantMetadataF t i
  | none => Io.lift (.ok [])

/-- `get_latest_avro_schema` (crates/core/src/timeline/mod.rs:239-254). -/
def Timeline.latestAvroSchemaF (tl : Timeline) (t : Tree) : Io Str := do
  let md ← tl.latestMetadataF t
  Io.lift (Res.ofOption .commitMetadata
    (((jGet c!"extraMetadata" md).bind Json.asObj).bind
      (fun o => (jGet c!"schema" o).bind Json.asStr)))

/-- The part of `get_latest_schema` after the metadata of the latest commit is read
(crates/core/src/timeline/mod.rs:259-310); see `schemaOfCommit`. -/
def schemaOfCommitF (t : Tree) (md : List (Str × Json)) : Io Schema := do
  let first := ((jGet c!"partitionToWriteStats" md).bind Json.asObj).bind List.head?
  let (partition, stats) ← Io.lift (Res.ofOption .commitMetadata first)
  let stat := stats.asArr.bind List.head?
  match (stat.bind (Json.field c!"path")).bind Json.asStr with
  | some path =>
    if endsWith c!".parquet" path then Io.request .storage (getParquetSchema t path)
    else do
      let base ← Io.lift (Res.ofOption .commitMetadata ((stat.bind (Json.field c!"baseFile")).bind Json.asStr))
      Io.request .storage (getParquetSchema t (pathPush partition base))
  | none => Io.lift (.err .commitMetadata)

/-- `get_latest_schema` (crates/core/src/timeline/mod.rs:257-310). -/
def Timeline.latestSchemaF (tl : Timeline) (t : Tree) : Io Schema := do
  let md ← tl.latestMetadataF t
  schemaOfCommitF t md

/-- `get_replaced_file_groups_as_of` (crates/core/src/timeline/mod.rs:312-330). -/
def Timeline.replacedAsOfF (E : Env) (tl : Timeline) (t : Tree) (ts : Str) : Io (List FileGroup) := do
  let s ← Io.lift (completedActionsInRange E.ltz [.replaceCommit] tl.opts none (some ts))
  Io.foldL
    (fun acc i => do
      let md ← instantMetadataF t i
      let gs ← Io.lift (buildReplacedFileGroups md)
      return fgExtend acc gs) [] (s.select tl.completed)

/-- One iteration of the loop of `get_file_groups_between` (crates/core/src/timeline/mod.rs:347-354): one
request, the one for the metadata of the instant. -/
def betweenStepF (t : Tree) (acc : List FileGroup × List FileGroup) (i : Instant) :
    Io (List FileGroup × List FileGroup) := Io.request .storage (betweenStep t acc i)

/-- `get_file_groups_between` (crates/core/src/timeline/mod.rs:334-361). -/
def Timeline.fileGroupsBetweenF (E : Env) (tl : Timeline) (t : Tree) (start stop : Option Str) :
    Io (List FileGroup) := do
  let s ← Io.lift (completedActionsInRange E.ltz defaultLoadingActions tl.opts start stop)
  let r ← Io.foldL (betweenStepF t) ([], []) (s.select tl.completed)
  return fgDifference r.1 r.2

/-! ## Listing -/

/-- `get_leaf_dirs` (crates/core/src/storage/mod.rs:269-289); see `leafDirs`. -/
def leafDirsF : Nat → Tree → Str → Io (List Str)
  | 0, _, _ => Io.lift .panic
  | k + 1, t, subdir => do
    let ds ← Io.request .storage (.ok (listDirs t subdir))
    match ds with
    | [] => Io.lift (.ok [subdir])
    | d :: ds => do
      let ls ← Io.mapL (fun d => leafDirsF k t (pathPush subdir d)) (d :: ds)
      return ls.flatten

/-- `FileLister::list_relevant_partition_paths` (crates/core/src/table/listing.rs:125-151). -/
def relevantPartitionsF (A : Arrow) (o : Opts) (t : Tree) (p : Pruner) : Io (List Str) := do
  let partitioned ← Io.lift (isTablePartitioned o)
  if partitioned = false then Io.lift (.ok [[]])
  else do
    let top ← Io.request .storage (.ok (listDirs t []))
    let ls ← Io.mapL (leafDirsF (t.height + 1) t) (top.filter (fun d => !lakeFormatMetadataDirs.contains d))
    let paths := ls.flatten
    if paths.isEmpty || p.isEmpty then Io.lift (.ok paths)
    else return paths.filter (p.shouldInclude A)

/-- `FileLister::list_file_groups_for_partition` (crates/core/src/table/listing.rs:63-123): the directory is
listed first. -/
def listFileGroupsF (o : Opts) (t : Tree) (partition : Str) : Io (List FileGroup) := do
  let format ← Io.lift (baseFileFormatOf o)
  let files ← Io.request .storage (.ok (listFiles t partition))
  Io.lift (do
    let acc ← Res.foldL (listStep format) ⟨[], []⟩ files
    Res.mapL (listGroup partition acc.logs) acc.bases)

/-- The file groups of one partition with its path (crates/core/src/table/listing.rs:172-175). -/
def listWithPathF (o : Opts) (t : Tree) (path : Str) : Io (Str × List FileGroup) := do
  let gs ← listFileGroupsF o t path
  return (path, gs)

/-- `FileLister::list_file_groups_for_relevant_partitions`
(crates/core/src/table/listing.rs:153-187); see `listRelevant`. -/
def listRelevantF (A : Arrow) (o : Opts) (t : Tree) (p : Pruner) : Io (List (Str × List FileGroup)) := do
  let partitioned ← Io.lift (isTablePartitioned o)
  if partitioned = false then do
    let gs ← listFileGroupsF o t []
    return [([], gs)]
  else do
    let paths ← relevantPartitionsF A o t p
    let par ← Io.lift (listingParallelismOf o)
    if par = 0 then Io.lift .panic
    else do
      let es ← Io.mapL (listWithPathF o t) paths
      return hmOfList es

/-! ## File system view -/

/-- `FileSlice::load_metadata_if_needed` (crates/core/src/file_group/file_slice.rs:113-125). -/
def FileSlice.loadMetadataF (t : Tree) (s : FileSlice) : Io FileSlice :=
  if s.baseFile.fileMeta.any (fun m => m.full) then Io.lift (.ok s)
  else do
    let m ← Io.request .storage (getFileMetadata t s.basePath)
    return { s with baseFile := { s.baseFile with fileMeta := some m } }

/-- The body of the inner loop of `collect_file_slices_as_of`
(crates/core/src/table/fs_view.rs:83-90). -/
def collectGroupF (t : Tree) (ts : Str) (excl : List FileGroup) (g : FileGroup) :
    Io (FileGroup × Option FileSlice) :=
  if fgContains excl g then Io.lift (.ok (g, none))
  else
    match mapLastLe ts g.slices with
    | none => Io.lift (.ok (g, none))
    | some (k, s) => do
      let s' ← s.loadMetadataF t
      return ({ g with slices := mapInsert k s' g.slices }, some s')

/-- The inner loop (crates/core/src/table/fs_view.rs:82-91).  When a file group fails, the ones before it have
already been updated. -/
def collectGroupsF (t : Tree) (ts : Str) (excl : List FileGroup) :
    List FileGroup → Faults → Nat → Nat × List FileGroup × Res (List FileSlice)
  | [], _, n => (n, [], .ok [])
  | g :: gs, F, n =>
    match collectGroupF t ts excl g F n with
    | (n', .ok (g', s)) =>
      let r := collectGroupsF t ts excl gs F n'
      (r.1, g' :: r.2.1, do return s.toList ++ (← r.2.2))
    | (n', .err e) => (n', g :: gs, .err e)
    | (n', .panic) => (n', g :: gs, .panic)

/-- The loop of `collect_file_slices_as_of` over the cached partitions
(crates/core/src/table/fs_view.rs:71-94). -/
def collectSlicesF (A : Arrow) (t : Tree) (ts : Str) (p : Pruner) (excl : List FileGroup) (F : Faults) :
    Nat → Cache → Nat × Cache × Res (List FileSlice)
  | n, [] => (n, [], .ok [])
  | n, (path, gs) :: rest =>
    if p.shouldInclude A path = false then
      let r := collectSlicesF A t ts p excl F n rest
      (r.1, (path, gs) :: r.2.1, r.2.2)
    else
      let a := collectGroupsF t ts excl gs F n
      match a.2.2 with
      | .ok l =>
        let r := collectSlicesF A t ts p excl F a.1 rest
        (r.1, (path, a.2.1) :: r.2.1, do return l ++ (← r.2.2))
      | .err e => (a.1, (path, a.2.1) :: rest, .err e)
      | .panic => (a.1, (path, a.2.1) :: rest, .panic)

/-- `FileSystemView::get_file_slices_as_of` (crates/core/src/table/fs_view.rs:96-105): the cache is extended
when all listings have come back. -/
def viewSlicesAsOfF (A : Arrow) (o : Opts) (t : Tree) (ts : Str) (p : Pruner) (excl : List FileGroup) :
    IoQuery (List FileSlice) := fun F n c =>
  match listRelevantF A o t p F n with
  | (n', .ok m) => collectSlicesF A t ts p excl F n' (hmExtend c m)
  | (n', .err e) => (n', c, .err e)
  | (n', .panic) => (n', c, .panic)

/-! ## Table -/

/-- `Table::get_partition_schema` (crates/core/src/table/mod.rs:207-224). -/
def Table.partitionSchemaF (tb : Table) (t : Tree) : Io Schema := do
  let fields ← Io.lift (partitionFieldsOf tb.opts)
  let schema ← tb.timeline.latestSchemaF t
  return schema.filter (fun f => fields.contains f.name)

/-- `Table::get_file_slices_internal` (crates/core/src/table/mod.rs:320-335). -/
def Table.fileSlicesInternalF (E : Env) (A : Arrow) (tb : Table) (t : Tree) (ts : Str)
    (filters : List Filter) : IoQuery (List FileSlice) := do
  let excl ← IoQuery.lift (tb.timeline.replacedAsOfF E t ts)
  let schema ← IoQuery.lift (tb.partitionSchemaF t)
  let pruner ← IoQuery.lift (Io.lift (Pruner.new A filters schema tb.opts))
  viewSlicesAsOfF A tb.opts t ts pruner excl

/-- `Table::get_file_slices` (crates/core/src/table/mod.rs:294-301). -/
def Table.fileSlicesF (E : Env) (A : Arrow) (tb : Table) (t : Tree) (filters : List (Str × Str × Str)) :
    IoQuery (List FileSlice) :=
  match tb.timeline.latestTimestamp with
  | some ts => do
    let fs ← IoQuery.lift (Io.lift (fromStrTuples filters))
    tb.fileSlicesInternalF E A t ts fs
  | none => pure []

/-- `Table::get_file_slices_as_of` (crates/core/src/table/mod.rs:311-318). -/
def Table.fileSlicesAsOfF (E : Env) (A : Arrow) (tb : Table) (t : Tree) (ts : Str)
    (filters : List (Str × Str × Str)) : IoQuery (List FileSlice) := do
  let fs ← IoQuery.lift (Io.lift (fromStrTuples filters))
  tb.fileSlicesInternalF E A t ts fs

/-- `Table::get_file_slices_splits_internal` (crates/core/src/table/mod.rs:267-285). -/
def Table.fileSlicesSplitsInternalF (E : Env) (A : Arrow) (tb : Table) (t : Tree) (k : Nat) (ts : Str)
    (filters : List Filter) : IoQuery (List (List FileSlice)) := do
  let l ← tb.fileSlicesInternalF E A t ts filters
  IoQuery.lift (Io.lift (splitSlices k l))

/-- `Table::get_file_slices_splits` (crates/core/src/table/mod.rs:236-248). -/
def Table.fileSlicesSplitsF (E : Env) (A : Arrow) (tb : Table) (t : Tree) (k : Nat)
    (filters : List (Str × Str × Str)) : IoQuery (List (List FileSlice)) :=
  match tb.timeline.latestTimestamp with
  | some ts => do
    let fs ← IoQuery.lift (Io.lift (fromStrTuples filters))
    tb.fileSlicesSplitsInternalF E A t k ts fs
  | none => pure []

/-- `Table::get_file_slices_splits_as_of` (crates/core/src/table/mod.rs:256-265). -/
def Table.fileSlicesSplitsAsOfF (E : Env) (A : Arrow) (tb : Table) (t : Tree) (k : Nat) (ts : Str)
    (filters : List (Str × Str × Str)) : IoQuery (List (List FileSlice)) := do
  let fs ← IoQuery.lift (Io.lift (fromStrTuples filters))
  tb.fileSlicesSplitsInternalF E A t k ts fs

/-- `Table::get_file_slices_between_internal` (crates/core/src/table/mod.rs:363-380). -/
def Table.fileSlicesBetweenInternalF (E : Env) (tb : Table) (t : Tree) (start stop : Str) :
    Io (List FileSlice) := do
  let gs ← tb.timeline.fileGroupsBetweenF E t (some start) (some stop)
  return gs.filterMap (fun g => g.sliceAsOf stop)

/-- `Table::get_file_slices_between` (crates/core/src/table/mod.rs:345-361). -/
def Table.fileSlicesBetweenF (E : Env) (tb : Table) (t : Tree) (start stop : Option Str) :
    Io (List FileSlice) :=
  match stop.or tb.timeline.latestTimestamp with
  | none => Io.lift (.ok [])
  | some stop => tb.fileSlicesBetweenInternalF E t (start.getD earliestStart) stop

/-! ## Reading -/

/-- `FileGroupReader::read_file_slice_by_base_file_path`
(crates/core/src/file_group/reader.rs:153-169): the file is read first. -/
def readBaseFileF (A : Arrow) (o : Opts) (t : Tree) (path : Str) : Io Batch :=
  Io.request .readFileSlice (readBaseFile A o t path)

/-- One iteration of the first loop of `scan` (crates/core/src/file_group/log_file/scanner.rs:52-67): the file is
fetched as a whole (crates/core/src/storage/reader.rs:30-60) and then decoded. -/
def scanFileF (C : Codec) (ltz : LocalTz) (o : Opts) (t : Tree) (range : InstantRange) (path : Str) :
    Io (List LogBlock × List Str) := Io.request .storage (scanFile C ltz o t range path)

/-- `LogFileScanner::scan` (crates/core/src/file_group/log_file/scanner.rs:43-80). -/
def scanLogsF (C : Codec) (ltz : LocalTz) (o : Opts) (t : Tree) (range : InstantRange) (paths : List Str) :
    Io (List (List Batch)) := do
  let files ← Io.mapL (scanFileF C ltz o t range) paths
  Io.lift (do
    let kept ← Res.mapL (survivingBatches (files.flatMap Prod.snd)) (files.flatMap Prod.fst)
    return kept.filterMap id)

/-- The second branch of `read_file_slice` (crates/core/src/file_group/reader.rs:204-226). -/
def readMergedF (C : Codec) (A : Arrow) (M : MergeEnv A) (ltz : LocalTz) (o : Opts) (t : Tree)
    (s : FileSlice) : Io Batch := do
  let base ← readBaseFileF A o t s.basePath
  let range ← Io.lift (logScanRange o)
  let logs ← scanLogsF C ltz o t range (s.logFiles.map s.logPath)
  Io.lift (mergeRecordBatches A M o base.schema (base :: logs.flatten))

/-- `FileGroupReader::read_file_slice` (crates/core/src/file_group/reader.rs:194-227). -/
def readFileSliceF (C : Codec) (A : Arrow) (M : MergeEnv A) (ltz : LocalTz) (o : Opts) (t : Tree)
    (s : FileSlice) : Io Batch :=
  if s.hasLogFile = false then readBaseFileF A o t s.basePath
  else do
    let readOptimized ← Io.lift (do (← Cfg.useReadOptimizedMode.getOrDefault o).toBool)
    if readOptimized then readBaseFileF A o t s.basePath
    else readMergedF C A M ltz o t s

/-- `Table::read_snapshot_internal` (crates/core/src/table/mod.rs:432-447). -/
def Table.readSnapshotInternalF (E : Env) (A : Arrow) (C : Codec) (M : MergeEnv A) (tb : Table) (t : Tree)
    (ts : Str) (filters : List Filter) : IoQuery (List Batch) := do
  let ss ← tb.fileSlicesInternalF E A t ts filters
  IoQuery.lift (Io.mapL (readFileSliceF C A M E.ltz (tb.readerOpts [(Cfg.fileGroupEndTimestamp.key, ts)]) t) ss)

/-- `Table::read_snapshot` (crates/core/src/table/mod.rs:409-416). -/
def Table.readSnapshotF (E : Env) (A : Arrow) (C : Codec) (M : MergeEnv A) (tb : Table) (t : Tree)
    (filters : List (Str × Str × Str)) : IoQuery (List Batch) :=
  match tb.timeline.latestTimestamp with
  | some ts => do
    let fs ← IoQuery.lift (Io.lift (fromStrTuples filters))
    tb.readSnapshotInternalF E A C M t ts fs
  | none => pure []

/-- `Table::read_snapshot_as_of` (crates/core/src/table/mod.rs:423-430). -/
def Table.readSnapshotAsOfF (E : Env) (A : Arrow) (C : Codec) (M : MergeEnv A) (tb : Table) (t : Tree)
    (ts : Str) (filters : List (Str × Str × Str)) : IoQuery (List Batch) := do
  let fs ← IoQuery.lift (Io.lift (fromStrTuples filters))
  tb.readSnapshotInternalF E A C M t ts fs

/-- `Table::read_incremental_records` (crates/core/src/table/mod.rs:456-481). -/
def Table.readIncrementalF (E : Env) (A : Arrow) (C : Codec) (M : MergeEnv A) (tb : Table) (t : Tree)
    (start : Str) (stop : Option Str) : Io (List Batch) :=
  match stop.or tb.timeline.latestTimestamp with
  | none => Io.lift (.ok [])
  | some stop => do
    let ss ← tb.fileSlicesBetweenInternalF E t start stop
    Io.mapL (readFileSliceF C A M E.ltz (tb.readerOpts
      [(Cfg.fileGroupStartTimestamp.key, start), (Cfg.fileGroupEndTimestamp.key, stop)]) t) ss

/-- `HudiDataSource::schema` of the DataFusion provider (crates/datafusion/src/lib.rs:156-164): any error is
replaced by an empty schema. -/
def Table.dfSchemaF (tb : Table) (t : Tree) : Io Schema := fun F n =>
  match tb.timeline.latestSchemaF t F n with
  | (n', .ok s) => (n', .ok s)
  | (n', .err _) => (n', .ok [])
  | (n', .panic) => (n', .panic)

/-! ## Opening -/

/-- `Timeline::new_from_storage` (crates/core/src/timeline/mod.rs:69-86) with `load_instants` (88-124): the
directory is listed first. -/
def Timeline.loadF (E : Env) (o : Opts) (t : Tree) : Io Timeline := do
  let s ← Io.lift (completedActionsInRange E.ltz defaultLoadingActions o none none)
  let is ← Io.request .storage (loadInstants E s t false)
  return { opts := o, completed := is }

/-- `imbue_table_properties` (crates/core/src/table/builder.rs:198-212). -/
def imbueTablePropertiesF (o : Opts) (s : Storage) : Io Opts :=
  Io.request .storage (imbueTableProperties o s)

/-- `imbue_global_hudi_configs_if_absent` (crates/core/src/table/builder.rs:214-237): a file that cannot be read
is ignored, for whatever reason. -/
def imbueGlobalConfigsF (w : World) (o : Opts) (s : Storage) : Io Opts := fun F n =>
  (n + 1, .ok (if F n then o else imbueGlobalConfigs w o s))

/-- `resolve_hudi_options` (crates/core/src/table/builder.rs:181-196). -/
def resolveHudiOptionsF (w : World) (b : TableBuilder) : Io TableBuilder := do
  let s ← Io.lift (w.storage b.storageOptions b.hudiOptions)
  let o ← imbueTablePropertiesF b.hudiOptions s
  let o' ← imbueGlobalConfigsF w o s
  return { b with hudiOptions := o' }

/-- `resolve_options` (crates/core/src/table/builder.rs:141-151). -/
def TableBuilder.resolveOptionsF (w : World) (b : TableBuilder) : Io TableBuilder :=
  let b := b.resolveUserProvided
  resolveHudiOptionsF w { b with storageOptions := resolveCloudEnvVars w.vars b.storageOptions }

/-- `TableBuilder::build` (crates/core/src/table/builder.rs:107-129). -/
def TableBuilder.buildF (E : Env) (w : World) (b : TableBuilder) : Io Table := do
  let b ← b.resolveOptionsF w
  let o := hmOfList b.hudiOptions
  let _ ← Io.lift (validateConfigs o).expect
  let s ← Io.lift (w.storage b.storageOptions o)
  let timeline ← Timeline.loadF E o s.tree
  let _ ← Io.lift (w.storage b.storageOptions o)
  return { opts := o, storageOpts := b.storageOptions, timeline := timeline }

end Hudi
