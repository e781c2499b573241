import Verif.Model.Table
import Verif.Model.Log
import Verif.Model.Merge

/-!
# Reading file slices

Models crates/core/src/file_group/reader.rs and the record-reading functions of
crates/core/src/table/mod.rs.
-/

namespace Hudi

/-- The options of a `FileGroupReader` made by `new_with_configs_and_options`
(crates/core/src/file_group/reader.rs:47-67): the table's options overwritten by the hudi options
given.  Creating the object store from the base path and the other options is not modelled; the
reader reads the same store as the table. -/
def readerOpts (o : Opts) (options : List (Str × Str)) : Opts :=
  hmExtend o (splitHudiOptions options).1

/-- `try_get(..).map(|v| v.to::<String>())` (crates/core/src/file_group/reader.rs:104-107, 121-124,
176-183). -/
def optStr : Option CfgVal → Res (Option Str)
  | none => .ok none
  | some v => do return some (← v.toStr)

/-- A filter on the commit time against `MetaField::schema()`
(crates/core/src/file_group/reader.rs:109-112, 126-128). -/
def commitTimeFilter (A : Arrow) (op ts : Str) : Res SFilter := do
  let f ← Filter.ofTuple (commitTimeField, op, ts)
  SFilter.ofFilter A f metaSchema

/-- The filters for the rows of a base file (crates/core/src/file_group/reader.rs:92-133); `none`
when no filtering applies. -/
def baseFileFilters (A : Arrow) (o : Opts) : Res (Option (List SFilter)) := do
  let populates ← (← Cfg.populatesMetaFields.getOrDefault o).toBool
  if populates = false then return none
  else
    match ← optStr (Cfg.fileGroupStartTimestamp.tryGet o) with
    | none => return none
    | some start =>
      let f1 ← commitTimeFilter A c!">" start
      match ← optStr (Cfg.fileGroupEndTimestamp.tryGet o) with
      | none => return some [f1]
      | some stop =>
        let f2 ← commitTimeFilter A c!"<=" stop
        return some [f1, f2]

/-- `SchemableFilter::apply_comparsion` on one column of a batch
(crates/core/src/file_group/reader.rs:137-142, expr/filter.rs:190-200).  Comparing columns of
different types is an error of arrow, whatever the number of rows.  A null cell gives a null, which
`and` (arrow-arith) keeps and `filter_record_batch` (arrow-select) treats as false; it is `false`
here.  Dictionary-encoded columns, which arrow compares by value, are outside the model. -/
def columnMask (A : Arrow) (b : Batch) (f : SFilter) : Res (List Bool) :=
  match b.schema.indexOf f.field.name with
  | none => .err .readFileSlice
  | some i =>
    if (b.schema[i]?).map Field.dtype ≠ some f.field.dtype then .err .arrow
    else Res.mapL (fun c => match c with | none => .ok false | some v => f.apply A v) (b.column i)

/-- The loop over the filters (crates/core/src/file_group/reader.rs:135-142). -/
def combinedMask (A : Arrow) (b : Batch) (fs : List SFilter) : Res (List Bool) :=
  Res.foldL (fun m f => do
    let c ← columnMask A b f
    return List.zipWith (· && ·) m c) (List.replicate b.rows.length true) fs

/-- `filter_record_batch` (arrow-select).
Used at crates/core/src/file_group/reader.rs:164. -/
def filterRows (b : Batch) (mask : List Bool) : Batch :=
  { b with rows := (b.rows.zip mask).filterMap (fun e => if e.2 then some e.1 else none) }

/-- `FileGroupReader::read_file_slice_by_base_file_path`
(crates/core/src/file_group/reader.rs:153-169) with
`create_filtering_mask_for_base_file_records` (88-144). -/
def readBaseFile (A : Arrow) (o : Opts) (t : Tree) (path : Str) : Res Batch := do
  let b ← Res.mapErr .readFileSlice (getParquetData t path)
  match ← baseFileFilters A o with
  | none => return b
  | some fs => return filterRows b (← combinedMask A b fs)

/-- `FileGroupReader::create_instant_range_for_log_file_scan`
(crates/core/src/file_group/reader.rs:171-185). -/
def logScanRange (o : Opts) : Res InstantRange := do
  let tz ← timezoneOf o
  let start ← optStr (Cfg.fileGroupStartTimestamp.tryGet o)
  let stop ← optStr (Cfg.fileGroupEndTimestamp.tryGet o)
  return ⟨tz, start, stop, false, true⟩

/-- The second branch of `read_file_slice` (crates/core/src/file_group/reader.rs:204-226). -/
def readMerged (C : Codec) (A : Arrow) (M : MergeEnv A) (ltz : LocalTz) (o : Opts) (t : Tree)
    (s : FileSlice) : Res Batch := do
  let base ← readBaseFile A o t s.basePath
  let range ← logScanRange o
  let logs ← scanLogs C ltz o t range (s.logFiles.map s.logPath)
  mergeRecordBatches A M o base.schema (base :: logs.flatten)

/-- `FileGroupReader::read_file_slice` (crates/core/src/file_group/reader.rs:194-227). -/
def readFileSlice (C : Codec) (A : Arrow) (M : MergeEnv A) (ltz : LocalTz) (o : Opts) (t : Tree)
    (s : FileSlice) : Res Batch :=
  if s.hasLogFile = false then readBaseFile A o t s.basePath
  else do
    let readOptimized ← (← Cfg.useReadOptimizedMode.getOrDefault o).toBool
    if readOptimized then readBaseFile A o t s.basePath
    else readMerged C A M ltz o t s

/-- `Table::create_file_group_reader_with_options` (crates/core/src/table/mod.rs:383-403). -/
def Table.readerOpts (tb : Table) (options : List (Str × Str)) : Opts :=
  Hudi.readerOpts tb.opts (hmExtend tb.storageOpts options)

/-- `Table::read_snapshot_internal` (crates/core/src/table/mod.rs:432-447).  `try_join_all` returns
the results in the order of the slices; when several slices fail, which error is reported depends on
the schedule, and the model reports the first. -/
def Table.readSnapshotInternal (E : Env) (A : Arrow) (C : Codec) (M : MergeEnv A) (tb : Table) (t : Tree)
    (ts : Str) (filters : List Filter) : Query (List Batch) := do
  let ss ← tb.fileSlicesInternal E A t ts filters
  let o := tb.readerOpts [(Cfg.fileGroupEndTimestamp.key, ts)]
  Query.lift (Res.mapL (readFileSlice C A M E.ltz o t) ss)

/-- `Table::read_snapshot` (crates/core/src/table/mod.rs:409-416). -/
def Table.readSnapshot (E : Env) (A : Arrow) (C : Codec) (M : MergeEnv A) (tb : Table) (t : Tree)
    (filters : List (Str × Str × Str)) : Query (List Batch) :=
  match tb.timeline.latestTimestamp with
  | some ts => do
    let fs ← Query.lift (fromStrTuples filters)
    tb.readSnapshotInternal E A C M t ts fs
  | none => pure []

/-- `Table::read_snapshot_as_of` (crates/core/src/table/mod.rs:423-430). -/
def Table.readSnapshotAsOf (E : Env) (A : Arrow) (C : Codec) (M : MergeEnv A) (tb : Table) (t : Tree)
    (ts : Str) (filters : List (Str × Str × Str)) : Query (List Batch) := do
  let fs ← Query.lift (fromStrTuples filters)
  tb.readSnapshotInternal E A C M t ts fs

/-- `Table::read_incremental_records` (crates/core/src/table/mod.rs:456-481). -/
def Table.readIncremental (E : Env) (A : Arrow) (C : Codec) (M : MergeEnv A) (tb : Table) (t : Tree)
    (start : Str) (stop : Option Str) : Res (List Batch) :=
  match stop.or tb.timeline.latestTimestamp with
  | none => .ok []
  | some stop => do
    let ss ← tb.fileSlicesBetweenInternal E t start stop
    let o := tb.readerOpts [(Cfg.fileGroupStartTimestamp.key, start), (Cfg.fileGroupEndTimestamp.key, stop)]
    Res.mapL (readFileSlice C A M E.ltz o t) ss

end Hudi
