import Verif.Spec.Options

/-! # Specification: typed options and supported tables -/

namespace Hudi.Spec

/-- The kinds of option values. -/
inductive Kind
  | text | bool | int | nat | list | tableType | fileFormat | mergeStrategy | timezone

/-- A non-empty sequence of decimal digits with its value. -/
def Digits (s : Str) (n : Nat) : Prop := s ≠ [] ∧ (∀ c ∈ s, isDigit c = true) ∧ natOfDigits s = n

/-- The text denotes the value. -/
def Denotes : Kind → Str → CfgVal → Prop
  | .text, v, x => x = .string v
  | .bool, v, x => (v = c!"true" ∧ x = .boolean true) ∨ (v = c!"false" ∧ x = .boolean false)
  | .int, v, x => ∃ s n, Digits s n ∧
      (((v = s ∨ v = '+' :: s) ∧ n < 2 ^ 63 ∧ x = .integer n) ∨ (v = '-' :: s ∧ n ≤ 2 ^ 63 ∧ x = .integer (-n)))
  | .nat, v, x => ∃ s n, Digits s n ∧ (v = s ∨ v = '+' :: s) ∧ n < 2 ^ 64 ∧ x = .uinteger n
  | .list, v, x => ∃ l, x = .list l ∧ l ≠ [] ∧ (∀ e ∈ l, ',' ∉ e) ∧ v = (l.intersperse c!",").flatten
  | .tableType, v, x =>
      (lower v ∈ [c!"copy_on_write", c!"copy-on-write", c!"cow"] ∧ x = .string c!"COPY_ON_WRITE") ∨
      (lower v ∈ [c!"merge_on_read", c!"merge-on-read", c!"mor"] ∧ x = .string c!"MERGE_ON_READ")
  | .fileFormat, v, x => lower v = c!"parquet" ∧ x = .string c!"parquet"
  | .mergeStrategy, v, x => lower v ∈ [c!"append_only", c!"overwrite_with_latest"] ∧ x = .string (lower v)
  | .timezone, v, x => lower v ∈ [c!"utc", c!"local"] ∧ x = .string (lower v)

/-- The kind of each option. -/
def kindOf : Cfg → Kind
  | .baseFileFormat => .fileFormat
  | .basePath | .databaseName | .keyGeneratorClass | .precombineField | .tableName
  | .fileGroupStartTimestamp | .fileGroupEndTimestamp => .text
  | .checksum | .tableVersion | .timelineLayoutVersion => .int
  | .dropsPartitionFields | .isHiveStylePartitioning | .isPartitionPathUrlencoded
  | .populatesMetaFields | .useReadOptimizedMode | .skipConfigValidation => .bool
  | .partitionFields | .recordKeyFields => .list
  | .recordMergeStrategy => .mergeStrategy
  | .tableType => .tableType
  | .timelineTimezone => .timezone
  | .inputPartitions | .listingParallelism => .nat

/-- The documented default of each option; the merge strategy has one that depends on other options. -/
def defaultOf (o : Opts) : Cfg → Option CfgVal
  | .baseFileFormat => some (.string c!"parquet")
  | .databaseName => some (.string c!"default")
  | .dropsPartitionFields | .useReadOptimizedMode | .skipConfigValidation => some (.boolean false)
  | .partitionFields => some (.list [])
  | .populatesMetaFields => some (.boolean true)
  | .timelineTimezone => some (.string c!"utc")
  | .inputPartitions => some (.uinteger 0)
  | .listingParallelism => some (.uinteger 10)
  | .recordMergeStrategy =>
    some (.string (if hmGet c!"hoodie.populate.meta.fields" o ≠ some c!"false" ∧
      hmGet c!"hoodie.table.precombine.field" o ≠ none then c!"overwrite_with_latest" else c!"append_only"))
  | _ => none

/-- The documented key of each option. -/
def optionKey : Cfg → Str
  | .baseFileFormat => c!"hoodie.table.base.file.format"
  | .basePath => c!"hoodie.base.path"
  | .checksum => c!"hoodie.table.checksum"
  | .databaseName => c!"hoodie.database.name"
  | .dropsPartitionFields => c!"hoodie.datasource.write.drop.partition.columns"
  | .isHiveStylePartitioning => c!"hoodie.datasource.write.hive_style_partitioning"
  | .isPartitionPathUrlencoded => c!"hoodie.datasource.write.partitionpath.urlencode"
  | .keyGeneratorClass => c!"hoodie.table.keygenerator.class"
  | .partitionFields => c!"hoodie.table.partition.fields"
  | .precombineField => c!"hoodie.table.precombine.field"
  | .populatesMetaFields => c!"hoodie.populate.meta.fields"
  | .recordKeyFields => c!"hoodie.table.recordkey.fields"
  | .recordMergeStrategy => c!"hoodie.table.record.merge.strategy"
  | .tableName => c!"hoodie.table.name"
  | .tableType => c!"hoodie.table.type"
  | .tableVersion => c!"hoodie.table.version"
  | .timelineLayoutVersion => c!"hoodie.timeline.layout.version"
  | .timelineTimezone => c!"hoodie.table.timeline.timezone"
  | .fileGroupStartTimestamp => c!"hoodie.read.file_group.start_timestamp"
  | .fileGroupEndTimestamp => c!"hoodie.read.file_group.end_timestamp"
  | .inputPartitions => c!"hoodie.read.input.partitions"
  | .listingParallelism => c!"hoodie.read.listing.parallelism"
  | .useReadOptimizedMode => c!"hoodie.read.use.read_optimized.mode"
  | .skipConfigValidation => c!"hoodie.internal.skip.config.validation"

/-- The option is given with a value of its kind. -/
def Given (c : Cfg) (o : Opts) (x : CfgVal) : Prop := ∃ v, hmGet (optionKey c) o = some v ∧ Denotes (kindOf c) v x

/-- The option is absent, or its value is not of its kind. -/
def NotGiven (c : Cfg) (o : Opts) : Prop := ∀ v, hmGet (optionKey c) o = some v → ∀ x, ¬ Denotes (kindOf c) v x

/-- Validation of the options is switched off. -/
def SkipsValidation (o : Opts) : Prop := hmGet c!"hoodie.internal.skip.config.validation" o = some c!"true"

/-- The options that a table must have. -/
def Required : Cfg → Prop
  | .tableName | .tableType | .tableVersion | .timelineLayoutVersion => True
  | _ => False

/-- Every option is well formed, and none that is needed is missing. -/
def WellFormedOptions (o : Opts) : Prop :=
  ∀ c, c ≠ .skipConfigValidation →
    (∃ x, Given c o x) ∨ (hmGet (optionKey c) o = none ∧ ¬ Required c)

/-- The table is of a kind that the library supports. -/
structure Supported (o : Opts) : Prop where
  version : Given .tableVersion o (.integer 5) ∨ Given .tableVersion o (.integer 6)
  layout : Given .timelineLayoutVersion o (.integer 1)
  keepsPartitionColumns : ¬ Given .dropsPartitionFields o (.boolean true)
  mergeStrategy : Given .recordMergeStrategy o (.string c!"overwrite_with_latest") →
    ¬ Given .populatesMetaFields o (.boolean false) ∧ hmGet c!"hoodie.table.precombine.field" o ≠ none

end Hudi.Spec
