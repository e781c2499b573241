import Verif.Base.HMap
import Verif.Model.Time

/-!
# Configuration

Models crates/core/src/config/{mod,table,read,internal,util}.rs and
crates/core/src/merge/mod.rs.
-/

namespace Hudi

/-- Raw options, `HashMap<String, String>`. Used at crates/core/src/config/mod.rs:171. -/
abbrev Opts := List (Str × Str)

/-- `ConfigError` (crates/core/src/config/error.rs:25-47), without messages. -/
inductive CfgErr
  | parseBool | parseInt | parseLine | invalidValue | notFound | unsupportedValue
  deriving DecidableEq, Repr

/-- `HudiConfigValue` (crates/core/src/config/mod.rs:84-92). -/
inductive CfgVal
  | boolean (b : Bool)
  | integer (i : Int)
  | uinteger (n : Nat)
  | string (s : Str)
  | list (l : List Str)
  deriving DecidableEq, Repr

/-- The configuration keys: `HudiTableConfig` (crates/core/src/config/table.rs:45-117),
`HudiReadConfig` (crates/core/src/config/read.rs:44-63) and `HudiInternalConfig`
(crates/core/src/config/internal.rs:43-46) in one type; all three implement `ConfigParser`. -/
inductive Cfg
  | baseFileFormat | basePath | checksum | databaseName | dropsPartitionFields
  | isHiveStylePartitioning | isPartitionPathUrlencoded | keyGeneratorClass | partitionFields
  | precombineField | populatesMetaFields | recordKeyFields | recordMergeStrategy
  | tableName | tableType | tableVersion | timelineLayoutVersion | timelineTimezone
  | fileGroupStartTimestamp | fileGroupEndTimestamp | inputPartitions | listingParallelism
  | useReadOptimizedMode
  | skipConfigValidation
  deriving DecidableEq, Repr

/-- `HudiTableConfig::iter()` (strum `EnumIter`, crates/core/src/config/table.rs:45). -/
def tableConfigs : List Cfg :=
  [.baseFileFormat, .basePath, .checksum, .databaseName, .dropsPartitionFields,
   .isHiveStylePartitioning, .isPartitionPathUrlencoded, .keyGeneratorClass, .partitionFields,
   .precombineField, .populatesMetaFields, .recordKeyFields, .recordMergeStrategy,
   .tableName, .tableType, .tableVersion, .timelineLayoutVersion, .timelineTimezone]

/-- `HudiReadConfig::iter()` (strum `EnumIter`, crates/core/src/config/read.rs:44). -/
def readConfigs : List Cfg :=
  [.fileGroupStartTimestamp, .fileGroupEndTimestamp, .inputPartitions, .listingParallelism,
   .useReadOptimizedMode]

/-- `as_ref` (crates/core/src/config/table.rs:119-142, read.rs:65-75, internal.rs:48-54). -/
def Cfg.key : Cfg → Str
  | .baseFileFormat => c!"hoodie.table.base.file.format"
  | .basePath => c!"hoodie.base.path"
  | .checksum => c!"hoodie.table.checksum"
  | .databaseName => c!"hoodie.database.name"
  | .dropsPartitionFields => c!"hoodie.datasource.write.drop.partition.columns"
  | .isHiveStylePartitioning => c!"hoodie.datasource.write.hive_style_partitioning"
  | .isPartitionPathUrlencoded => c!"hoodie.datasource.write.partitionpath.urlencode"
  | .keyGeneratorClass => c!"hoodie.table.keygenerator.class"
  | .partitionFields => c!"hoodie.table.partition.fields"
  | .precombineField => c!"hoodie.table.precombine.field"
  | .populatesMetaFields => c!"hoodie.populate.meta.fields"
  | .recordKeyFields => c!"hoodie.table.recordkey.fields"
  | .recordMergeStrategy => c!"hoodie.table.record.merge.strategy"
  | .tableName => c!"hoodie.table.name"
  | .tableType => c!"hoodie.table.type"
  | .tableVersion => c!"hoodie.table.version"
  | .timelineLayoutVersion => c!"hoodie.timeline.layout.version"
  | .timelineTimezone => c!"hoodie.table.timeline.timezone"
  | .fileGroupStartTimestamp => c!"hoodie.read.file_group.start_timestamp"
  | .fileGroupEndTimestamp => c!"hoodie.read.file_group.end_timestamp"
  | .inputPartitions => c!"hoodie.read.input.partitions"
  | .listingParallelism => c!"hoodie.read.listing.parallelism"
  | .useReadOptimizedMode => c!"hoodie.read.use.read_optimized.mode"
  | .skipConfigValidation => c!"hoodie.internal.skip.config.validation"

/-- `default_value` (crates/core/src/config/table.rs:153-167, read.rs:86-93, internal.rs:65-69). -/
def Cfg.default : Cfg → Option CfgVal
  | .baseFileFormat => some (.string c!"parquet")
  | .databaseName => some (.string c!"default")
  | .dropsPartitionFields => some (.boolean false)
  | .partitionFields => some (.list [])
  | .populatesMetaFields => some (.boolean true)
  | .timelineTimezone => some (.string Tz.utc.str)
  | .inputPartitions => some (.uinteger 0)
  | .listingParallelism => some (.uinteger 10)
  | .useReadOptimizedMode => some (.boolean false)
  | .skipConfigValidation => some (.boolean false)
  | _ => none

/-- `is_required` (crates/core/src/config/table.rs:169-171; `false` elsewhere, mod.rs:52-54). -/
def Cfg.isRequired : Cfg → Bool
  | .tableName | .tableType | .tableVersion => true
  | _ => false

/-- Rust's `bool::from_str` (std). Used at crates/core/src/config/table.rs:192. -/
def parseBool (s : Str) : Option Bool :=
  if s = c!"true" then some true else if s = c!"false" then some false else none

/-- Rust's `isize::from_str` (std, 64 bit): optional sign, at least one digit, in range.
Used at crates/core/src/config/table.rs:186. -/
def parseIsize (s : Str) : Option Int :=
  match s with
  | '-' :: t =>
    if t ≠ [] ∧ t.all isDigit = true ∧ natOfDigits t ≤ 9223372036854775808 then
      some (-(natOfDigits t : Int)) else none
  | '+' :: t =>
    if t ≠ [] ∧ t.all isDigit = true ∧ natOfDigits t ≤ 9223372036854775807 then
      some (natOfDigits t : Int) else none
  | t =>
    if t ≠ [] ∧ t.all isDigit = true ∧ natOfDigits t ≤ 9223372036854775807 then
      some (natOfDigits t : Int) else none

/-- Rust's `usize::from_str` (std, 64 bit). Used at crates/core/src/config/read.rs:110. -/
def parseUsize (s : Str) : Option Nat := parseUnsigned 18446744073709551616 s

/-- `TableTypeValue::from_str(..).as_ref()` (crates/core/src/config/table.rs:276-294). -/
def parseTableType (s : Str) : Except CfgErr Str :=
  let l := lower s
  if l = c!"copy_on_write" ∨ l = c!"copy-on-write" ∨ l = c!"cow" then .ok c!"COPY_ON_WRITE"
  else if l = c!"merge_on_read" ∨ l = c!"merge-on-read" ∨ l = c!"mor" then .ok c!"MERGE_ON_READ"
  else .error .invalidValue

/-- `BaseFileFormatValue::from_str(..).as_ref()` (crates/core/src/config/table.rs:297-313). -/
def parseBaseFileFormat (s : Str) : Except CfgErr Str :=
  let l := lower s
  if l = c!"parquet" then .ok c!"parquet"
  else if l = c!"orc" then .error .unsupportedValue
  else .error .invalidValue

/-- `RecordMergeStrategyValue` (crates/core/src/merge/mod.rs:28-34). -/
inductive MergeStrategy | appendOnly | overwriteWithLatest
  deriving DecidableEq, Repr

/-- `RecordMergeStrategyValue::as_ref` (crates/core/src/merge/mod.rs:28-34). -/
def MergeStrategy.str : MergeStrategy → Str
  | .appendOnly => c!"append_only"
  | .overwriteWithLatest => c!"overwrite_with_latest"

/-- `RecordMergeStrategyValue::from_str` (crates/core/src/merge/mod.rs:36-46). -/
def MergeStrategy.fromStr (s : Str) : Except CfgErr MergeStrategy :=
  let l := lower s
  if l = c!"append_only" then .ok .appendOnly
  else if l = c!"overwrite_with_latest" then .ok .overwriteWithLatest
  else .error .invalidValue

/-- `TimelineTimezoneValue::from_str(..).as_ref()` (crates/core/src/config/table.rs:316-340). -/
def parseTimezone (s : Str) : Except CfgErr Str :=
  if lower s = c!"utc" then .ok c!"utc"
  else if lower s = c!"local" then .ok c!"local"
  else .error .invalidValue

/-- `parse_value` once the raw string is present (crates/core/src/config/table.rs:179-236,
read.rs:101-123, internal.rs:77-83). -/
def Cfg.parseRaw (c : Cfg) (v : Str) : Except CfgErr CfgVal :=
  match c with
  | .baseFileFormat => (parseBaseFileFormat v).map .string
  | .basePath | .databaseName | .keyGeneratorClass | .precombineField | .tableName
  | .fileGroupStartTimestamp | .fileGroupEndTimestamp => .ok (.string v)
  | .checksum | .tableVersion | .timelineLayoutVersion =>
    match parseIsize v with
    | some i => .ok (.integer i)
    | none => .error .parseInt
  | .dropsPartitionFields | .isHiveStylePartitioning | .isPartitionPathUrlencoded
  | .populatesMetaFields | .useReadOptimizedMode | .skipConfigValidation =>
    match parseBool v with
    | some b => .ok (.boolean b)
    | none => .error .parseBool
  | .partitionFields | .recordKeyFields => .ok (.list (splitAll ',' v))
  | .recordMergeStrategy => (MergeStrategy.fromStr v).map (fun s => .string s.str)
  | .tableType => (parseTableType v).map .string
  | .timelineTimezone => (parseTimezone v).map .string
  | .inputPartitions | .listingParallelism =>
    match parseUsize v with
    | some n => .ok (.uinteger n)
    | none => .error .parseInt

/-- `parse_value` / `HudiConfigs::get` (crates/core/src/config/table.rs:173-237, read.rs:95-124,
internal.rs:71-84, mod.rs:215-220). -/
def Cfg.get (c : Cfg) (o : Opts) : Except CfgErr CfgVal :=
  match hmGet c.key o with
  | none => .error .notFound
  | some v => c.parseRaw v

/-- `ConfigParser::validate` (crates/core/src/config/mod.rs:57-68). -/
def Cfg.validate (c : Cfg) (o : Opts) : Except CfgErr Unit :=
  match c.get o with
  | .ok _ => .ok ()
  | .error e => if c.isRequired = false ∧ e = .notFound then .ok () else .error e

/-- `HudiConfigs::try_get` (crates/core/src/config/mod.rs:231-240): the default on *any* error. -/
def Cfg.tryGet (c : Cfg) (o : Opts) : Option CfgVal :=
  match c.get o with
  | .ok v => some v
  | .error _ => c.default

/-- `PopulatesMetaFields` with its default, as a bool (crates/core/src/config/table.rs:243-245). -/
def metaFieldsPopulated (o : Opts) : Bool :=
  match Cfg.populatesMetaFields.get o with
  | .ok (.boolean b) => b
  | _ => true

/-- `HudiConfigs::get_or_default` / `parse_value_or_default` (crates/core/src/config/mod.rs:76-81,
223-228 and the override for the merge strategy in table.rs:239-272); `panic` when there is no
default. -/
def Cfg.getOrDefault (c : Cfg) (o : Opts) : Res CfgVal :=
  match c.get o with
  | .ok v => .ok v
  | .error _ =>
    match c with
    | .recordMergeStrategy =>
      if metaFieldsPopulated o = false then .ok (.string MergeStrategy.appendOnly.str)
      else if hmContains Cfg.precombineField.key o = false then
        .ok (.string MergeStrategy.appendOnly.str)
      else .ok (.string MergeStrategy.overwriteWithLatest.str)
    | _ =>
      match c.default with
      | some v => .ok v
      | none => .panic

/-- `HudiConfigValue::to::<bool>` (crates/core/src/config/mod.rs:120-127). -/
def CfgVal.toBool : CfgVal → Res Bool
  | .boolean b => .ok b
  | _ => .panic

/-- `HudiConfigValue::to::<usize>` (crates/core/src/config/mod.rs:138-145). -/
def CfgVal.toUsize : CfgVal → Res Nat
  | .uinteger n => .ok n
  | _ => .panic

/-- `HudiConfigValue::to::<isize>` (crates/core/src/config/mod.rs:129-136). -/
def CfgVal.toIsize : CfgVal → Res Int
  | .integer n => .ok n
  | _ => .panic

/-- `HudiConfigValue::to::<Vec<String>>` (crates/core/src/config/mod.rs:159-166). -/
def CfgVal.toList : CfgVal → Res (List Str)
  | .list l => .ok l
  | _ => .panic

/-- `HudiConfigValue::to::<String>` (crates/core/src/config/mod.rs:147-157).  Only applied to
string-valued options in the modelled code; the conversions of numbers and booleans to text are
given by Lean's `toString`. -/
def CfgVal.toStr : CfgVal → Res Str
  | .string s => .ok s
  | .boolean b => .ok (if b then c!"true" else c!"false")
  | .integer i => .ok (toString i).toList
  | .uinteger n => .ok (toString n).toList
  | .list _ => .panic

/-- `get_or_default(TimelineTimezone).to::<String>()` (crates/core/src/timeline/selector.rs:149-153,
table/mod.rs:190-194). -/
def timezoneOf (o : Opts) : Res Str := do (← Cfg.timelineTimezone.getOrDefault o).toStr

/-- `get_or_default(PartitionFields).to::<Vec<String>>()`
(crates/core/src/table/mod.rs:208-211, partition.rs:36-38). -/
def partitionFieldsOf (o : Opts) : Res (List Str) := do (← Cfg.partitionFields.getOrDefault o).toList

/-- `split_hudi_options_from_others` (crates/core/src/config/util.rs:33-52). -/
def splitHudiOptions (all : List (Str × Str)) : Opts × Opts :=
  all.foldl
    (fun (acc : Opts × Opts) e =>
      if startsWith c!"hoodie." e.1 then (hmInsert e.1 e.2 acc.1, acc.2)
      else (acc.1, hmInsert e.1 e.2 acc.2))
    ([], [])

/-- Rust's `BufRead::lines` (std): split at `\n`, a final empty piece is not a line, and a trailing
`\r` is removed from each line that was ended by `\n`.  (The text is given as characters; invalid
UTF-8, which makes the real reader return an error, is outside the model.).
Used at crates/core/src/config/util.rs:57. -/
def linesOf (s : Str) : List Str :=
  let parts := splitAll '\n' s
  let body := parts.dropLast.map
    (fun l => if l.getLast? = some '\r' then l.dropLast else l)
  match parts.getLast? with
  | none => body
  | some [] => body
  | some l => body ++ [l]

/-- `splitn(2, |c| split_chars.contains(c))` (std): the part before the first separator character
and, if there is one, the rest. Used at crates/core/src/config/util.rs:66. -/
def splitFirst (seps : Str) : Str → Str × Option Str
  | [] => ([], none)
  | x :: xs =>
    if seps.contains x then ([], some xs)
    else let r := splitFirst seps xs; (x :: r.1, r.2)

/-- The body of the loop of `parse_data_for_options` (crates/core/src/config/util.rs:60-77). -/
def parseOptionLine (seps : Str) (line : Str) : Option (Str × Str) :=
  let t := trim line
  if t = [] ∨ t.head? = some '#' then none
  else
    let r := splitFirst seps t
    some (trim r.1, trim (r.2.getD []))

/-- `parse_data_for_options` (crates/core/src/config/util.rs:55-80). -/
def parseDataForOptions (data : Str) (seps : Str) : Opts :=
  hmOfList ((linesOf data).filterMap (parseOptionLine seps))

end Hudi
