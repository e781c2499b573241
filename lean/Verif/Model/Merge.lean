import Verif.Model.Config
import Verif.Model.Data

/-!
# Merging records

Models crates/core/src/merge/record_merger.rs and crates/core/src/util/arrow.rs.
-/

namespace Hudi

/-- `MetaField::CommitTime` (crates/core/src/metadata/meta_field.rs:40). -/
def commitTimeField : Str := c!"_hoodie_commit_time"

/-- `MetaField::CommitSeqno` (crates/core/src/metadata/meta_field.rs:41). -/
def commitSeqnoField : Str := c!"_hoodie_commit_seqno"

/-- `MetaField::RecordKey` (crates/core/src/metadata/meta_field.rs:42). -/
def recordKeyField : Str := c!"_hoodie_record_key"

/-- `MetaField::PartitionPath` (crates/core/src/metadata/meta_field.rs:43). -/
def partitionPathField : Str := c!"_hoodie_partition_path"

/-- `MetaField::FileName` (crates/core/src/metadata/meta_field.rs:44). -/
def fileNameField : Str := c!"_hoodie_file_name"

/-- `MetaField::schema` (crates/core/src/metadata/meta_field.rs:72-79). -/
def metaSchema : Schema :=
  [⟨commitTimeField, .utf8, false⟩, ⟨commitSeqnoField, .utf8, false⟩,
   ⟨recordKeyField, .utf8, false⟩, ⟨partitionPathField, .utf8, false⟩,
   ⟨fileNameField, .utf8, false⟩]

/-- The kind of a value, for the row format's order on values of different kinds, which never occur
in one column. Used at crates/core/src/util/arrow.rs:56-66. -/
def Val.rank : Val → Nat
  | .str _ => 0
  | .bool _ => 1
  | .int _ => 2
  | .opq _ => 3

/-- The order of `arrow_row`'s row format on two values of one column (ascending).
Used at crates/core/src/util/arrow.rs:56-66. -/
def Val.rowCmp (A : Arrow) (a b : Val) : Ordering :=
  match a, b with
  | .str a, .str b => compare a b
  | .bool a, .bool b => compare a b
  | .int a, .int b => compare a b
  | .opq a, .opq b => A.cmpOther a b
  | a, b => compare a.rank b.rank

/-- The order of the row format on cells: `SortField::new` puts nulls first
(crates/core/src/util/arrow.rs:56-59). -/
def Cell.rowCmp (A : Arrow) : Cell → Cell → Ordering
  | none, none => .eq
  | none, some _ => .lt
  | some _, none => .gt
  | some a, some b => a.rowCmp A b

/-- A row of the sort columns, `[precombine, commit_seqno]`.
Used at crates/core/src/util/arrow.rs:56-66. -/
abbrev SortRow := Cell × Cell

/-- The order of the row format on rows of two columns.
Used at crates/core/src/util/arrow.rs:62-66. -/
def SortRow.cmp (A : Arrow) (a b : SortRow) : Ordering :=
  (Cell.rowCmp A a.1 b.1).then (Cell.rowCmp A a.2 b.2)

/-- What the model leaves arbitrary about the libraries used by the merger: the placement of equal
elements by `sort_unstable_by` (std) in descending order, and the iteration order of a `HashMap`
(std). Used at crates/core/src/merge/record_merger.rs:105-135. -/
structure MergeEnv (A : Arrow) where
  sort : List (Nat × SortRow) → List (Nat × SortRow)
  sort_perm : ∀ l, (sort l).Perm l
  sort_sorted : ∀ l, (sort l).Pairwise (fun a b => (SortRow.cmp A b.2 a.2).isLE = true)
  order : List (Str × Nat) → List (Str × Nat)
  order_perm : ∀ l, (order l).Perm l

/-- `ColumnAsArray::get_array` (crates/core/src/util/arrow.rs:35-39). -/
def Batch.getArray (b : Batch) (name : Str) : Res (List Cell) := do
  let i ← Res.ofOption .arrow (b.schema.indexOf name)
  return b.column i

/-- `StringArray::value` (arrow-array): the slot of a null holds the empty string.
Used at crates/core/src/merge/record_merger.rs:120. -/
def Cell.strValue : Cell → Str
  | some (.str s) => s
  | _ => []

/-- `ColumnAsArray::get_string_array` (crates/core/src/util/arrow.rs:41-52), with the values as
`StringArray::value` returns them. -/
def Batch.getStringArray (b : Batch) (name : Str) : Res (List Str) := do
  let i ← Res.ofOption .arrow (b.schema.indexOf name)
  match b.schema[i]? with
  | some ⟨_, .utf8, _⟩ => .ok ((b.column i).map Cell.strValue)
  | _ => .err .arrow

/-- `lexsort_to_indices` with two columns, descending (crates/core/src/util/arrow.rs:55-70).  Row
indices beyond `u32` and column types the row format does not support are outside the model. -/
def lexsortDesc (A : Arrow) (M : MergeEnv A) (a b : List Cell) : List Nat :=
  (M.sort ((a.zip b).zipIdx.map (fun e => (e.2, e.1)))).map Prod.fst

/-- The loop that keeps the first index of every record key
(crates/core/src/merge/record_merger.rs:117-131). -/
def latestIndices (keys : List Str) (idx : List Nat) : List (Str × Nat) :=
  idx.foldl (fun m i => hmInsertIfAbsent ((keys[i]?).getD []) i m) []

/-- `take_record_batch` (arrow-select).
Used at crates/core/src/merge/record_merger.rs:135. -/
def takeRows (b : Batch) (idx : List Nat) : Batch :=
  { b with rows := idx.filterMap (fun i => b.rows[i]?) }

/-- The configured merge strategy (crates/core/src/merge/record_merger.rs:91-95). -/
def mergeStrategyOf (o : Opts) : Res MergeStrategy := do
  let s ← (← Cfg.recordMergeStrategy.getOrDefault o).toStr
  match MergeStrategy.fromStr s with
  | .ok m => .ok m
  | .error _ => .err .config

/-- `HudiConfigs::get(PrecombineField)?.to::<String>()`
(crates/core/src/merge/record_merger.rs:107). -/
def precombineFieldOf (o : Opts) : Res Str :=
  match Cfg.precombineField.get o with
  | .ok v => v.toStr
  | .error _ => .err .config

/-- The overwrite-with-latest branch after concatenation
(crates/core/src/merge/record_merger.rs:102-135). -/
def mergeLatest (A : Arrow) (M : MergeEnv A) (o : Opts) (b : Batch) : Res Batch :=
  if b.rows.isEmpty then .ok b
  else do
    let field ← precombineFieldOf o
    let pre ← b.getArray field
    let seq ← b.getArray commitSeqnoField
    let idx := lexsortDesc A M pre seq
    let keys ← b.getStringArray recordKeyField
    return takeRows b ((M.order (latestIndices keys idx)).map Prod.snd)

/-- `RecordMerger::merge_record_batches` (crates/core/src/merge/record_merger.rs:82-138). -/
def mergeRecordBatches (A : Arrow) (M : MergeEnv A) (o : Opts) (schema : Schema) (bs : List Batch) :
    Res Batch :=
  if bs.isEmpty then .ok ⟨schema, []⟩
  else do
    let strategy ← mergeStrategyOf o
    match strategy with
    | .appendOnly => concatBatches schema bs
    | .overwriteWithLatest => do
      let b ← concatBatches schema bs
      mergeLatest A M o b

/-- `RecordMerger::validate_configs` (crates/core/src/merge/record_merger.rs:45-76). -/
def mergeValidate (o : Opts) : Res (Except CfgErr Unit) := do
  let s ← (← Cfg.recordMergeStrategy.getOrDefault o).toStr
  match MergeStrategy.fromStr s with
  | .error e => .ok (.error e)
  | .ok strategy => do
    let populates ← (← Cfg.populatesMetaFields.getOrDefault o).toBool
    if populates = false ∧ strategy ≠ .appendOnly then .ok (.error .invalidValue)
    else if (Cfg.precombineField.tryGet o).isNone ∧ strategy = .overwriteWithLatest then
      .ok (.error .invalidValue)
    else .ok (.ok ())

end Hudi
