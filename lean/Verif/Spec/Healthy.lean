import Verif.Spec.Snapshot
import Verif.Spec.Reader

/-! # Specification: tables whose queries have an answer -/

namespace Hudi.Spec

/-- The directory of the partition holds a parquet file of that name. -/
def ParquetIn (t : Tree) (partition name : Str) : Prop :=
  ∃ size byteSize batch footer,
    (t.at (pathSegs partition)).file? name = some (size, .parquet byteSize batch footer)

/-- The base file is the current one of its file group as of `ts`: no later one is at or before
`ts`. -/
def CurrentBase (t : Tree) (ts partition : Str) (b : BaseFile) : Prop :=
  BaseIn (filesOf t partition) b ∧ (compare b.commitTimestamp ts).isLE ∧
  ∀ b', BaseIn (filesOf t partition) b' → b'.fileId = b.fileId →
    (compare b'.commitTimestamp ts).isLE → (compare b'.commitTimestamp b.commitTimestamp).isLE

/-- The first write recorded in the document (the first write stat of the first partition) names the
data file at `path`: by its path if that is the path of a parquet file, and otherwise (for a log file)
by the base file it was written against. -/
def FirstFile (md : List (Str × Json)) (path : Str) : Prop :=
  ∃ partition stat stats parts written,
    jGet c!"partitionToWriteStats" md = some (.obj ((partition, .arr (.obj stat :: stats)) :: parts)) ∧
    jGet c!"path" stat = some (.str written) ∧
    ((ParquetName written ∧ path = written) ∨
     (¬ ParquetName written ∧ ∃ base, jGet c!"baseFile" stat = some (.str base) ∧
        path = pathPush partition base))

/-- The names of the partition fields in the table's options. -/
def partitionFieldNames (o : Opts) : List Str :=
  match hmGet c!"hoodie.table.partition.fields" o with
  | none => []
  | some v => splitAll ',' v

/-- `schema` is the partition columns, as the first file written by the latest completed instant has
them. -/
def PartitionColumns (tb : Table) (t : Tree) (schema : Schema) : Prop :=
  ∃ i md path s, tb.timeline.completed.getLast? = some i ∧ docOf t i = some md ∧ FirstFile md path ∧
    ColumnsAt t path s ∧
    schema = s.filter (fun f => decide (f.name ∈ partitionFieldNames tb.opts))

/-- The filter is on one of the columns, with a value of its type. -/
def Applicable (A : Arrow) (schema : Schema) (f : Filter) : Prop :=
  ∃ field v, schema.find? (fun g => decide (g.name = f.field)) = some field ∧
    TextReads A field.dtype f.value v

/-- What it takes for a query for the file slices as of `ts` (time `T`) to have an answer. -/
structure Answerable (A : Arrow) (tb : Table) (t : Tree) (ts : Str) (T : Int) (fs : List Filter)
    (schema : Schema) (hive url : Bool) : Prop where
  /-- The replacecommits up to `T` say what they replaced. -/
  replaced : ∀ i ∈ tb.timeline.completed, i.action = .replaceCommit → i.epochMillis ≤ T →
    ∃ md, docOf t i = some md ∧ ReadableReplaced md
  /-- The partition columns are known, and the options say how partition paths are written. -/
  columns : PartitionColumns tb t schema
  style : PathStyle tb.opts hive url
  filters : ∀ f ∈ fs, Applicable A schema f
  /-- Partitions are not listed zero at a time. -/
  parallelism : Partitioned tb.opts → ∀ v, hmGet c!"hoodie.read.listing.parallelism" tb.opts = some v →
    parseUsize v ≠ some 0
  /-- The partitions looked at can be listed, ... -/
  listable : ∀ x, PartitionOf tb.opts t x → (Partitioned tb.opts → Kept A schema hive url fs x) →
    Listable (filesOf t x)
  /-- ... and the base file of every slice in the snapshot is a parquet file. -/
  bases : ∀ x b, PartitionOf tb.opts t x → Kept A schema hive url fs x → CurrentBase t ts x b →
    ¬ ReplacedBy tb.timeline t T x b.fileId → ParquetIn t x b.fileName

/-- A table in good order: the metadata of all completed instants is readable; every partition
directory holds what a partition directory should; every base file is a parquet file with a name in
the usual form; the options say how partition paths are written. -/
structure Healthy (tb : Table) (t : Tree) : Prop where
  docs : ∀ i ∈ tb.timeline.completed, ∃ md, docOf t i = some md ∧ ReadableDoc md ∧
    (i.action = .replaceCommit → ReadableReplaced md)
  listable : ∀ x, PartitionOf tb.opts t x → Listable (filesOf t x)
  bases : ∀ x b, PartitionOf tb.opts t x → BaseIn (filesOf t x) b → ParquetIn t x b.fileName
  style : ∃ hive url, PathStyle tb.opts hive url
  parallelism : ∀ v, hmGet c!"hoodie.read.listing.parallelism" tb.opts = some v → parseUsize v ≠ some 0

end Hudi.Spec
