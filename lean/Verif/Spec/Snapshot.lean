import Verif.Spec.Listing
import Verif.Spec.Commit
import Verif.Spec.Filter
import Verif.Model.Table

/-!
# Specification: partitions and snapshots
-/

namespace Hudi.Spec

/-- The table's options say that it is partitioned. -/
def Partitioned (o : Opts) : Prop :=
  hmGet c!"hoodie.table.partition.fields" o ≠ none ∧
  hmGet c!"hoodie.table.keygenerator.class" o ≠
    some c!"org.apache.hudi.keygen.NonpartitionedKeyGenerator"

instance (o : Opts) : Decidable (Partitioned o) := by unfold Partitioned; infer_instance

/-- Names of the top-level directories that hold metadata of lake formats rather than partitions. -/
def metadataDirs : List Str := [c!".hoodie", c!"_delta_log", c!"metadata"]

/-- The paths of the partitions of a table: the root alone, or the leaf directories that are not below
a metadata directory. -/
def PartitionOf (o : Opts) (t : Tree) (path : Str) : Prop :=
  (¬ Partitioned o ∧ path = []) ∨
  (Partitioned o ∧ ∃ n ns, LeafDir (n :: ns) t ∧ n ∉ metadataDirs ∧ path = joinWith '/' (n :: ns))

/-- The files of a partition. -/
def filesOf (t : Tree) (path : Str) : List (Str × Nat) := (t.at (pathSegs path)).files

/-- The file slices `ss` are exactly the snapshot as of `T` of the partitions `parts`, which hold the files
`files`, without the replaced file groups. -/
structure SnapshotFrom (files : Str → List (Str × Nat)) (parts : Str → Prop)
    (replaced : Str → Str → Prop) (T : Str) (ss : List FileSlice) : Prop where
  /-- No file group twice. -/
  distinct : (ss.map (fun s => (s.partitionPath, s.baseFile.fileId))).Nodup
  /-- Every slice is a base file found in its partition, of a file group that is not replaced, ... -/
  sound : ∀ s ∈ ss, parts s.partitionPath ∧ ¬ replaced s.partitionPath s.baseFile.fileId ∧
    ∃ b m, BaseIn (files s.partitionPath) b ∧ s.baseFile = { b with fileMeta := some m }
  /-- ... created at or before `T`, ... -/
  notLater : ∀ s ∈ ss, (compare s.baseFile.commitTimestamp T).isLE
  /-- ... and the latest such one of its file group ... -/
  latest : ∀ s ∈ ss, ∀ b, BaseIn (files s.partitionPath) b → b.fileId = s.baseFile.fileId →
    (compare b.commitTimestamp T).isLE → (compare b.commitTimestamp s.baseFile.commitTimestamp).isLE
  /-- ... with exactly the log files written against it. -/
  logs : ∀ s ∈ ss, ∀ l, l ∈ s.logFiles ↔ LogIn (files s.partitionPath) l ∧
    l.fileId = s.baseFile.fileId ∧ l.baseCommitTimestamp = s.baseFile.commitTimestamp
  /-- Every file group with a base file created at or before `T` that is not replaced has a slice. -/
  complete : ∀ path, parts path → ∀ b, BaseIn (files path) b →
    (compare b.commitTimestamp T).isLE → ¬ replaced path b.fileId →
    ∃ s ∈ ss, s.partitionPath = path ∧ s.baseFile.fileId = b.fileId

/-- The file slices `ss` are exactly the snapshot as of `T` of the partitions `parts` of a storage, without
the replaced file groups. -/
abbrev SnapshotOf (t : Tree) := SnapshotFrom (filesOf t)

/-- A partition is kept by the filters: its path does not read as values that fail one of them. -/
def Kept (A : Arrow) (schema : Schema) (hive url : Bool) (filters : List Filter) (path : Str) : Prop :=
  ¬ ∃ vals, PathReads A schema hive url path vals ∧ ∃ f ∈ filters, ¬ Passes A schema vals f

/-- The table's options say how partition paths are written. -/
def PathStyle (o : Opts) (hive url : Bool) : Prop :=
  hmGet c!"hoodie.datasource.write.hive_style_partitioning" o =
    some (if hive then c!"true" else c!"false") ∧
  hmGet c!"hoodie.datasource.write.partitionpath.urlencode" o =
    some (if url then c!"true" else c!"false")

/-- Partition fields have distinct names, usable in paths. -/
def FieldNames (schema : Schema) : Prop :=
  (schema.map Field.name).Nodup ∧ ∀ f ∈ schema, '/' ∉ f.name ∧ '=' ∉ f.name

/-- A completed replacecommit at or before the time `T` replaced the file group. -/
def ReplacedBy (tl : Timeline) (t : Tree) (T : Int) (path fileId : Str) : Prop :=
  ∃ i ∈ tl.completed, i.action = .replaceCommit ∧ i.epochMillis ≤ T ∧
    ∃ md, docOf t i = some md ∧ Replaces md path fileId

/-- What later activity may do to a table, seen from a snapshot as of `ts` (time `T`): files and
metadata are kept; new base files and new completed instants are later than `ts`; log files may be
added anywhere, and so may partitions. -/
structure OnlyLater (o : Opts) (ts : Str) (T : Int) (tl tl' : Timeline) (t t' : Tree) : Prop where
  partitions : ∀ x, PartitionOf o t x → PartitionOf o t' x
  files : ∀ x, PartitionOf o t x → ∀ f ∈ filesOf t x, f ∈ filesOf t' x
  newBases : ∀ x b, PartitionOf o t' x → BaseIn (filesOf t' x) b →
    (compare b.commitTimestamp ts).isLE → PartitionOf o t x ∧ BaseIn (filesOf t x) b
  instants : ∀ i ∈ tl.completed, i ∈ tl'.completed ∧ docOf t' i = docOf t i
  newInstants : ∀ i ∈ tl'.completed, i.epochMillis ≤ T → i ∈ tl.completed

/-- The two slices have the same base file; the second has all log files of the first, and any other
log file of it is new on the storage. -/
def SameOrGrown (t t' : Tree) (s s' : FileSlice) : Prop :=
  s.partitionPath = s'.partitionPath ∧
  (∃ b m m', BaseIn (filesOf t s.partitionPath) b ∧ BaseIn (filesOf t' s.partitionPath) b ∧
    s.baseFile = { b with fileMeta := some m } ∧ s'.baseFile = { b with fileMeta := some m' }) ∧
  (∀ l ∈ s.logFiles, l ∈ s'.logFiles) ∧
  ∀ l ∈ s'.logFiles, l ∈ s.logFiles ∨ ¬ LogIn (filesOf t s.partitionPath) l

/-- Every partition in which there was a base file up to `ts` at one of the earlier moments is still on the storage. -/
def StillThere (o : Opts) (earlier : List Tree) (t : Tree) (ts : Str) : Prop :=
  ∀ t' ∈ earlier, ∀ x, PartitionOf o t' x → ∀ b, BaseIn (filesOf t' x) b →
    (compare b.commitTimestamp ts).isLE → PartitionOf o t x

/-- The queries for file slices through a table handle. -/
inductive SliceQuery
  | latest (filters : List (Str × Str × Str))
  | asOf (ts : Str) (filters : List (Str × Str × Str))
  | splits (n : Nat) (filters : List (Str × Str × Str))
  | splitsAsOf (n : Nat) (ts : Str) (filters : List (Str × Str × Str))

/-- The query is about the table as of `ts`: the timestamp asked for or, without one, that of the latest completed
instant. -/
def SliceQuery.IsAsOf (tb : Table) (ts : Str) : SliceQuery → Prop
  | .latest _ | .splits _ _ => (tb.timeline.completed.getLast?.map Instant.timestamp) = some ts
  | .asOf ts' _ | .splitsAsOf _ ts' _ => ts = ts'

/-- The handle's cache after a query. -/
def SliceQuery.cacheAfter (E : Env) (A : Arrow) (tb : Table) (t : Tree) (c : Cache) :
    SliceQuery → Cache
  | .latest fs => (tb.fileSlices E A t fs c).1
  | .asOf ts fs => (tb.fileSlicesAsOf E A t ts fs c).1
  | .splits n fs => (tb.fileSlicesSplits E A t n fs c).1
  | .splitsAsOf n ts fs => (tb.fileSlicesSplitsAsOf E A t n ts fs c).1

/-- The handle's cache after a sequence of queries, each made against the contents the storage had at
the time (most recent first). -/
inductive CacheAfter (E : Env) (A : Arrow) (tb : Table) : List Tree → Cache → Prop
  | opened : CacheAfter E A tb [] []
  | query {ts : List Tree} {c : Cache} (t : Tree) (q : SliceQuery) :
      CacheAfter E A tb ts c → CacheAfter E A tb (t :: ts) (q.cacheAfter E A tb t c)

end Hudi.Spec
