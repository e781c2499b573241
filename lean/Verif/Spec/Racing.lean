import Verif.Spec.TimeTravel
import Verif.Spec.Healthy
import Verif.Model.Racing

/-! # Specification: what writers may do while a read is running -/

namespace Hudi.Spec

/-- A path at which a partition of the table can be: the root, or a path that does not lead below a metadata
directory. -/
def PartitionPath (o : Opts) (path : Str) : Prop :=
  (¬ Partitioned o ∧ path = []) ∨
  (Partitioned o ∧ ∃ n ns, (∀ m ∈ n :: ns, NormalName m) ∧ n ∉ metadataDirs ∧ path = joinWith '/' (n :: ns))

/-- A log file that a partition does not hold has no blocks. -/
def HeldOnly (o : Opts) (t : Tree) (held : Str → List WBlock) : Prop :=
  ∀ x, PartitionOf o t x → ∀ n, NormalName n → (∀ l, LogIn (filesOf t x) l → l.fileName ≠ n) →
    held (pathPush x n) = []

/-- The same batches in some order, with the rows of each in some order. -/
def SameBatches (outs outs' : List Batch) : Prop :=
  ∃ mid, outs'.Perm mid ∧ List.Forall₂ (fun out out' => out'.schema = out.schema ∧ out'.rows.Perm out.rows) outs mid

/-- A base file that a snapshot as of `ts` shows, if no filter keeps its partition out: the latest one up to `ts`
of a file group that is not replaced by then. -/
structure Wanted (ltz : LocalTz) (o : Opts) (ts : Str) (tl : Timeline) (t : Tree) (x : Str) (b : BaseFile) : Prop where
  part : PartitionOf o t x
  base : BaseIn (filesOf t x) b
  upTo : (compare b.commitTimestamp ts).isLE
  latest : ∀ b', BaseIn (filesOf t x) b' → b'.fileId = b.fileId → (compare b'.commitTimestamp ts).isLE →
    (compare b'.commitTimestamp b.commitTimestamp).isLE
  live : ∀ tz d, timezoneOf tl.opts = .ok tz → parseDatetime ltz ts tz = .ok d →
    ¬ ReplacedBy tl t d.epochMillis x b.fileId

/-- The log file was written against the base file. -/
def Against (b : BaseFile) (l : LogFile) : Prop :=
  l.fileId = b.fileId ∧ l.baseCommitTimestamp = b.commitTimestamp

/-- What writers and cleaners working while a read as of `ts` is running may have done to the table `t`, whose log
files hold the blocks `held`, when the storage holds `u`.  The metadata of the instants of the handle's timeline
is still there, with the file that the latest of them names first, and so are the base files that the snapshot as of
`ts` shows and the log files written against them; other files may be gone, and the directories that held only such
files.  Base files that were not there before are later than `ts`; and blocks appended to a log file of the snapshot, or
written to a new one, are later than `ts`, if reads look at log files at all. -/
structure Meanwhile (C : Codec) (ltz : LocalTz) (tz : Str) (o : Opts) (ts : Str) (tl : Timeline) (t : Tree)
    (held : Str → List WBlock) (u : Tree) : Prop where
  wf : TreeWF u
  one : ∀ x, PartitionPath o x → OneExtension (filesOf u x)
  docs : ∀ i ∈ tl.completed, docOf u i = docOf t i
  columns : ∀ i md path s, tl.completed.getLast? = some i → docOf t i = some md → FirstFile md path →
    ColumnsAt t path s → ColumnsAt u path s
  partitions : ∀ x b, Wanted ltz o ts tl t x b → PartitionOf o u x
  bases : ∀ x b, Wanted ltz o ts tl t x b → BaseIn (filesOf u x) b
  parquet : ∀ x b, Wanted ltz o ts tl t x b → ∀ rows, ParquetAt t (pathPush x b.fileName) rows →
    ParquetAt u (pathPush x b.fileName) rows
  logs : ∀ x b, Wanted ltz o ts tl t x b → ∀ l, LogIn (filesOf t x) l → Against b l →
    ∃ l', LogIn (filesOf u x) l' ∧ l'.fileName = l.fileName
  newBases : ∀ x b, PartitionPath o x → BaseIn (filesOf u x) b → (compare b.commitTimestamp ts).isLE →
    PartitionOf o t x ∧ BaseIn (filesOf t x) b
  appended : ¬ ReadOptimized o → ∀ x b, Wanted ltz o ts tl t x b → ∀ l, LogIn (filesOf u x) l → Against b l → ∃ more,
    LogAt C u (pathPush x l.fileName) (held (pathPush x l.fileName) ++ more) ∧
    ∀ w ∈ more, GoodBlock C ltz tz w ∧ WrittenAfter ltz tz ts w

/-- What the read needs of writers besides: whenever it lists a partition, or a directory that becomes one, the
directory can be listed; and a log file of the snapshot that it has listed is still there when it reads it, if it
reads log files. -/
structure Orderly (ltz : LocalTz) (o : Opts) (ts : Str) (tl : Timeline) (t : Tree) (R : Race) : Prop where
  listable : ∀ x, PartitionPath o x → Listable (filesOf (R.files x) x)
  kept : ¬ ReadOptimized o → ∀ x b, Wanted ltz o ts tl t x b → ∀ l, LogIn (filesOf (R.files x) x) l → Against b l →
    ∃ e, (R.data (pathPush x l.fileName)).fileAt (pathSegs (pathPush x l.fileName)) = some e

/-- Every request of the read is answered by a storage with the property. -/
structure AllSeen (P : Tree → Prop) (R : Race) : Prop where
  replaced : ∀ i, P (R.replaced i)
  latest : P R.latest
  schema : P R.schema
  dirs : ∀ x, P (R.dirs x)
  files : ∀ x, P (R.files x)
  sizes : ∀ x, P (R.sizes x)
  data : ∀ x, P (R.data x)

/-- What writers and cleaners working while changes up to `stop` are read may have done to the table `t` when the
storage holds `u`: the metadata of the instants of the handle's timeline and the base files of the file slices that have
changed are as they were; and blocks appended to log files of these slices are later than `stop`, if reads look at log
files at all.  Other files may come, go and change. -/
structure MeanwhileAfter (C : Codec) (ltz : LocalTz) (tz : Str) (o : Opts) (stop : Str) (tl : Timeline) (t : Tree)
    (ss : List FileSlice) (u : Tree) : Prop where
  docs : ∀ i ∈ tl.completed, docOf u i = docOf t i
  parquet : ∀ s ∈ ss, ∀ b, ParquetAt t s.basePath b → ParquetAt u s.basePath b
  appended : ¬ ReadOptimized o → ∀ s ∈ ss, ∀ l ∈ s.logFiles, ∀ ws, LogAt C t (s.logPath l) ws →
    (∀ w ∈ ws, GoodBlock C ltz tz w) → ∃ more, LogAt C u (s.logPath l) (ws ++ more) ∧
      ∀ w ∈ more, GoodBlock C ltz tz w ∧ WrittenAfter ltz tz stop w

/-- The log files of the slices hold blocks that can be read, if reads look at log files at all. -/
def GoodLogs (C : Codec) (ltz : LocalTz) (tz : Str) (o : Opts) (t : Tree) (ss : List FileSlice) : Prop :=
  ¬ ReadOptimized o → ∀ s ∈ ss, ∀ l ∈ s.logFiles, ∃ ws,
    LogAt C t (s.logPath l) ws ∧ ∀ w ∈ ws, GoodBlock C ltz tz w

end Hudi.Spec
