import Verif.Spec.Reader
import Verif.Spec.Snapshot

/-! # Specification: what later writers may do to the files a snapshot is read from -/

namespace Hudi.Spec

/-- A block that can be read: well formed, with a readable instant time and, if it is a rollback, a
target. -/
structure GoodBlock (C : Codec) (ltz : LocalTz) (tz : Str) (w : WBlock) : Prop where
  wf : w.WF
  decodes : ∃ bs, Decodes C w bs
  time : ∃ i d, WrittenBy w i ∧ parseDatetime ltz i tz = .ok d
  target : IsRollback w → ∃ i, RollsBack w i

/-- The block was written by an instant after `ts`. -/
def WrittenAfter (ltz : LocalTz) (tz ts : Str) (w : WBlock) : Prop :=
  ∃ i d e, WrittenBy w i ∧ parseDatetime ltz i tz = .ok d ∧ parseDatetime ltz ts tz = .ok e ∧ Before e d

/-- The contents of a table's data files: the base file at path `p` holds `base p`, with the columns the
merge needs if reads merge; the log file at path `p` holds the blocks `held p`, whose records have
the columns of the base file they were written against.  Nothing is required of the contents of log files
if reads are limited to base files. -/
structure DataFiles (C : Codec) (ltz : LocalTz) (tz pre : Str) (o : Opts) (t : Tree) (base : Str → Batch)
    (held : Str → List WBlock) : Prop where
  bases : ∀ x, PartitionOf o t x → ∀ b, BaseIn (filesOf t x) b →
    ParquetAt t (pathPush x b.fileName) (base (pathPush x b.fileName)) ∧
    (base (pathPush x b.fileName)).WF ∧ (Merges o → MergeColumns (base (pathPush x b.fileName)).schema pre)
  logs : ¬ ReadOptimized o → ∀ x, PartitionOf o t x → ∀ l, LogIn (filesOf t x) l →
    LogAt C t (pathPush x l.fileName) (held (pathPush x l.fileName)) ∧
    ∀ w ∈ held (pathPush x l.fileName), GoodBlock C ltz tz w
  fit : ¬ ReadOptimized o → ∀ x, PartitionOf o t x → ∀ b, BaseIn (filesOf t x) b → ∀ l, LogIn (filesOf t x) l →
    l.fileId = b.fileId → l.baseCommitTimestamp = b.commitTimestamp →
    BatchesFit C (base (pathPush x b.fileName)).schema (held (pathPush x l.fileName))

/-- What later activity may do to a table, seen from a snapshot as of `ts` (time `T`): base files, log
files and the metadata of completed instants stay; new base files and new completed instants are later
than `ts`; and all that was appended to a log file, or written to a new one, is blocks later than `ts`, if reads
look at log files at all. -/
structure LaterActivity (C : Codec) (ltz : LocalTz) (tz : Str) (o : Opts) (ts : Str) (T : Int)
    (tl tl' : Timeline) (t t' : Tree) (held held' : Str → List WBlock) : Prop where
  partitions : ∀ x, PartitionOf o t x → PartitionOf o t' x
  bases : ∀ x, PartitionOf o t x → ∀ b, BaseIn (filesOf t x) b → BaseIn (filesOf t' x) b ∧
    ∀ c, ParquetAt t (pathPush x b.fileName) c → ParquetAt t' (pathPush x b.fileName) c
  newBases : ∀ x b, PartitionOf o t' x → BaseIn (filesOf t' x) b →
    (compare b.commitTimestamp ts).isLE → PartitionOf o t x ∧ BaseIn (filesOf t x) b
  instants : ∀ i ∈ tl.completed, i ∈ tl'.completed ∧ docOf t' i = docOf t i
  newInstants : ∀ i ∈ tl'.completed, i.epochMillis ≤ T → i ∈ tl.completed
  logs : ∀ x, PartitionOf o t x → ∀ l, LogIn (filesOf t x) l →
    ∃ l', LogIn (filesOf t' x) l' ∧ l'.fileName = l.fileName
  appended : ¬ ReadOptimized o → ∀ x, PartitionOf o t' x → ∀ l, LogIn (filesOf t' x) l →
    LogAt C t' (pathPush x l.fileName) (held' (pathPush x l.fileName)) ∧
    ∃ more, held' (pathPush x l.fileName) = held (pathPush x l.fileName) ++ more ∧
      ∀ w ∈ more, GoodBlock C ltz tz w ∧ WrittenAfter ltz tz ts w
  fresh : ¬ ReadOptimized o → ∀ x, PartitionOf o t' x → ∀ l, LogIn (filesOf t' x) l →
    (∀ l0, LogIn (filesOf t x) l0 → l0.fileName ≠ l.fileName) → held (pathPush x l.fileName) = []

/-- If reads merge the versions of a record, every base file of the table has one row per record key. -/
def OneRowPerKey (o : Opts) (t : Tree) (base : Str → Batch) : Prop :=
  Merges o → ∀ x, PartitionOf o t x → ∀ b, BaseIn (filesOf t x) b →
    ((base (pathPush x b.fileName)).rows.map
      (keyOf (base (pathPush x b.fileName)).schema)).Nodup

end Hudi.Spec
