import Verif.Spec.Evolving
import Verif.Spec.Opened

/-!
# Specification: storage that holds more than what the completed commits wrote

Writes that are in flight, or that failed, leave files and log blocks.  Here a storage `t` is described as far
as reads as of `ts` through a handle are concerned that knows the completed commits `h`: nothing is said about
base files and completed instants later than `ts`, and log files need not have been appended to by a completed
commit.
-/

namespace Hudi.Spec

/-- The log file is in the directory of the file group's partition, and was written against the base file of
the instant `base`. -/
def LogOf (t : Tree) (k : GroupKey) (base : Str) (l : LogFile) : Prop :=
  LogIn (filesOf t k.1) l ∧ l.fileId = k.2 ∧ l.baseCommitTimestamp = base

/-- The block is in a log file of the file group that was written against the base file of `base`, whoever
wrote it. -/
def StoredBlock (t : Tree) (held : Str → List WBlock) (k : GroupKey) (base : Str) (w : WBlock) : Prop :=
  ∃ l, LogOf t k base l ∧ w ∈ held (pathPush k.1 l.fileName)

/-- The commit appended to the file group, whose base file was that of the instant `base`. -/
def AppendedTo (h : History) (k : GroupKey) (base : Str) (c : HCommit) : Prop :=
  ∃ h1 h2 ls v, h = h1 ++ c :: h2 ∧ (k, Change.append ls) ∈ c.changes ∧ versionAfter h1 k = some v ∧ v.base = base

/-- The files of a storage `t` as far as reads as of `ts` are concerned, through a handle opened on `t0` when the
completed commits were `h`: the base files dated up to `ts` are those that commits wrote.  Base files dated later
and log files may be anything with the name of one. -/
structure FilesUpTo (ltz : LocalTz) (tz : Str) (o : Opts) (t0 t : Tree) (h : History) (ts : Str) : Prop where
  timeline : ∀ name,
    ((∃ m ∈ listFiles t0 c!".hoodie", m.name = name) ∧
      ∃ i, CompletedFile ltz tz [.commit, .deltaCommit, .replaceCommit] name i) ↔
    ∃ c ∈ h, name = c.ts ++ c!"." ++ suffix c.action .completed
  replaced : ∀ c ∈ h, (compare c.ts ts).isLE → c.action = .replaceCommit → ∃ md, CommitDoc t c md ∧ ReadableReplaced md ∧
    ∀ x f, Replaces md x f ↔ ((x, f), Change.replace) ∈ c.changes
  written : ∀ c ∈ h, (compare c.ts ts).isLE → ∀ x f token, ((x, f), Change.write token) ∈ c.changes →
    PartitionOf o t x ∧ ∃ size, (baseName f token c.ts, size) ∈ filesOf t x
  bases : ∀ x b, PartitionOf o t x → BaseIn (filesOf t x) b → (compare b.commitTimestamp ts).isLE →
    b.extension = c!"parquet" ∧
    ∃ c ∈ h, ((x, b.fileId), Change.write b.writeToken) ∈ c.changes ∧ b.commitTimestamp = c.ts
  listable : ∀ x, PartitionOf o t x → Listable (filesOf t x)
  extensions : ∀ x, PartitionOf o t x → OneExtension (filesOf t x)

/-- The contents of the files of `FilesUpTo`: the base files hold what the commits wrote, with the columns
`cols`; the log files of the table as of `ts` hold readable blocks `held`, of which those of a completed commit
hold the rows it appended, and none up to `ts` rolls back a completed commit. -/
structure RowsUpTo (C : Codec) (ltz : LocalTz) (tz : Str) (cols : Columns) (t : Tree) (h : History) (W : Written)
    (held : Str → List WBlock) (ts : Str) : Prop where
  bases : ∀ c ∈ h, (compare c.ts ts).isLE → ∀ k token, (k, Change.write token) ∈ c.changes →
    ParquetAt t (basePathOf k token c.ts) ⟨cols c.ts k, W.base c.ts k⟩ ∧
    (⟨cols c.ts k, W.base c.ts k⟩ : Batch).WF ∧ ((W.base c.ts k).map (keyOf (cols c.ts k))).Nodup
  logs : ∀ k v l, tableAt h ts k = some v → LogOf t k v.base l →
    LogAt C t (pathPush k.1 l.fileName) (held (pathPush k.1 l.fileName))
  blocks : ∀ k v w, tableAt h ts k = some v → StoredBlock t held k v.base w →
    GoodBlock C ltz tz w ∧ BatchesFit C (cols v.base k) [w]
  rollbacks : ∀ k v w i, tableAt h ts k = some v → StoredBlock t held k v.base w → WrittenUpTo ltz tz ts w →
    RollsBack w i → ∀ c, AppendedTo h k v.base c → c.ts ≠ i
  rows : ∀ k v c, tableAt h ts k = some v → AppendedTo h k v.base c → (compare c.ts ts).isLE → ∀ r,
    r ∈ W.appended c.ts k ↔ ∃ w bs, StoredBlock t held k v.base w ∧ WrittenBy w c.ts ∧ Decodes C w bs ∧
      r ∈ bs.flatMap Batch.rows

/-- As of `ts`, the block was there, no completed commit had appended it, and its write had not been rolled
back. -/
structure UnsettledBlock (ltz : LocalTz) (tz ts : Str) (t : Tree) (h : History) (held : Str → List WBlock)
    (k : GroupKey) (base : Str) (w : WBlock) : Prop where
  block : StoredBlock t held k base w
  upTo : WrittenUpTo ltz tz ts w
  notCompleted : ∀ c, AppendedTo h k base c → ¬ WrittenBy w c.ts
  notRolledBack : ∀ w' i, StoredBlock t held k base w' → RollsBack w' i → WrittenUpTo ltz tz ts w' → ¬ WrittenBy w i

/-- The row is in such a block of the file group as of `ts`. -/
def UnsettledRow (C : Codec) (ltz : LocalTz) (tz ts : Str) (t : Tree) (h : History) (held : Str → List WBlock)
    (k : GroupKey) (r : List Cell) : Prop :=
  ∃ v w bs, tableAt h ts k = some v ∧ UnsettledBlock ltz tz ts t h held k v.base w ∧ Decodes C w bs ∧
    r ∈ bs.flatMap Batch.rows

/-- Every block dated up to `ts` of the table as of `ts` is a rollback, or that of a completed commit to its file
group, or its write has been rolled back up to `ts`. -/
def Settled (ltz : LocalTz) (tz ts : Str) (t : Tree) (h : History) (held : Str → List WBlock) : Prop :=
  ∀ k v w i, tableAt h ts k = some v → StoredBlock t held k v.base w → WrittenBy w i → WrittenUpTo ltz tz ts w →
    IsRollback w ∨ (∃ c, AppendedTo h k v.base c ∧ c.ts = i) ∨
    ∃ w', StoredBlock t held k v.base w' ∧ RollsBack w' i ∧ WrittenUpTo ltz tz ts w'

/-- The slices are the table as of `ts` of the completed commits, in the partitions `parts`: its file groups, each
once, with the current base file and all log files written against it, whoever wrote them. -/
structure ShowsUpTo (t : Tree) (h : History) (ts : Str) (parts : Str → Prop) (ss : List FileSlice) : Prop where
  distinct : (ss.map sliceKey).Nodup
  groups : ∀ k, (∃ s ∈ ss, sliceKey s = k) ↔ parts k.1 ∧ tableAt h ts k ≠ none
  versions : ∀ s ∈ ss, ∃ v, tableAt h ts (sliceKey s) = some v ∧ s.baseFile.commitTimestamp = v.base ∧
    s.baseFile.writeToken = v.token ∧ s.baseFile.extension = c!"parquet" ∧
    ∀ l, l ∈ s.logFiles ↔ LogOf t (sliceKey s) v.base l

/-- A handle `tb`, opened when the storage was `t0` and the completed commits were `h`, from which the storage `t`
is read as of `ts`. -/
structure ReadableUpTo (E : Env) (A : Arrow) (o : Opts) (t0 t : Tree) (tb : Table) (tz : Str) (h : History)
    (n : Nat) (ts : Str) (filters : List (Str × Str × Str)) (fs : List Filter) (cols : Schema)
    (hive url : Bool) : Prop where
  load : Timeline.load E o t0 = .ok tb.timeline
  timelineNames : ∀ m ∈ listFiles t0 c!".hoodie", NormalName m.name
  tree : TreeWF t
  zone : timezoneOf tb.timeline.opts = .ok tz
  history : h.WF n
  files : FilesUpTo E.ltz tz tb.opts t0 t h ts
  parsed : fromStrTuples filters = .ok fs
  columns : PartitionColumns tb t cols
  names : FieldNames cols
  applicable : ∀ f ∈ fs, Applicable A cols f
  style : PathStyle tb.opts hive url
  parallelism : ∀ v, hmGet c!"hoodie.read.listing.parallelism" tb.opts = some v → parseUsize v ≠ some 0

end Hudi.Spec
