import Verif.Spec.History
import Verif.Spec.TimeTravel
import Verif.Spec.Healthy
import Verif.Model.Reader

/-!
# Specification: the records of a table after a history of commits

What a commit did to a file group, in rows, independently of how rows are stored; and what it means that
base files and log files hold these rows.
-/

namespace Hudi.Spec

/-- The rows that commits wrote: those of the base file that the commit with that timestamp wrote for the
file group, and those it appended to the file group. -/
structure Written where
  base : Str → GroupKey → List (List Cell)
  appended : Str → GroupKey → List (List Cell)

/-- The versions of records that the file group holds after the history: a base file replaces what was
there, appended records add to it, a replaced file group holds nothing. -/
def recordsAfter (W : Written) (h : History) (k : GroupKey) : List (List Cell) :=
  h.foldl (fun rows c => match c.changeOf k with
    | none => rows
    | some (.write _) => W.base c.ts k
    | some (.append _) => rows ++ W.appended c.ts k
    | some .replace => []) []

/-- The versions of records as of `T`: after the commits up to `T`. -/
def recordsAt (W : Written) (h : History) (T : Str) (k : GroupKey) : List (List Cell) :=
  recordsAfter W (h.filter (fun c => (compare c.ts T).isLE)) k

/-- The commit appended to the log file `l` (version and write token) of the file group, written against
the base file of the instant `base`. -/
def AppendsTo (h : History) (k : GroupKey) (base : Str) (l : Str × Str) (c : HCommit) : Prop :=
  ∃ h1 h2 ls v, h = h1 ++ c :: h2 ∧ (k, Change.append ls) ∈ c.changes ∧ l ∈ ls ∧
    versionAfter h1 k = some v ∧ v.base = base

/-- The path of a base file. -/
def basePathOf (k : GroupKey) (token ts : Str) : Str := pathPush k.1 (baseName k.2 token ts)

/-- The path of a log file. -/
def logPathOf (k : GroupKey) (base : Str) (l : Str × Str) : Str := pathPush k.1 (logName k.2 base l.1 l.2)

/-- The block is in a log file of the file group that was written against the base file of `base`. -/
def BlockOf (h : History) (held : Str → List WBlock) (k : GroupKey) (base : Str) (w : WBlock) : Prop :=
  ∃ l c, AppendsTo h k base l c ∧ w ∈ held (logPathOf k base l)

/-- The data files hold the rows that the commits wrote, all with the columns `schema`: base files with one
row per record key; log files with readable blocks `held`, where the rows appended by a commit are those
in the blocks with its timestamp.  Log files may hold blocks of other writes (that failed), and
rollbacks, which do not name a completed commit. -/
structure StoresRecords (C : Codec) (ltz : LocalTz) (tz : Str) (schema : Schema) (t : Tree) (h : History)
    (W : Written) (held : Str → List WBlock) : Prop where
  bases : ∀ c ∈ h, ∀ k token, (k, Change.write token) ∈ c.changes →
    ParquetAt t (basePathOf k token c.ts) ⟨schema, W.base c.ts k⟩ ∧
    (⟨schema, W.base c.ts k⟩ : Batch).WF ∧ ((W.base c.ts k).map (keyOf schema)).Nodup
  logs : ∀ k base l c, AppendsTo h k base l c → LogAt C t (logPathOf k base l) (held (logPathOf k base l))
  blocks : ∀ k base w, BlockOf h held k base w → GoodBlock C ltz tz w ∧ BatchesFit C schema [w]
  rollbacks : ∀ k base w i, BlockOf h held k base w → RollsBack w i → ∀ c ∈ h, c.ts ≠ i
  rows : ∀ k base l c, AppendsTo h k base l c → ∀ r, r ∈ W.appended c.ts k ↔
    ∃ w bs, BlockOf h held k base w ∧ WrittenBy w c.ts ∧ Decodes C w bs ∧ r ∈ bs.flatMap Batch.rows
  nothing : ∀ c ∈ h, ∀ k, (k, Change.append []) ∈ c.changes → W.appended c.ts k = []

/-- The block was written up to `ts`. -/
def WrittenUpTo (ltz : LocalTz) (tz ts : Str) (w : WBlock) : Prop :=
  ∃ i d e, WrittenBy w i ∧ parseDatetime ltz i tz = .ok d ∧ parseDatetime ltz ts tz = .ok e ∧
    (Before d e ∨ d = e)

/-- Every block written up to `ts` is a rollback, or that of a completed commit to the file group, or its
write has been rolled back up to `ts` in the same file group. -/
def NoPendingBlocks (ltz : LocalTz) (tz ts : Str) (h : History) (held : Str → List WBlock) : Prop :=
  ∀ k base w i, BlockOf h held k base w → WrittenBy w i → WrittenUpTo ltz tz ts w →
    IsRollback w ∨ (∃ l c, AppendsTo h k base l c ∧ c.ts = i) ∨
    ∃ w', BlockOf h held k base w' ∧ RollsBack w' i ∧ WrittenUpTo ltz tz ts w'

/-- As of `ts`, the block was there, no completed commit had appended it, and its write had not been rolled
back: it belongs to a write that was still in flight, or failed without being rolled back. -/
structure PendingBlock (ltz : LocalTz) (tz ts : Str) (h : History) (held : Str → List WBlock) (k : GroupKey)
    (base : Str) (w : WBlock) : Prop where
  block : BlockOf h held k base w
  upTo : WrittenUpTo ltz tz ts w
  notCompleted : ∀ l c, AppendsTo h k base l c → ¬ WrittenBy w c.ts
  notRolledBack : ∀ w' i, BlockOf h held k base w' → RollsBack w' i → WrittenUpTo ltz tz ts w' → ¬ WrittenBy w i

/-- The row is in a pending block of a log file that belongs to the file group's base file as of `ts`. -/
def PendingRow (C : Codec) (ltz : LocalTz) (tz ts : Str) (h : History) (held : Str → List WBlock)
    (k : GroupKey) (r : List Cell) : Prop :=
  ∃ v w bs, tableAt h ts k = some v ∧ PendingBlock ltz tz ts h held k v.base w ∧ Decodes C w bs ∧
    r ∈ bs.flatMap Batch.rows

/-- The local time zone shifts times by whole seconds. -/
def WholeSecondsTz (ltz : LocalTz) : Prop := ∀ n d, ltz n = some d → d.nanos = n.nanos

/-- The batches are the records of the table in the partitions `parts`: one batch per file group of the
table, holding the latest version of each of its records. -/
def ReadsRecords (A : Arrow) (schema : Schema) (pre : Str) (table : GroupKey → Option Version)
    (parts : Str → Prop) (records : GroupKey → List (List Cell)) (outs : List Batch) : Prop :=
  ∃ ks : List GroupKey, ks.Nodup ∧ (∀ k, k ∈ ks ↔ parts k.1 ∧ table k ≠ none) ∧
    List.Forall₂ (fun k out => out.schema = schema ∧ LatestVersions A schema pre (records k) out.rows)
      ks outs

/-- The batches are those of the table in the partitions `parts`: one batch per file group of the table,
holding the latest version of each record among the rows `rowOf`. -/
def ReadsRows (A : Arrow) (schema : Schema) (pre : Str) (table : GroupKey → Option Version)
    (parts : Str → Prop) (rowOf : GroupKey → List Cell → Prop) (outs : List Batch) : Prop :=
  ∃ ks : List GroupKey, ks.Nodup ∧ (∀ k, k ∈ ks ↔ parts k.1 ∧ table k ≠ none) ∧
    List.Forall₂ (fun k out => out.schema = schema ∧ ∃ rows, (∀ r, r ∈ rows ↔ rowOf k r) ∧
      LatestVersions A schema pre rows out.rows) ks outs

/-- A table, loaded from the storage `t` that holds what the history wrote, whose file slices can be
listed: the metadata of replacecommits is readable, the partition columns `cols` are known, the filters
are on partition columns, and the options say how partition paths are written. -/
structure ListableTable (E : Env) (A : Arrow) (o : Opts) (t : Tree) (tb : Table) (tz : Str) (h : History)
    (n : Nat) (filters : List (Str × Str × Str)) (fs : List Filter) (cols : Schema) (hive url : Bool) :
    Prop where
  load : Timeline.load E o t = .ok tb.timeline
  tree : TreeWF t
  zone : timezoneOf tb.timeline.opts = .ok tz
  history : h.WF n
  stores : Stores E.ltz tz tb.opts t h
  parsed : fromStrTuples filters = .ok fs
  columns : PartitionColumns tb t cols
  names : FieldNames cols
  applicable : ∀ f ∈ fs, Applicable A cols f
  style : PathStyle tb.opts hive url
  parallelism : ∀ v, hmGet c!"hoodie.read.listing.parallelism" tb.opts = some v → parseUsize v ≠ some 0
  docs : ∀ i ∈ tb.timeline.completed, i.action = .replaceCommit → ∃ md, docOf t i = some md ∧ ReadableReplaced md

/-- The table's options make its readers merge by latest version of the precombine column `pre`, and do
not limit them to a range of commits. -/
structure MergingReader (tb : Table) (tz pre : Str) : Prop where
  plain : PlainStorage tb
  merges : MergesBy tb.opts pre
  noStart : startOf tb.opts = none
  zone : timezoneOf tb.opts = .ok tz

end Hudi.Spec
