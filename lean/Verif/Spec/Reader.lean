import Verif.Spec.Scan
import Verif.Spec.Merge
import Verif.Spec.Timestamp
import Verif.Model.Reader

/-! # Specification: reading the rows of a file slice -/

namespace Hudi.Spec

/-- The file at the path is a parquet file with the rows of the batch. -/
def ParquetAt (t : Tree) (path : Str) (b : Batch) : Prop :=
  ∃ size byteSize footer, t.fileAt (pathSegs path) = some (size, .parquet byteSize b footer)

/-- The file at the path is a parquet file with these columns, according to its own types: an Arrow schema that
its writer may have embedded is not looked at. -/
def ColumnsAt (t : Tree) (path : Str) (s : Schema) : Prop :=
  ∃ size byteSize b, t.fileAt (pathSegs path) = some (size, .parquet byteSize b s)

/-- The commit time recorded in a row. -/
def commitTimeOf (schema : Schema) (row : List Cell) : Option Str :=
  match cellOf schema c!"_hoodie_commit_time" row with
  | some (.str s) => some s
  | _ => none

/-- The row was committed after `start` and, if there is a `stop`, not after it; timestamps are
compared as text. -/
def CommittedIn (schema : Schema) (start : Str) (stop : Option Str) (row : List Cell) : Prop :=
  ∃ c, commitTimeOf schema row = some c ∧ compare start c = .lt ∧
    ∀ e, stop = some e → (compare c e).isLE = true

/-- The row was committed after `start` and, if there is a `stop`, not after it; timestamps are
compared as points in time. -/
def CommittedBetween (ltz : LocalTz) (tz : Str) (schema : Schema) (start : Str) (stop : Option Str)
    (row : List Cell) : Prop :=
  ∃ c dc ds, commitTimeOf schema row = some c ∧ parseDatetime ltz c tz = .ok dc ∧
    parseDatetime ltz start tz = .ok ds ∧ ds.epochMillis < dc.epochMillis ∧
    ∀ e, stop = some e → ∃ de, parseDatetime ltz e tz = .ok de ∧ dc.epochMillis ≤ de.epochMillis

/-- Meta fields are populated unless the option says otherwise. -/
def MetaFields (o : Opts) : Prop := hmGet c!"hoodie.populate.meta.fields" o ≠ some c!"false"

instance (o : Opts) : Decidable (MetaFields o) := by unfold MetaFields; infer_instance

/-- The start and end options of a read. -/
def startOf (o : Opts) : Option Str := hmGet c!"hoodie.read.file_group.start_timestamp" o
def endOf (o : Opts) : Option Str := hmGet c!"hoodie.read.file_group.end_timestamp" o

/-- The read asks for base files only. -/
def ReadOptimized (o : Opts) : Prop := hmGet c!"hoodie.read.use.read_optimized.mode" o = some c!"true"

instance (o : Opts) : Decidable (ReadOptimized o) := by unfold ReadOptimized; infer_instance

/-- The schema has a commit time column of texts. -/
def HasCommitTime (schema : Schema) : Prop :=
  ∃ f, schema.find? (fun f => decide (f.name = c!"_hoodie_commit_time")) = some f ∧ f.dtype = .utf8

/-- The rows of a base file that a read looks at. -/
def BaseRows (o : Opts) (b : Batch) (rows : List (List Cell)) : Prop :=
  match startOf o with
  | none => rows = b.rows
  | some start =>
    (MetaFields o → ∃ keep : List Cell → Bool, rows = b.rows.filter keep ∧
      ∀ r ∈ b.rows, keep r = true ↔ CommittedIn b.schema start (endOf o) r) ∧
    (¬ MetaFields o → rows = b.rows)

/-- The block's instant lies in the range. -/
def BlockIn (ltz : LocalTz) (tz : Str) (r : InstantRange) (w : WBlock) : Prop :=
  ∃ i d, WrittenBy w i ∧ parseDatetime ltz i tz = .ok d ∧ InRange ltz r d

/-- The block is in the range and no rollback in the range names its instant. -/
def Survives (ltz : LocalTz) (tz : Str) (r : InstantRange) (ws : List WBlock) (w : WBlock) : Prop :=
  BlockIn ltz tz r w ∧ ¬ ∃ w' ∈ ws, BlockIn ltz tz r w' ∧ ∃ i, RollsBack w' i ∧ WrittenBy w i

open Classical in
/-- The surviving blocks, in order. -/
noncomputable def surviving (ltz : LocalTz) (tz : Str) (r : InstantRange) (ws : List WBlock) :
    List WBlock :=
  ws.filter (fun w => decide (Survives ltz tz r ws w))

/-- The log files at the paths hold the blocks: well formed, of supported types, each with a readable
instant time, rollbacks with a target. -/
structure ReadableLogs (C : Codec) (ltz : LocalTz) (tz : Str) (t : Tree) (paths : List Str)
    (wss : List (List WBlock)) : Prop where
  at_ : List.Forall₂ (LogAt C t) paths wss
  wf : ∀ w ∈ wss.flatten, w.WF
  decodes : ∀ w ∈ wss.flatten, ∃ bs, Decodes C w bs
  times : ∀ w ∈ wss.flatten, ∃ i d, WrittenBy w i ∧ parseDatetime ltz i tz = .ok d
  targets : ∀ w ∈ wss.flatten, IsRollback w → ∃ i, RollsBack w i

/-- The rows recorded in the blocks, in order. -/
def RecordsOf (C : Codec) (ws : List WBlock) (rows : List (List Cell)) : Prop :=
  ∃ bss, List.Forall₂ (Decodes C) ws bss ∧ rows = bss.flatten.flatMap Batch.rows

/-- The batches of the blocks have the schema. -/
def BatchesFit (C : Codec) (schema : Schema) (ws : List WBlock) : Prop :=
  ∀ w ∈ ws, ∀ bs, Decodes C w bs → ∀ b ∈ bs, b.WF ∧ b.schema = schema

/-- The files of a slice: its base file holds `b`, its log files hold the blocks `wss`, and the records of
the blocks in the range have the columns of `b`. -/
structure SliceFiles (C : Codec) (ltz : LocalTz) (tz : Str) (t : Tree) (r : InstantRange) (s : FileSlice)
    (b : Batch) (wss : List (List WBlock)) : Prop where
  base : ParquetAt t s.basePath b
  baseWf : b.WF
  logs : ReadableLogs C ltz tz t (s.logFiles.map s.logPath) wss
  fit : BatchesFit C b.schema (surviving ltz tz r wss.flatten)

/-- The rows read from a slice whose base file contributes `baseRows`: those rows if there are no log
files, and otherwise the latest version of each record among them and the records of the surviving
log blocks in the range. -/
def SliceRows (C : Codec) (A : Arrow) (ltz : LocalTz) (tz pre : Str) (r : InstantRange) (s : FileSlice)
    (b : Batch) (baseRows : List (List Cell)) (wss : List (List WBlock)) (out : Batch) : Prop :=
  out.schema = b.schema ∧ (s.logFiles = [] → out.rows = baseRows) ∧
  (s.logFiles ≠ [] → ∃ logRows, RecordsOf C (surviving ltz tz r wss.flatten) logRows ∧
    LatestVersions A b.schema pre (baseRows ++ logRows) out.rows)

/-- The options of a table that says how versions are merged: it overwrites with the latest version by
the precombine column `pre`, and reads log files. -/
structure MergesBy (o : Opts) (pre : Str) : Prop where
  strategy : OverwritesWithLatest o
  field : hmGet c!"hoodie.table.precombine.field" o = some pre
  notReadOptimized : ¬ ReadOptimized o

/-- Reads merge the versions of a record: the table overwrites with the latest version, and the read is not
limited to base files. -/
def Merges (o : Opts) : Prop := OverwritesWithLatest o ∧ ¬ ReadOptimized o

/-- If reads merge the versions of a record, it is by the precombine column `pre`. -/
def PrecombinedBy (o : Opts) (pre : Str) : Prop :=
  Merges o → hmGet c!"hoodie.table.precombine.field" o = some pre

/-- The storage options of the table are a map without hudi options, as the table builder leaves them
unless a hudi option is given as a storage option. -/
def PlainStorage (tb : Table) : Prop :=
  HmNodup tb.storageOpts ∧ ∀ e ∈ tb.storageOpts, startsWith c!"hoodie." e.1 = false

end Hudi.Spec
