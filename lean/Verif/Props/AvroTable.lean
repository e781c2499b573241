import Verif.Lemmas.AvroLog
import Verif.Props.Records
import Verif.Props.Changes

/-!
# C66: records appended as Avro data are what reads of the table return

From the bytes of log files to the rows of a table: C34, C56 and C57 (the bytes of a log file), C40 (the
rows of a file slice) and C50, C59, C60 (tables) put together.
-/

namespace Hudi
open Spec Avro

/-- **C66, partial: as of a timestamp.**  Commits append records, encoded as Avro data, to log files.  For
every record schema `fs` that has Arrow columns and is read faithfully, a read as of `ts` returns, per file group, the latest
version of each record among those written up to `ts`, every field with the value that was encoded.
Missing: schemas that are not read faithfully (`C57_false`), records whose fields are in another order than
the columns of the base files (`C66_false`), and what C59 lacks. -/
theorem C66_avro_records_as_of_partial (E : Env) (A : Arrow) (F : Formats) (M : MergeEnv A) (o : Opts)
    (t : Tree) (tb : Table) (tz pre : Str) (h : History) (n : Nat) (filters : List (Str × Str × Str))
    (fl : List Filter) (cols : Schema) (hive url : Bool) (hmono : MonotoneTz E.ltz)
    (hsec : WholeSecondsTz E.ltz) (hl : ListableTable E A o t tb tz h n filters fl cols hive url)
    (hm : MergingReader tb tz pre) (fs : List (Str × AvroSchema)) (hrd : FaithfulRecord fs)
    (ha : ArrowableFields fs) (fields : List AField) (hf : toArrowSchema (.record fs) = .ok fields)
    (hcol : MergeColumns (columnsOf F fields) pre) (W : WrittenAvro) (held : Str → List WBlock)
    (hst : StoresAvro F E.ltz tz fs (columnsOf F fields) t h W held) (ts : Str)
    (hts : WriterTimestamp ts ∧ ts.length = n) (hd : ∃ d, parseDatetime E.ltz ts tz = .ok d)
    (hp : NoPendingBlocks E.ltz tz ts h held) :
    ∃ outs, (tb.readSnapshotAsOf E A F.codec M t ts filters []).2 = .ok outs ∧
      ReadsRecords A (columnsOf F fields) pre (tableAt h ts) (Kept A cols hive url fl)
        (recordsAt (W.rows F fields) h ts) outs :=
  C59_records_as_of_partial E A F.codec M o t tb tz pre h n filters fl cols hive url hmono hsec hl hm _ hcol
    _ held (storesAvro_stores hrd ha hf hst) ts hts hd hp

/-- **C66, partial: the latest snapshot.**  Missing: as in `C66_avro_records_as_of_partial`. -/
theorem C66_avro_records_latest_partial (E : Env) (A : Arrow) (F : Formats) (M : MergeEnv A) (o : Opts)
    (t : Tree) (tb : Table) (tz pre : Str) (h : History) (n : Nat) (filters : List (Str × Str × Str))
    (fl : List Filter) (cols : Schema) (hive url : Bool) (hmono : MonotoneTz E.ltz)
    (hsec : WholeSecondsTz E.ltz) (hl : ListableTable E A o t tb tz h n filters fl cols hive url)
    (hm : MergingReader tb tz pre) (fs : List (Str × AvroSchema)) (hrd : FaithfulRecord fs)
    (ha : ArrowableFields fs) (fields : List AField) (hf : toArrowSchema (.record fs) = .ok fields)
    (hcol : MergeColumns (columnsOf F fields) pre) (W : WrittenAvro) (held : Str → List WBlock)
    (hst : StoresAvro F E.ltz tz fs (columnsOf F fields) t h W held)
    (hp : ∀ c, h.getLast? = some c → NoPendingBlocks E.ltz tz c.ts h held) :
    ∃ outs, (tb.readSnapshot E A F.codec M t filters []).2 = .ok outs ∧
      ReadsRecords A (columnsOf F fields) pre (versionAfter h) (Kept A cols hive url fl)
        (recordsAfter (W.rows F fields) h) outs :=
  C59_latest_records_partial E A F.codec M o t tb tz pre h n filters fl cols hive url hmono hsec hl hm _ hcol
    _ held (storesAvro_stores hrd ha hf hst) hp

/-- **C66, partial: incremental reads.**  The records that an incremental read returns are those that the
commits of the span wrote, with the values that were encoded.  Missing: as in `C66_avro_records_as_of_partial`. -/
theorem C66_avro_changes_partial (E : Env) (A : Arrow) (F : Formats) (M : MergeEnv A) (o o' : Opts)
    (t : Tree) (tb : Table) (tz pre : Str) (h : History) (n : Nat) (hmono : MonotoneTz E.ltz)
    (hsec : WholeSecondsTz E.ltz) (hload : Timeline.load E o t = .ok tb.timeline) (htree : TreeWF t)
    (hzone : timezoneOf tb.timeline.opts = .ok tz) (hw : h.WF n) (hst : Stores E.ltz tz o' t h)
    (hdocs : StoresDocs t h) (hm : MergingReader tb tz pre) (hmeta : MetaFields tb.opts)
    (fs : List (Str × AvroSchema)) (hrd : FaithfulRecord fs) (ha : ArrowableFields fs)
    (fields : List AField) (hf : toArrowSchema (.record fs) = .ok fields)
    (hcol : MergeColumns (columnsOf F fields) pre) (hct : HasCommitTime (columnsOf F fields))
    (W : WrittenAvro) (held : Str → List WBlock)
    (hr : StoresAvro F E.ltz tz fs (columnsOf F fields) t h W held)
    (hdt : Dated (columnsOf F fields) h (W.rows F fields) held)
    (start stop : Str) (hs : WriterTimestamp start ∧ start.length = n)
    (he : WriterTimestamp stop ∧ stop.length = n) (hps : ∃ d, parseDatetime E.ltz start tz = .ok d)
    (hpe : ∃ d, parseDatetime E.ltz stop tz = .ok d) (hp : NoPendingInSpan E.ltz tz start stop h held) :
    ∃ outs, tb.readIncremental E A F.codec M t start (some stop) = .ok outs ∧
      ReadsChanges A (columnsOf F fields) pre start stop h (W.rows F fields) outs :=
  C60_changed_records_partial E A F.codec M o o' t tb tz pre h n hmono hsec hload htree hzone hw hst hdocs hm
    hmeta _ hcol hct _ held (storesAvro_stores hrd ha hf hr) hdt start stop hs he hps hpe hp

end Hudi
