import Verif.Props.Appended

/-!
# C80: tables whose columns change

The base files of a file group may have other columns than before, and than those of other file groups; the
records in its log files have the columns of the base file that they were appended to.
-/

namespace Hudi
open Spec

/-- **C80, as of a time (partial).**  For every history of commits that write base files, append records to log
files and replace file groups, where every base file may have columns of its own, every storage that holds
what they wrote, and every `ts`: reading the snapshot as of `ts` succeeds and returns, for each file group of
the table as of `ts` in the partitions that the filters keep, the latest version of each of its records with
the columns of the base file that it had then, among the records the commits up to `ts` wrote and those in
log blocks, dated up to `ts`, of writes in flight.  Missing: records appended with other columns than the base
file's (`C80_false`). -/
theorem C80_records_as_of_partial (E : Env) (A : Arrow) (C : Codec) (M : MergeEnv A) (o : Opts) (t : Tree)
    (tb : Table) (tz pre : Str) (h : History) (n : Nat) (filters : List (Str × Str × Str))
    (fs : List Filter) (pcols : Schema) (hive url : Bool) (hmono : MonotoneTz E.ltz)
    (hsec : WholeSecondsTz E.ltz) (hl : ListableTable E A o t tb tz h n filters fs pcols hive url)
    (hm : MergingReader tb tz pre) (cols : Columns) (hcol : EveryFile h cols (MergeColumns · pre)) (W : Written)
    (held : Str → List WBlock) (hr : StoresEvolving C E.ltz tz cols t h W held)
    (ts : Str) (hts : WriterTimestamp ts ∧ ts.length = n) (hd : ∃ d, parseDatetime E.ltz ts tz = .ok d) :
    ∃ outs, (tb.readSnapshotAsOf E A C M t ts filters []).2 = .ok outs ∧
      ReadsEvolving A cols pre (tableAt h ts) (Kept A pcols hive url fs)
        (fun k r => r ∈ recordsAt W h ts k ∨ PendingRow C E.ltz tz ts h held k r) outs :=
  evolving_as_of M hmono hsec hl hm hcol hr hts hd

/-- **C80, the latest snapshot (partial).**  Without a timestamp, reading returns for each file group the latest
version of each record among those the whole history wrote, and pending ones, with the columns of its current
base file.  Missing: as in `C80_records_as_of_partial`. -/
theorem C80_latest_records_partial (E : Env) (A : Arrow) (C : Codec) (M : MergeEnv A) (o : Opts) (t : Tree)
    (tb : Table) (tz pre : Str) (h : History) (n : Nat) (filters : List (Str × Str × Str))
    (fs : List Filter) (pcols : Schema) (hive url : Bool) (hmono : MonotoneTz E.ltz)
    (hsec : WholeSecondsTz E.ltz) (hl : ListableTable E A o t tb tz h n filters fs pcols hive url)
    (hm : MergingReader tb tz pre) (cols : Columns) (hcol : EveryFile h cols (MergeColumns · pre)) (W : Written)
    (held : Str → List WBlock) (hr : StoresEvolving C E.ltz tz cols t h W held) :
    ∃ outs c, (tb.readSnapshot E A C M t filters []).2 = .ok outs ∧ h.getLast? = some c ∧
      ReadsEvolving A cols pre (versionAfter h) (Kept A pcols hive url fs)
        (fun k r => r ∈ recordsAfter W h k ∨ PendingRow C E.ltz tz c.ts h held k r) outs := by
  obtain ⟨c0, d0, hc0, hlast, hi, hd0, he⟩ := hl.latest hmono
  obtain ⟨outs, h4, h5⟩ := C80_records_as_of_partial E A C M o t tb tz pre h n filters fs pcols hive url hmono hsec
    hl hm cols hcol W held hr c0.ts (hl.history.times c0 hc0) ⟨d0, hd0⟩
  refine ⟨outs, c0, ?_, hlast, ?_⟩
  · unfold Table.readSnapshot
    rw [hi]
    exact h4
  · have e1 : tableAt h c0.ts = versionAfter h := by
      funext k; unfold tableAt; rw [he]
    have e2 : recordsAt W h c0.ts = recordsAfter W h := by
      funext k; unfold recordsAt; rw [he]
    rw [e1, e2] at h5
    exact h5

/-- **C80, changes (partial).**  Reading the changes between two times succeeds and returns, for each file group
that commits of the span changed and that is in the table at its end, the latest version of each record
among the versions committed in the span, and pending ones of the span, with the columns of the base file that
it has at the end of the span.  Missing: as in `C80_records_as_of_partial`. -/
theorem C80_changes_partial (E : Env) (A : Arrow) (C : Codec) (M : MergeEnv A) (o o' : Opts)
    (t : Tree) (tb : Table) (tz pre : Str) (h : History) (n : Nat) (hmono : MonotoneTz E.ltz)
    (hsec : WholeSecondsTz E.ltz) (hload : Timeline.load E o t = .ok tb.timeline) (htree : TreeWF t)
    (hzone : timezoneOf tb.timeline.opts = .ok tz) (hw : h.WF n) (hst : Stores E.ltz tz o' t h)
    (hdocs : StoresDocs t h) (hm : MergingReader tb tz pre) (hmeta : MetaFields tb.opts)
    (cols : Columns) (hcol : EveryFile h cols (MergeColumns · pre)) (hct : EveryFile h cols HasCommitTime)
    (W : Written) (held : Str → List WBlock) (hr : StoresEvolving C E.ltz tz cols t h W held)
    (hdt : DatedEvolving cols h W held) (start stop : Str) (hs : WriterTimestamp start ∧ start.length = n)
    (he : WriterTimestamp stop ∧ stop.length = n) (hps : ∃ d, parseDatetime E.ltz start tz = .ok d)
    (hpe : ∃ d, parseDatetime E.ltz stop tz = .ok d) :
    ∃ outs, tb.readIncremental E A C M t start (some stop) = .ok outs ∧
      ReadsEvolvingChanges A cols pre start stop h (fun schema k r =>
        (r ∈ recordsAt W h stop k ∧ CommittedIn schema start (some stop) r) ∨
          PendingChange C E.ltz tz start stop h held k r) outs :=
  evolving_changes M hmono hsec hload htree hzone hw hst hdocs hm hmeta hcol hct hr hdt hs he hps hpe

/-- **C80, append-only tables (partial).**  The same for a table without a merge strategy that overwrites: every
record, as often as it was written, and those of writes in flight, as often as their blocks hold them.  Missing: as in
`C80_records_as_of_partial`. -/
theorem C80_every_record_as_of_partial (E : Env) (A : Arrow) (C : Codec) (M : MergeEnv A) (o : Opts) (t : Tree)
    (tb : Table) (tz : Str) (h : History) (n : Nat) (filters : List (Str × Str × Str))
    (fs : List Filter) (pcols : Schema) (hive url : Bool) (hmono : MonotoneTz E.ltz)
    (hsec : WholeSecondsTz E.ltz) (hl : ListableTable E A o t tb tz h n filters fs pcols hive url)
    (hm : AppendingReader tb tz) (cols : Columns) (W : Written)
    (held : Str → List WBlock) (hr : AppendsEvolving C E.ltz tz cols t h W held)
    (ts : Str) (hts : WriterTimestamp ts ∧ ts.length = n) (hd : ∃ d, parseDatetime E.ltz ts tz = .ok d) :
    ∃ outs, (tb.readSnapshotAsOf E A C M t ts filters []).2 = .ok outs ∧
      ReadsEveryEvolving cols (tableAt h ts) (Kept A pcols hive url fs) (recordsAt W h ts)
        (PendingRecords C E.ltz tz ts h held) outs :=
  evolving_every_as_of M hmono hsec hl hm hr hts hd

/-- **C80, changes of append-only tables (partial).**  Missing: as in `C80_records_as_of_partial`. -/
theorem C80_every_change_partial (E : Env) (A : Arrow) (C : Codec) (M : MergeEnv A) (o o' : Opts)
    (t : Tree) (tb : Table) (tz : Str) (h : History) (n : Nat) (hmono : MonotoneTz E.ltz)
    (hsec : WholeSecondsTz E.ltz) (hload : Timeline.load E o t = .ok tb.timeline) (htree : TreeWF t)
    (hzone : timezoneOf tb.timeline.opts = .ok tz) (hw : h.WF n) (hst : Stores E.ltz tz o' t h)
    (hdocs : StoresDocs t h) (hm : AppendingReader tb tz) (hmeta : MetaFields tb.opts)
    (cols : Columns) (hct : EveryFile h cols HasCommitTime) (W : Written)
    (held : Str → List WBlock) (hr : AppendsEvolving C E.ltz tz cols t h W held)
    (hdt : DatedRowsEvolving cols h W) (start stop : Str) (hs : WriterTimestamp start ∧ start.length = n)
    (he : WriterTimestamp stop ∧ stop.length = n) (hps : ∃ d, parseDatetime E.ltz start tz = .ok d)
    (hpe : ∃ d, parseDatetime E.ltz stop tz = .ok d) :
    ∃ outs, tb.readIncremental E A C M t start (some stop) = .ok outs ∧
      ReadsEveryChangeEvolving cols start stop h W (PendingChanges C E.ltz tz start stop h held) outs :=
  evolving_every_change A M hmono hsec hload htree hzone hw hst hdocs hm hmeta hct hr hdt hs he hps hpe

end Hudi
