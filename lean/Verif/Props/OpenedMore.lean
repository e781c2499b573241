import Verif.Props.Opened
import Verif.Props.Appended

/-! # C71: tables opened by their base path: writes in flight, changes, and tables that keep every record -/

namespace Hudi
open Spec

/-- The options of a table that opens. -/
theorem opened_same {E : Env} {w : World} {uri : Str} {calls : List Call} {s : Storage} {o : Opts}
    (h : TableAt w uri calls s o) (hwf : WellFormedOptions o) (hsup : Supported o)
    (hnames : WellNamedTimeline s.tree) :
    ∃ tb, (builderOf uri calls).build E w = .ok tb ∧ (∀ k, hmGet k tb.opts = hmGet k o) ∧
      Timeline.load E tb.opts s.tree = .ok tb.timeline ∧ tb.timeline.opts = tb.opts := by
  obtain ⟨tb, hb⟩ := (C71_opens_exactly E w uri calls s o h).1.2 ⟨.inr ⟨hwf, hsup⟩, hnames⟩
  obtain ⟨h1, h2⟩ := build_at h hb
  obtain ⟨_, _, ho, _⟩ := C05_loaded_timeline E _ _ _ h2
  exact ⟨tb, hb, h1, h2, ho⟩

/-- **C71, with writes in flight.**  For every storage, sources of options and history: a table at the base
path whose options are well formed and supported opens, and reading it as of `ts` returns, per file group
of the table as of `ts`, the latest version of each record among those that the commits up to `ts` wrote and
those in log blocks, dated up to `ts`, of writes that neither completed nor were rolled back by `ts`. -/
theorem C71_opened_table_and_pending (E : Env) (A : Arrow) (C : Codec) (M : MergeEnv A) (w : World)
    (uri : Str) (calls : List Call) (s : Storage) (o : Opts) (h : TableAt w uri calls s o)
    (hcalls : ∀ e ∈ calls.flatMap Call.storage, ¬ HudiKey e.1) (hwf : WellFormedOptions o)
    (hsup : Supported o) (hnames : WellNamedTimeline s.tree)
    (tz pre : Str) (hist : History) (n : Nat) (filters : List (Str × Str × Str))
    (fs : List Filter) (cols : Schema) (hive url : Bool) (hmono : MonotoneTz E.ltz)
    (hsec : WholeSecondsTz E.ltz) (hst : StoredTable E A o s.tree tz hist n filters fs cols hive url)
    (hmerge : MergesBy o pre) (hstart : startOf o = none) (schema : Schema) (hcol : MergeColumns schema pre)
    (W : Written) (held : Str → List WBlock) (hr : StoresRecords C E.ltz tz schema s.tree hist W held)
    (ts : Str) (hts : WriterTimestamp ts ∧ ts.length = n) (hd : ∃ d, parseDatetime E.ltz ts tz = .ok d) :
    ∃ tb outs, (builderOf uri calls).build E w = .ok tb ∧
      (tb.readSnapshotAsOf E A C M s.tree ts filters []).2 = .ok outs ∧
      ReadsRows A schema pre (tableAt hist ts) (Kept A cols hive url fs)
        (fun k r => r ∈ recordsAt W hist ts k ∨ PendingRow C E.ltz tz ts hist held k r) outs := by
  obtain ⟨tb, hb, h1, h2, _⟩ := opened_same (E := E) h hwf hsup hnames
  have h1' := fun k => (h1 k).symm
  obtain ⟨outs, h3, h4⟩ := C59_records_and_pending E A C M tb.opts s.tree tb tz pre hist n filters fs cols
    hive url hmono hsec (StoredTable.listable hst hmono h2 h1)
    ⟨opened_plain hcalls hb, mergesBy_same h1' hmerge, (h1 _).trans hstart, (timezoneOf_same h1).trans hst.zone⟩
    schema hcol W held hr ts hts hd
  exact ⟨tb, outs, hb, h3, h4⟩

/-- **C71, changes.**  A table at the base path whose options are well formed and supported opens, and
reading its changes between two times returns, for each file group that commits of the span changed and that
is in the table at its end, the latest version of each record among those committed in the span and those in
log blocks, dated in the span, of writes that neither completed nor were rolled back in the span. -/
theorem C71_opened_changes (E : Env) (A : Arrow) (C : Codec) (M : MergeEnv A) (w : World)
    (uri : Str) (calls : List Call) (s : Storage) (o : Opts) (h : TableAt w uri calls s o)
    (hcalls : ∀ e ∈ calls.flatMap Call.storage, ¬ HudiKey e.1) (hwf : WellFormedOptions o)
    (hsup : Supported o) (hnames : WellNamedTimeline s.tree)
    (tz pre : Str) (hist : History) (n : Nat) (hmono : MonotoneTz E.ltz) (hsec : WholeSecondsTz E.ltz)
    (htree : TreeWF s.tree) (hzone : timezoneOf o = .ok tz) (hw : hist.WF n)
    (hst : Stores E.ltz tz o s.tree hist) (hdocs : StoresDocs s.tree hist)
    (hmerge : MergesBy o pre) (hstart : startOf o = none) (hmeta : MetaFields o)
    (schema : Schema) (hcol : MergeColumns schema pre) (hct : HasCommitTime schema) (W : Written)
    (held : Str → List WBlock) (hr : StoresRecords C E.ltz tz schema s.tree hist W held)
    (hdt : Dated schema hist W held) (start stop : Str) (hs : WriterTimestamp start ∧ start.length = n)
    (he : WriterTimestamp stop ∧ stop.length = n) (hps : ∃ d, parseDatetime E.ltz start tz = .ok d)
    (hpe : ∃ d, parseDatetime E.ltz stop tz = .ok d) :
    ∃ tb outs, (builderOf uri calls).build E w = .ok tb ∧
      tb.readIncremental E A C M s.tree start (some stop) = .ok outs ∧
      ReadsChangedRows A schema pre start stop hist (fun k r =>
        (r ∈ recordsAt W hist stop k ∧ CommittedIn schema start (some stop) r) ∨
          PendingChange C E.ltz tz start stop hist held k r) outs := by
  obtain ⟨tb, hb, h1, h2, ho⟩ := opened_same (E := E) h hwf hsup hnames
  have h1' := fun k => (h1 k).symm
  have hz : timezoneOf tb.opts = .ok tz := (timezoneOf_same h1).trans hzone
  obtain ⟨outs, h3, h4⟩ := C60_changes_and_pending E A C M tb.opts o s.tree tb tz pre hist n hmono hsec h2 htree
    (by rw [ho]; exact hz) hw hst hdocs
    ⟨opened_plain hcalls hb, mergesBy_same h1' hmerge, (h1 _).trans hstart, hz⟩
    (by unfold MetaFields; rw [h1]; exact hmeta) schema hcol hct W held hr hdt start stop hs he hps hpe
  exact ⟨tb, outs, hb, h3, h4⟩

/-- **C71, tables that keep every record.**  A table at the base path whose options are well formed,
supported and do not overwrite opens, and reading it as of `ts` returns, per file group of the table as of
`ts`, every record that the commits up to `ts` wrote to it, each as often as it was written, and the records
of pending blocks. -/
theorem C71_opened_every_record (E : Env) (A : Arrow) (C : Codec) (M : MergeEnv A) (w : World)
    (uri : Str) (calls : List Call) (s : Storage) (o : Opts) (h : TableAt w uri calls s o)
    (hcalls : ∀ e ∈ calls.flatMap Call.storage, ¬ HudiKey e.1) (hwf : WellFormedOptions o)
    (hsup : Supported o) (hnames : WellNamedTimeline s.tree)
    (tz : Str) (hist : History) (n : Nat) (filters : List (Str × Str × Str))
    (fs : List Filter) (cols : Schema) (hive url : Bool) (hmono : MonotoneTz E.ltz)
    (hsec : WholeSecondsTz E.ltz) (hst : StoredTable E A o s.tree tz hist n filters fs cols hive url)
    (hkeeps : ¬ OverwritesWithLatest o) (hro : ¬ ReadOptimized o) (hstart : startOf o = none)
    (schema : Schema) (W : Written) (held : Str → List WBlock)
    (hr : StoresAppends C E.ltz tz schema s.tree hist W held)
    (ts : Str) (hts : WriterTimestamp ts ∧ ts.length = n) (hd : ∃ d, parseDatetime E.ltz ts tz = .ok d) :
    ∃ tb outs, (builderOf uri calls).build E w = .ok tb ∧
      (tb.readSnapshotAsOf E A C M s.tree ts filters []).2 = .ok outs ∧
      ReadsEveryAnd schema (tableAt hist ts) (Kept A cols hive url fs) (recordsAt W hist ts)
        (PendingRecords C E.ltz tz ts hist held) outs := by
  obtain ⟨tb, hb, h1, h2, _⟩ := opened_same (E := E) h hwf hsup hnames
  obtain ⟨outs, h3, h4⟩ := C76_every_record_and_pending E A C M tb.opts s.tree tb tz hist n filters fs cols
    hive url hmono hsec (StoredTable.listable hst hmono h2 h1)
    ⟨opened_plain hcalls hb, by rw [overwrites_congr (h1 _) (h1 _) (h1 _)]; exact hkeeps,
      by unfold ReadOptimized; rw [h1]; exact hro, (h1 _).trans hstart, (timezoneOf_same h1).trans hst.zone⟩
    schema W held hr ts hts hd
  exact ⟨tb, outs, hb, h3, h4⟩

end Hudi
