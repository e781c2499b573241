import Verif.Props.ChangesLatest
import Verif.Props.OpenedMoreDemo

/-! # C60 and C71: exactly what is read as the changes without an end -/

namespace Hudi
open Spec

/-- **C60, without an end and whatever the log files hold.**  Reading the changes since `start` returns, for each file
group that commits after `start` changed and that is in the table, the latest version of each record among those committed
after `start` and those in log blocks, dated after `start` and not after the last commit, of writes that neither completed
nor were rolled back in that span; of a table without commits nothing. -/
theorem C60_to_latest_and_pending (E : Env) (A : Arrow) (C : Codec) (M : MergeEnv A) (o o' : Opts)
    (t : Tree) (tb : Table) (tz pre : Str) (h : History) (n : Nat) (hmono : MonotoneTz E.ltz)
    (hsec : WholeSecondsTz E.ltz) (hload : Timeline.load E o t = .ok tb.timeline) (htree : TreeWF t)
    (hzone : timezoneOf tb.timeline.opts = .ok tz) (hw : h.WF n) (hst : Stores E.ltz tz o' t h)
    (hdocs : StoresDocs t h) (hm : MergingReader tb tz pre) (hmeta : MetaFields tb.opts)
    (schema : Schema) (hcol : MergeColumns schema pre) (hct : HasCommitTime schema) (W : Written)
    (held : Str → List WBlock) (hr : StoresRecords C E.ltz tz schema t h W held)
    (hdt : Dated schema h W held) (start : Str) (hs : WriterTimestamp start ∧ start.length = n)
    (hps : ∃ d, parseDatetime E.ltz start tz = .ok d) :
    ∃ outs, tb.readIncremental E A C M t start none = .ok outs ∧ (h = [] → outs = []) ∧
      ∀ c, h.getLast? = some c → ReadsChangedRows A schema pre start c.ts h (fun k r =>
        (r ∈ recordsAt W h c.ts k ∧ CommittedIn schema start (some c.ts) r) ∨
          PendingChange C E.ltz tz start c.ts h held k r) outs := by
  rcases latest_stored hmono hload hzone hw hst with ⟨h1, h2⟩ | ⟨c, h1, h2, he, hpe⟩
  · refine ⟨[], ?_, fun _ => rfl, fun c hc => ?_⟩
    · unfold Table.readIncremental
      rw [h2]
      rfl
    · rw [h1] at hc; cases hc
  · obtain ⟨outs, h3, h4⟩ := C60_changes_and_pending E A C M o o' t tb tz pre h n hmono hsec hload htree hzone hw hst
      hdocs hm hmeta schema hcol hct W held hr hdt start c.ts hs he hps hpe
    refine ⟨outs, ?_, fun e => ?_, fun c' hc' => ?_⟩
    · rw [← h3]
      unfold Table.readIncremental
      rw [h2]
      rfl
    · rw [e] at h1; cases h1
    · rw [h1] at hc'
      cases hc'
      exact h4

/-- **C71, changes without an end.**  A table at the base path whose options are well formed and supported opens, and
reading its changes since `start` returns what `C60_to_latest_and_pending` says. -/
theorem C71_opened_changes_to_latest (E : Env) (A : Arrow) (C : Codec) (M : MergeEnv A) (w : World)
    (uri : Str) (calls : List Call) (s : Storage) (o : Opts) (h : TableAt w uri calls s o)
    (hcalls : ∀ e ∈ calls.flatMap Call.storage, ¬ HudiKey e.1) (hwf : WellFormedOptions o)
    (hsup : Supported o) (hnames : WellNamedTimeline s.tree)
    (tz pre : Str) (hist : History) (n : Nat) (hmono : MonotoneTz E.ltz) (hsec : WholeSecondsTz E.ltz)
    (htree : TreeWF s.tree) (hzone : timezoneOf o = .ok tz) (hw : hist.WF n)
    (hst : Stores E.ltz tz o s.tree hist) (hdocs : StoresDocs s.tree hist)
    (hmerge : MergesBy o pre) (hstart : startOf o = none) (hmeta : MetaFields o)
    (schema : Schema) (hcol : MergeColumns schema pre) (hct : HasCommitTime schema) (W : Written)
    (held : Str → List WBlock) (hr : StoresRecords C E.ltz tz schema s.tree hist W held)
    (hdt : Dated schema hist W held) (start : Str) (hs : WriterTimestamp start ∧ start.length = n)
    (hps : ∃ d, parseDatetime E.ltz start tz = .ok d) :
    ∃ tb outs, (builderOf uri calls).build E w = .ok tb ∧
      tb.readIncremental E A C M s.tree start none = .ok outs ∧ (hist = [] → outs = []) ∧
      ∀ c, hist.getLast? = some c → ReadsChangedRows A schema pre start c.ts hist (fun k r =>
        (r ∈ recordsAt W hist c.ts k ∧ CommittedIn schema start (some c.ts) r) ∨
          PendingChange C E.ltz tz start c.ts hist held k r) outs := by
  obtain ⟨tb, hb, h1, h2, ho⟩ := opened_same (E := E) h hwf hsup hnames
  have h1' := fun k => (h1 k).symm
  have hz : timezoneOf tb.opts = .ok tz := (timezoneOf_same h1).trans hzone
  obtain ⟨outs, h3, h4⟩ := C60_to_latest_and_pending E A C M tb.opts o s.tree tb tz pre hist n hmono hsec h2 htree
    (by rw [ho]; exact hz) hw hst hdocs
    ⟨opened_plain hcalls hb, mergesBy_same h1' hmerge, (h1 _).trans hstart, hz⟩
    (by unfold MetaFields; rw [h1]; exact hmeta) schema hcol hct W held hr hdt start hs hps
  exact ⟨tb, outs, hb, h3, h4⟩

open Demo in
/-- The hypotheses of both are met by the table of the example for `C71_opened_changes`, whose last commit is that at
`t2`; what is read. -/
example : TableAt (openWorld openFlightTree) c!"s3://b/trips" openCalls ⟨openFlightTree, fun _ => none⟩ openOpts ∧
    (∀ e ∈ openCalls.flatMap Call.storage, ¬ HudiKey e.1) ∧ WellFormedOptions openOpts ∧ Supported openOpts ∧
    WellNamedTimeline openFlightTree ∧ MonotoneTz env.ltz ∧ WholeSecondsTz env.ltz ∧ TreeWF openFlightTree ∧
    timezoneOf openOpts = .ok c!"utc" ∧ recFirst.WF 17 ∧
    Stores env.ltz c!"utc" openOpts openFlightTree recFirst ∧ StoresDocs openFlightTree recFirst ∧
    MergesBy openOpts c!"ts" ∧ startOf openOpts = none ∧ MetaFields openOpts ∧ MergeColumns incSchema c!"ts" ∧
    HasCommitTime incSchema ∧
    StoresRecords codecDated env.ltz c!"utc" incSchema openFlightTree recFirst chWritten flightHeld ∧
    Dated incSchema recFirst chWritten flightHeld ∧ (WriterTimestamp t0 ∧ t0.length = 17) ∧
    (∃ d, parseDatetime env.ltz t0 c!"utc" = .ok d) ∧ (recFirst.getLast?.map (·.ts)) = some t2 ∧
    openDirtyTable.readIncremental env arrow codecDated (mergeEnv arrow) openFlightTree t0 none =
      .ok [⟨incSchema, [datedRow c!"4" c!"C" c!"z" 9 t2, datedRow c!"3" c!"B" c!"y" 1 t1]⟩] :=
  ⟨openFlight_at, by decide, openFlight_supported.1.1, openFlight_supported.1.2, openFlight_supported.2,
    by intro a b a' b' h1 h2 h; cases h1; cases h2; exact h, by intro n d h; cases h; rfl, by decide, rfl,
    rec_wf.prefix (h' := [⟨t4, .commit, [(f2, .write c!"0-4-1")]⟩]),
    stores_of (by decide) (by decide) (by decide) (partitionOf_mem (by decide) rfl) (by decide) (by decide)
      (by decide), openFlight_docs, ⟨by decide, rfl, by decide⟩, rfl, by decide,
    ⟨by decide, by decide, _, rfl, rfl⟩, ⟨_, rfl, rfl⟩, openFlight_records, dated_of flight_appends (by decide),
    by decide, ⟨_, rfl⟩, rfl, by decide +kernel⟩

end Hudi
