import Verif.Props.ChangesLatest
import Verif.Props.AppendedDemo
import Verif.Props.AvroTableDemo
import Verif.Props.EvolvingDemo

/-! # C66, C76 and C80: changes without an end -/

namespace Hudi
open Spec Avro

/-- Without an end, changes are read up to the last commit, and nothing is read from a table without commits. -/
theorem incremental_to_latest {E : Env} {A : Arrow} {C : Codec} {M : MergeEnv A} {o o' : Opts} {t : Tree} {tb : Table}
    {tz : Str} {h : History} {n : Nat} (hmono : MonotoneTz E.ltz) (hload : Timeline.load E o t = .ok tb.timeline)
    (hzone : timezoneOf tb.timeline.opts = .ok tz) (hw : h.WF n) (hst : Stores E.ltz tz o' t h) {start : Str}
    {Q : Str → List Batch → Prop}
    (hQ : ∀ stop, (WriterTimestamp stop ∧ stop.length = n) → (∃ d, parseDatetime E.ltz stop tz = .ok d) →
      ∃ outs, tb.readIncremental E A C M t start (some stop) = .ok outs ∧ Q stop outs) :
    ∃ outs, tb.readIncremental E A C M t start none = .ok outs ∧ (h = [] → outs = []) ∧
      ∀ c, h.getLast? = some c → Q c.ts outs := by
  rcases latest_stored hmono hload hzone hw hst with ⟨h1, h2⟩ | ⟨c, h1, h2, he, hpe⟩
  · refine ⟨[], ?_, fun _ => rfl, fun c hc => ?_⟩
    · unfold Table.readIncremental
      rw [h2]
      rfl
    · rw [h1] at hc; cases hc
  · obtain ⟨outs, h3, h4⟩ := hQ c.ts he hpe
    refine ⟨outs, ?_, fun e => ?_, fun c' hc' => ?_⟩
    · rw [← h3]
      unfold Table.readIncremental
      rw [h2]
      rfl
    · rw [e] at h1; cases h1
    · rw [h1] at hc'
      cases hc'
      exact h4

/-- **C76, changes without an end.**  Reading the changes since `start` of a table that keeps every record returns, for
each file group that commits after `start` changed and that is in the table, every record committed after `start`, as often
as it was written, and the records of pending blocks dated after `start` and not after the last commit; of a table without
commits nothing. -/
theorem C76_to_latest_and_pending (E : Env) (A : Arrow) (C : Codec) (M : MergeEnv A) (o o' : Opts)
    (t : Tree) (tb : Table) (tz : Str) (h : History) (n : Nat) (hmono : MonotoneTz E.ltz)
    (hsec : WholeSecondsTz E.ltz) (hload : Timeline.load E o t = .ok tb.timeline) (htree : TreeWF t)
    (hzone : timezoneOf tb.timeline.opts = .ok tz) (hw : h.WF n) (hst : Stores E.ltz tz o' t h)
    (hdocs : StoresDocs t h) (hm : AppendingReader tb tz) (hmeta : MetaFields tb.opts)
    (schema : Schema) (hct : HasCommitTime schema) (W : Written)
    (held : Str → List WBlock) (hr : StoresAppends C E.ltz tz schema t h W held)
    (hdt : DatedRecords schema h W) (start : Str) (hs : WriterTimestamp start ∧ start.length = n)
    (hps : ∃ d, parseDatetime E.ltz start tz = .ok d) :
    ∃ outs, tb.readIncremental E A C M t start none = .ok outs ∧ (h = [] → outs = []) ∧
      ∀ c, h.getLast? = some c →
        ReadsEveryChangeAnd schema start c.ts h W (PendingChanges C E.ltz tz start c.ts h held) outs :=
  incremental_to_latest hmono hload hzone hw hst fun stop he hpe =>
    C76_every_change_and_pending E A C M o o' t tb tz h n hmono hsec hload htree hzone hw hst hdocs hm hmeta schema hct W
      held hr hdt start stop hs he hps hpe

/-- **C80, changes without an end (partial).**  As `C80_changes_partial`, up to the last commit.  Missing: as there. -/
theorem C80_changes_to_latest_partial (E : Env) (A : Arrow) (C : Codec) (M : MergeEnv A) (o o' : Opts)
    (t : Tree) (tb : Table) (tz pre : Str) (h : History) (n : Nat) (hmono : MonotoneTz E.ltz)
    (hsec : WholeSecondsTz E.ltz) (hload : Timeline.load E o t = .ok tb.timeline) (htree : TreeWF t)
    (hzone : timezoneOf tb.timeline.opts = .ok tz) (hw : h.WF n) (hst : Stores E.ltz tz o' t h)
    (hdocs : StoresDocs t h) (hm : MergingReader tb tz pre) (hmeta : MetaFields tb.opts)
    (cols : Columns) (hcol : EveryFile h cols (MergeColumns · pre)) (hct : EveryFile h cols HasCommitTime)
    (W : Written) (held : Str → List WBlock) (hr : StoresEvolving C E.ltz tz cols t h W held)
    (hdt : DatedEvolving cols h W held) (start : Str) (hs : WriterTimestamp start ∧ start.length = n)
    (hps : ∃ d, parseDatetime E.ltz start tz = .ok d) :
    ∃ outs, tb.readIncremental E A C M t start none = .ok outs ∧ (h = [] → outs = []) ∧
      ∀ c, h.getLast? = some c → ReadsEvolvingChanges A cols pre start c.ts h (fun schema k r =>
        (r ∈ recordsAt W h c.ts k ∧ CommittedIn schema start (some c.ts) r) ∨
          PendingChange C E.ltz tz start c.ts h held k r) outs :=
  incremental_to_latest hmono hload hzone hw hst fun stop he hpe =>
    C80_changes_partial E A C M o o' t tb tz pre h n hmono hsec hload htree hzone hw hst hdocs hm hmeta cols hcol hct W held
      hr hdt start stop hs he hps hpe

/-- **C80, changes of append-only tables without an end (partial).**  As `C80_every_change_partial`, up to the last
commit.  Missing: as there. -/
theorem C80_every_change_to_latest_partial (E : Env) (A : Arrow) (C : Codec) (M : MergeEnv A) (o o' : Opts)
    (t : Tree) (tb : Table) (tz : Str) (h : History) (n : Nat) (hmono : MonotoneTz E.ltz)
    (hsec : WholeSecondsTz E.ltz) (hload : Timeline.load E o t = .ok tb.timeline) (htree : TreeWF t)
    (hzone : timezoneOf tb.timeline.opts = .ok tz) (hw : h.WF n) (hst : Stores E.ltz tz o' t h)
    (hdocs : StoresDocs t h) (hm : AppendingReader tb tz) (hmeta : MetaFields tb.opts)
    (cols : Columns) (hct : EveryFile h cols HasCommitTime) (W : Written)
    (held : Str → List WBlock) (hr : AppendsEvolving C E.ltz tz cols t h W held)
    (hdt : DatedRowsEvolving cols h W) (start : Str) (hs : WriterTimestamp start ∧ start.length = n)
    (hps : ∃ d, parseDatetime E.ltz start tz = .ok d) :
    ∃ outs, tb.readIncremental E A C M t start none = .ok outs ∧ (h = [] → outs = []) ∧
      ∀ c, h.getLast? = some c →
        ReadsEveryChangeEvolving cols start c.ts h W (PendingChanges C E.ltz tz start c.ts h held) outs :=
  incremental_to_latest hmono hload hzone hw hst fun stop he hpe =>
    C80_every_change_partial E A C M o o' t tb tz h n hmono hsec hload htree hzone hw hst hdocs hm hmeta cols hct W held hr
      hdt start stop hs he hps hpe

/-- **C66, changes without an end (partial).**  As `C66_avro_changes_partial`, up to the last commit.  Missing: as
there. -/
theorem C66_avro_changes_to_latest_partial (E : Env) (A : Arrow) (F : Formats) (M : MergeEnv A) (o o' : Opts)
    (t : Tree) (tb : Table) (tz pre : Str) (h : History) (n : Nat) (hmono : MonotoneTz E.ltz)
    (hsec : WholeSecondsTz E.ltz) (hload : Timeline.load E o t = .ok tb.timeline) (htree : TreeWF t)
    (hzone : timezoneOf tb.timeline.opts = .ok tz) (hw : h.WF n) (hst : Stores E.ltz tz o' t h)
    (hdocs : StoresDocs t h) (hm : MergingReader tb tz pre) (hmeta : MetaFields tb.opts)
    (fs : List (Str × AvroSchema)) (hrd : FaithfulRecord fs) (ha : ArrowableFields fs)
    (fields : List AField) (hf : toArrowSchema (.record fs) = .ok fields)
    (hcol : MergeColumns (columnsOf F fields) pre) (hct : HasCommitTime (columnsOf F fields))
    (W : WrittenAvro) (held : Str → List WBlock)
    (hr : StoresAvro F E.ltz tz fs (columnsOf F fields) t h W held)
    (hdt : Dated (columnsOf F fields) h (W.rows F fields) held)
    (start : Str) (hs : WriterTimestamp start ∧ start.length = n)
    (hps : ∃ d, parseDatetime E.ltz start tz = .ok d)
    (hp : ∀ c, h.getLast? = some c → NoPendingInSpan E.ltz tz start c.ts h held) :
    ∃ outs, tb.readIncremental E A F.codec M t start none = .ok outs ∧ (h = [] → outs = []) ∧
      ∀ c, h.getLast? = some c →
        ReadsChanges A (columnsOf F fields) pre start c.ts h (W.rows F fields) outs :=
  C60_records_to_latest_partial E A F.codec M o o' t tb tz pre h n hmono hsec hload htree hzone hw hst hdocs hm
    hmeta _ hcol hct _ held (storesAvro_stores hrd ha hf hr) hdt start hs hps hp

open Demo in
/-- The table of the example for C76 on changes meets the hypotheses of `C76_to_latest_and_pending`. -/
example : MonotoneTz env.ltz ∧ WholeSecondsTz env.ltz ∧ Timeline.load env [] everyTree = .ok everyTable.timeline ∧
    TreeWF everyTree ∧ timezoneOf everyTable.timeline.opts = .ok c!"utc" ∧ recHistory.WF 17 ∧
    Stores env.ltz c!"utc" everyTable.opts everyTree recHistory ∧ StoresDocs everyTree recHistory ∧
    AppendingReader everyTable c!"utc" ∧ MetaFields everyTable.opts ∧ HasCommitTime incSchema ∧
    StoresAppends codecDated env.ltz c!"utc" incSchema everyTree recHistory everyWritten everyHeld ∧
    DatedRecords incSchema recHistory everyWritten ∧ (WriterTimestamp t0 ∧ t0.length = 17) ∧
    (∃ d, parseDatetime env.ltz t0 c!"utc" = .ok d) ∧
    everyTable.readIncremental env arrow codecDated (mergeEnv arrow) everyTree t0 none =
      .ok [⟨incSchema, x2Batch.rows ++ x2Batch.rows⟩, base2] :=
  ⟨by intro a b a' b' h1 h2 h; cases h1; cases h2; exact h, by intro n d h; cases h; rfl, rfl, by decide, rfl, rec_wf,
    every_stored, every_docs, every_reader, by decide, ⟨_, rfl, rfl⟩, every_records, by
      intro c hc k ls hm
      obtain ⟨e1, e2, _⟩ := only_append (h := recHistory) (by decide) c hc k ls hm
      rw [e1, e2]
      decide, by decide, ⟨_, rfl⟩, by decide +kernel⟩

open Demo in
/-- The table of the example for C80 meets the hypotheses of `C80_changes_to_latest_partial`
(`ListableTable` gives those on the timeline and the files). -/
example : MonotoneTz env.ltz ∧ WholeSecondsTz env.ltz ∧
    ListableTable env arrow [] evTree recTable c!"utc" evHistory 17 [] [] [] false false ∧
    StoresDocs evTree evHistory ∧ MergingReader recTable c!"utc" c!"ts" ∧ MetaFields recTable.opts ∧
    EveryFile evHistory evCols (MergeColumns · c!"ts") ∧ EveryFile evHistory evCols HasCommitTime ∧
    StoresEvolving codecDated env.ltz c!"utc" evCols evTree evHistory evWritten chHeld ∧
    DatedEvolving evCols evHistory evWritten chHeld ∧ (WriterTimestamp t2 ∧ t2.length = 17) ∧
    (∃ d, parseDatetime env.ltz t2 c!"utc" = .ok d) ∧
    recTable.readIncremental env arrow codecDated (mergeEnv arrow) evTree t2 none =
      .ok [⟨evSchema, [datedRow c!"1" c!"E" c!"eve" 1 t4 ++ [some (.str c!"hello")]]⟩] :=
  ⟨by intro a b a' b' h1 h2 h; cases h1; cases h2; exact h, by intro n d h; cases h; rfl, ev_listable, ev_docs,
    rec_reader, by decide, ev_mergeColumns, ev_commitTime, ev_records, ev_dated, by decide, ⟨_, rfl⟩,
    by decide +kernel⟩

open Demo in
/-- The same table, when every record is kept. -/
example : ListableTable env arrow [] evTree everyTable c!"utc" evHistory 17 [] [] [] false false ∧
    StoresDocs evTree evHistory ∧ AppendingReader everyTable c!"utc" ∧ MetaFields everyTable.opts ∧
    EveryFile evHistory evCols HasCommitTime ∧
    AppendsEvolving codecDated env.ltz c!"utc" evCols evTree evHistory evWritten chHeld ∧
    DatedRowsEvolving evCols evHistory evWritten ∧
    everyTable.readIncremental env arrow codecDated (mergeEnv arrow) evTree t2 none =
      .ok [⟨evSchema, [datedRow c!"1" c!"E" c!"eve" 1 t4 ++ [some (.str c!"hello")]]⟩] :=
  ⟨ev_listable_every, ev_docs, every_reader, by decide, ev_commitTime, ev_appended, ev_datedRows, by decide +kernel⟩

open Demo in
/-- The table of the example for C66 meets the hypotheses of `C66_avro_changes_to_latest_partial`. -/
example : MonotoneTz env.ltz ∧ WholeSecondsTz env.ltz ∧
    ListableTable env arrow [] avTree recTable c!"utc" recHistory 17 [] [] [] false false ∧
    MergingReader recTable c!"utc" c!"ts" ∧ MetaFields recTable.opts ∧ FaithfulRecord incFields ∧
    ArrowableFields incFields ∧ toArrowSchema (.record incFields) = .ok incArrow ∧
    columnsOf avFormats incArrow = incSchema ∧ MergeColumns incSchema c!"ts" ∧ HasCommitTime incSchema ∧
    StoresAvro avFormats env.ltz c!"utc" incFields incSchema avTree recHistory avWritten avHeld ∧
    StoresDocs avTree recHistory ∧ Dated incSchema recHistory (avWritten.rows avFormats incArrow) avHeld ∧
    (WriterTimestamp t0 ∧ t0.length = 17) ∧ (∃ d, parseDatetime env.ltz t0 c!"utc" = .ok d) ∧
    (∀ c, recHistory.getLast? = some c → NoPendingInSpan env.ltz c!"utc" t0 c.ts recHistory avHeld) ∧
    recTable.readIncremental env arrow avFormats.codec (mergeEnv arrow) avTree t0 none =
      .ok [⟨incSchema, [datedRow c!"4" c!"C" c!"z" 9 t2,
        [some (.str c!"5"), some (.str c!"E"), none, some (.int 2), some (.str t2)]]⟩, base2] :=
  ⟨by intro a b a' b' h1 h2 h; cases h1; cases h2; exact h, by intro n d h; cases h; rfl,
    av_listable, rec_reader, by decide, inc_faithful, inc_arrowable, rfl, rfl, ⟨by decide, by decide, _, rfl, rfl⟩,
    ⟨_, rfl, rfl⟩, av_records, av_docs, av_dated, by decide, ⟨_, rfl⟩, by intro c hc; cases hc; exact av_pendingSpan,
    by decide +kernel⟩

end Hudi
