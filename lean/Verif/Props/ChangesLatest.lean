import Verif.Props.ChangesDemo
import Verif.Props.Writer

/-! # C60: changes without an end -/

namespace Hudi
open Spec

/-- The time up to which a table is read when none is given. -/
theorem latest_stored {E : Env} {o o' : Opts} {t : Tree} {tb : Table} {tz : Str} {h : History} {n : Nat}
    (hmono : MonotoneTz E.ltz) (hload : Timeline.load E o t = .ok tb.timeline)
    (hzone : timezoneOf tb.timeline.opts = .ok tz) (hw : h.WF n) (hst : Stores E.ltz tz o' t h) :
    (h = [] ∧ tb.timeline.latestTimestamp = none) ∨ ∃ c, h.getLast? = some c ∧
      tb.timeline.latestTimestamp = some c.ts ∧ (WriterTimestamp c.ts ∧ c.ts.length = n) ∧
      ∃ d, parseDatetime E.ltz c.ts tz = .ok d := by
  obtain ⟨t1, t2, t3⟩ := timeline_of hload hzone hw hst.timeline
  rcases timeline_last hmono hw t1 t2 t3 with ⟨h1, h2⟩ | ⟨c, d, h1, h2, _⟩
  · exact .inl ⟨h1, by unfold Timeline.latestTimestamp; rw [h2]; rfl⟩
  · obtain ⟨d', h3, _⟩ := t2 c (List.mem_of_getLast? h1)
    exact .inr ⟨c, h1, by unfold Timeline.latestTimestamp; rw [h2]; rfl, hw.times c (List.mem_of_getLast? h1), d', h3⟩

/-- **C60, slices, without an end.**  The file slices changed since `start` are those changed between `start` and the last
commit; of a table without commits there are none. -/
theorem C60_slices_to_latest (E : Env) (o o' : Opts) (t : Tree) (tb : Table) (tz : Str) (h : History) (n : Nat)
    (hmono : MonotoneTz E.ltz) (hload : Timeline.load E o t = .ok tb.timeline) (htree : TreeWF t)
    (hzone : timezoneOf tb.timeline.opts = .ok tz) (hw : h.WF n) (hst : Stores E.ltz tz o' t h)
    (hdocs : StoresDocs t h) (start : Str) (hs : WriterTimestamp start ∧ start.length = n)
    (hps : ∃ d, parseDatetime E.ltz start tz = .ok d) :
    ∃ ss, tb.fileSlicesBetween E t (some start) none = .ok ss ∧
      (h = [] → ss = []) ∧
      ∀ c, h.getLast? = some c → ShowsTable (changedAt h start c.ts) (fun _ => True) ss := by
  rcases latest_stored hmono hload hzone hw hst with ⟨h1, h2⟩ | ⟨c, h1, h2, he, hpe⟩
  · refine ⟨[], ?_, fun _ => rfl, fun c hc => ?_⟩
    · unfold Table.fileSlicesBetween
      rw [h2]
      rfl
    · rw [h1] at hc; cases hc
  · obtain ⟨ss, h3, h4⟩ := C60_changed_slices E o o' t tb tz h n hmono hload htree hzone hw hst hdocs start c.ts hs he hps
      hpe
    refine ⟨ss, ?_, fun e => ?_, fun c' hc' => ?_⟩
    · rw [← h3]
      unfold Table.fileSlicesBetween
      rw [h2]
      rfl
    · rw [e] at h1; cases h1
    · rw [h1] at hc'
      cases hc'
      exact h4

/-- **C60, records, without an end (partial).**  Reading the changes since `start` returns, for each file group that
commits after `start` changed and that is in the table, the latest version of each record among the versions committed
after `start`; of a table without commits nothing.  Missing: as in `C60_changed_records_partial`. -/
theorem C60_records_to_latest_partial (E : Env) (A : Arrow) (C : Codec) (M : MergeEnv A) (o o' : Opts)
    (t : Tree) (tb : Table) (tz pre : Str) (h : History) (n : Nat) (hmono : MonotoneTz E.ltz)
    (hsec : WholeSecondsTz E.ltz) (hload : Timeline.load E o t = .ok tb.timeline) (htree : TreeWF t)
    (hzone : timezoneOf tb.timeline.opts = .ok tz) (hw : h.WF n) (hst : Stores E.ltz tz o' t h)
    (hdocs : StoresDocs t h) (hm : MergingReader tb tz pre) (hmeta : MetaFields tb.opts)
    (schema : Schema) (hcol : MergeColumns schema pre) (hct : HasCommitTime schema) (W : Written)
    (held : Str → List WBlock) (hr : StoresRecords C E.ltz tz schema t h W held)
    (hdt : Dated schema h W held) (start : Str) (hs : WriterTimestamp start ∧ start.length = n)
    (hps : ∃ d, parseDatetime E.ltz start tz = .ok d)
    (hpend : ∀ c, h.getLast? = some c → NoPendingInSpan E.ltz tz start c.ts h held) :
    ∃ outs, tb.readIncremental E A C M t start none = .ok outs ∧ (h = [] → outs = []) ∧
      ∀ c, h.getLast? = some c → ReadsChanges A schema pre start c.ts h W outs := by
  rcases latest_stored hmono hload hzone hw hst with ⟨h1, h2⟩ | ⟨c, h1, h2, he, hpe⟩
  · refine ⟨[], ?_, fun _ => rfl, fun c hc => ?_⟩
    · unfold Table.readIncremental
      rw [h2]
      rfl
    · rw [h1] at hc; cases hc
  · obtain ⟨outs, h3, h4⟩ := C60_changed_records_partial E A C M o o' t tb tz pre h n hmono hsec hload htree hzone hw hst
      hdocs hm hmeta schema hcol hct W held hr hdt start c.ts hs he hps hpe (hpend c h1)
    refine ⟨outs, ?_, fun e => ?_, fun c' hc' => ?_⟩
    · rw [← h3]
      unfold Table.readIncremental
      rw [h2]
      rfl
    · rw [e] at h1; cases h1
    · rw [h1] at hc'
      cases hc'
      exact h4

open Demo in
/-- The table of the example for C60 meets the hypotheses. -/
example : MonotoneTz env.ltz ∧ WholeSecondsTz env.ltz ∧ Timeline.load env [] chTree = .ok recTable.timeline ∧
    TreeWF chTree ∧ timezoneOf recTable.timeline.opts = .ok c!"utc" ∧ recHistory.WF 17 ∧
    Stores env.ltz c!"utc" recTable.opts chTree recHistory ∧ StoresDocs chTree recHistory ∧
    MergingReader recTable c!"utc" c!"ts" ∧ MetaFields recTable.opts ∧ MergeColumns incSchema c!"ts" ∧
    HasCommitTime incSchema ∧ StoresRecords codecDated env.ltz c!"utc" incSchema chTree recHistory chWritten chHeld ∧
    Dated incSchema recHistory chWritten chHeld ∧
    (∀ c, recHistory.getLast? = some c → NoPendingInSpan env.ltz c!"utc" t0 c.ts recHistory chHeld) ∧
    (WriterTimestamp t0 ∧ t0.length = 17) ∧ (∃ d, parseDatetime env.ltz t0 c!"utc" = .ok d) ∧
    recTable.readIncremental env arrow codecDated (mergeEnv arrow) chTree t0 none = .ok [x2Batch, base2] :=
  ⟨by intro a b a' b' h1 h2 h; cases h1; cases h2; exact h, by intro n d h; cases h; rfl, rfl, by decide, rfl,
    rec_wf, ch_stored, ch_docs, rec_reader, by decide, ⟨by decide, by decide, _, rfl, rfl⟩, ⟨_, rfl, rfl⟩,
    ch_records, dated_of ch_appends (by decide), by intro c hc; cases hc; exact ch_pending, by decide, ⟨_, rfl⟩,
    by decide +kernel⟩

end Hudi
