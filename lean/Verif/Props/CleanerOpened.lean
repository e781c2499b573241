import Verif.Lemmas.WriterOpened
import Verif.Props.CleanerChanges
import Verif.Props.CleanerKept
import Verif.Props.Serial

/-!
# C91, C92 and C100 for tables that are opened by their path
-/

namespace Hudi
open Spec

section
variable {S : Setting} {o : Opts} (hp : ∀ x, PartitionPath S.o x ↔ PartitionPath o x)
  (hf : partitionFieldNames S.o = partitionFieldNames o ∧ (OverwritesWithLatest o → OverwritesWithLatest S.o))
include hp hf

theorem cleans_with {r : Str} {s s' : Work} (h : Cleans S r s s') : Cleans { S with o := o } r s s' := by
  induction h with
  | refl => exact .refl _
  | step _ hs ih =>
    refine .step ih ?_
    cases hs with
    | work _ h => exact .work _ _ (step_with hp hf h)
    | log j k token l hj hk hs hl => exact .log _ j k token l hj hk hs hl
    | base j k token hj hk hs hl => exact .base _ j k token hj hk hs hl

theorem sinceCleaned_with {r : Str} {s : Work} {m : Moments} (h : SinceCleaned S r s m) :
    SinceCleaned { S with o := o } r s m where
  replaced := fun i => cleans_with hp hf (h.replaced i)
  latest := cleans_with hp hf h.latest
  schema := cleans_with hp hf h.schema
  dirs := fun x => cleans_with hp hf (h.dirs x)
  files := fun x => cleans_with hp hf (h.files x)
  sizes := fun x => cleans_with hp hf (h.sizes x)
  data := fun x path => cleans_with hp hf (h.data x path)

theorem keptCleaned_with {E : Env} {A : Arrow} {M : MergeEnv A} {r : Str} {s0 : Work} {tb : Table} {depth : Nat}
    {c : Cache} (h : KeptCleaned E A S M r s0 tb depth c) : KeptCleaned E A { S with o := o } M r s0 tb depth c := by
  induction h with
  | opened => exact .opened
  | call m call F hm _ ih => exact .call (S := { S with o := o }) m call F (sinceCleaned_with hp hf hm) ih

end

/-- **C91, from the path (partial).**  While writers and a cleaner work on a table, it opens by its path at any moment
`s0`; and the handle, kept and used for any calls with requests that fail or are answered at any moments, goes on reading
as of any commit from `r` on that had completed at `s0`, and, if the cleaner keeps to versions superseded by a time that
the handle knows, without a timestamp: an error if one of the requests of the read fails, and otherwise exactly the
records that the writes completed by then had written.  Missing: as in `C91_as_of_partial`. -/
theorem C91_opened_partial (E : Env) (A : Arrow) (S : Setting) (M : MergeEnv A) (hmono : MonotoneTz E.ltz)
    (hsec : WholeSecondsTz E.ltz) (r : Str) (s0 : Work) (hs0 : Cleans S r nothingYet s0) (hn : NamesCurrent s0)
    (w : World) (uri : Str) (calls : List Call) (hw : TableOf E S s0 w uri calls) (filters : List (Str × Str × Str))
    (fs : List Filter) (hive url : Bool) (ha : Askable A S filters fs hive url) (depth : Nat) (hdepth : S.depth < depth) :
    ∃ tb, (builderOf uri calls).build E w = .ok tb ∧ ∀ cache, KeptCleaned E A S M r s0 tb depth cache →
      ∀ m, SinceCleaned S r s0 m → ∀ F,
      (∀ c ∈ s0.history, (compare r c.ts).isLE →
        ((TableCall.snapshotAsOf c.ts filters).SomeFails E A S.C M tb depth m.race F cache →
          ∃ e, ((TableCall.snapshotAsOf c.ts filters).race E A S.C M tb depth m.race F cache).2.2 = .err e) ∧
        (¬ (TableCall.snapshotAsOf c.ts filters).SomeFails E A S.C M tb depth m.race F cache →
          ∃ outs, ((TableCall.snapshotAsOf c.ts filters).race E A S.C M tb depth m.race F cache).2.2 = .ok (.batches outs) ∧
            ReadsEvolving A (columnsBy s0.done) S.pre (tableAt s0.history c.ts) (Kept A S.pcols hive url fs)
              (fun k r => r ∈ recordsAt (rowsOf s0.done) s0.history c.ts k) outs)) ∧
      ((∀ c, s0.history.getLast? = some c → (compare r c.ts).isLE) →
        ((TableCall.snapshot filters).SomeFails E A S.C M tb depth m.race F cache →
          ∃ e, ((TableCall.snapshot filters).race E A S.C M tb depth m.race F cache).2.2 = .err e) ∧
        (¬ (TableCall.snapshot filters).SomeFails E A S.C M tb depth m.race F cache →
          ∃ outs, ((TableCall.snapshot filters).race E A S.C M tb depth m.race F cache).2.2 = .ok (.batches outs) ∧
            ReadsEvolving A (columnsBy s0.done) S.pre (versionAfter s0.history) (Kept A S.pcols hive url fs)
              (fun k r => r ∈ recordsAfter (rowsOf s0.done) s0.history k) outs)) := by
  obtain ⟨tb, hb, ho, hh⟩ := tableOf_opens hw
  have hp := partitionPath_same ho
  have hf := agree_same ho
  refine ⟨tb, hb, fun cache hk m hm F => ?_⟩
  exact ⟨fun c hc hr => C91_as_of_partial E A { S with o := tb.opts } M hmono hsec r s0 (cleans_with hp hf hs0) hn m
      (sinceCleaned_with hp hf hm) tb filters fs hive url (askable_with ho ha hh) depth hdepth cache
      (keptCleaned_with hp hf hk) c hc hr F,
    fun hr => C91_latest_partial E A { S with o := tb.opts } M hmono hsec r s0 (cleans_with hp hf hs0) hn m
      (sinceCleaned_with hp hf hm) tb filters fs hive url (askable_with ho ha hh) depth hdepth cache
      (keptCleaned_with hp hf hk) hr F⟩

/-- **C92, requests that fail (partial).**  While writers and a cleaner work, any requests of a read of changes fail.  The
read returns an error if one of its requests has failed, and otherwise exactly the records that the writes completed in
the span had written, whatever the handle has been used for before.  Missing: as in `C92_changes_partial`. -/
theorem C92_changes_or_error_partial (E : Env) (A : Arrow) (S : Setting) (M : MergeEnv A) (hmono : MonotoneTz E.ltz)
    (hsec : WholeSecondsTz E.ltz) (r : Str) (s0 : Work) (hs0 : Cleans S r nothingYet s0) (hdoc : AllDocumented s0.done)
    (hin : RollbacksInPlace s0) (m : Moments) (hm : SinceCleaned S r s0 m) (tb : Table) (ho : HandleAt E S s0 tb)
    (depth : Nat) (cache : Cache) (hmeta : MetaFields S.o) (start : Str)
    (hs : WriterTimestamp start ∧ start.length = S.width)
    (hps : ∃ d, parseDatetime S.ltz start S.tz = .ok d) (c : HCommit) (hc : c ∈ s0.history)
    (hr : (compare r c.ts).isLE) (F : Faults) :
    ((TableCall.incremental start (some c.ts)).SomeFails E A S.C M tb depth m.race F cache →
      ∃ e, ((TableCall.incremental start (some c.ts)).race E A S.C M tb depth m.race F cache).2.2 = .err e) ∧
    (¬ (TableCall.incremental start (some c.ts)).SomeFails E A S.C M tb depth m.race F cache →
      ∃ outs, ((TableCall.incremental start (some c.ts)).race E A S.C M tb depth m.race F cache).2.2 =
          .ok (.batches outs) ∧
        ReadsEvolvingChanges A (columnsBy s0.done) S.pre start c.ts s0.history (fun schema k r =>
          r ∈ recordsAt (rowsOf s0.done) s0.history c.ts k ∧ CommittedIn schema start (some c.ts) r) outs) := by
  obtain ⟨h1, h2⟩ := C86_failures_are_reported E A S.C M tb depth m.race cache (.incremental start (some c.ts)) F
  refine ⟨h1, fun hF => ?_⟩
  rw [h2 hF]
  obtain ⟨outs, h3, h4⟩ := C92_changes_partial E A S M hmono hsec r s0 hs0 hdoc hin m hm tb ho hmeta start hs hps c hc hr
  refine ⟨outs, ?_, h4⟩
  have h7 := (faithfulO_io (faithful_incrementalRF E A S.C M tb m.race start (some c.ts)) cache).none
  rw [h3] at h7
  exact answerOf_ok.2 ⟨outs, h7, rfl⟩

/-- **C92, from the path (partial).**  While writers and a cleaner work on a table, it opens by its path at any moment
`s0`; and the handle reads the changes between any time and any commit from `r` on that had completed at `s0`: an error if
one of the requests fails, and otherwise exactly the records that the writes completed in the span had written.  Missing:
as in `C92_changes_partial`. -/
theorem C92_opened_partial (E : Env) (A : Arrow) (S : Setting) (M : MergeEnv A) (hmono : MonotoneTz E.ltz)
    (hsec : WholeSecondsTz E.ltz) (r : Str) (s0 : Work) (hs0 : Cleans S r nothingYet s0) (hdoc : AllDocumented s0.done)
    (hin : RollbacksInPlace s0) (w : World) (uri : Str) (calls : List Call) (hw : TableOf E S s0 w uri calls)
    (hmeta : MetaFields S.o) (depth : Nat) :
    ∃ tb, (builderOf uri calls).build E w = .ok tb ∧ ∀ cache m, SinceCleaned S r s0 m → ∀ start, WriterTimestamp start →
      start.length = S.width → (∃ d, parseDatetime S.ltz start S.tz = .ok d) → ∀ c ∈ s0.history,
      (compare r c.ts).isLE → ∀ F,
      ((TableCall.incremental start (some c.ts)).SomeFails E A S.C M tb depth m.race F cache →
        ∃ e, ((TableCall.incremental start (some c.ts)).race E A S.C M tb depth m.race F cache).2.2 = .err e) ∧
      (¬ (TableCall.incremental start (some c.ts)).SomeFails E A S.C M tb depth m.race F cache →
        ∃ outs, ((TableCall.incremental start (some c.ts)).race E A S.C M tb depth m.race F cache).2.2 =
            .ok (.batches outs) ∧
          ReadsEvolvingChanges A (columnsBy s0.done) S.pre start c.ts s0.history (fun schema k r =>
            r ∈ recordsAt (rowsOf s0.done) s0.history c.ts k ∧ CommittedIn schema start (some c.ts) r) outs) := by
  obtain ⟨tb, hb, ho, hh⟩ := tableOf_opens hw
  have hp := partitionPath_same ho
  have hf := agree_same ho
  exact ⟨tb, hb, fun cache m hm start h1 h2 h3 c hc hr F =>
    C92_changes_or_error_partial E A { S with o := tb.opts } M hmono hsec r s0 (cleans_with hp hf hs0) hdoc hin m
      (sinceCleaned_with hp hf hm) tb hh depth cache (by unfold MetaFields; rw [← ho]; exact hmeta) start ⟨h1, h2⟩ h3 c hc
      hr F⟩

/-- **C100, from the path (partial).**  The table that several writers and a cleaner have left and the table that one
writer has made of the completed writes, in which other files may have been put, are opened by their paths; both open, and reads of their latest snapshots return
the same rows with the same columns, each request of either being answered at some later moment.  Missing: as in
`C100_cleaned_latest_partial`. -/
theorem C100_opened_partial (E : Env) (A : Arrow) (S : Setting) (M : MergeEnv A) (hmono : MonotoneTz E.ltz)
    (hsec : WholeSecondsTz E.ltz) (r : Str) (s : Work) (hs : Cleans S r nothingYet s) (hn : NamesCurrent s)
    (s' : Work) (hs' : Works S (oneByOne s.done) s') (hd' : s'.done = s.done)
    (w w' : World) (uri uri' : Str) (calls calls' : List Call) (hw : TableOf E S s w uri calls)
    (hw' : TableOf E S s' w' uri' calls') (filters : List (Str × Str × Str))
    (fs : List Filter) (hive url : Bool) (ha : Askable A S filters fs hive url) (depth : Nat) (hdepth : S.depth < depth)
    (hr : ∀ c, s.history.getLast? = some c → (compare r c.ts).isLE) (hties : NoTies A S.pre s.done) :
    ∃ tb tb', (builderOf uri calls).build E w = .ok tb ∧ (builderOf uri' calls').build E w' = .ok tb' ∧
      ∀ m m', SinceCleaned S r s m → Since S s' m' →
        ∃ outs outs', tb.readSnapshotR E A S.C M depth m.race filters = .ok outs ∧
          tb'.readSnapshotR E A S.C M depth m'.race filters = .ok outs' ∧
          (rowsWithColumns outs).Perm (rowsWithColumns outs') := by
  have hwk := works_apart (C100_cleaned_one_after_the_other_partial S r s hs).1 hs'
  have hh : s'.history = s.history := by unfold Work.history; rw [hd']
  obtain ⟨tb, hb, ho, hha⟩ := tableOf_opens hw
  obtain ⟨tb', hb', ho', hha'⟩ := tableOf_opens hw'
  refine ⟨tb, tb', hb, hb', fun m m' hm hm' => ?_⟩
  have hp := partitionPath_same ho
  have hf := agree_same ho
  have hp' := partitionPath_same ho'
  have hf' := agree_same ho'
  obtain ⟨outs, q, e⟩ := C90_reads_latest_partial E A { S with o := tb.opts } M hmono hsec r s (cleans_with hp hf hs) hn m
    (sinceCleaned_with hp hf hm) tb filters fs hive url (askable_with ho ha hha) depth hdepth hr
  obtain ⟨outs', q', e'⟩ := C83_reads_latest E A { S with o := tb'.opts } M hmono hsec _ (works_with hp' hf' hwk) m'
    (since_with hp' hf' hm') tb' filters fs hive url (askable_with ho' ha hha') depth hdepth
  rw [hh, hd'] at e'
  refine ⟨outs, outs', q, q', ?_⟩
  obtain ⟨l, c, p⟩ := contents_of_read e
  obtain ⟨l', c', p'⟩ := contents_of_read e'
  rw [p, p']
  exact (contents_unique hties c c').map _

end Hudi
