import Verif.Props.Archiver
import Verif.Props.ArchiverChanges
import Verif.Props.ArchiverKept
import Verif.Props.CleanerOpened

/-!
# C102 for tables that are opened by their path
-/

namespace Hudi
open Spec

section
variable {S : Setting} {o : Opts} (hp : ∀ x, PartitionPath S.o x ↔ PartitionPath o x)
  (hf : partitionFieldNames S.o = partitionFieldNames o ∧ (OverwritesWithLatest o → OverwritesWithLatest S.o))
include hp hf

theorem archives_with {r q : Str} {s s' : Work} (h : Archives S r q s s') : Archives { S with o := o } r q s s' := by
  induction h with
  | refl => exact .refl _
  | step _ hs ih =>
    refine .step ih ?_
    cases hs with
    | clean _ h =>
      refine .clean _ _ ?_
      cases h with
      | work _ h => exact .work _ _ (step_with hp hf h)
      | log j k token l hj hk hs hl => exact .log _ j k token l hj hk hs hl
      | base j k token hj hk hs hl => exact .base _ j k token hj hk hs hl
    | archive j hj hr ha => exact .archive _ j hj hr ha

theorem sinceArchived_with {r q : Str} {s : Work} {m : Moments} (h : SinceArchived S r q s m) :
    SinceArchived { S with o := o } r q s m where
  replaced := fun i => archives_with hp hf (h.replaced i)
  latest := archives_with hp hf h.latest
  schema := archives_with hp hf h.schema
  dirs := fun x => archives_with hp hf (h.dirs x)
  files := fun x => archives_with hp hf (h.files x)
  sizes := fun x => archives_with hp hf (h.sizes x)
  data := fun x path => archives_with hp hf (h.data x path)

theorem keptArchived_with {E : Env} {A : Arrow} {M : MergeEnv A} {r q : Str} {s0 : Work} {tb : Table} {depth : Nat}
    {c : Cache} (h : KeptArchived E A S M r q s0 tb depth c) : KeptArchived E A { S with o := o } M r q s0 tb depth c := by
  induction h with
  | opened => exact .opened
  | call m call F hm _ ih => exact .call (S := { S with o := o }) m call F (sinceArchived_with hp hf hm) ih

end

/-- **C102, from the path (partial).**  While writers, a cleaner and an archiver work on a table, it opens by its path at
any moment `s0`; and the handle reads as of any commit from `r` on that had completed at `s0`, and, if the
cleaner keeps to a time that the handle knows, without a timestamp, exactly the records that the writes completed by then
had written.  Missing: as in `C102_reads_as_of_partial`. -/
theorem C102_opened_partial (E : Env) (A : Arrow) (S : Setting) (M : MergeEnv A) (hmono : MonotoneTz E.ltz)
    (hsec : WholeSecondsTz E.ltz) (r q : Str) (s0 : Work) (hs0 : Archives S r q nothingYet s0) (hn : NamesCurrent s0)
    (w : World) (uri : Str) (calls : List Call) (hw : TableOf E S s0 w uri calls) (filters : List (Str × Str × Str))
    (fs : List Filter) (hive url : Bool) (ha : Askable A S filters fs hive url) (depth : Nat) (hdepth : S.depth < depth)
    (hq : ∀ c, s0.history.getLast? = some c → (compare q c.ts).isLE) :
    ∃ tb, (builderOf uri calls).build E w = .ok tb ∧ ∀ m, SinceArchived S r q s0 m →
      (∀ c ∈ s0.history, (compare r c.ts).isLE →
        ∃ outs, tb.readSnapshotAsOfR E A S.C M depth m.race c.ts filters = .ok outs ∧
          ReadsEvolving A (columnsBy s0.done) S.pre (tableAt s0.history c.ts) (Kept A S.pcols hive url fs)
            (fun k r => r ∈ recordsAt (rowsOf s0.done) s0.history c.ts k) outs) ∧
      ((∀ c, s0.history.getLast? = some c → (compare r c.ts).isLE) →
        ∃ outs, tb.readSnapshotR E A S.C M depth m.race filters = .ok outs ∧
          ReadsEvolving A (columnsBy s0.done) S.pre (versionAfter s0.history) (Kept A S.pcols hive url fs)
            (fun k r => r ∈ recordsAfter (rowsOf s0.done) s0.history k) outs) := by
  obtain ⟨tb, hb, ho, hh⟩ := tableOf_opens hw
  have hp := partitionPath_same ho
  have hf := agree_same ho
  refine ⟨tb, hb, fun m hm => ⟨fun c hc hr => ?_, fun hr => ?_⟩⟩
  · exact C102_reads_as_of_partial E A { S with o := tb.opts } M hmono hsec r q s0 (archives_with hp hf hs0) hn m
      (sinceArchived_with hp hf hm) tb filters fs hive url (askable_with ho ha hh) depth hdepth c hc hr hq
  · exact C102_reads_latest_partial E A { S with o := tb.opts } M hmono hsec r q s0 (archives_with hp hf hs0) hn m
      (sinceArchived_with hp hf hm) tb filters fs hive url (askable_with ho ha hh) depth hdepth hr hq

/-- **C102, from the path, kept (partial).**  While writers, a cleaner and an archiver work on a table, it opens by its
path at any moment `s0`; and the handle, kept and used for any calls with requests that fail or are answered at any
moments, goes on reading as of any commit from `r` on that had completed at `s0`, and, if the cleaner keeps to a
time that the handle knows, without a timestamp: an error if one of the requests of the read fails, and otherwise exactly
the records that the writes completed by then had written.  Missing: as in `C102_reads_as_of_partial`. -/
theorem C102_opened_and_kept_partial (E : Env) (A : Arrow) (S : Setting) (M : MergeEnv A) (hmono : MonotoneTz E.ltz)
    (hsec : WholeSecondsTz E.ltz) (r q : Str) (s0 : Work) (hs0 : Archives S r q nothingYet s0) (hn : NamesCurrent s0)
    (w : World) (uri : Str) (calls : List Call) (hw : TableOf E S s0 w uri calls) (filters : List (Str × Str × Str))
    (fs : List Filter) (hive url : Bool) (ha : Askable A S filters fs hive url) (depth : Nat) (hdepth : S.depth < depth)
    (hq : ∀ c, s0.history.getLast? = some c → (compare q c.ts).isLE) :
    ∃ tb, (builderOf uri calls).build E w = .ok tb ∧ ∀ cache, KeptArchived E A S M r q s0 tb depth cache →
      ∀ m, SinceArchived S r q s0 m → ∀ F,
      (∀ c ∈ s0.history, (compare r c.ts).isLE →
        ((TableCall.snapshotAsOf c.ts filters).SomeFails E A S.C M tb depth m.race F cache →
          ∃ e, ((TableCall.snapshotAsOf c.ts filters).race E A S.C M tb depth m.race F cache).2.2 = .err e) ∧
        (¬ (TableCall.snapshotAsOf c.ts filters).SomeFails E A S.C M tb depth m.race F cache →
          ∃ outs, ((TableCall.snapshotAsOf c.ts filters).race E A S.C M tb depth m.race F cache).2.2 = .ok (.batches outs) ∧
            ReadsEvolving A (columnsBy s0.done) S.pre (tableAt s0.history c.ts) (Kept A S.pcols hive url fs)
              (fun k r => r ∈ recordsAt (rowsOf s0.done) s0.history c.ts k) outs)) ∧
      ((∀ c, s0.history.getLast? = some c → (compare r c.ts).isLE) →
        ((TableCall.snapshot filters).SomeFails E A S.C M tb depth m.race F cache →
          ∃ e, ((TableCall.snapshot filters).race E A S.C M tb depth m.race F cache).2.2 = .err e) ∧
        (¬ (TableCall.snapshot filters).SomeFails E A S.C M tb depth m.race F cache →
          ∃ outs, ((TableCall.snapshot filters).race E A S.C M tb depth m.race F cache).2.2 = .ok (.batches outs) ∧
            ReadsEvolving A (columnsBy s0.done) S.pre (versionAfter s0.history) (Kept A S.pcols hive url fs)
              (fun k r => r ∈ recordsAfter (rowsOf s0.done) s0.history k) outs)) := by
  obtain ⟨tb, hb, ho, hh⟩ := tableOf_opens hw
  have hp := partitionPath_same ho
  have hf := agree_same ho
  refine ⟨tb, hb, fun cache hk m hm F => ?_⟩
  exact ⟨fun c hc hr => C102_kept_as_of_partial E A { S with o := tb.opts } M hmono hsec r q s0 (archives_with hp hf hs0) hn
      m (sinceArchived_with hp hf hm) tb filters fs hive url (askable_with ho ha hh) depth hdepth cache
      (keptArchived_with hp hf hk) c hc hr hq F,
    fun hr => C102_kept_latest_partial E A { S with o := tb.opts } M hmono hsec r q s0 (archives_with hp hf hs0) hn m
      (sinceArchived_with hp hf hm) tb filters fs hive url (askable_with ho ha hh) depth hdepth cache
      (keptArchived_with hp hf hk) hr hq F⟩

/-- **C102, changes when requests fail (partial).**  While writers, a cleaner and an archiver work, any requests of a read
of changes fail.  The read returns an error if one of its requests has failed, and otherwise exactly the records that the
writes completed in the span had written, whatever the handle has been used for before.  Missing: as in
`C102_changes_partial`. -/
theorem C102_changes_or_error_partial (E : Env) (A : Arrow) (S : Setting) (M : MergeEnv A) (hmono : MonotoneTz E.ltz)
    (hsec : WholeSecondsTz E.ltz) (r q : Str) (s0 : Work) (hs0 : Archives S r q nothingYet s0) (hdoc : AllDocumented s0.done)
    (hin : RollbacksInPlace s0) (m : Moments) (hm : SinceArchived S r q s0 m) (tb : Table) (ho : HandleAt E S s0 tb)
    (depth : Nat) (cache : Cache) (hmeta : MetaFields S.o) (start : Str)
    (hs : WriterTimestamp start ∧ start.length = S.width)
    (hps : ∃ d, parseDatetime S.ltz start S.tz = .ok d) (hqs : (compare q start).isLE) (c : HCommit)
    (hc : c ∈ s0.history) (hr : (compare r c.ts).isLE) (F : Faults) :
    ((TableCall.incremental start (some c.ts)).SomeFails E A S.C M tb depth m.race F cache →
      ∃ e, ((TableCall.incremental start (some c.ts)).race E A S.C M tb depth m.race F cache).2.2 = .err e) ∧
    (¬ (TableCall.incremental start (some c.ts)).SomeFails E A S.C M tb depth m.race F cache →
      ∃ outs, ((TableCall.incremental start (some c.ts)).race E A S.C M tb depth m.race F cache).2.2 =
          .ok (.batches outs) ∧
        ReadsEvolvingChanges A (columnsBy s0.done) S.pre start c.ts s0.history (fun schema k r =>
          r ∈ recordsAt (rowsOf s0.done) s0.history c.ts k ∧ CommittedIn schema start (some c.ts) r) outs) := by
  obtain ⟨h1, h2⟩ := C86_failures_are_reported E A S.C M tb depth m.race cache (.incremental start (some c.ts)) F
  refine ⟨h1, fun hF => ?_⟩
  rw [h2 hF]
  obtain ⟨outs, h3, h4⟩ := C102_changes_partial E A S M hmono hsec r q s0 hs0 hdoc hin m hm tb ho hmeta start hs hps hqs c
    hc hr
  refine ⟨outs, ?_, h4⟩
  have h7 := (faithfulO_io (faithful_incrementalRF E A S.C M tb m.race start (some c.ts)) cache).none
  rw [h3] at h7
  exact answerOf_ok.2 ⟨outs, h7, rfl⟩

/-- **C102, changes from the path (partial).**  While writers, a cleaner and an archiver work on a table, it opens by its
path at any moment `s0`; and the handle reads the changes between any time from `q` on and any commit from `r` on that
had completed at `s0`: an error if one of the requests fails, and otherwise exactly the records that the writes completed
in the span had written.  Missing: as in `C102_changes_partial`. -/
theorem C102_opened_changes_partial (E : Env) (A : Arrow) (S : Setting) (M : MergeEnv A) (hmono : MonotoneTz E.ltz)
    (hsec : WholeSecondsTz E.ltz) (r q : Str) (s0 : Work) (hs0 : Archives S r q nothingYet s0) (hdoc : AllDocumented s0.done)
    (hin : RollbacksInPlace s0) (w : World) (uri : Str) (calls : List Call) (hw : TableOf E S s0 w uri calls)
    (hmeta : MetaFields S.o) (depth : Nat) :
    ∃ tb, (builderOf uri calls).build E w = .ok tb ∧ ∀ cache m, SinceArchived S r q s0 m → ∀ start, WriterTimestamp start →
      start.length = S.width → (∃ d, parseDatetime S.ltz start S.tz = .ok d) → (compare q start).isLE →
      ∀ c ∈ s0.history, (compare r c.ts).isLE → ∀ F,
      ((TableCall.incremental start (some c.ts)).SomeFails E A S.C M tb depth m.race F cache →
        ∃ e, ((TableCall.incremental start (some c.ts)).race E A S.C M tb depth m.race F cache).2.2 = .err e) ∧
      (¬ (TableCall.incremental start (some c.ts)).SomeFails E A S.C M tb depth m.race F cache →
        ∃ outs, ((TableCall.incremental start (some c.ts)).race E A S.C M tb depth m.race F cache).2.2 =
            .ok (.batches outs) ∧
          ReadsEvolvingChanges A (columnsBy s0.done) S.pre start c.ts s0.history (fun schema k r =>
            r ∈ recordsAt (rowsOf s0.done) s0.history c.ts k ∧ CommittedIn schema start (some c.ts) r) outs) := by
  obtain ⟨tb, hb, ho, hh⟩ := tableOf_opens hw
  have hp := partitionPath_same ho
  have hf := agree_same ho
  exact ⟨tb, hb, fun cache m hm start h1 h2 h3 h4 c hc hr F =>
    C102_changes_or_error_partial E A { S with o := tb.opts } M hmono hsec r q s0 (archives_with hp hf hs0) hdoc hin m
      (sinceArchived_with hp hf hm) tb hh depth cache (by unfold MetaFields; rw [← ho]; exact hmeta) start ⟨h1, h2⟩ h3 h4 c
      hc hr F⟩

end Hudi
