import Verif.Props.CountedArchived
import Verif.Props.CountedOpened
import Verif.Props.ArchiverOpened

/-!
# C101 beside an archiver: tables opened by their path, and handles on them that are kept
-/

namespace Hudi
open Spec

/-- **C101, a handle that is kept beside an archiver.**  A handle opened at any moment `s0` is kept while writers, a
cleaner and an archiver go on, and any calls have been made on it since, any of their requests failing, the others being
answered at any moments.  A read as of any commit from `r` on that had completed at `s0`, archived or not, returns an
error if one of its requests fails, and otherwise each record exactly as often as the writes completed by then had
written it.

Missing: as in `C101_archived_as_of_partial`. -/
theorem C101_archived_kept_as_of_partial (E : Env) (A : Arrow) (S : Setting) (M : MergeEnv A) (hmono : MonotoneTz E.ltz)
    (hsec : WholeSecondsTz E.ltz) (r q : Str) (s0 : Work) (hs0 : ArchivesOnce S r q nothingYet s0) (hn : NamesCurrent s0)
    (m : Moments) (hm : SinceArchived S r q s0 m) (hcount : ∀ j ∈ s0.done, Counts S j)
    (tb : Table) (filters : List (Str × Str × Str)) (fs : List Filter) (hive url : Bool)
    (ho : AppendingAt E A S s0 tb filters fs hive url) (depth : Nat) (hdepth : S.depth < depth) (cache : Cache)
    (hk : KeptArchived E A S M r q s0 tb depth cache) (c : HCommit) (hc : c ∈ s0.history)
    (hr : (compare r c.ts).isLE) (hq : ∀ c, s0.history.getLast? = some c → (compare q c.ts).isLE) (F : Faults) :
    ((TableCall.snapshotAsOf c.ts filters).SomeFails E A S.C M tb depth m.race F cache →
      ∃ e, ((TableCall.snapshotAsOf c.ts filters).race E A S.C M tb depth m.race F cache).2.2 = .err e) ∧
    (¬ (TableCall.snapshotAsOf c.ts filters).SomeFails E A S.C M tb depth m.race F cache →
      ∃ outs, ((TableCall.snapshotAsOf c.ts filters).race E A S.C M tb depth m.race F cache).2.2 = .ok (.batches outs) ∧
        ReadsAll (columnsBy s0.done) (tableAt s0.history c.ts) (Kept A S.pcols hive url fs)
          (recordsAt (rowsOf s0.done) s0.history c.ts) outs) := by
  obtain ⟨h1, h2⟩ := C86_failures_are_reported E A S.C M tb depth m.race cache (.snapshotAsOf c.ts filters) F
  refine ⟨h1, fun hF => ?_⟩
  rw [h2 hF]
  obtain ⟨outs, h3, h4⟩ := C101_archived_as_of_partial E A S M hmono hsec r q s0 hs0 hn m hm hcount tb filters fs hive url
    ho depth hdepth c hc hr hq
  obtain ⟨v0, g0, a0, hw0, hi0, hg0, ht0, rfl⟩ := archivesOnce_sweep hs0
  obtain ⟨j0, hj0, rfl⟩ := mem_commitsOf.1 hc
  change j0 ∈ v0.done at hj0
  obtain ⟨outs', h5, h6⟩ := archived_again hmono hsec hi0 hg0 ht0 hn ho.load ho.clock ho.zone ho.options hj0 hr hq hm hk
    (fun o tlf hloadf hzonef => by
      have hof : AppendingAt E A S v0 { tb with timeline := tlf } filters fs hive url :=
        ⟨⟨o, hloadf⟩, ho.clock, hzonef, ho.options, ⟨ho.appends.plain, ho.appends.keeps, ho.appends.notReadOptimized,
          ho.appends.noStart, ho.appends.zone⟩, ho.names, ho.parsed, ho.applicable, ho.style, ho.parallelism⟩
      obtain ⟨outs0, q1, _⟩ := upTo_all E A S M hmono hsec (s := lasting S v0) hi0 (inv_lasting hi0) (more := [])
        (by rw [List.append_nil]; rfl) (placed_lasting hi0 (placed_works (works_of_once hw0)))
        (doneOnce_lasting hi0 (once_works hw0).1) hcount hof (mem_commitsOf.2 ⟨j0, hj0, rfl⟩)
      exact ⟨outs0, q1⟩) h3
  exact ⟨outs', h5, readsAll_perm h6 h4⟩

/-- **C101, a handle that is kept beside an archiver, the latest snapshot.**  Likewise without a timestamp, if the cleaner
keeps to versions superseded by a time that the handle knows.

Missing: as in `C101_archived_as_of_partial`. -/
theorem C101_archived_kept_latest_partial (E : Env) (A : Arrow) (S : Setting) (M : MergeEnv A)
    (hmono : MonotoneTz E.ltz) (hsec : WholeSecondsTz E.ltz) (r q : Str) (s0 : Work)
    (hs0 : ArchivesOnce S r q nothingYet s0) (hn : NamesCurrent s0)
    (m : Moments) (hm : SinceArchived S r q s0 m) (hcount : ∀ j ∈ s0.done, Counts S j)
    (tb : Table) (filters : List (Str × Str × Str)) (fs : List Filter) (hive url : Bool)
    (ho : AppendingAt E A S s0 tb filters fs hive url) (depth : Nat) (hdepth : S.depth < depth) (cache : Cache)
    (hk : KeptArchived E A S M r q s0 tb depth cache)
    (hr : ∀ c, s0.history.getLast? = some c → (compare r c.ts).isLE)
    (hq : ∀ c, s0.history.getLast? = some c → (compare q c.ts).isLE) (F : Faults) :
    ((TableCall.snapshot filters).SomeFails E A S.C M tb depth m.race F cache →
      ∃ e, ((TableCall.snapshot filters).race E A S.C M tb depth m.race F cache).2.2 = .err e) ∧
    (¬ (TableCall.snapshot filters).SomeFails E A S.C M tb depth m.race F cache →
      ∃ outs, ((TableCall.snapshot filters).race E A S.C M tb depth m.race F cache).2.2 = .ok (.batches outs) ∧
        ReadsAll (columnsBy s0.done) (versionAfter s0.history) (Kept A S.pcols hive url fs)
          (recordsAfter (rowsOf s0.done) s0.history) outs) := by
  obtain ⟨v0, g0, a0, _, hi0, hg0, ht0, e0⟩ := archivesOnce_sweep hs0
  have hh : s0.history = v0.history := by rw [e0]; rfl
  rcases knows_last hmono hi0 hg0 ht0 (e0 ▸ ho.load) ho.clock ho.zone (hh ▸ hq) with ⟨h1, h2⟩ | ⟨c0, h1, h2, h3⟩
  · have e : ∀ F, (TableCall.snapshot filters).race E A S.C M tb depth m.race F cache = (0, cache, .ok (.batches [])) := by
      intro F
      unfold TableCall.race Table.readSnapshotRF Timeline.latestTimestamp
      rw [h2]
      rfl
    refine ⟨fun ⟨k, hk, _⟩ => ?_, fun _ => ⟨[], by rw [e], [], .nil, ?_, .nil⟩⟩
    · rw [e] at hk
      exact absurd hk (Nat.not_lt_zero _)
    · intro k
      rw [hh, h1]
      simp [versionAfter]
  · rw [← hh] at h1 h3
    have e : ∀ F, (TableCall.snapshot filters).race E A S.C M tb depth m.race F cache =
        (TableCall.snapshotAsOf c0.ts filters).race E A S.C M tb depth m.race F cache := by
      intro F
      unfold TableCall.race Table.readSnapshotRF
      rw [h2]
      rfl
    have h := C101_archived_kept_as_of_partial E A S M hmono hsec r q s0 hs0 hn m hm hcount tb filters fs hive url ho depth
      hdepth cache hk c0 (List.mem_of_getLast? h1) (hr c0 h1) hq F
    have e1 : tableAt s0.history c0.ts = versionAfter s0.history := by
      funext k; unfold tableAt; rw [h3]
    have e2 : recordsAt (rowsOf s0.done) s0.history c0.ts = recordsAfter (rowsOf s0.done) s0.history := by
      funext k; unfold recordsAt; rw [h3]
    rw [e1, e2] at h
    unfold TableCall.SomeFails at h ⊢
    rw [e, e]
    exact h

/-- **C101, changes beside an archiver when requests fail.**  The read of the changes returns an error if one of its
requests has failed, and otherwise each record that was committed in the span exactly as often as it was written,
whatever the handle has been used for before.

Missing: as in `C101_archived_changes_partial`. -/
theorem C101_archived_changes_or_error_partial (E : Env) (A : Arrow) (S : Setting) (M : MergeEnv A)
    (hmono : MonotoneTz E.ltz) (hsec : WholeSecondsTz E.ltz) (r q : Str) (s0 : Work)
    (hs0 : ArchivesOnce S r q nothingYet s0) (hdoc : AllDocumented s0.done) (hin : RollbacksInPlace s0)
    (hcount : ∀ j ∈ s0.done, Counts S j) (m : Moments) (hm : SinceArchived S r q s0 m) (tb : Table)
    (ho : AppendsAt E S s0 tb) (depth : Nat) (cache : Cache) (hmeta : MetaFields S.o) (start : Str)
    (hs : WriterTimestamp start ∧ start.length = S.width) (hps : ∃ d, parseDatetime S.ltz start S.tz = .ok d)
    (hqs : (compare q start).isLE) (c : HCommit) (hc : c ∈ s0.history) (hr : (compare r c.ts).isLE) (F : Faults) :
    ((TableCall.incremental start (some c.ts)).SomeFails E A S.C M tb depth m.race F cache →
      ∃ e, ((TableCall.incremental start (some c.ts)).race E A S.C M tb depth m.race F cache).2.2 = .err e) ∧
    (¬ (TableCall.incremental start (some c.ts)).SomeFails E A S.C M tb depth m.race F cache →
      ∃ outs, ((TableCall.incremental start (some c.ts)).race E A S.C M tb depth m.race F cache).2.2 =
          .ok (.batches outs) ∧
        ReadsAllChanges (columnsBy s0.done) start c.ts s0.history (recordsAt (rowsOf s0.done) s0.history c.ts)
          outs) := by
  obtain ⟨h1, h2⟩ := C86_failures_are_reported E A S.C M tb depth m.race cache (.incremental start (some c.ts)) F
  refine ⟨h1, fun hF => ?_⟩
  rw [h2 hF]
  obtain ⟨outs, h3, h4⟩ := C101_archived_changes_partial E A S M hmono hsec r q s0 hs0 hdoc hin hcount m hm tb ho hmeta start
    hs hps hqs c hc hr
  refine ⟨outs, ?_, h4⟩
  have h7 := (faithfulO_io (faithful_incrementalRF E A S.C M tb m.race start (some c.ts)) cache).none
  rw [h3] at h7
  exact answerOf_ok.2 ⟨outs, h7, rfl⟩

section
variable {S : Setting} {o : Opts} (hp : ∀ x, PartitionPath S.o x ↔ PartitionPath o x)
  (hf : partitionFieldNames S.o = partitionFieldNames o ∧ (OverwritesWithLatest o → OverwritesWithLatest S.o))
include hp hf

theorem archivesOnce_with {r q : Str} {s s' : Work} (h : ArchivesOnce S r q s s') :
    ArchivesOnce { S with o := o } r q s s' := by
  induction h with
  | refl => exact .refl
  | step _ hs ho ih =>
    refine .step ih ?_ ho
    cases hs with
    | clean _ h =>
      refine .clean _ _ ?_
      cases h with
      | work _ h => exact .work _ _ (step_with hp hf h)
      | log j k token l hj hk hs hl => exact .log _ j k token l hj hk hs hl
      | base j k token hj hk hs hl => exact .base _ j k token hj hk hs hl
    | archive j hj hr ha => exact .archive _ j hj hr ha

end

/-- **C101, from the path beside an archiver.**  While writers, a cleaner and an archiver work on a table that keeps every
record, it opens by its path at any moment `s0`; and the handle, kept and used for any calls with requests that fail or
are answered at any moments, goes on reading as of any commit from `r` on that had completed at `s0`, archived or not,
and, if the cleaner keeps to versions superseded by a time that the handle knows, without a timestamp: an error if one of
the requests of the read fails, and otherwise each record exactly as often as the writes completed by then had written
it.

Missing: as in `C101_archived_as_of_partial`. -/
theorem C101_archived_opened_partial (E : Env) (A : Arrow) (S : Setting) (M : MergeEnv A) (hmono : MonotoneTz E.ltz)
    (hsec : WholeSecondsTz E.ltz) (r q : Str) (s0 : Work) (hs0 : ArchivesOnce S r q nothingYet s0) (hn : NamesCurrent s0)
    (hcount : ∀ j ∈ s0.done, Counts S j) (w : World) (uri : Str) (calls : List Call)
    (hw : AppendedTableOf E S s0 w uri calls) (filters : List (Str × Str × Str)) (fs : List Filter) (hive url : Bool)
    (ha : Askable A S filters fs hive url) (depth : Nat) (hdepth : S.depth < depth)
    (hq : ∀ c, s0.history.getLast? = some c → (compare q c.ts).isLE) :
    ∃ tb, (builderOf uri calls).build E w = .ok tb ∧ ∀ cache, KeptArchived E A S M r q s0 tb depth cache →
      ∀ m, SinceArchived S r q s0 m → ∀ F,
      (∀ c ∈ s0.history, (compare r c.ts).isLE →
        ((TableCall.snapshotAsOf c.ts filters).SomeFails E A S.C M tb depth m.race F cache →
          ∃ e, ((TableCall.snapshotAsOf c.ts filters).race E A S.C M tb depth m.race F cache).2.2 = .err e) ∧
        (¬ (TableCall.snapshotAsOf c.ts filters).SomeFails E A S.C M tb depth m.race F cache →
          ∃ outs, ((TableCall.snapshotAsOf c.ts filters).race E A S.C M tb depth m.race F cache).2.2 = .ok (.batches outs) ∧
            ReadsAll (columnsBy s0.done) (tableAt s0.history c.ts) (Kept A S.pcols hive url fs)
              (recordsAt (rowsOf s0.done) s0.history c.ts) outs)) ∧
      ((∀ c, s0.history.getLast? = some c → (compare r c.ts).isLE) →
        ((TableCall.snapshot filters).SomeFails E A S.C M tb depth m.race F cache →
          ∃ e, ((TableCall.snapshot filters).race E A S.C M tb depth m.race F cache).2.2 = .err e) ∧
        (¬ (TableCall.snapshot filters).SomeFails E A S.C M tb depth m.race F cache →
          ∃ outs, ((TableCall.snapshot filters).race E A S.C M tb depth m.race F cache).2.2 = .ok (.batches outs) ∧
            ReadsAll (columnsBy s0.done) (versionAfter s0.history) (Kept A S.pcols hive url fs)
              (recordsAfter (rowsOf s0.done) s0.history) outs)) := by
  obtain ⟨tb, hb, ho, hh⟩ := appendedTableOf_opens hw
  have hp := partitionPath_same ho
  have hf := agree_same ho
  have hop : AppendingAt E A { S with o := tb.opts } s0 tb filters fs hive url :=
    ⟨hh.load, hh.clock, hh.zone, hh.options, hh.appends, ha.names, ha.parsed, ha.applicable, pathStyle_same ho ha.style,
      fun v hv => ha.parallelism v ((ho _).trans hv)⟩
  refine ⟨tb, hb, fun cache hk m hm F => ?_⟩
  exact ⟨fun c hc hr => C101_archived_kept_as_of_partial E A { S with o := tb.opts } M hmono hsec r q s0
      (archivesOnce_with hp hf hs0) hn m (sinceArchived_with hp hf hm) hcount tb filters fs hive url hop depth hdepth cache
      (keptArchived_with hp hf hk) c hc hr hq F,
    fun hr => C101_archived_kept_latest_partial E A { S with o := tb.opts } M hmono hsec r q s0
      (archivesOnce_with hp hf hs0) hn m (sinceArchived_with hp hf hm) hcount tb filters fs hive url hop depth hdepth cache
      (keptArchived_with hp hf hk) hr hq F⟩

/-- **C101, changes from the path beside an archiver.**  Likewise for the changes between any time from `q` on and any
commit from `r` on that had completed at `s0`: an error if one of the requests fails, and otherwise each record that was
committed in the span exactly as often as it was written.

Missing: as in `C101_archived_changes_partial`. -/
theorem C101_archived_opened_changes_partial (E : Env) (A : Arrow) (S : Setting) (M : MergeEnv A)
    (hmono : MonotoneTz E.ltz) (hsec : WholeSecondsTz E.ltz) (r q : Str) (s0 : Work)
    (hs0 : ArchivesOnce S r q nothingYet s0) (hdoc : AllDocumented s0.done) (hin : RollbacksInPlace s0)
    (hcount : ∀ j ∈ s0.done, Counts S j) (w : World) (uri : Str) (calls : List Call)
    (hw : AppendedTableOf E S s0 w uri calls) (hmeta : MetaFields S.o) (depth : Nat) :
    ∃ tb, (builderOf uri calls).build E w = .ok tb ∧ ∀ cache m, SinceArchived S r q s0 m → ∀ start, WriterTimestamp start →
      start.length = S.width → (∃ d, parseDatetime S.ltz start S.tz = .ok d) → (compare q start).isLE →
      ∀ c ∈ s0.history, (compare r c.ts).isLE → ∀ F,
      ((TableCall.incremental start (some c.ts)).SomeFails E A S.C M tb depth m.race F cache →
        ∃ e, ((TableCall.incremental start (some c.ts)).race E A S.C M tb depth m.race F cache).2.2 = .err e) ∧
      (¬ (TableCall.incremental start (some c.ts)).SomeFails E A S.C M tb depth m.race F cache →
        ∃ outs, ((TableCall.incremental start (some c.ts)).race E A S.C M tb depth m.race F cache).2.2 =
            .ok (.batches outs) ∧
          ReadsAllChanges (columnsBy s0.done) start c.ts s0.history (recordsAt (rowsOf s0.done) s0.history c.ts)
            outs) := by
  obtain ⟨tb, hb, ho, hh⟩ := appendedTableOf_opens hw
  have hp := partitionPath_same ho
  have hf := agree_same ho
  exact ⟨tb, hb, fun cache m hm start h1 h2 h3 h4 c hc hr F =>
    C101_archived_changes_or_error_partial E A { S with o := tb.opts } M hmono hsec r q s0 (archivesOnce_with hp hf hs0) hdoc
      hin hcount m (sinceArchived_with hp hf hm) tb hh depth cache (by unfold MetaFields; rw [← ho]; exact hmeta) start
      ⟨h1, h2⟩ h3 h4 c hc hr F⟩

end Hudi
