import Verif.Props.CountedChanges
import Verif.Props.CleanerOpened

/-!
# C101: tables that keep every record, opened by their path, and handles on them that are kept
-/

namespace Hudi
open Spec

theorem readsAll_perm {cols : Columns} {table : GroupKey → Option Version} {parts : Str → Prop}
    {records : GroupKey → List (List Cell)} {outs outs' : List Batch} (h : outs.Perm outs')
    (hr : ReadsAll cols table parts records outs) : ReadsAll cols table parts records outs' :=
  readsAll_same ⟨outs, h.symm, List.forall₂_same.2 fun _ _ => ⟨rfl, .refl _⟩⟩ hr

theorem cleans_of_once {S : Setting} {r : Str} {s s' : Work} (h : CleansOnce S r s s') : Cleans S r s s' := by
  induction h with
  | refl => exact .refl _
  | step _ hs _ ih => exact .step ih hs

/-- **C101, a handle that is kept.**  A handle opened at any moment `s0` is kept while writers and a cleaner go on, and
any calls have been made on it since, any of their requests failing, the others being answered at any moments.  A read as
of any commit from `r` on that had completed at `s0` returns an error if one of its requests fails, and otherwise each
record exactly as often as the writes completed by then had written it.

Missing: as in `C101_cleaned_as_of_partial`. -/
theorem C101_kept_as_of_partial (E : Env) (A : Arrow) (S : Setting) (M : MergeEnv A) (hmono : MonotoneTz E.ltz)
    (hsec : WholeSecondsTz E.ltz) (r : Str) (s0 : Work) (hs0 : CleansOnce S r nothingYet s0) (hn : NamesCurrent s0)
    (m : Moments) (hm : SinceCleaned S r s0 m) (hcount : ∀ j ∈ s0.done, Counts S j)
    (tb : Table) (filters : List (Str × Str × Str)) (fs : List Filter) (hive url : Bool)
    (ho : AppendingAt E A S s0 tb filters fs hive url) (depth : Nat) (hdepth : S.depth < depth) (cache : Cache)
    (hk : KeptCleaned E A S M r s0 tb depth cache) (c : HCommit) (hc : c ∈ s0.history)
    (hr : (compare r c.ts).isLE) (F : Faults) :
    ((TableCall.snapshotAsOf c.ts filters).SomeFails E A S.C M tb depth m.race F cache →
      ∃ e, ((TableCall.snapshotAsOf c.ts filters).race E A S.C M tb depth m.race F cache).2.2 = .err e) ∧
    (¬ (TableCall.snapshotAsOf c.ts filters).SomeFails E A S.C M tb depth m.race F cache →
      ∃ outs, ((TableCall.snapshotAsOf c.ts filters).race E A S.C M tb depth m.race F cache).2.2 = .ok (.batches outs) ∧
        ReadsAll (columnsBy s0.done) (tableAt s0.history c.ts) (Kept A S.pcols hive url fs)
          (recordsAt (rowsOf s0.done) s0.history c.ts) outs) := by
  obtain ⟨h1, h2⟩ := C86_failures_are_reported E A S.C M tb depth m.race cache (.snapshotAsOf c.ts filters) F
  refine ⟨h1, fun hF => ?_⟩
  rw [h2 hF]
  obtain ⟨outs, h3, h4⟩ := C101_cleaned_as_of_partial E A S M hmono hsec r s0 hs0 hn m hm hcount tb filters fs hive url ho
    depth hdepth c hc hr
  obtain ⟨v0, g0, hw0, hi0, hg0, rfl⟩ := cleansOnce_sweep hs0
  obtain ⟨j0, hj0, rfl⟩ := mem_commitsOf.1 hc
  have hi' := inv_lasting hi0
  obtain ⟨o, hload⟩ := ho.load
  rw [sweep_load hi0 hg0] at hload
  have ho' : AppendingAt E A S v0 tb filters fs hive url :=
    ⟨⟨o, hload⟩, ho.clock, ho.zone, ho.options, ho.appends, ho.names, ho.parsed, ho.applicable, ho.style, ho.parallelism⟩
  obtain ⟨outs0, q1, _⟩ := upTo_all E A S M hmono hsec (s := lasting S v0) hi0 hi' (more := [])
    (by rw [List.append_nil]; rfl) (placed_lasting hi0 (placed_works (works_of_once hw0)))
    (doneOnce_lasting hi0 (once_works hw0).1) hcount ho' hc
  obtain ⟨excl0, q3⟩ : ∃ excl, tb.timeline.replacedAsOf E (lasting S v0).tree j0.commit.ts = .ok excl := by
    unfold Table.readSnapshotAsOf at q1
    obtain ⟨fs', g1, g2⟩ := Query.bind_lift_snd.1 q1
    unfold Table.readSnapshotInternal at g2
    rw [Query.bind_snd] at g2
    obtain ⟨ss, g3, _⟩ := g2
    obtain ⟨excl, _, _, g4, _⟩ := fileSlicesInternal_ok.1 g3
    exact ⟨excl, g4⟩
  obtain ⟨outs', h5, h6⟩ := kept_again hmono hsec hi0 hg0 hn hm hload ho.clock ho.zone ho.options hk hj0 hr q3 h3
  exact ⟨outs', h5, readsAll_perm h6 h4⟩

/-- **C101, a handle that is kept, the latest snapshot.**  Likewise without a timestamp, if the cleaner keeps to versions
superseded by a time that the handle knows.

Missing: as in `C101_cleaned_as_of_partial`. -/
theorem C101_kept_latest_partial (E : Env) (A : Arrow) (S : Setting) (M : MergeEnv A) (hmono : MonotoneTz E.ltz)
    (hsec : WholeSecondsTz E.ltz) (r : Str) (s0 : Work) (hs0 : CleansOnce S r nothingYet s0) (hn : NamesCurrent s0)
    (m : Moments) (hm : SinceCleaned S r s0 m) (hcount : ∀ j ∈ s0.done, Counts S j)
    (tb : Table) (filters : List (Str × Str × Str)) (fs : List Filter) (hive url : Bool)
    (ho : AppendingAt E A S s0 tb filters fs hive url) (depth : Nat) (hdepth : S.depth < depth) (cache : Cache)
    (hk : KeptCleaned E A S M r s0 tb depth cache)
    (hr : ∀ c, s0.history.getLast? = some c → (compare r c.ts).isLE) (F : Faults) :
    ((TableCall.snapshot filters).SomeFails E A S.C M tb depth m.race F cache →
      ∃ e, ((TableCall.snapshot filters).race E A S.C M tb depth m.race F cache).2.2 = .err e) ∧
    (¬ (TableCall.snapshot filters).SomeFails E A S.C M tb depth m.race F cache →
      ∃ outs, ((TableCall.snapshot filters).race E A S.C M tb depth m.race F cache).2.2 = .ok (.batches outs) ∧
        ReadsAll (columnsBy s0.done) (versionAfter s0.history) (Kept A S.pcols hive url fs)
          (recordsAfter (rowsOf s0.done) s0.history) outs) := by
  obtain ⟨v0, g0, _, hi0, hg0, e0⟩ := cleansOnce_sweep hs0
  obtain ⟨o, hload⟩ := ho.load
  have hh : s0.history = v0.history := by rw [e0]; rfl
  rw [e0, sweep_load hi0 hg0] at hload
  obtain ⟨t1, t2, t3⟩ := timeline_of hload ho.zone hi0.wf (by rw [ho.clock]; exact hi0.timeline)
  rcases timeline_last hmono hi0.wf t1 t2 t3 with ⟨h1, h2⟩ | ⟨c0, d0, h1, h2, h3⟩
  · have e : ∀ F, (TableCall.snapshot filters).race E A S.C M tb depth m.race F cache = (0, cache, .ok (.batches [])) := by
      intro F
      unfold TableCall.race Table.readSnapshotRF Timeline.latestTimestamp
      rw [h2]
      rfl
    refine ⟨fun ⟨k, hk, _⟩ => ?_, fun _ => ⟨[], by rw [e], [], .nil, ?_, .nil⟩⟩
    · rw [e] at hk
      exact absurd hk (Nat.not_lt_zero _)
    · intro k
      rw [hh, h1]
      simp [versionAfter]
  · rw [← hh] at h1 h3
    have e : ∀ F, (TableCall.snapshot filters).race E A S.C M tb depth m.race F cache =
        (TableCall.snapshotAsOf c0.ts filters).race E A S.C M tb depth m.race F cache := by
      intro F
      unfold TableCall.race Table.readSnapshotRF Timeline.latestTimestamp
      rw [h2]
      rfl
    have h := C101_kept_as_of_partial E A S M hmono hsec r s0 hs0 hn m hm hcount tb filters fs hive url ho depth hdepth
      cache hk c0 (List.mem_of_getLast? h1) (hr c0 h1) F
    have e1 : tableAt s0.history c0.ts = versionAfter s0.history := by
      funext k; unfold tableAt; rw [h3]
    have e2 : recordsAt (rowsOf s0.done) s0.history c0.ts = recordsAfter (rowsOf s0.done) s0.history := by
      funext k; unfold recordsAt; rw [h3]
    rw [e1, e2] at h
    unfold TableCall.SomeFails at h ⊢
    rw [e, e]
    exact h

/-- **C101, changes when requests fail.**  The read of the changes returns an error if one of its requests has failed, and
otherwise each record that was committed in the span exactly as often as it was written, whatever the handle has been used
for before.

Missing: as in `C101_cleaned_changes_partial`. -/
theorem C101_changes_or_error_partial (E : Env) (A : Arrow) (S : Setting) (M : MergeEnv A) (hmono : MonotoneTz E.ltz)
    (hsec : WholeSecondsTz E.ltz) (r : Str) (s0 : Work) (hs0 : CleansOnce S r nothingYet s0) (hdoc : AllDocumented s0.done)
    (hin : RollbacksInPlace s0) (hcount : ∀ j ∈ s0.done, Counts S j) (m : Moments) (hm : SinceCleaned S r s0 m)
    (tb : Table) (ho : AppendsAt E S s0 tb) (depth : Nat) (cache : Cache) (hmeta : MetaFields S.o) (start : Str)
    (hs : WriterTimestamp start ∧ start.length = S.width) (hps : ∃ d, parseDatetime S.ltz start S.tz = .ok d)
    (c : HCommit) (hc : c ∈ s0.history) (hr : (compare r c.ts).isLE) (F : Faults) :
    ((TableCall.incremental start (some c.ts)).SomeFails E A S.C M tb depth m.race F cache →
      ∃ e, ((TableCall.incremental start (some c.ts)).race E A S.C M tb depth m.race F cache).2.2 = .err e) ∧
    (¬ (TableCall.incremental start (some c.ts)).SomeFails E A S.C M tb depth m.race F cache →
      ∃ outs, ((TableCall.incremental start (some c.ts)).race E A S.C M tb depth m.race F cache).2.2 =
          .ok (.batches outs) ∧
        ReadsAllChanges (columnsBy s0.done) start c.ts s0.history (recordsAt (rowsOf s0.done) s0.history c.ts) outs) := by
  obtain ⟨h1, h2⟩ := C86_failures_are_reported E A S.C M tb depth m.race cache (.incremental start (some c.ts)) F
  refine ⟨h1, fun hF => ?_⟩
  rw [h2 hF]
  obtain ⟨outs, h3, h4⟩ := C101_cleaned_changes_partial E A S M hmono hsec r s0 hs0 hdoc hin hcount m hm tb ho hmeta start
    hs hps c hc hr
  refine ⟨outs, ?_, h4⟩
  have h7 := (faithfulO_io (faithful_incrementalRF E A S.C M tb m.race start (some c.ts)) cache).none
  rw [h3] at h7
  exact answerOf_ok.2 ⟨outs, h7, rfl⟩

section
variable {S : Setting} {o : Opts} (hp : ∀ x, PartitionPath S.o x ↔ PartitionPath o x)
  (hf : partitionFieldNames S.o = partitionFieldNames o ∧ (OverwritesWithLatest o → OverwritesWithLatest S.o))
include hp hf

theorem cleansOnce_with {r : Str} {s s' : Work} (h : CleansOnce S r s s') : CleansOnce { S with o := o } r s s' := by
  induction h with
  | refl => exact .refl
  | step _ hs ho ih =>
    refine .step ih ?_ ho
    cases hs with
    | work _ h => exact .work _ _ (step_with hp hf h)
    | log j k token l hj hk hs hl => exact .log _ j k token l hj hk hs hl
    | base j k token hj hk hs hl => exact .base _ j k token hj hk hs hl

end

/-- The table opens, and the handle has options that the writers agree on. -/
theorem appendedTableOf_opens {E : Env} {S : Setting} {s : Work} {w : World} {uri : Str} {calls : List Call}
    (h : AppendedTableOf E S s w uri calls) : ∃ tb, (builderOf uri calls).build E w = .ok tb ∧
      (∀ k, hmGet k S.o = hmGet k tb.opts) ∧ AppendsAt E { S with o := tb.opts } s tb := by
  obtain ⟨st, hat, htree⟩ := h.storage
  obtain ⟨tb, hb, h1, h2, ho⟩ := opened_same (E := E) hat h.wellFormed h.supported (htree ▸ h.timeline)
  have h1' := fun k => (h1 k).symm
  have hz : timezoneOf tb.opts = .ok S.tz := (timezoneOf_same h1).trans h.zone
  exact ⟨tb, hb, h1', ⟨⟨_, htree ▸ h2⟩, h.clock, ho ▸ hz, rfl,
    ⟨opened_plain h.calls hb, fun hov => h.keeps ((overwrites_congr (h1' _) (h1' _) (h1' _)).2 hov),
      fun hro => h.notReadOptimized (by unfold ReadOptimized at hro ⊢; rw [h1']; exact hro), (h1 _).trans h.start, hz⟩⟩⟩

/-- **C101, from the path.**  While writers and a cleaner work on a table that keeps every record, it opens by its path at
any moment `s0`; and the handle, kept and used for any calls with requests that fail or are answered at any moments, goes
on reading as of any commit from `r` on that had completed at `s0`, and, if the cleaner keeps to versions superseded by a
time that the handle knows, without a timestamp: an error if one of the requests of the read fails, and otherwise each
record exactly as often as the writes completed by then had written it.

Missing: as in `C101_cleaned_as_of_partial`. -/
theorem C101_opened_partial (E : Env) (A : Arrow) (S : Setting) (M : MergeEnv A) (hmono : MonotoneTz E.ltz)
    (hsec : WholeSecondsTz E.ltz) (r : Str) (s0 : Work) (hs0 : CleansOnce S r nothingYet s0) (hn : NamesCurrent s0)
    (hcount : ∀ j ∈ s0.done, Counts S j) (w : World) (uri : Str) (calls : List Call)
    (hw : AppendedTableOf E S s0 w uri calls) (filters : List (Str × Str × Str)) (fs : List Filter) (hive url : Bool)
    (ha : Askable A S filters fs hive url) (depth : Nat) (hdepth : S.depth < depth) :
    ∃ tb, (builderOf uri calls).build E w = .ok tb ∧ ∀ cache, KeptCleaned E A S M r s0 tb depth cache →
      ∀ m, SinceCleaned S r s0 m → ∀ F,
      (∀ c ∈ s0.history, (compare r c.ts).isLE →
        ((TableCall.snapshotAsOf c.ts filters).SomeFails E A S.C M tb depth m.race F cache →
          ∃ e, ((TableCall.snapshotAsOf c.ts filters).race E A S.C M tb depth m.race F cache).2.2 = .err e) ∧
        (¬ (TableCall.snapshotAsOf c.ts filters).SomeFails E A S.C M tb depth m.race F cache →
          ∃ outs, ((TableCall.snapshotAsOf c.ts filters).race E A S.C M tb depth m.race F cache).2.2 = .ok (.batches outs) ∧
            ReadsAll (columnsBy s0.done) (tableAt s0.history c.ts) (Kept A S.pcols hive url fs)
              (recordsAt (rowsOf s0.done) s0.history c.ts) outs)) ∧
      ((∀ c, s0.history.getLast? = some c → (compare r c.ts).isLE) →
        ((TableCall.snapshot filters).SomeFails E A S.C M tb depth m.race F cache →
          ∃ e, ((TableCall.snapshot filters).race E A S.C M tb depth m.race F cache).2.2 = .err e) ∧
        (¬ (TableCall.snapshot filters).SomeFails E A S.C M tb depth m.race F cache →
          ∃ outs, ((TableCall.snapshot filters).race E A S.C M tb depth m.race F cache).2.2 = .ok (.batches outs) ∧
            ReadsAll (columnsBy s0.done) (versionAfter s0.history) (Kept A S.pcols hive url fs)
              (recordsAfter (rowsOf s0.done) s0.history) outs)) := by
  obtain ⟨tb, hb, ho, hh⟩ := appendedTableOf_opens hw
  have hp := partitionPath_same ho
  have hf := agree_same ho
  have hop : AppendingAt E A { S with o := tb.opts } s0 tb filters fs hive url :=
    ⟨hh.load, hh.clock, hh.zone, hh.options, hh.appends, ha.names, ha.parsed, ha.applicable, pathStyle_same ho ha.style,
      fun v hv => ha.parallelism v ((ho _).trans hv)⟩
  refine ⟨tb, hb, fun cache hk m hm F => ?_⟩
  exact ⟨fun c hc hr => C101_kept_as_of_partial E A { S with o := tb.opts } M hmono hsec r s0 (cleansOnce_with hp hf hs0)
      hn m (sinceCleaned_with hp hf hm) hcount tb filters fs hive url hop depth hdepth cache
      (keptCleaned_with hp hf hk) c hc hr F,
    fun hr => C101_kept_latest_partial E A { S with o := tb.opts } M hmono hsec r s0 (cleansOnce_with hp hf hs0) hn m
      (sinceCleaned_with hp hf hm) hcount tb filters fs hive url hop depth hdepth cache
      (keptCleaned_with hp hf hk) hr F⟩

/-- **C101, changes from the path.**  Likewise for the changes between any time and any commit from `r` on that had
completed at `s0`: an error if one of the requests fails, and otherwise each record that was committed in the span exactly
as often as it was written.

Missing: as in `C101_cleaned_changes_partial`. -/
theorem C101_opened_changes_partial (E : Env) (A : Arrow) (S : Setting) (M : MergeEnv A) (hmono : MonotoneTz E.ltz)
    (hsec : WholeSecondsTz E.ltz) (r : Str) (s0 : Work) (hs0 : CleansOnce S r nothingYet s0) (hdoc : AllDocumented s0.done)
    (hin : RollbacksInPlace s0) (hcount : ∀ j ∈ s0.done, Counts S j) (w : World) (uri : Str) (calls : List Call)
    (hw : AppendedTableOf E S s0 w uri calls) (hmeta : MetaFields S.o) (depth : Nat) :
    ∃ tb, (builderOf uri calls).build E w = .ok tb ∧ ∀ cache m, SinceCleaned S r s0 m → ∀ start, WriterTimestamp start →
      start.length = S.width → (∃ d, parseDatetime S.ltz start S.tz = .ok d) → ∀ c ∈ s0.history,
      (compare r c.ts).isLE → ∀ F,
      ((TableCall.incremental start (some c.ts)).SomeFails E A S.C M tb depth m.race F cache →
        ∃ e, ((TableCall.incremental start (some c.ts)).race E A S.C M tb depth m.race F cache).2.2 = .err e) ∧
      (¬ (TableCall.incremental start (some c.ts)).SomeFails E A S.C M tb depth m.race F cache →
        ∃ outs, ((TableCall.incremental start (some c.ts)).race E A S.C M tb depth m.race F cache).2.2 =
            .ok (.batches outs) ∧
          ReadsAllChanges (columnsBy s0.done) start c.ts s0.history (recordsAt (rowsOf s0.done) s0.history c.ts)
            outs) := by
  obtain ⟨tb, hb, ho, hh⟩ := appendedTableOf_opens hw
  have hp := partitionPath_same ho
  have hf := agree_same ho
  exact ⟨tb, hb, fun cache m hm start h1 h2 h3 c hc hr F =>
    C101_changes_or_error_partial E A { S with o := tb.opts } M hmono hsec r s0 (cleansOnce_with hp hf hs0) hdoc hin hcount
      m (sinceCleaned_with hp hf hm) tb hh depth cache (by unfold MetaFields; rw [← ho]; exact hmeta) start ⟨h1, h2⟩ h3 c
      hc hr F⟩

end Hudi
