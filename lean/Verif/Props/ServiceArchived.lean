import Verif.Props.Service
import Verif.Props.Archiver
import Verif.Props.ArchiverChanges
import Verif.Props.SerialArchived

/-!
# C99 beside an archiver

Compaction and clustering change nothing that readers see either while an archiver takes old commits, those of the
services included, out of the timeline.
-/

namespace Hudi
open Spec

/-- **C99, with an archiver (partial).**  The rows stay the same while a cleaner deletes superseded versions and an
archiver takes commits out of the timeline: before the handles are opened and while they read; their horizons are no later
than the latest commits that the handles know.  Missing: compactions that are scheduled (`C99_false`), and archivers that
delete replacecommits (`C102_false`). -/
theorem C99_same_rows_archived_partial (E : Env) (A : Arrow) (S : Setting) (M : MergeEnv A) (hmono : MonotoneTz E.ltz)
    (hsec : WholeSecondsTz E.ltz) (r0 q0 r1 q1 : Str) (s0 s1 : Work) (hs0 : Archives S r0 q0 nothingYet s0)
    (hs1 : Archives S r1 q1 nothingYet s1) (hn0 : NamesCurrent s0) (hn1 : NamesCurrent s1) (more : List Job)
    (hdone : s1.done = s0.done ++ more) (hrw : AllRewrite A S.pre s0.done more) (hties : NoTies A S.pre s0.done)
    (m0 m1 : Moments) (hm0 : SinceArchived S r0 q0 s0 m0) (hm1 : SinceArchived S r1 q1 s1 m1) (tb0 tb1 : Table)
    (filters : List (Str × Str × Str)) (fs : List Filter) (hive url : Bool)
    (ho0 : OpenedAt E A S s0 tb0 filters fs hive url) (ho1 : OpenedAt E A S s1 tb1 filters fs hive url) (depth : Nat)
    (hdepth : S.depth < depth)
    (hr0 : ∀ c, s0.history.getLast? = some c → (compare r0 c.ts).isLE ∧ (compare q0 c.ts).isLE)
    (hr1 : ∀ c, s1.history.getLast? = some c → (compare r1 c.ts).isLE ∧ (compare q1 c.ts).isLE) :
    ∃ outs0 outs1, tb0.readSnapshotR E A S.C M depth m0.race filters = .ok outs0 ∧
      tb1.readSnapshotR E A S.C M depth m1.race filters = .ok outs1 ∧
      (rowsWithColumns outs0).Perm (rowsWithColumns outs1) := by
  obtain ⟨outs0, a0, b0⟩ := C102_reads_latest_partial E A S M hmono hsec r0 q0 s0 hs0 hn0 m0 hm0 tb0 filters fs hive url
    ho0 depth hdepth (fun c hc => (hr0 c hc).1) (fun c hc => (hr0 c hc).2)
  obtain ⟨outs1, a1, b1⟩ := C102_reads_latest_partial E A S M hmono hsec r1 q1 s1 hs1 hn1 m1 hm1 tb1 filters fs hive url
    ho1 depth hdepth (fun c hc => (hr1 c hc).1) (fun c hc => (hr1 c hc).2)
  refine ⟨outs0, outs1, a0, a1, ?_⟩
  obtain ⟨l0, c0, p0⟩ := contents_of_read b0
  obtain ⟨l1, c1, p1⟩ := contents_of_read b1
  obtain ⟨t1, _, t3⟩ := rewrites_all ho0.overwrites (fun d1 j d2 e => archives_jobs hs1 d1 j d2 (hdone.trans e)) hrw hties
  rw [hdone] at c1
  obtain ⟨l, c, p⟩ := t3 _ _ c0
  rw [p0, p1]
  exact (p.trans (contents_unique t1 c c1)).map _

/-- **C99, no changes, with an archiver (partial).**  And a read of the changes since a time from which the archiver keeps
the timeline, and which no record was later than before the rewriting writes, returns no rows.  Missing: as in
`C99_no_changes_partial`, and archivers that delete replacecommits. -/
theorem C99_no_changes_archived_partial (E : Env) (A : Arrow) (S : Setting) (M : MergeEnv A) (hmono : MonotoneTz E.ltz)
    (hsec : WholeSecondsTz E.ltz) (r q : Str) (s0 s1 : Work) (hs1 : Archives S r q nothingYet s1) (more : List Job)
    (hdone : s1.done = s0.done ++ more) (hrw : AllRewrite A S.pre s0.done more) (hties : NoTies A S.pre s0.done)
    (hdoc : AllDocumented s1.done) (hin : RollbacksInPlace s1) (m : Moments) (hm : SinceArchived S r q s1 m) (tb : Table)
    (ho : HandleAt E S s1 tb) (hmeta : MetaFields S.o) (start : Str)
    (hst : WriterTimestamp start ∧ start.length = S.width) (hps : ∃ d, parseDatetime S.ltz start S.tz = .ok d)
    (hqs : (compare q start).isLE) (hby : CommittedBy s0.done start)
    (hr : ∀ c, s1.history.getLast? = some c → (compare r c.ts).isLE ∧ (compare q c.ts).isLE) :
    ∃ outs, tb.readIncrementalR E A S.C M m.race start none = .ok outs ∧ rowsWithColumns outs = [] := by
  have hjobs := archives_jobs hs1
  obtain ⟨_, t2, _⟩ := rewrites_all ho.overwrites (fun d1 j d2 e => hjobs d1 j d2 (hdone.trans e)) hrw hties
  have hby1 := t2 start hby
  rw [← hdone] at hby1
  rcases C102_latest_changes_partial E A S M hmono hsec r q s1 hs1 hdoc hin m hm tb ho hmeta start hst hps hqs
    (fun c hc => (hr c hc).1) (fun c hc => (hr c hc).2) with ⟨_, h⟩ | ⟨c, outs, hl, h, h3⟩
  · exact ⟨[], h, rfl⟩
  · exact ⟨outs, h, no_rows_since hjobs hby1 hl h3⟩

/-- **C99, from the path (partial).**  The table is opened by its path before and after the rewriting writes, while the
cleaner and the archiver work; both open, and reads of the latest snapshot, each request being answered at some later
moment, return the same rows with the same columns; a read of the changes through the second handle returns none.  Missing:
as in `C99_same_rows_archived_partial` and `C99_no_changes_archived_partial`. -/
theorem C99_opened_partial (E : Env) (A : Arrow) (S : Setting) (M : MergeEnv A) (hmono : MonotoneTz E.ltz)
    (hsec : WholeSecondsTz E.ltz) (r0 q0 r1 q1 : Str) (s0 s1 : Work) (hs0 : Archives S r0 q0 nothingYet s0)
    (hs1 : Archives S r1 q1 nothingYet s1) (hn0 : NamesCurrent s0) (hn1 : NamesCurrent s1) (more : List Job)
    (hdone : s1.done = s0.done ++ more) (hrw : AllRewrite A S.pre s0.done more) (hties : NoTies A S.pre s0.done)
    (w0 w1 : World) (uri0 uri1 : Str) (calls0 calls1 : List Call) (hw0 : TableOf E S s0 w0 uri0 calls0)
    (hw1 : TableOf E S s1 w1 uri1 calls1) (filters : List (Str × Str × Str)) (fs : List Filter) (hive url : Bool)
    (ha : Askable A S filters fs hive url) (depth : Nat) (hdepth : S.depth < depth)
    (hr0 : ∀ c, s0.history.getLast? = some c → (compare r0 c.ts).isLE ∧ (compare q0 c.ts).isLE)
    (hr1 : ∀ c, s1.history.getLast? = some c → (compare r1 c.ts).isLE ∧ (compare q1 c.ts).isLE) :
    ∃ tb0 tb1, (builderOf uri0 calls0).build E w0 = .ok tb0 ∧ (builderOf uri1 calls1).build E w1 = .ok tb1 ∧
      (∀ m0 m1, SinceArchived S r0 q0 s0 m0 → SinceArchived S r1 q1 s1 m1 →
        ∃ outs0 outs1, tb0.readSnapshotR E A S.C M depth m0.race filters = .ok outs0 ∧
          tb1.readSnapshotR E A S.C M depth m1.race filters = .ok outs1 ∧
          (rowsWithColumns outs0).Perm (rowsWithColumns outs1)) ∧
      (AllDocumented s1.done → RollbacksInPlace s1 → MetaFields S.o →
        ∀ start, WriterTimestamp start → start.length = S.width → (∃ d, parseDatetime S.ltz start S.tz = .ok d) →
        (compare q1 start).isLE → CommittedBy s0.done start → ∀ m1, SinceArchived S r1 q1 s1 m1 →
        ∃ outs, tb1.readIncrementalR E A S.C M m1.race start none = .ok outs ∧ rowsWithColumns outs = []) := by
  obtain ⟨tb0, hb0, ho0, hh0⟩ := tableOf_opens hw0
  obtain ⟨tb1, hb1, ho1, hh1⟩ := tableOf_opens hw1
  have hp0 := partitionPath_same ho0
  have hf0 := agree_same ho0
  have hp1 := partitionPath_same ho1
  have hf1 := agree_same ho1
  refine ⟨tb0, tb1, hb0, hb1, fun m0 m1 hm0 hm1 => ?_, fun hdoc hin hmeta start h1 h2 h3 hqs hby m1 hm1 => ?_⟩
  · have hopen1 := askable_with ho1 ha hh1
    obtain ⟨outs0, a0, b0⟩ := C102_reads_latest_partial E A { S with o := tb0.opts } M hmono hsec r0 q0 s0
      (archives_with hp0 hf0 hs0) hn0 m0 (sinceArchived_with hp0 hf0 hm0) tb0 filters fs hive url
      (askable_with ho0 ha hh0) depth hdepth (fun c hc => (hr0 c hc).1) (fun c hc => (hr0 c hc).2)
    obtain ⟨outs1, a1, b1⟩ := C102_reads_latest_partial E A { S with o := tb1.opts } M hmono hsec r1 q1 s1
      (archives_with hp1 hf1 hs1) hn1 m1 (sinceArchived_with hp1 hf1 hm1) tb1 filters fs hive url hopen1
      depth hdepth (fun c hc => (hr1 c hc).1) (fun c hc => (hr1 c hc).2)
    refine ⟨outs0, outs1, a0, a1, ?_⟩
    obtain ⟨l0, c0, p0⟩ := contents_of_read b0
    obtain ⟨l1, c1, p1⟩ := contents_of_read b1
    obtain ⟨t1, _, t3⟩ := rewrites_all (S := { S with o := tb1.opts }) hopen1.overwrites
      (fun d1 j d2 e => archives_jobs (archives_with hp1 hf1 hs1) d1 j d2 (hdone.trans e)) hrw hties
    rw [hdone] at c1
    obtain ⟨l, c, p⟩ := t3 _ _ c0
    rw [p0, p1]
    exact (p.trans (contents_unique t1 c c1)).map _
  · exact C99_no_changes_archived_partial E A { S with o := tb1.opts } M hmono hsec r1 q1 s0 s1
      (archives_with hp1 hf1 hs1) more hdone hrw hties hdoc hin m1 (sinceArchived_with hp1 hf1 hm1) tb1 hh1
      (by unfold MetaFields; rw [← ho1]; exact hmeta) start ⟨h1, h2⟩ h3 hqs hby hr1

end Hudi
