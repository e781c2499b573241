import Verif.Props.Serial
import Verif.Props.Archiver
import Verif.Props.ArchiverChanges
import Verif.Props.ArchiverOpened
import Verif.Props.ArchiverTail

/-!
# C100 beside an archiver

While writers work at the same time, a cleaner deletes superseded versions and an archiver takes old commits out of the
timeline.  Readers still get what they would get from the table that one writer has made, of which nothing was deleted.
-/

namespace Hudi
open Spec

/-- **C100, one after the other, with an archiver (partial).**  Writers work on a table, a cleaner and an archiver.  The
writes that have completed, archived or not, can still be made one after the other by one writer, on a table in which
nothing is deleted.  Missing: as in `C100_one_after_the_other_partial`. -/
theorem C100_archived_one_after_the_other_partial (S : Setting) (r q : Str) (s : Work)
    (hs : Archives S r q nothingYet s) :
    Works S nothingYet (oneByOne s.done) ∧ (oneByOne s.done).done = s.done ∧ (oneByOne s.done).current = [] := by
  obtain ⟨h1, h2, h3, _⟩ := oneByOne_works s.done (archives_jobs hs)
  exact ⟨h1, h2, h3⟩

/-- **C100, as of a commit, with an archiver (partial).**  A cleaner works with the writers, keeping what reads as of `r`
or later need, and an archiver, which keeps the latest commit in the timeline.  A read as of a commit from `r` on,
archived or not, returns the rows of the table that one writer has made and nobody else has touched.  Missing: as in
`C100_cleaned_as_of_partial`, and archivers that delete replacecommits (`C102_false`). -/
theorem C100_archived_as_of_partial (E : Env) (A : Arrow) (S : Setting) (M : MergeEnv A) (hmono : MonotoneTz E.ltz)
    (hsec : WholeSecondsTz E.ltz) (r q : Str) (s : Work) (hs : Archives S r q nothingYet s) (hn : NamesCurrent s)
    (m m' : Moments) (hm : SinceArchived S r q s m) (hm' : Since S (oneByOne s.done) m') (tb tb' : Table)
    (filters : List (Str × Str × Str)) (fs : List Filter) (hive url : Bool) (ho : OpenedAt E A S s tb filters fs hive url)
    (ho' : OpenedAt E A S (oneByOne s.done) tb' filters fs hive url) (depth : Nat) (hdepth : S.depth < depth)
    (c : HCommit) (hc : c ∈ s.history) (hr : (compare r c.ts).isLE)
    (hq : ∀ c, s.history.getLast? = some c → (compare q c.ts).isLE) (hties : NoTiesAt A S.pre s.done c.ts) :
    ∃ outs outs', tb.readSnapshotAsOfR E A S.C M depth m.race c.ts filters = .ok outs ∧
      tb'.readSnapshotAsOfR E A S.C M depth m'.race c.ts filters = .ok outs' ∧
      (rowsWithColumns outs).Perm (rowsWithColumns outs') := by
  obtain ⟨hw, hd, _⟩ := C100_archived_one_after_the_other_partial S r q s hs
  have hh : (oneByOne s.done).history = s.history := by unfold Work.history; rw [hd]
  obtain ⟨outs, p, ks, e1, e2, e3⟩ :=
    C102_reads_as_of_partial E A S M hmono hsec r q s hs hn m hm tb filters fs hive url ho depth hdepth c hc hr hq
  obtain ⟨outs', p', ks', e1', e2', e3'⟩ :=
    C83_reads_as_of E A S M hmono hsec _ hw m' hm' tb' filters fs hive url ho' depth hdepth c (hh ▸ hc)
  rw [hh] at e2' e3'
  rw [hd] at e3'
  exact ⟨outs, outs', p, p', batches_perm (rowOf := fun _ k r => r ∈ recordsAt (rowsOf s.done) s.history c.ts k)
    e1 e1' e2 e2' e3 e3' (fun k v hv r r' hr hr' => hties k v hv r hr r' hr')⟩

/-- **C100, the latest snapshot, with an archiver (partial).**  Likewise for the latest snapshot, if the cleaner keeps to
versions superseded by a time that the handle knows.  Missing: as above. -/
theorem C100_archived_latest_partial (E : Env) (A : Arrow) (S : Setting) (M : MergeEnv A) (hmono : MonotoneTz E.ltz)
    (hsec : WholeSecondsTz E.ltz) (r q : Str) (s : Work) (hs : Archives S r q nothingYet s) (hn : NamesCurrent s)
    (m m' : Moments) (hm : SinceArchived S r q s m) (hm' : Since S (oneByOne s.done) m') (tb tb' : Table)
    (filters : List (Str × Str × Str)) (fs : List Filter) (hive url : Bool) (ho : OpenedAt E A S s tb filters fs hive url)
    (ho' : OpenedAt E A S (oneByOne s.done) tb' filters fs hive url) (depth : Nat) (hdepth : S.depth < depth)
    (hr : ∀ c, s.history.getLast? = some c → (compare r c.ts).isLE)
    (hq : ∀ c, s.history.getLast? = some c → (compare q c.ts).isLE) (hties : NoTies A S.pre s.done) :
    ∃ outs outs', tb.readSnapshotR E A S.C M depth m.race filters = .ok outs ∧
      tb'.readSnapshotR E A S.C M depth m'.race filters = .ok outs' ∧
      (rowsWithColumns outs).Perm (rowsWithColumns outs') := by
  obtain ⟨hw, hd, _⟩ := C100_archived_one_after_the_other_partial S r q s hs
  have hh : (oneByOne s.done).history = s.history := by unfold Work.history; rw [hd]
  obtain ⟨outs, p, e⟩ :=
    C102_reads_latest_partial E A S M hmono hsec r q s hs hn m hm tb filters fs hive url ho depth hdepth hr hq
  obtain ⟨outs', p', e'⟩ :=
    C83_reads_latest E A S M hmono hsec _ hw m' hm' tb' filters fs hive url ho' depth hdepth
  rw [hh, hd] at e'
  refine ⟨outs, outs', p, p', ?_⟩
  obtain ⟨l, c, p⟩ := contents_of_read e
  obtain ⟨l', c', p'⟩ := contents_of_read e'
  rw [p, p']
  exact (contents_unique hties c c').map _

/-- **C100, changes, with an archiver (partial).**  Likewise for the changes between a time from which the archiver keeps
the timeline and a commit from `r` on, when writers record what they write.  Missing: as above; times before that
(`C102_false_changes`). -/
theorem C100_archived_changes_partial (E : Env) (A : Arrow) (S : Setting) (M : MergeEnv A) (hmono : MonotoneTz E.ltz)
    (hsec : WholeSecondsTz E.ltz) (r q : Str) (s : Work) (hs : Archives S r q nothingYet s) (hdoc : AllDocumented s.done)
    (hin : RollbacksInPlace s) (m m' : Moments) (hm : SinceArchived S r q s m) (hm' : Since S (oneByOne s.done) m')
    (tb tb' : Table) (ho : HandleAt E S s tb) (ho' : HandleAt E S (oneByOne s.done) tb') (hmeta : MetaFields S.o)
    (start : Str) (hst : WriterTimestamp start ∧ start.length = S.width)
    (hps : ∃ d, parseDatetime S.ltz start S.tz = .ok d) (hqs : (compare q start).isLE) (c : HCommit)
    (hc : c ∈ s.history) (hr : (compare r c.ts).isLE) (hties : NoTiesAt A S.pre s.done c.ts) :
    ∃ outs outs', tb.readIncrementalR E A S.C M m.race start (some c.ts) = .ok outs ∧
      tb'.readIncrementalR E A S.C M m'.race start (some c.ts) = .ok outs' ∧
      (rowsWithColumns outs).Perm (rowsWithColumns outs') := by
  obtain ⟨hw, hd, _⟩ := oneByOne_works s.done (archives_jobs hs)
  have hh : (oneByOne s.done).history = s.history := by unfold Work.history; rw [hd]
  obtain ⟨outs, p, ks, e1, e2, e3⟩ :=
    C102_changes_partial E A S M hmono hsec r q s hs hdoc hin m hm tb ho hmeta start hst hps hqs c hc hr
  obtain ⟨outs', p', ks', e1', e2', e3'⟩ := C84_changes_partial E A S M hmono hsec _ hw (hd.symm ▸ hdoc)
    (oneByOne_inPlace (archives_jobs hs)) m' hm' tb' ho' hmeta start hst hps c (hh ▸ hc)
  rw [hh] at e2' e3'
  rw [hd] at e3'
  exact ⟨outs, outs', p, p', batches_perm (rowOf := fun schema k r =>
      r ∈ recordsAt (rowsOf s.done) s.history c.ts k ∧ CommittedIn schema start (some c.ts) r)
    e1 e1' e2 e2' e3 e3' (fun k v hv r r' hr hr' => hties k v hv r hr.1 r' hr'.1)⟩

/-- **C100, with an archiver, from the path (partial).**  The table that several writers, a cleaner and an archiver have
left and the table that one writer has made of the completed writes, in which other files may have been put, are opened by
their paths; both open, and reads of their latest snapshots return the same rows with the same columns, each request of
either being answered at some later moment.  Missing: as in `C100_archived_latest_partial`. -/
theorem C100_archived_opened_partial (E : Env) (A : Arrow) (S : Setting) (M : MergeEnv A) (hmono : MonotoneTz E.ltz)
    (hsec : WholeSecondsTz E.ltz) (r q : Str) (s : Work) (hs : Archives S r q nothingYet s) (hn : NamesCurrent s)
    (s' : Work) (hs' : Works S (oneByOne s.done) s') (hd' : s'.done = s.done)
    (w w' : World) (uri uri' : Str) (calls calls' : List Call) (hw : TableOf E S s w uri calls)
    (hw' : TableOf E S s' w' uri' calls') (filters : List (Str × Str × Str))
    (fs : List Filter) (hive url : Bool) (ha : Askable A S filters fs hive url) (depth : Nat) (hdepth : S.depth < depth)
    (hr : ∀ c, s.history.getLast? = some c → (compare r c.ts).isLE)
    (hq : ∀ c, s.history.getLast? = some c → (compare q c.ts).isLE) (hties : NoTies A S.pre s.done) :
    ∃ tb tb', (builderOf uri calls).build E w = .ok tb ∧ (builderOf uri' calls').build E w' = .ok tb' ∧
      ∀ m m', SinceArchived S r q s m → Since S s' m' →
        ∃ outs outs', tb.readSnapshotR E A S.C M depth m.race filters = .ok outs ∧
          tb'.readSnapshotR E A S.C M depth m'.race filters = .ok outs' ∧
          (rowsWithColumns outs).Perm (rowsWithColumns outs') := by
  have hwk := works_apart (C100_archived_one_after_the_other_partial S r q s hs).1 hs'
  have hh : s'.history = s.history := by unfold Work.history; rw [hd']
  obtain ⟨tb, hb, ho, hha⟩ := tableOf_opens hw
  obtain ⟨tb', hb', ho', hha'⟩ := tableOf_opens hw'
  refine ⟨tb, tb', hb, hb', fun m m' hm hm' => ?_⟩
  have hp := partitionPath_same ho
  have hf := agree_same ho
  have hp' := partitionPath_same ho'
  have hf' := agree_same ho'
  obtain ⟨outs, p, e⟩ := C102_reads_latest_partial E A { S with o := tb.opts } M hmono hsec r q s (archives_with hp hf hs)
    hn m (sinceArchived_with hp hf hm) tb filters fs hive url (askable_with ho ha hha) depth hdepth hr hq
  obtain ⟨outs', p', e'⟩ := C83_reads_latest E A { S with o := tb'.opts } M hmono hsec _ (works_with hp' hf' hwk) m'
    (since_with hp' hf' hm') tb' filters fs hive url (askable_with ho' ha hha') depth hdepth
  rw [hh, hd'] at e'
  refine ⟨outs, outs', p, p', ?_⟩
  obtain ⟨l, c, p⟩ := contents_of_read e
  obtain ⟨l', c', p'⟩ := contents_of_read e'
  rw [p, p']
  exact (contents_unique hties c c').map _

end Hudi
