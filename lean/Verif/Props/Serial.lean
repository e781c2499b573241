import Verif.Lemmas.Serial
import Verif.Props.RacingWriter
import Verif.Props.WriterChanges
import Verif.Props.Cleaner
import Verif.Props.CleanerTail

/-!
# C100: writers that work at the same time leave a table as if they had worked one after the other

Several writers work on a table at the same time, on different file groups; some fail and are rolled back.  Readers
get what they would get from a table that one writer has made, that makes the completed writes one after the other and
never fails.
-/

namespace Hudi
open Spec

/-- A writer that never fails rolls nothing back. -/
theorem oneByOne_inPlace {S : Setting} {js : List Job} (h : JobsOk S js) : RollbacksInPlace (oneByOne js) := by
  obtain ⟨_, hd, _, _, hl⟩ := oneByOne_works js h
  intro p ws w i hg hwm _ hwb
  obtain ⟨j, hj, hjw⟩ := hl p ws w hg hwm
  refine .inl ⟨j, by rw [hd]; exact hj, ?_⟩
  unfold WrittenBy at hwb hjw
  exact Option.some.inj (hjw.symm.trans hwb)

/-- **C100, one after the other (partial).**  Whatever the writers have done, the writes that have completed can be
made one after the other, by one writer that does not fail.  Missing: writes that complete in another order than that
of their timestamps, and rollbacks of writes that appended to log files while later writes are under way
(`C100_false`). -/
theorem C100_one_after_the_other_partial (S : Setting) (s : Work) (hs : Works S nothingYet s) :
    Works S nothingYet (oneByOne s.done) ∧ (oneByOne s.done).done = s.done ∧ (oneByOne s.done).current = [] := by
  obtain ⟨h1, h2, h3, _⟩ := oneByOne_works s.done (inv_works (inv_nothing S) hs).jobs
  exact ⟨h1, h2, h3⟩

/-- **C100, as of a commit (partial).**  A reader opens the table as the writers have left it, at any moment, another
the table that one writer has made of the completed writes.  They read the snapshot of a commit with the same filters;
each request is answered at some later moment, while writers go on.  Both reads succeed, and they return the same rows
with the same columns, in some order.  Missing: as above. -/
theorem C100_as_of_partial (E : Env) (A : Arrow) (S : Setting) (M : MergeEnv A) (hmono : MonotoneTz E.ltz)
    (hsec : WholeSecondsTz E.ltz) (s : Work) (hs : Works S nothingYet s) (m m' : Moments) (hm : Since S s m)
    (hm' : Since S (oneByOne s.done) m') (tb tb' : Table) (filters : List (Str × Str × Str)) (fs : List Filter)
    (hive url : Bool) (ho : OpenedAt E A S s tb filters fs hive url)
    (ho' : OpenedAt E A S (oneByOne s.done) tb' filters fs hive url) (depth : Nat) (hdepth : S.depth < depth)
    (c : HCommit) (hc : c ∈ s.history) (hties : NoTiesAt A S.pre s.done c.ts) :
    ∃ outs outs', tb.readSnapshotAsOfR E A S.C M depth m.race c.ts filters = .ok outs ∧
      tb'.readSnapshotAsOfR E A S.C M depth m'.race c.ts filters = .ok outs' ∧
      (rowsWithColumns outs).Perm (rowsWithColumns outs') := by
  obtain ⟨hw, hd, _⟩ := C100_one_after_the_other_partial S s hs
  have hh : (oneByOne s.done).history = s.history := by unfold Work.history; rw [hd]
  obtain ⟨outs, r, ks, e1, e2, e3⟩ :=
    C83_reads_as_of E A S M hmono hsec s hs m hm tb filters fs hive url ho depth hdepth c hc
  obtain ⟨outs', r', ks', e1', e2', e3'⟩ :=
    C83_reads_as_of E A S M hmono hsec _ hw m' hm' tb' filters fs hive url ho' depth hdepth c (hh ▸ hc)
  rw [hh] at e2' e3'
  rw [hd] at e3'
  exact ⟨outs, outs', r, r', batches_perm (rowOf := fun _ k r => r ∈ recordsAt (rowsOf s.done) s.history c.ts k)
    e1 e1' e2 e2' e3 e3' (fun k v hv r r' hr hr' => hties k v hv r hr r' hr')⟩

/-- **C100, the latest snapshot (partial).**  Likewise for the latest snapshot.  Missing: as above. -/
theorem C100_latest_partial (E : Env) (A : Arrow) (S : Setting) (M : MergeEnv A) (hmono : MonotoneTz E.ltz)
    (hsec : WholeSecondsTz E.ltz) (s : Work) (hs : Works S nothingYet s) (m m' : Moments) (hm : Since S s m)
    (hm' : Since S (oneByOne s.done) m') (tb tb' : Table) (filters : List (Str × Str × Str)) (fs : List Filter)
    (hive url : Bool) (ho : OpenedAt E A S s tb filters fs hive url)
    (ho' : OpenedAt E A S (oneByOne s.done) tb' filters fs hive url) (depth : Nat) (hdepth : S.depth < depth)
    (hties : NoTies A S.pre s.done) :
    ∃ outs outs', tb.readSnapshotR E A S.C M depth m.race filters = .ok outs ∧
      tb'.readSnapshotR E A S.C M depth m'.race filters = .ok outs' ∧
      (rowsWithColumns outs).Perm (rowsWithColumns outs') := by
  obtain ⟨hw, hd, _⟩ := C100_one_after_the_other_partial S s hs
  have hh : (oneByOne s.done).history = s.history := by unfold Work.history; rw [hd]
  obtain ⟨outs, r, e⟩ := C83_reads_latest E A S M hmono hsec s hs m hm tb filters fs hive url ho depth hdepth
  obtain ⟨outs', r', e'⟩ :=
    C83_reads_latest E A S M hmono hsec _ hw m' hm' tb' filters fs hive url ho' depth hdepth
  rw [hh, hd] at e'
  refine ⟨outs, outs', r, r', ?_⟩
  obtain ⟨l, c, p⟩ := contents_of_read e
  obtain ⟨l', c', p'⟩ := contents_of_read e'
  rw [p, p']
  exact (contents_unique hties c c').map _

/-- **C100, changes (partial).**  Likewise for the changes between any time and a commit, when writers record what they
write.  Missing: as above, and rollbacks whose blocks are in other log files than those of the failed write
(`C84_false`). -/
theorem C100_changes_partial (E : Env) (A : Arrow) (S : Setting) (M : MergeEnv A) (hmono : MonotoneTz E.ltz)
    (hsec : WholeSecondsTz E.ltz) (s : Work) (hs : Works S nothingYet s) (hdoc : AllDocumented s.done)
    (hin : RollbacksInPlace s) (m m' : Moments) (hm : Since S s m) (hm' : Since S (oneByOne s.done) m')
    (tb tb' : Table) (ho : HandleAt E S s tb) (ho' : HandleAt E S (oneByOne s.done) tb') (hmeta : MetaFields S.o)
    (start : Str) (hst : WriterTimestamp start ∧ start.length = S.width)
    (hps : ∃ d, parseDatetime S.ltz start S.tz = .ok d) (c : HCommit) (hc : c ∈ s.history)
    (hties : NoTiesAt A S.pre s.done c.ts) :
    ∃ outs outs', tb.readIncrementalR E A S.C M m.race start (some c.ts) = .ok outs ∧
      tb'.readIncrementalR E A S.C M m'.race start (some c.ts) = .ok outs' ∧
      (rowsWithColumns outs).Perm (rowsWithColumns outs') := by
  obtain ⟨hw, hd, _⟩ := oneByOne_works s.done (inv_works (inv_nothing S) hs).jobs
  have hh : (oneByOne s.done).history = s.history := by unfold Work.history; rw [hd]
  obtain ⟨outs, r, ks, e1, e2, e3⟩ :=
    C84_changes_partial E A S M hmono hsec s hs hdoc hin m hm tb ho hmeta start hst hps c hc
  obtain ⟨outs', r', ks', e1', e2', e3'⟩ := C84_changes_partial E A S M hmono hsec _ hw (hd.symm ▸ hdoc)
    (oneByOne_inPlace (inv_works (inv_nothing S) hs).jobs) m' hm' tb' ho' hmeta start hst hps c (hh ▸ hc)
  rw [hh] at e2' e3'
  rw [hd] at e3'
  exact ⟨outs, outs', r, r', batches_perm (rowOf := fun schema k r =>
      r ∈ recordsAt (rowsOf s.done) s.history c.ts k ∧ CommittedIn schema start (some c.ts) r)
    e1 e1' e2 e2' e3 e3' (fun k v hv r r' hr hr' => hties k v hv r hr.1 r' hr'.1)⟩

/-! With a cleaner that works while writers and readers do -/

/-- **C100, one after the other, with a cleaner (partial).**  Writers work on a table, and a cleaner.  The writes that
have completed can still be made one after the other by one writer, on a table in which nothing is deleted.  Missing:
as in `C100_one_after_the_other_partial`. -/
theorem C100_cleaned_one_after_the_other_partial (S : Setting) (r : Str) (s : Work) (hs : Cleans S r nothingYet s) :
    Works S nothingYet (oneByOne s.done) ∧ (oneByOne s.done).done = s.done ∧ (oneByOne s.done).current = [] := by
  obtain ⟨h1, h2, h3, _⟩ := oneByOne_works s.done (cleans_jobs hs)
  exact ⟨h1, h2, h3⟩

/-- **C100, as of a commit, with a cleaner (partial).**  A cleaner works with the writers, keeping what reads as of `r`
or later need.  A read as of a commit from `r` on returns the rows of the table that one writer has made and no cleaner
has touched.  Missing: as above; times before `r`, and writes that name an old file first (`C90_false`). -/
theorem C100_cleaned_as_of_partial (E : Env) (A : Arrow) (S : Setting) (M : MergeEnv A) (hmono : MonotoneTz E.ltz)
    (hsec : WholeSecondsTz E.ltz) (r : Str) (s : Work) (hs : Cleans S r nothingYet s) (hn : NamesCurrent s)
    (m m' : Moments) (hm : SinceCleaned S r s m) (hm' : Since S (oneByOne s.done) m') (tb tb' : Table)
    (filters : List (Str × Str × Str)) (fs : List Filter) (hive url : Bool) (ho : OpenedAt E A S s tb filters fs hive url)
    (ho' : OpenedAt E A S (oneByOne s.done) tb' filters fs hive url) (depth : Nat) (hdepth : S.depth < depth)
    (c : HCommit) (hc : c ∈ s.history) (hr : (compare r c.ts).isLE) (hties : NoTiesAt A S.pre s.done c.ts) :
    ∃ outs outs', tb.readSnapshotAsOfR E A S.C M depth m.race c.ts filters = .ok outs ∧
      tb'.readSnapshotAsOfR E A S.C M depth m'.race c.ts filters = .ok outs' ∧
      (rowsWithColumns outs).Perm (rowsWithColumns outs') := by
  obtain ⟨hw, hd, _⟩ := C100_cleaned_one_after_the_other_partial S r s hs
  have hh : (oneByOne s.done).history = s.history := by unfold Work.history; rw [hd]
  obtain ⟨outs, q, ks, e1, e2, e3⟩ :=
    C90_reads_as_of_partial E A S M hmono hsec r s hs hn m hm tb filters fs hive url ho depth hdepth c hc hr
  obtain ⟨outs', q', ks', e1', e2', e3'⟩ :=
    C83_reads_as_of E A S M hmono hsec _ hw m' hm' tb' filters fs hive url ho' depth hdepth c (hh ▸ hc)
  rw [hh] at e2' e3'
  rw [hd] at e3'
  exact ⟨outs, outs', q, q', batches_perm (rowOf := fun _ k r => r ∈ recordsAt (rowsOf s.done) s.history c.ts k)
    e1 e1' e2 e2' e3 e3' (fun k v hv r r' hr hr' => hties k v hv r hr r' hr')⟩

/-- **C100, the latest snapshot, with a cleaner (partial).**  Likewise for the latest snapshot, if the cleaner keeps to
versions superseded by a time that the handle knows.  Missing: as above. -/
theorem C100_cleaned_latest_partial (E : Env) (A : Arrow) (S : Setting) (M : MergeEnv A) (hmono : MonotoneTz E.ltz)
    (hsec : WholeSecondsTz E.ltz) (r : Str) (s : Work) (hs : Cleans S r nothingYet s) (hn : NamesCurrent s)
    (m m' : Moments) (hm : SinceCleaned S r s m) (hm' : Since S (oneByOne s.done) m') (tb tb' : Table)
    (filters : List (Str × Str × Str)) (fs : List Filter) (hive url : Bool) (ho : OpenedAt E A S s tb filters fs hive url)
    (ho' : OpenedAt E A S (oneByOne s.done) tb' filters fs hive url) (depth : Nat) (hdepth : S.depth < depth)
    (hr : ∀ c, s.history.getLast? = some c → (compare r c.ts).isLE) (hties : NoTies A S.pre s.done) :
    ∃ outs outs', tb.readSnapshotR E A S.C M depth m.race filters = .ok outs ∧
      tb'.readSnapshotR E A S.C M depth m'.race filters = .ok outs' ∧
      (rowsWithColumns outs).Perm (rowsWithColumns outs') := by
  obtain ⟨hw, hd, _⟩ := C100_cleaned_one_after_the_other_partial S r s hs
  have hh : (oneByOne s.done).history = s.history := by unfold Work.history; rw [hd]
  obtain ⟨outs, q, e⟩ :=
    C90_reads_latest_partial E A S M hmono hsec r s hs hn m hm tb filters fs hive url ho depth hdepth hr
  obtain ⟨outs', q', e'⟩ :=
    C83_reads_latest E A S M hmono hsec _ hw m' hm' tb' filters fs hive url ho' depth hdepth
  rw [hh, hd] at e'
  refine ⟨outs, outs', q, q', ?_⟩
  obtain ⟨l, c, p⟩ := contents_of_read e
  obtain ⟨l', c', p'⟩ := contents_of_read e'
  rw [p, p']
  exact (contents_unique hties c c').map _

/-- **C100, changes, with a cleaner (partial).**  Likewise for the changes between any time and a commit from `r` on,
when writers record what they write.  Missing: as above. -/
theorem C100_cleaned_changes_partial (E : Env) (A : Arrow) (S : Setting) (M : MergeEnv A) (hmono : MonotoneTz E.ltz)
    (hsec : WholeSecondsTz E.ltz) (r : Str) (s : Work) (hs : Cleans S r nothingYet s) (hdoc : AllDocumented s.done)
    (hin : RollbacksInPlace s) (m m' : Moments) (hm : SinceCleaned S r s m) (hm' : Since S (oneByOne s.done) m')
    (tb tb' : Table) (ho : HandleAt E S s tb) (ho' : HandleAt E S (oneByOne s.done) tb') (hmeta : MetaFields S.o)
    (start : Str) (hst : WriterTimestamp start ∧ start.length = S.width)
    (hps : ∃ d, parseDatetime S.ltz start S.tz = .ok d) (c : HCommit) (hc : c ∈ s.history)
    (hr : (compare r c.ts).isLE) (hties : NoTiesAt A S.pre s.done c.ts) :
    ∃ outs outs', tb.readIncrementalR E A S.C M m.race start (some c.ts) = .ok outs ∧
      tb'.readIncrementalR E A S.C M m'.race start (some c.ts) = .ok outs' ∧
      (rowsWithColumns outs).Perm (rowsWithColumns outs') := by
  obtain ⟨hw, hd, _⟩ := oneByOne_works s.done (cleans_jobs hs)
  have hh : (oneByOne s.done).history = s.history := by unfold Work.history; rw [hd]
  obtain ⟨outs, q, ks, e1, e2, e3⟩ :=
    C92_changes_partial E A S M hmono hsec r s hs hdoc hin m hm tb ho hmeta start hst hps c hc hr
  obtain ⟨outs', q', ks', e1', e2', e3'⟩ := C84_changes_partial E A S M hmono hsec _ hw (hd.symm ▸ hdoc)
    (oneByOne_inPlace (cleans_jobs hs)) m' hm' tb' ho' hmeta start hst hps c (hh ▸ hc)
  rw [hh] at e2' e3'
  rw [hd] at e3'
  exact ⟨outs, outs', q, q', batches_perm (rowOf := fun schema k r =>
      r ∈ recordsAt (rowsOf s.done) s.history c.ts k ∧ CommittedIn schema start (some c.ts) r)
    e1 e1' e2 e2' e3 e3' (fun k v hv r r' hr hr' => hties k v hv r hr.1 r' hr'.1)⟩

end Hudi
