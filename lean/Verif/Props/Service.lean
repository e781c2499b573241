import Verif.Lemmas.Service
import Verif.Props.RacingWriter
import Verif.Props.WriterChanges
import Verif.Props.Cleaner
import Verif.Props.CleanerChanges

/-!
# C99: compaction and clustering change nothing that readers see

Writers of table services rewrite: compaction gives file groups new base files with the latest versions of their
records, clustering replaces file groups by new ones that hold the same records.  Whatever they rewrite, and whatever
writes are in progress, readers that open the table before and after get the same rows with the same columns, and
readers of changes get none.
-/

namespace Hudi
open Spec

/-- **C99, the same rows.**  A reader opens the table when some writes have been completed (`s0`), another when more
writes have been completed that only rewrite (`s1`).  They ask with the same filters, each of their requests being
answered at some later moment, while writers go on.  Both reads succeed, and they return the same rows with the same
columns, in some order. -/
theorem C99_same_rows (E : Env) (A : Arrow) (S : Setting) (M : MergeEnv A) (hmono : MonotoneTz E.ltz)
    (hsec : WholeSecondsTz E.ltz) (s0 s1 : Work) (hs0 : Works S nothingYet s0) (hs1 : Works S s0 s1) (more : List Job)
    (hdone : s1.done = s0.done ++ more) (hrw : AllRewrite A S.pre s0.done more) (hties : NoTies A S.pre s0.done)
    (m0 m1 : Moments) (hm0 : Since S s0 m0) (hm1 : Since S s1 m1) (tb0 tb1 : Table) (filters : List (Str × Str × Str))
    (fs : List Filter) (hive url : Bool) (ho0 : OpenedAt E A S s0 tb0 filters fs hive url)
    (ho1 : OpenedAt E A S s1 tb1 filters fs hive url) (depth : Nat) (hdepth : S.depth < depth) :
    ∃ outs0 outs1, tb0.readSnapshotR E A S.C M depth m0.race filters = .ok outs0 ∧
      tb1.readSnapshotR E A S.C M depth m1.race filters = .ok outs1 ∧
      (rowsWithColumns outs0).Perm (rowsWithColumns outs1) := by
  have hw1 : Works S nothingYet s1 := works_then hs0 hs1
  have hi1 := inv_works (inv_nothing S) hw1
  obtain ⟨outs0, r0, e0⟩ := C83_reads_latest E A S M hmono hsec s0 hs0 m0 hm0 tb0 filters fs hive url ho0 depth hdepth
  obtain ⟨outs1, r1, e1⟩ := C83_reads_latest E A S M hmono hsec s1 hw1 m1 hm1 tb1 filters fs hive url ho1 depth hdepth
  refine ⟨outs0, outs1, r0, r1, ?_⟩
  obtain ⟨l0, c0, p0⟩ := contents_of_read e0
  obtain ⟨l1, c1, p1⟩ := contents_of_read e1
  obtain ⟨t1, _, t3⟩ := rewrites_all ho0.overwrites (fun d1 j d2 e => hi1.jobs d1 j d2 (hdone.trans e)) hrw hties
  rw [hdone] at c1
  obtain ⟨l, c, p⟩ := t3 _ _ c0
  rw [p0, p1]
  exact (p.trans (contents_unique t1 c c1)).map _

/-- **C99, with a cleaner (partial).**  The same while a cleaner deletes superseded versions: before the handles are
opened and while they read; its horizons `r0` and `r1` are no later than the latest commits that the handles know.
Missing: compactions that are scheduled (`C99_false`). -/
theorem C99_same_rows_cleaned_partial (E : Env) (A : Arrow) (S : Setting) (M : MergeEnv A) (hmono : MonotoneTz E.ltz)
    (hsec : WholeSecondsTz E.ltz) (r0 r1 : Str) (s0 s1 : Work) (hs0 : Cleans S r0 nothingYet s0)
    (hs1 : Cleans S r1 nothingYet s1) (hn0 : NamesCurrent s0) (hn1 : NamesCurrent s1) (more : List Job)
    (hdone : s1.done = s0.done ++ more) (hrw : AllRewrite A S.pre s0.done more) (hties : NoTies A S.pre s0.done)
    (m0 m1 : Moments) (hm0 : SinceCleaned S r0 s0 m0) (hm1 : SinceCleaned S r1 s1 m1) (tb0 tb1 : Table)
    (filters : List (Str × Str × Str)) (fs : List Filter) (hive url : Bool)
    (ho0 : OpenedAt E A S s0 tb0 filters fs hive url) (ho1 : OpenedAt E A S s1 tb1 filters fs hive url) (depth : Nat)
    (hdepth : S.depth < depth) (hr0 : ∀ c, s0.history.getLast? = some c → (compare r0 c.ts).isLE)
    (hr1 : ∀ c, s1.history.getLast? = some c → (compare r1 c.ts).isLE) :
    ∃ outs0 outs1, tb0.readSnapshotR E A S.C M depth m0.race filters = .ok outs0 ∧
      tb1.readSnapshotR E A S.C M depth m1.race filters = .ok outs1 ∧
      (rowsWithColumns outs0).Perm (rowsWithColumns outs1) := by
  obtain ⟨v1, g1, _, hi1, hg1, e1⟩ := cleans_sweep hs1 (inv_nothing S) (swept_nothing S r1 _) (sweep_nothing _).symm
  have hd : s1.done = v1.done := by rw [e1]; rfl
  obtain ⟨outs0, a0, b0⟩ :=
    C90_reads_latest_partial E A S M hmono hsec r0 s0 hs0 hn0 m0 hm0 tb0 filters fs hive url ho0 depth hdepth hr0
  obtain ⟨outs1, a1, b1⟩ :=
    C90_reads_latest_partial E A S M hmono hsec r1 s1 hs1 hn1 m1 hm1 tb1 filters fs hive url ho1 depth hdepth hr1
  refine ⟨outs0, outs1, a0, a1, ?_⟩
  obtain ⟨l0, c0, p0⟩ := contents_of_read b0
  obtain ⟨l1, c1, p1⟩ := contents_of_read b1
  obtain ⟨t1, _, t3⟩ := rewrites_all ho0.overwrites (fun d1 j d2 e => hi1.jobs d1 j d2 (hd.symm.trans (hdone.trans e))) hrw hties
  rw [hdone] at c1
  obtain ⟨l, c, p⟩ := t3 _ _ c0
  rw [p0, p1]
  exact (p.trans (contents_unique t1 c c1)).map _

/-- A read of changes returns no rows when no record of the table is later than its start. -/
theorem no_rows_since {A : Arrow} {S : Setting} {js : List Job} (hj : ∀ d1 j d2, js = d1 ++ j :: d2 → JobOk S d1 j) {start : Str} (hby1 : CommittedBy js start)
    {c : HCommit} (hl : (commitsOf js).getLast? = some c) {outs : List Batch}
    (h : ReadsEvolvingChanges A (columnsBy js) S.pre start c.ts (commitsOf js) (fun schema k r =>
        r ∈ recordsAfter (rowsOf js) (commitsOf js) k ∧ CommittedIn schema start (some c.ts) r) outs) :
    rowsWithColumns outs = [] := by
  obtain ⟨ks, _, _, h3⟩ := h
  unfold rowsWithColumns
  rw [List.flatMap_eq_nil_iff]
  intro b hb
  obtain ⟨k, v, rows, q1, q2, q3, q4⟩ := forall₂_right h3 hb
  rw [List.map_eq_nil_iff, List.eq_nil_iff_forall_not_mem]
  intro r hr
  obtain ⟨g1, c', g2, g3, _⟩ := (q3 r).1 (q4.sound r hr)
  have hv : versionAfter (commitsOf js) k = some v := by
    have e : (commitsOf js).filter (fun c' => (compare c'.ts c.ts).isLE) = (commitsOf js) :=
      List.filter_eq_self.2 (fun c' h' => upto_last (wf_commits hj) hl h')
    unfold tableAt at q1
    rwa [e] at q1
  have hcol : columnsNow js k = columnsBy js v.base k := by
    unfold columnsNow
    rw [hv]
    rfl
  have hle := hby1 k r g1 c' (hcol ▸ g2)
  have hgt : compare c' start = .gt := by rw [Std.OrientedCmp.eq_swap (cmp := (compare : Str → Str → Ordering)), g3]; rfl
  rw [hgt] at hle
  cases hle

/-- **C99, no changes (partial).**  A reader of changes asks, through a handle opened after the rewriting writes, for what has
been written since `start`; no record of the table was later than that before them.  The read succeeds and returns no
rows.  Missing: compactions that are scheduled (`C99_false`). -/
theorem C99_no_changes_partial (E : Env) (A : Arrow) (S : Setting) (M : MergeEnv A) (hmono : MonotoneTz E.ltz)
    (hsec : WholeSecondsTz E.ltz) (s0 s1 : Work) (hs0 : Works S nothingYet s0) (hs1 : Works S s0 s1) (more : List Job)
    (hdone : s1.done = s0.done ++ more) (hrw : AllRewrite A S.pre s0.done more) (hties : NoTies A S.pre s0.done)
    (hdoc : AllDocumented s1.done) (hin : RollbacksInPlace s1) (m : Moments) (hm : Since S s1 m) (tb : Table)
    (ho : HandleAt E S s1 tb) (hmeta : MetaFields S.o) (start : Str)
    (hst : WriterTimestamp start ∧ start.length = S.width) (hps : ∃ d, parseDatetime S.ltz start S.tz = .ok d)
    (hby : CommittedBy s0.done start) :
    ∃ outs, tb.readIncrementalR E A S.C M m.race start none = .ok outs ∧ rowsWithColumns outs = [] := by
  have hw1 : Works S nothingYet s1 := works_then hs0 hs1
  have hi1 := inv_works (inv_nothing S) hw1
  obtain ⟨_, t2, _⟩ := rewrites_all ho.overwrites (fun d1 j d2 e => hi1.jobs d1 j d2 (hdone.trans e)) hrw hties
  have hby1 := t2 start hby
  rw [← hdone] at hby1
  rcases C84_latest_changes_partial E A S M hmono hsec s1 hw1 hdoc hin m hm tb ho hmeta start hst hps with
    ⟨_, h⟩ | ⟨c, outs, hl, h, h3⟩
  · exact ⟨[], h, rfl⟩
  · exact ⟨outs, h, no_rows_since hi1.jobs hby1 hl h3⟩

/-- **C99, no changes, with a cleaner (partial).**  The same while a cleaner deletes superseded versions: before the handle
is opened and while it reads.  Missing: as in `C99_no_changes_partial`. -/
theorem C99_no_changes_cleaned_partial (E : Env) (A : Arrow) (S : Setting) (M : MergeEnv A) (hmono : MonotoneTz E.ltz)
    (hsec : WholeSecondsTz E.ltz) (r : Str) (s0 s1 : Work) (hs1 : Cleans S r nothingYet s1) (more : List Job)
    (hdone : s1.done = s0.done ++ more) (hrw : AllRewrite A S.pre s0.done more) (hties : NoTies A S.pre s0.done)
    (hdoc : AllDocumented s1.done) (hin : RollbacksInPlace s1) (m : Moments) (hm : SinceCleaned S r s1 m) (tb : Table)
    (ho : HandleAt E S s1 tb) (hmeta : MetaFields S.o) (start : Str)
    (hst : WriterTimestamp start ∧ start.length = S.width) (hps : ∃ d, parseDatetime S.ltz start S.tz = .ok d)
    (hby : CommittedBy s0.done start) (hr : ∀ c, s1.history.getLast? = some c → (compare r c.ts).isLE) :
    ∃ outs, tb.readIncrementalR E A S.C M m.race start none = .ok outs ∧ rowsWithColumns outs = [] := by
  obtain ⟨v1, g1, _, hi1, hg1, e1⟩ := cleans_sweep hs1 (inv_nothing S) (swept_nothing S r _) (sweep_nothing _).symm
  have hd : s1.done = v1.done := by rw [e1]; rfl
  have hjobs : ∀ d1 j d2, s1.done = d1 ++ j :: d2 → JobOk S d1 j := hd ▸ hi1.jobs
  obtain ⟨_, t2, _⟩ := rewrites_all ho.overwrites (fun d1 j d2 e => hjobs d1 j d2 (hdone.trans e)) hrw hties
  have hby1 := t2 start hby
  rw [← hdone] at hby1
  rcases C92_latest_changes_partial E A S M hmono hsec r s1 hs1 hdoc hin m hm tb ho hmeta start hst hps hr with
    ⟨_, h⟩ | ⟨c, outs, hl, h, h3⟩
  · exact ⟨[], h, rfl⟩
  · exact ⟨outs, h, no_rows_since hjobs hby1 hl h3⟩

end Hudi
