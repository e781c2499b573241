import Verif.Lemmas.CleanerChanges
import Verif.Lemmas.CleanerKept

/-!
# C92: reading changes while writers and a cleaner work

Writers work on a table, and a cleaner deletes files of superseded versions; see C90.  Reads of what changed between
two times run while they do.
-/

namespace Hudi
open Spec

/-- **C92, exactly.**  Writers work on a table, several at a time, and may stop at any moment, to be rolled back, and a
cleaner deletes files of versions of file groups that completed writes up to the time `r` have superseded.  A handle
opened at any moment `s0` reads the changes between any time, be it before `r`, and any commit from `r` on that had
completed at `s0`, while writers and the cleaner go on working: each request of the read is answered at some later
moment.  The read returns exactly the records that the writes completed in the span had written, and those of blocks, in
log files that these writes have appended to, of failed writes that no block in such a log file rolls back. -/
theorem C92_changes_and_failed (E : Env) (A : Arrow) (S : Setting) (M : MergeEnv A) (hmono : MonotoneTz E.ltz)
    (hsec : WholeSecondsTz E.ltz) (r : Str) (s0 : Work) (hs0 : Cleans S r nothingYet s0) (hdoc : AllDocumented s0.done)
    (m : Moments) (hm : SinceCleaned S r s0 m) (tb : Table) (ho : HandleAt E S s0 tb)
    (hmeta : MetaFields S.o) (start : Str) (hs : WriterTimestamp start ∧ start.length = S.width)
    (hps : ∃ d, parseDatetime S.ltz start S.tz = .ok d) (c : HCommit) (hc : c ∈ s0.history)
    (hr : (compare r c.ts).isLE) :
    ∃ outs, tb.readIncrementalR E A S.C M m.race start (some c.ts) = .ok outs ∧
      ReadsEvolvingChanges A (columnsBy s0.done) S.pre start c.ts s0.history (fun schema k r =>
        (r ∈ recordsAt (rowsOf s0.done) s0.history c.ts k ∧ CommittedIn schema start (some c.ts) r) ∨
          PendingChange S.C S.ltz S.tz start c.ts s0.history s0.blocksAt k r) outs := by
  obtain ⟨v0, g0, hw0, hi0, hg0, rfl⟩ := cleans_sweep hs0 (inv_nothing S) (swept_nothing S r _) (sweep_nothing _).symm
  obtain ⟨o, hload⟩ := ho.load
  rw [sweep_load hi0 hg0] at hload
  have ho' : HandleAt E S v0 tb := ⟨⟨o, hload⟩, ho.clock, ho.zone, ho.options, ho.merges⟩
  obtain ⟨j0, hj0, rfl⟩ := mem_commitsOf.1 hc
  obtain ⟨t1, t2, t3⟩ := timeline_of hload ho.zone hi0.wf (by rw [ho.clock]; exact hi0.timeline)
  rw [ho.clock] at t1
  obtain ⟨outs, h3, ks, h4, h5, h6⟩ := changes_through A M hmono hsec hw0 hdoc ho' hmeta hs hps hj0 (R := m.race) (by
    intro ss hss
    have hM : ∀ {s}, Cleans S r (sweep v0 g0) s →
        MeanwhileAfter S.C S.ltz S.tz S.o j0.commit.ts tb.timeline (lasting S v0).tree ss s.tree := by
      intro s hs
      obtain ⟨v, gone, hw, hi, hg, rfl⟩ := cleans_sweep hs hi0 hg0 rfl
      exact meanwhileAfter_sweep (ho.clock ▸ hmono) (ho.clock ▸ hsec) hi0 hw hj0 hr hg t1 hss
    exact ⟨fun i => hM (hm.replaced i), hM hm.latest, hM hm.schema, fun x => hM (hm.dirs x), fun x => hM (hm.files x),
      fun x => hM (hm.sizes x), fun x => hM (since_cleaned_data hm x)⟩)
  refine ⟨outs, h3, ks, h4, h5, h6.imp ?_⟩
  rintro k out ⟨v, rows, q1, q2, q3, q4⟩
  refine ⟨v, rows, q1, q2, fun r' => (q3 r').trans (or_congr_right (pendingChange_congr k ?_ r')), q4⟩
  intro w hw l c hap
  obtain ⟨d1, j, d2, ls, v, ws, hcl, _⟩ := commit_log hi0 (placed_works hw0) hap
  unfold Work.blocksAt
  rw [hcl.segs, blocks_sweep hi0 hr hg0 hw hcl.parts]

/-- **C92, up to a commit (partial).**  Likewise, when rollbacks leave their blocks where those of the failed write are:
the read returns exactly the records that the writes completed in the span had written, as if nothing had been deleted.
Missing: spans that end before `r` (`C92_false`), and rollbacks whose blocks are in other log files than those of the
failed write (`C84_false`). -/
theorem C92_changes_partial (E : Env) (A : Arrow) (S : Setting) (M : MergeEnv A) (hmono : MonotoneTz E.ltz)
    (hsec : WholeSecondsTz E.ltz) (r : Str) (s0 : Work) (hs0 : Cleans S r nothingYet s0) (hdoc : AllDocumented s0.done)
    (hin : RollbacksInPlace s0) (m : Moments) (hm : SinceCleaned S r s0 m) (tb : Table) (ho : HandleAt E S s0 tb)
    (hmeta : MetaFields S.o) (start : Str) (hs : WriterTimestamp start ∧ start.length = S.width)
    (hps : ∃ d, parseDatetime S.ltz start S.tz = .ok d) (c : HCommit) (hc : c ∈ s0.history)
    (hr : (compare r c.ts).isLE) :
    ∃ outs, tb.readIncrementalR E A S.C M m.race start (some c.ts) = .ok outs ∧
      ReadsEvolvingChanges A (columnsBy s0.done) S.pre start c.ts s0.history (fun schema k r =>
        r ∈ recordsAt (rowsOf s0.done) s0.history c.ts k ∧ CommittedIn schema start (some c.ts) r) outs := by
  obtain ⟨outs, h3, ks, h4, h5, h6⟩ := C92_changes_and_failed E A S M hmono hsec r s0 hs0 hdoc m hm tb ho hmeta start hs
    hps c hc hr
  obtain ⟨v0, g0, hw0, hi0, hg0, rfl⟩ := cleans_sweep hs0 (inv_nothing S) (swept_nothing S r _) (sweep_nothing _).symm
  obtain ⟨j0, hj0, rfl⟩ := mem_commitsOf.1 hc
  refine ⟨outs, h3, ks, h4, h5, h6.imp ?_⟩
  rintro k out ⟨v, rows, q1, q2, q3, q4⟩
  refine ⟨v, rows, q1, q2, fun r' => (q3 r').trans ?_, q4⟩
  have hno : ¬ PendingChange S.C S.ltz S.tz start j0.commit.ts v0.history v0.blocksAt k r' := by
    refine no_pending_change_at (fun w hw => no_pending_at (ho.clock ▸ hmono) (ho.clock ▸ hsec) hi0 (placed_works hw0)
      (times_works hw0) ?_ hj0 hs hps)
    intro l ws w' i hl hget
    exact hin _ ws w' i ((blocks_sweep hi0 hr hg0 hw hl).trans hget)
  have hsame : PendingChange S.C S.ltz S.tz start j0.commit.ts v0.history (sweep v0 g0).blocksAt k r' ↔
      PendingChange S.C S.ltz S.tz start j0.commit.ts v0.history v0.blocksAt k r' := by
    refine pendingChange_congr k ?_ r'
    intro w hw l c hap
    obtain ⟨d1, j, d2, ls, v, ws, hcl, _⟩ := commit_log hi0 (placed_works hw0) hap
    unfold Work.blocksAt
    rw [hcl.segs, blocks_sweep hi0 hr hg0 hw hcl.parts]
  change _ ∨ PendingChange S.C S.ltz S.tz start j0.commit.ts v0.history (sweep v0 g0).blocksAt k r' ↔ _
  rw [hsame]
  simp [hno]

/-- **C92, up to now (partial).**  Likewise without an end, if the cleaner keeps to versions superseded by a time that
the handle knows: the read returns exactly the records that had been written, when the handle was opened, by the writes
completed since `start`; nothing if there were none.  Missing: as in `C92_changes_partial`. -/
theorem C92_latest_changes_partial (E : Env) (A : Arrow) (S : Setting) (M : MergeEnv A) (hmono : MonotoneTz E.ltz)
    (hsec : WholeSecondsTz E.ltz) (r : Str) (s0 : Work) (hs0 : Cleans S r nothingYet s0) (hdoc : AllDocumented s0.done)
    (hin : RollbacksInPlace s0) (m : Moments) (hm : SinceCleaned S r s0 m) (tb : Table) (ho : HandleAt E S s0 tb)
    (hmeta : MetaFields S.o) (start : Str) (hs : WriterTimestamp start ∧ start.length = S.width)
    (hps : ∃ d, parseDatetime S.ltz start S.tz = .ok d)
    (hr : ∀ c, s0.history.getLast? = some c → (compare r c.ts).isLE) :
    (s0.history = [] ∧ tb.readIncrementalR E A S.C M m.race start none = .ok []) ∨
    ∃ c outs, s0.history.getLast? = some c ∧ tb.readIncrementalR E A S.C M m.race start none = .ok outs ∧
      ReadsEvolvingChanges A (columnsBy s0.done) S.pre start c.ts s0.history (fun schema k r =>
        r ∈ recordsAfter (rowsOf s0.done) s0.history k ∧ CommittedIn schema start (some c.ts) r) outs := by
  obtain ⟨v0, g0, _, hi0, hg0, e0⟩ := cleans_sweep hs0 (inv_nothing S) (swept_nothing S r _) (sweep_nothing _).symm
  obtain ⟨o, hload⟩ := ho.load
  have hh : s0.history = v0.history := by rw [e0]; rfl
  rw [e0, sweep_load hi0 hg0] at hload
  obtain ⟨t1, t2, t3⟩ := timeline_of hload ho.zone hi0.wf (by rw [ho.clock]; exact hi0.timeline)
  rcases timeline_last hmono hi0.wf t1 t2 t3 with ⟨h1, h2⟩ | ⟨c0, d0, h1, h2, h3⟩
  · refine .inl ⟨hh.trans h1, ?_⟩
    unfold Table.readIncrementalR Timeline.latestTimestamp
    rw [h2]
    rfl
  · right
    rw [← hh] at h1 h3
    obtain ⟨outs, h4, h5⟩ := C92_changes_partial E A S M hmono hsec r s0 hs0 hdoc hin m hm tb ho hmeta start hs hps c0
      (List.mem_of_getLast? h1) (hr c0 h1)
    refine ⟨c0, outs, h1, ?_, ?_⟩
    · unfold Table.readIncrementalR Timeline.latestTimestamp at h4 ⊢
      rw [h2]
      exact h4
    · have e2 : recordsAt (rowsOf s0.done) s0.history c0.ts = recordsAfter (rowsOf s0.done) s0.history := by
        funext k; unfold recordsAt; rw [h3]
      rw [e2] at h5
      exact h5

end Hudi
