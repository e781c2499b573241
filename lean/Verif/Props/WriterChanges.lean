import Verif.Lemmas.WriterChanges
import Verif.Props.RacingWriter
import Verif.Props.RacingChanges

/-!
# C84: reading changes while writers work

Writers work on a table, several at a time, and may stop at any moment, to be rolled back; see C82.  Reads of what
changed between two times run while they do.
-/

namespace Hudi
open Spec

/-- The log files of the slices of a span can be read. -/
theorem goodLogs_works {S : Setting} {s : Work} (hov : OverwritesWithLatest S.o) (hi : Inv S s) (hp : Placed s) (hrt : RollbackTimes S s)
    {start stop : Str} {ss : List FileSlice} (h : ShowsTable (changedAt s.history start stop) (fun _ => True) ss) :
    GoodLogs S.C S.ltz S.tz S.o s.tree ss := by
  intro _ x hx l hl
  have hev := stores_evolving hov hi hp hrt
  obtain ⟨v, hv⟩ := Option.ne_none_iff_exists'.1 ((h.groups (sliceKey x)).1 ⟨x, hx, rfl⟩).2
  obtain ⟨h1, h2, h3, c0, token, hs⟩ := spanSlice_of hi.wf rfl hv (h.versions x hx v hv)
  obtain ⟨c, hap, _⟩ := (hs.named (l.version, l.writeToken)).1 ⟨l, hl, rfl⟩
  rw [hs.paths l hl]
  exact ⟨_, hev.logs _ _ _ _ hap, fun w hw => (hev.blocks _ _ w ⟨_, c, hap, hw⟩).1⟩

/-- Changes read at moments of their own, if whatever shows them is left alone. -/
theorem changes_through {E : Env} (A : Arrow) {S : Setting} (M : MergeEnv A) (hmono : MonotoneTz E.ltz)
    (hsec : WholeSecondsTz E.ltz) {s0 : Work} (hs0 : Works S nothingYet s0) (hdoc : AllDocumented s0.done)
    {R : Race} {tb : Table} (ho : HandleAt E S s0 tb)
    (hmeta : MetaFields S.o) {start : Str} (hs : WriterTimestamp start ∧ start.length = S.width)
    (hps : ∃ d, parseDatetime S.ltz start S.tz = .ok d) {j0 : Job} (hj0 : j0 ∈ s0.done)
    (hR : ∀ ss, ShowsTable (changedAt s0.history start j0.commit.ts) (fun _ => True) ss →
      AllSeen (MeanwhileAfter S.C S.ltz S.tz S.o j0.commit.ts tb.timeline (lasting S s0).tree ss) R) :
    ∃ outs, tb.readIncrementalR E A S.C M R start (some j0.commit.ts) = .ok outs ∧
      ReadsEvolvingChanges A (columnsBy s0.done) S.pre start j0.commit.ts s0.history (fun schema k r =>
        (r ∈ recordsAt (rowsOf s0.done) s0.history j0.commit.ts k ∧ CommittedIn schema start (some j0.commit.ts) r) ∨
          PendingChange S.C S.ltz S.tz start j0.commit.ts s0.history s0.blocksAt k r) outs := by
  have hi0 := inv_works (inv_nothing S) hs0
  have hi' := inv_lasting hi0
  have hp' := placed_lasting hi0 (placed_works hs0)
  have hrt' := times_lasting hi0 (times_works hs0)
  obtain ⟨o, hload⟩ := ho.load
  obtain ⟨d1, hjob⟩ := hi0.jobOf hj0
  have hk := knows_lasting hi0
  have hdocs : StoresDocs (lasting S s0).tree s0.history := docs_stored hi' hdoc
  have hev : StoresEvolving S.C S.ltz S.tz (columnsBy s0.done) (lasting S s0).tree s0.history (rowsOf s0.done)
    (heldIn (lasting S s0)) := stores_evolving ho.overwrites hi' hp' hrt'
  have hdt : DatedEvolving (columnsBy s0.done) s0.history (rowsOf s0.done) (heldIn (lasting S s0)) :=
    dated_evolving hi' hp' hrt' hdoc
  have hcol : ∀ j ∈ s0.done, ∀ k, columnsBy s0.done j.commit.ts k = (j.base k).schema := by
    intro j hj k
    simp [columnsBy, jobAt_mem (fun j hj j' hj' => hi0.unique hj hj') hj]
  obtain ⟨ss, h1, h2⟩ := changed_slices (E := E) hmono hload ho.zone hi0.wf (by rw [ho.clock]; exact hk) hdocs hs
    hjob.time (by rw [ho.clock]; exact hps) (by rw [ho.clock]; exact hjob.parses)
  obtain ⟨outs, h3, ks, h4, h5, h6⟩ := changes_read (E := E) (C := S.C) M hmono hsec hload ho.zone hi0.wf
    (by rw [ho.clock]; exact hk) hdocs ho.merges (ho.options ▸ hmeta)
    (by
      intro c' hc' k token hk
      obtain ⟨j, hj, rfl⟩ := mem_commitsOf.1 hc'
      obtain ⟨d1, hjob'⟩ := hi0.jobOf hj
      rw [hcol j hj]
      exact ((hjob'.batches k token hk).2 ho.overwrites).2)
    (by
      intro c' hc' k token hk
      obtain ⟨j, hj, rfl⟩ := mem_commitsOf.1 hc'
      obtain ⟨b1, b2, e⟩ := List.append_of_mem hj
      rw [hcol j hj]
      exact (hdoc b1 j b2 e).commitTime k token hk)
    (by rw [ho.clock]; exact hev) hdt hs hjob.time (by rw [ho.clock]; exact hps) (by rw [ho.clock]; exact hjob.parses)
  refine ⟨outs, C68_changes_isolated_partial E A S.C M o s0.tree (lasting S s0).tree tb R start j0.commit.ts S.tz
    (some j0.commit.ts) hload (timelineNames_normal hi0.treeWF) ho.merges.plain ho.merges.zone rfl
    (by rw [ho.clock]; exact hps) (by rw [ho.clock]; exact hjob.parses) ss h1 ?_ ?_ outs h3, ks, h4, h5, ?_⟩
  · rw [ho.clock, ho.options]
    exact hR ss h2
  · rw [ho.clock, ho.options]
    exact goodLogs_works ho.overwrites hi' hp' hrt' h2
  · refine h6.imp ?_
    rintro k out ⟨v, rows, q1, q2, q3, q4⟩
    rw [ho.clock] at q3
    exact ⟨v, rows, q1, q2, fun r => (q3 r).trans (or_congr_right (pendingChange_congr k
      (fun v _ l c h => blocksAt_lasting hi0 (placed_works hs0) h) r)), q4⟩

/-- **C84, exactly.**  Writers work on a table, several at a time, and may stop at any moment, to be rolled back.  A
handle opened at any moment `s0` reads the changes between any time and any commit that had completed at `s0`, while
writers go on working: each request of the read is answered at some later moment.  The read returns exactly the records
that the writes completed in the span had written, and those of blocks, in log files that these writes have appended to,
of failed writes that no block in such a log file rolls back. -/
theorem C84_changes_and_failed (E : Env) (A : Arrow) (S : Setting) (M : MergeEnv A) (hmono : MonotoneTz E.ltz)
    (hsec : WholeSecondsTz E.ltz) (s0 : Work) (hs0 : Works S nothingYet s0) (hdoc : AllDocumented s0.done)
    (m : Moments) (hm : Since S s0 m) (tb : Table) (ho : HandleAt E S s0 tb)
    (hmeta : MetaFields S.o) (start : Str) (hs : WriterTimestamp start ∧ start.length = S.width)
    (hps : ∃ d, parseDatetime S.ltz start S.tz = .ok d) (c : HCommit) (hc : c ∈ s0.history) :
    ∃ outs, tb.readIncrementalR E A S.C M m.race start (some c.ts) = .ok outs ∧
      ReadsEvolvingChanges A (columnsBy s0.done) S.pre start c.ts s0.history (fun schema k r =>
        (r ∈ recordsAt (rowsOf s0.done) s0.history c.ts k ∧ CommittedIn schema start (some c.ts) r) ∨
          PendingChange S.C S.ltz S.tz start c.ts s0.history s0.blocksAt k r) outs := by
  have hi0 := inv_works (inv_nothing S) hs0
  obtain ⟨o, hload⟩ := ho.load
  obtain ⟨j0, hj0, rfl⟩ := mem_commitsOf.1 hc
  obtain ⟨t1, t2, t3⟩ := timeline_of hload ho.zone hi0.wf (by rw [ho.clock]; exact hi0.timeline)
  have hdata : ∀ p, Works S s0 (m.data p) := fun p => by
    have h1 := hm.files []
    have h2 := hm.data [] p
    generalize m.data p = d at h2 ⊢
    induction h2 with
    | refl => exact h1
    | step _ hstep ih => exact .step ih hstep
  rw [ho.clock] at t1
  refine changes_through A M hmono hsec hs0 hdoc ho hmeta hs hps hj0 (fun ss _ => ?_)
  have hM := fun {s} (hs : Works S s0 s) =>
    meanwhileAfter_works (ho.clock ▸ hmono) (ho.clock ▸ hsec) hi0 hs hj0 t1 (ss := ss)
  exact ⟨fun i => hM (hm.replaced i), hM hm.latest, hM hm.schema, fun x => hM (hm.dirs x), fun x => hM (hm.files x),
    fun x => hM (hm.sizes x), fun x => hM (hdata x)⟩

/-- **C84, up to a commit (partial).**  Likewise, when rollbacks leave their blocks where those of the failed write are:
the read returns exactly the records that the writes completed in the span had written.  Missing: rollbacks whose blocks
are in other log files than those of the failed write (`C84_false`). -/
theorem C84_changes_partial (E : Env) (A : Arrow) (S : Setting) (M : MergeEnv A) (hmono : MonotoneTz E.ltz)
    (hsec : WholeSecondsTz E.ltz) (s0 : Work) (hs0 : Works S nothingYet s0) (hdoc : AllDocumented s0.done)
    (hin : RollbacksInPlace s0) (m : Moments) (hm : Since S s0 m) (tb : Table) (ho : HandleAt E S s0 tb)
    (hmeta : MetaFields S.o) (start : Str) (hs : WriterTimestamp start ∧ start.length = S.width)
    (hps : ∃ d, parseDatetime S.ltz start S.tz = .ok d) (c : HCommit) (hc : c ∈ s0.history) :
    ∃ outs, tb.readIncrementalR E A S.C M m.race start (some c.ts) = .ok outs ∧
      ReadsEvolvingChanges A (columnsBy s0.done) S.pre start c.ts s0.history (fun schema k r =>
        r ∈ recordsAt (rowsOf s0.done) s0.history c.ts k ∧ CommittedIn schema start (some c.ts) r) outs := by
  obtain ⟨outs, h3, ks, h4, h5, h6⟩ := C84_changes_and_failed E A S M hmono hsec s0 hs0 hdoc m hm tb ho hmeta start hs hps
    c hc
  obtain ⟨j0, hj0, rfl⟩ := mem_commitsOf.1 hc
  have hpend : NoPendingInSpan S.ltz S.tz start j0.commit.ts s0.history s0.blocksAt :=
    no_pending (ho.clock ▸ hmono) (ho.clock ▸ hsec) (inv_works (inv_nothing S) hs0) (placed_works hs0) (times_works hs0)
      hin hj0 hs hps
  refine ⟨outs, h3, ks, h4, h5, h6.imp ?_⟩
  rintro k out ⟨v, rows, q1, q2, q3, q4⟩
  exact ⟨v, rows, q1, q2, fun r => (q3 r).trans (by simp [no_pending_change hpend]), q4⟩

/-- **C84, up to now (partial).**  Likewise without an end: the read returns exactly the records that had been written,
when the handle was opened, by the writes completed since `start`; nothing if there were none.  Missing: as in
`C84_changes_partial`. -/
theorem C84_latest_changes_partial (E : Env) (A : Arrow) (S : Setting) (M : MergeEnv A) (hmono : MonotoneTz E.ltz)
    (hsec : WholeSecondsTz E.ltz) (s0 : Work) (hs0 : Works S nothingYet s0) (hdoc : AllDocumented s0.done)
    (hin : RollbacksInPlace s0) (m : Moments) (hm : Since S s0 m) (tb : Table) (ho : HandleAt E S s0 tb)
    (hmeta : MetaFields S.o) (start : Str) (hs : WriterTimestamp start ∧ start.length = S.width)
    (hps : ∃ d, parseDatetime S.ltz start S.tz = .ok d) :
    (s0.history = [] ∧ tb.readIncrementalR E A S.C M m.race start none = .ok []) ∨
    ∃ c outs, s0.history.getLast? = some c ∧ tb.readIncrementalR E A S.C M m.race start none = .ok outs ∧
      ReadsEvolvingChanges A (columnsBy s0.done) S.pre start c.ts s0.history (fun schema k r =>
        r ∈ recordsAfter (rowsOf s0.done) s0.history k ∧ CommittedIn schema start (some c.ts) r) outs := by
  have hi0 := inv_works (inv_nothing S) hs0
  obtain ⟨o, hload⟩ := ho.load
  obtain ⟨t1, t2, t3⟩ := timeline_of hload ho.zone hi0.wf (by rw [ho.clock]; exact hi0.timeline)
  rcases timeline_last hmono hi0.wf t1 t2 t3 with ⟨h1, h2⟩ | ⟨c0, d0, h1, h2, h3⟩
  · refine .inl ⟨h1, ?_⟩
    unfold Table.readIncrementalR Timeline.latestTimestamp
    rw [h2]
    rfl
  · right
    obtain ⟨outs, h4, h5⟩ := C84_changes_partial E A S M hmono hsec s0 hs0 hdoc hin m hm tb ho hmeta start hs hps c0
      (List.mem_of_getLast? h1)
    refine ⟨c0, outs, h1, ?_, ?_⟩
    · unfold Table.readIncrementalR Timeline.latestTimestamp at h4 ⊢
      rw [h2]
      exact h4
    · have e2 : recordsAt (rowsOf s0.done) s0.history c0.ts = recordsAfter (rowsOf s0.done) s0.history := by
        funext k; unfold recordsAt; rw [h3]
      rw [e2] at h5
      exact h5

/-- **C84, at a later moment (partial).**  A handle opened at any moment `s0` reads, at any later moment `s`, the
changes between any time and any commit that had completed at `s0`: exactly the records that the writes completed in
the span had written.  Missing: as in `C84_changes_partial`. -/
theorem C84_changes_later_partial (E : Env) (A : Arrow) (S : Setting) (M : MergeEnv A) (hmono : MonotoneTz E.ltz)
    (hsec : WholeSecondsTz E.ltz) (s0 s : Work) (hs0 : Works S nothingYet s0) (hs : Works S s0 s)
    (hdoc : AllDocumented s0.done) (hin : RollbacksInPlace s0) (tb : Table) (ho : HandleAt E S s0 tb)
    (hmeta : MetaFields S.o) (start : Str) (hst : WriterTimestamp start ∧ start.length = S.width)
    (hps : ∃ d, parseDatetime S.ltz start S.tz = .ok d) (c : HCommit) (hc : c ∈ s0.history) :
    ∃ outs, tb.readIncremental E A S.C M s.tree start (some c.ts) = .ok outs ∧
      ReadsEvolvingChanges A (columnsBy s0.done) S.pre start c.ts s0.history (fun schema k r =>
        r ∈ recordsAt (rowsOf s0.done) s0.history c.ts k ∧ CommittedIn schema start (some c.ts) r) outs :=
  C84_changes_partial E A S M hmono hsec s0 hs0 hdoc hin ⟨fun _ => s, s, s, fun _ => s, fun _ => s, fun _ => s, fun _ => s⟩
    ⟨fun _ => hs, hs, hs, fun _ => hs, fun _ => hs, fun _ => hs, fun _ _ => .refl s⟩ tb ho hmeta start hst hps c hc

end Hudi
