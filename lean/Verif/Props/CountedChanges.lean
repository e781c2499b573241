import Verif.Lemmas.CountedChanges
import Verif.Props.Appended
import Verif.Props.Counted
import Verif.Props.CleanerChanges

/-!
# C101: changes of tables that keep every record, while writers work
-/

namespace Hudi
open Spec

/-- Changes of a table that keeps every record, read at moments of their own. -/
theorem all_changes_through {E : Env} (A : Arrow) {S : Setting} (M : MergeEnv A) (hmono : MonotoneTz E.ltz)
    (hsec : WholeSecondsTz E.ltz) {s0 : Work} (hs0 : WorksOnce S nothingYet s0) (hdoc : AllDocumented s0.done)
    (hcount : ∀ j ∈ s0.done, Counts S j) {R : Race} {tb : Table} (ho : AppendsAt E S s0 tb)
    (hmeta : MetaFields S.o) {start : Str} (hs : WriterTimestamp start ∧ start.length = S.width)
    (hps : ∃ d, parseDatetime S.ltz start S.tz = .ok d) {j0 : Job} (hj0 : j0 ∈ s0.done)
    (hnone : ∀ k r, ¬ PendingChange S.C S.ltz S.tz start j0.commit.ts s0.history s0.blocksAt k r)
    (hR : ∀ ss, ShowsTable (changedAt s0.history start j0.commit.ts) (fun _ => True) ss →
      AllSeen (MeanwhileAfter S.C S.ltz S.tz S.o j0.commit.ts tb.timeline (lasting S s0).tree ss) R) :
    ∃ outs, tb.readIncrementalR E A S.C M R start (some j0.commit.ts) = .ok outs ∧
      ReadsAllChanges (columnsBy s0.done) start j0.commit.ts s0.history
        (recordsAt (rowsOf s0.done) s0.history j0.commit.ts) outs := by
  have hw := works_of_once hs0
  have hi0 := inv_works (inv_nothing S) hw
  have hi' := inv_lasting hi0
  have hp' := placed_lasting hi0 (placed_works hw)
  obtain ⟨o, hload⟩ := ho.load
  obtain ⟨d1, hjob⟩ := hi0.jobOf hj0
  have hk := knows_lasting hi0
  have hdocs : StoresDocs (lasting S s0).tree s0.history := docs_stored hi' hdoc
  have hev : AppendsEvolving S.C S.ltz S.tz (columnsBy s0.done) (lasting S s0).tree s0.history (rowsOf s0.done)
    (heldIn (lasting S s0)) := appends_evolving hi' hp' (times_lasting hi0 (times_works hw)) (doneOnce_lasting hi0 (once_works hs0).1) hcount
  have hdt : DatedRowsEvolving (columnsBy s0.done) s0.history (rowsOf s0.done) := dated_rows hi0 hdoc
  obtain ⟨ss, h1, h2⟩ := changed_slices (E := E) hmono hload ho.zone hi0.wf (by rw [ho.clock]; exact hk) hdocs hs
    hjob.time (by rw [ho.clock]; exact hps) (by rw [ho.clock]; exact hjob.parses)
  obtain ⟨outs, h3, ks, h4, h5, h6⟩ := every_change_read (E := E) A (C := S.C) M hmono hsec hload ho.zone hi0.wf
    (by rw [ho.clock]; exact hk) hdocs ho.appends (ho.options ▸ hmeta)
    (by
      intro c' hc' k token hk
      obtain ⟨j, hj, rfl⟩ := mem_commitsOf.1 hc'
      obtain ⟨b1, b2, e⟩ := List.append_of_mem hj
      have : columnsBy s0.done j.commit.ts k = (j.base k).schema := by
        simp [columnsBy, jobAt_mem (fun j hj j' hj' => hi0.unique hj hj') hj]
      rw [this]
      exact (hdoc b1 j b2 e).commitTime k token hk)
    (by rw [ho.clock]; exact hev) hdt hs hjob.time (by rw [ho.clock]; exact hps) (by rw [ho.clock]; exact hjob.parses)
  refine ⟨outs, C68_changes_isolated_partial E A S.C M o s0.tree (lasting S s0).tree tb R start j0.commit.ts S.tz
    (some j0.commit.ts) hload (timelineNames_normal hi0.treeWF) ho.appends.plain ho.appends.zone rfl
    (by rw [ho.clock]; exact hps) (by rw [ho.clock]; exact hjob.parses) ss h1 ?_ ?_ outs h3, ks, h4, h5, ?_⟩
  · rw [ho.clock, ho.options]
    exact hR ss h2
  · rw [ho.clock, ho.options]
    intro _ x hx l hl
    obtain ⟨v, hv⟩ := Option.ne_none_iff_exists'.1 ((h2.groups (sliceKey x)).1 ⟨x, hx, rfl⟩).2
    obtain ⟨b1, b2, b3, c0, token, hsp⟩ := spanSlice_of hi0.wf rfl hv (h2.versions x hx v hv)
    obtain ⟨c, hap, _⟩ := (hsp.named (l.version, l.writeToken)).1 ⟨l, hl, rfl⟩
    rw [hsp.paths l hl]
    exact ⟨_, hev.logs _ _ _ _ hap, fun w hw => (hev.blocks _ _ w ⟨_, c, hap, hw⟩).1⟩
  · refine h6.imp ?_
    rintro k out ⟨v, more, q1, q2, q3, q4⟩
    rw [ho.clock] at q3
    have : more = [] := no_pending_changes_at (fun r => mt (pendingChange_congr k
      (fun v _ l c h => blocksAt_lasting hi0 (placed_works hw) h) r).1 (hnone k r)) q3
    subst this
    rw [List.append_nil] at q4
    exact ⟨v, q1, q2, q4⟩

/-- **C101, changes.**  Writers work on a table that keeps every record; none of them has repeated a request to append
that has been carried out, and rollbacks leave their blocks where those of the failed write are.  A handle opened at any
moment `s0` reads the changes between any time and any commit that had completed at `s0`, while writers go on working:
each request of the read is answered at some later moment.  The read returns each record that was committed in the span
exactly as often as it was written.

Missing: writers that have repeated a request to append before the handle was opened (`C101_false`), and rollbacks whose
blocks are in other log files than those of the failed write (`C84_false`). -/
theorem C101_changes_partial (E : Env) (A : Arrow) (S : Setting) (M : MergeEnv A) (hmono : MonotoneTz E.ltz)
    (hsec : WholeSecondsTz E.ltz) (s0 : Work) (hs0 : WorksOnce S nothingYet s0) (hdoc : AllDocumented s0.done)
    (hin : RollbacksInPlace s0) (hcount : ∀ j ∈ s0.done, Counts S j) (m : Moments) (hm : Since S s0 m) (tb : Table)
    (ho : AppendsAt E S s0 tb) (hmeta : MetaFields S.o) (start : Str)
    (hs : WriterTimestamp start ∧ start.length = S.width) (hps : ∃ d, parseDatetime S.ltz start S.tz = .ok d)
    (c : HCommit) (hc : c ∈ s0.history) :
    ∃ outs, tb.readIncrementalR E A S.C M m.race start (some c.ts) = .ok outs ∧
      ReadsAllChanges (columnsBy s0.done) start c.ts s0.history (recordsAt (rowsOf s0.done) s0.history c.ts) outs := by
  have hw := works_of_once hs0
  have hi0 := inv_works (inv_nothing S) hw
  obtain ⟨o, hload⟩ := ho.load
  obtain ⟨j0, hj0, rfl⟩ := mem_commitsOf.1 hc
  obtain ⟨t1, t2, t3⟩ := timeline_of hload ho.zone hi0.wf (by rw [ho.clock]; exact hi0.timeline)
  have hdata : ∀ p, Works S s0 (m.data p) := fun p => by
    have h1 := hm.files []
    have h2 := hm.data [] p
    generalize m.data p = d at h2 ⊢
    induction h2 with
    | refl => exact h1
    | step _ hstep ih => exact .step ih hstep
  rw [ho.clock] at t1
  have hpend : NoPendingInSpan S.ltz S.tz start j0.commit.ts s0.history s0.blocksAt :=
    no_pending (ho.clock ▸ hmono) (ho.clock ▸ hsec) hi0 (placed_works hw) (times_works hw) hin hj0 hs hps
  refine all_changes_through A M hmono hsec hs0 hdoc hcount ho hmeta hs hps hj0 (fun _ _ => no_pending_change hpend)
    (fun ss _ => ?_)
  have hM := fun {s} (hs : Works S s0 s) =>
    meanwhileAfter_works (ho.clock ▸ hmono) (ho.clock ▸ hsec) hi0 hs hj0 t1 (ss := ss)
  exact ⟨fun i => hM (hm.replaced i), hM hm.latest, hM hm.schema, fun x => hM (hm.dirs x), fun x => hM (hm.files x),
    fun x => hM (hm.sizes x), fun x => hM (hdata x)⟩

/-- **C101, changes up to now.**  Likewise without an end: the read returns each record that had been committed since
`start` when the handle was opened, exactly as often as it was written; nothing if there were no commits.

Missing: as in `C101_changes_partial`. -/
theorem C101_latest_changes_partial (E : Env) (A : Arrow) (S : Setting) (M : MergeEnv A) (hmono : MonotoneTz E.ltz)
    (hsec : WholeSecondsTz E.ltz) (s0 : Work) (hs0 : WorksOnce S nothingYet s0) (hdoc : AllDocumented s0.done)
    (hin : RollbacksInPlace s0) (hcount : ∀ j ∈ s0.done, Counts S j) (m : Moments) (hm : Since S s0 m) (tb : Table)
    (ho : AppendsAt E S s0 tb) (hmeta : MetaFields S.o) (start : Str)
    (hs : WriterTimestamp start ∧ start.length = S.width) (hps : ∃ d, parseDatetime S.ltz start S.tz = .ok d) :
    (s0.history = [] ∧ tb.readIncrementalR E A S.C M m.race start none = .ok []) ∨
    ∃ c outs, s0.history.getLast? = some c ∧ tb.readIncrementalR E A S.C M m.race start none = .ok outs ∧
      ReadsAllChanges (columnsBy s0.done) start c.ts s0.history (recordsAfter (rowsOf s0.done) s0.history) outs := by
  have hi0 := inv_works (inv_nothing S) (works_of_once hs0)
  obtain ⟨o, hload⟩ := ho.load
  obtain ⟨t1, t2, t3⟩ := timeline_of hload ho.zone hi0.wf (by rw [ho.clock]; exact hi0.timeline)
  rcases timeline_last hmono hi0.wf t1 t2 t3 with ⟨h1, h2⟩ | ⟨c0, d0, h1, h2, h3⟩
  · refine .inl ⟨h1, ?_⟩
    unfold Table.readIncrementalR Timeline.latestTimestamp
    rw [h2]
    rfl
  · right
    obtain ⟨outs, h4, h5⟩ := C101_changes_partial E A S M hmono hsec s0 hs0 hdoc hin hcount m hm tb ho hmeta start hs hps
      c0 (List.mem_of_getLast? h1)
    refine ⟨c0, outs, h1, ?_, ?_⟩
    · unfold Table.readIncrementalR Timeline.latestTimestamp at h4 ⊢
      rw [h2]
      exact h4
    · have e2 : recordsAt (rowsOf s0.done) s0.history c0.ts = recordsAfter (rowsOf s0.done) s0.history := by
        funext k; unfold recordsAt; rw [h3]
      rw [e2] at h5
      exact h5

/-- **C101, changes beside a cleaner.**  The same while a cleaner deletes versions superseded by the time `r`, as in C92,
of spans that end at `r` or later.

Missing: as in `C101_changes_partial`, and spans that end before `r` (`C92_false`). -/
theorem C101_cleaned_changes_partial (E : Env) (A : Arrow) (S : Setting) (M : MergeEnv A) (hmono : MonotoneTz E.ltz)
    (hsec : WholeSecondsTz E.ltz) (r : Str) (s0 : Work) (hs0 : CleansOnce S r nothingYet s0) (hdoc : AllDocumented s0.done)
    (hin : RollbacksInPlace s0) (hcount : ∀ j ∈ s0.done, Counts S j) (m : Moments) (hm : SinceCleaned S r s0 m)
    (tb : Table) (ho : AppendsAt E S s0 tb) (hmeta : MetaFields S.o) (start : Str)
    (hs : WriterTimestamp start ∧ start.length = S.width) (hps : ∃ d, parseDatetime S.ltz start S.tz = .ok d)
    (c : HCommit) (hc : c ∈ s0.history) (hr : (compare r c.ts).isLE) :
    ∃ outs, tb.readIncrementalR E A S.C M m.race start (some c.ts) = .ok outs ∧
      ReadsAllChanges (columnsBy s0.done) start c.ts s0.history (recordsAt (rowsOf s0.done) s0.history c.ts) outs := by
  obtain ⟨v0, g0, hv0, hi0, hg0, rfl⟩ := cleansOnce_sweep hs0
  have hw0 := works_of_once hv0
  obtain ⟨o, hload⟩ := ho.load
  rw [sweep_load hi0 hg0] at hload
  have ho' : AppendsAt E S v0 tb := ⟨⟨o, hload⟩, ho.clock, ho.zone, ho.options, ho.appends⟩
  obtain ⟨j0, hj0, rfl⟩ := mem_commitsOf.1 hc
  obtain ⟨t1, t2, t3⟩ := timeline_of hload ho.zone hi0.wf (by rw [ho.clock]; exact hi0.timeline)
  rw [ho.clock] at t1
  refine all_changes_through A M hmono hsec hv0 hdoc hcount ho' hmeta hs hps hj0 (R := m.race) ?_ ?_
  · intro k r'
    refine no_pending_change_at (fun w hw => no_pending_at (ho.clock ▸ hmono) (ho.clock ▸ hsec) hi0 (placed_works hw0)
      (times_works hw0) ?_ hj0 hs hps)
    intro l ws w' i hl hget
    exact hin _ ws w' i ((blocks_sweep hi0 hr hg0 hw hl).trans hget)
  · intro ss hss
    have hM : ∀ {s}, Cleans S r (sweep v0 g0) s →
        MeanwhileAfter S.C S.ltz S.tz S.o j0.commit.ts tb.timeline (lasting S v0).tree ss s.tree := by
      intro s hs
      obtain ⟨v, gone, hw, hi, hg, rfl⟩ := cleans_sweep hs hi0 hg0 rfl
      exact meanwhileAfter_sweep (ho.clock ▸ hmono) (ho.clock ▸ hsec) hi0 hw hj0 hr hg t1 hss
    exact ⟨fun i => hM (hm.replaced i), hM hm.latest, hM hm.schema, fun x => hM (hm.dirs x), fun x => hM (hm.files x),
      fun x => hM (hm.sizes x), fun x => hM (since_cleaned_data hm x)⟩

end Hudi
