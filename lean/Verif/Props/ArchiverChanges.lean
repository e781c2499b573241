import Verif.Lemmas.ArchiverChanges
import Verif.Props.CleanerChanges

/-!
# C102: reading changes while an archiver works

Writers work on a table, a cleaner deletes files of superseded versions, and an archiver deletes timeline files of old
commits.  Reads of what changed between two times run while they do.
-/

namespace Hudi
open Spec

/-- The changes that are read, while writers, cleaner and archiver work, through a handle that may have been opened when
timeline files were gone, are those read when nobody works, nothing has been deleted, and the handle knows the whole
timeline. -/
theorem archived_changes {E : Env} {A : Arrow} {S : Setting} {M : MergeEnv A} (hmono : MonotoneTz E.ltz)
    (hsec : WholeSecondsTz E.ltz) {r q : Str} {v0 : Work} {g0 a0 : List (List Str)} (hi0 : Inv S v0)
    (hg0 : Swept S r v0 g0) (ht0 : Trimmed q v0 a0) (hdoc : AllDocumented v0.done) {tb : Table}
    (hl : ∃ o, Timeline.load E o (sweep (sweep v0 g0) a0).tree = .ok tb.timeline) (hclock : E.ltz = S.ltz)
    (hzone : timezoneOf tb.timeline.opts = .ok S.tz) (hopts : tb.opts = S.o) (hp : PlainStorage tb)
    (htz : timezoneOf tb.opts = .ok S.tz) {start : Str} (hs : WriterTimestamp start ∧ start.length = S.width)
    (hps : ∃ d, parseDatetime S.ltz start S.tz = .ok d) (hqs : (compare q start).isLE) {j0 : Job} (hj0 : j0 ∈ v0.done)
    (hr : (compare r j0.commit.ts).isLE)
    (hgood : ∀ ss, ShowsTable (changedAt v0.history start j0.commit.ts) (fun _ => True) ss →
      GoodLogs S.C S.ltz S.tz S.o (lasting S v0).tree ss) {m : Moments}
    (hm : SinceArchived S r q (sweep (sweep v0 g0) a0) m) :
    ∃ o tlf, Timeline.load E o v0.tree = .ok tlf ∧ timezoneOf tlf.opts = .ok S.tz ∧ ∀ outs,
      Table.readIncremental E A S.C M { tb with timeline := tlf } (lasting S v0).tree start (some j0.commit.ts) = .ok outs →
      tb.readIncrementalR E A S.C M m.race start (some j0.commit.ts) = .ok outs := by
  obtain ⟨d1, hjob⟩ := hi0.jobOf hj0
  have hi' := inv_lasting hi0
  -- the timeline of the handle, the whole one, and the one without all that may be archived
  obtain ⟨o, hload⟩ := hl
  rw [sweep_sweep] at hload
  obtain ⟨tlf, hloadf⟩ := load_other (gone' := []) hi0 hg0 ht0 hload
  obtain ⟨tls, hloads⟩ := load_other (gone' := archivable q v0) hi0 hg0 ht0 hload
  have hspare : ∀ {a}, Trimmed q v0 a → ∀ c ∈ v0.history, compare start c.ts = .lt → instantAt c ∉ a := by
    intro a ht c hc h
    exact trimmed_spares hi0 ht (hi0.wf.times c hc).1 (.inr (Std.TransCmp.isLE_trans hqs (by rw [h]; rfl)))
  have hk : ∀ c ∈ v0.history, compare start c.ts = .lt → instantAt c ∉ g0 ++ a0 := by
    intro c hc h hm
    rcases List.mem_append.1 hm with hm | hm
    · exact old_instant (c := c) hi0 (hg0.old hm)
    · exact hspare ht0 c hc h hm
  have hkf : ∀ c ∈ v0.history, compare start c.ts = .lt → instantAt c ∉ ([] : List (List Str)) :=
    fun _ _ _ h => nomatch h
  have hks := hspare (archivable_trimmed q v0)
  have al := alikeSince_sweep hclock hmono hi0 hs hps hk hks hload hloads hzone
  have alf := alikeSince_sweep hclock hmono hi0 hs hps hk hkf hload hloadf hzone
  have hzonef : timezoneOf tlf.opts = .ok S.tz := by rw [← alf.opts]; exact hzone
  have hzones : timezoneOf tls.opts = .ok S.tz := by rw [← al.opts]; exact hzone
  have alfs := alikeSince_sweep hclock hmono hi0 hs hps hkf hks hloadf hloads hzonef
  rw [sweep_nothing] at hloadf
  obtain ⟨t1, t2, t3⟩ := timeline_of hloadf hzonef hi0.wf (by rw [hclock]; exact hi0.timeline)
  rw [hclock] at t1 t2
  obtain ⟨u1, _, _⟩ := timeline_of hloads hzones (wf_filter hi0.wf (fun c => decide (instantAt c ∉ archivable q v0)))
    (by rw [hclock]; exact sweep_timeline hi0 _)
  rw [hclock] at u1
  have hsub : ∀ {v : Work} {a : List (List Str)}, Inv S v → Trimmed q v a → ∀ i ∈ tls.completed, i ∈ tlf.completed ∧
      [c!".hoodie", i.timestamp ++ c!"." ++ suffix i.action i.state] ∉ a := by
    intro v a hi ht i him
    obtain ⟨c, hc, d, hd, rfl⟩ := u1 i him
    obtain ⟨hc1, hc2⟩ := List.mem_filter.1 hc
    have hc2 := of_decide_eq_true hc2
    obtain ⟨d', hd', h3⟩ := t2 c hc1
    rw [hd] at hd'; cases hd'
    refine ⟨h3, trimmed_spares (c := c) hi ht (hi0.wf.times c hc1).1 ?_⟩
    by_contra hcon
    rw [not_or] at hcon
    refine hc2 ?_
    obtain ⟨j, hj, rfl⟩ := mem_commitsOf.1 hc1
    refine List.mem_map.2 ⟨j, List.mem_filter.2 ⟨hj, decide_eq_true ⟨?_, hcon.1⟩⟩, rfl⟩
    have := hcon.2
    rw [Std.OrientedCmp.eq_swap (cmp := (compare : Str → Str → Ordering))]
    cases hcmp : (compare q j.commit.ts) <;> simp_all
  refine ⟨o, tlf, hloadf, hzonef, fun outs h3 => ?_⟩
  obtain ⟨ss, hss, hshow⟩ := changed_slices (E := E) (t := (lasting S v0).tree) (tb := { tb with timeline := tlf }) hmono
    hloadf hzonef hi0.wf (by rw [hclock]; exact knows_lasting hi0) (docs_stored hi' hdoc) hs hjob.time (by rw [hclock]; exact hps)
    (by rw [hclock]; exact hjob.parses)
  rw [AlikeSince.reads (tb := { tb with timeline := tlf }) alfs] at h3
  rw [AlikeSince.between (tb := { tb with timeline := tlf }) alfs] at hss
  -- while all of them work
  have hM : ∀ {s}, Archives S r q (sweep (sweep v0 g0) a0) s → MeanwhileAfter S.C S.ltz S.tz S.o j0.commit.ts tls
      (lasting S v0).tree ss s.tree := by
    intro s hsa
    obtain ⟨v, g, a, hw, hi, hg, ht, rfl⟩ := archives_sweep hsa hi0 hg0 ht0 rfl
    rw [sweep_sweep]
    exact meanwhileAfter_trim hi0 hi ht (hsub hi ht) hshow
      (meanwhileAfter_sweep (hclock ▸ hmono) (hclock ▸ hsec) hi0 hw hj0 hr hg t1 hshow)
  have hdata : ∀ p, Archives S r q (sweep (sweep v0 g0) a0) (m.data p) := by
    intro p
    have h1 := hm.files []
    have h2 := hm.data [] p
    generalize m.data p = d at h2 ⊢
    induction h2 with
    | refl => exact h1
    | step _ hstep ih => exact .step ih hstep
  have hread := C68_changes_isolated_partial E A S.C M o (sweep v0 (archivable q v0)).tree (lasting S v0).tree
    { tb with timeline := tls } m.race start j0.commit.ts S.tz (some j0.commit.ts) hloads
    (timelineNames_normal (wf_treeOf (sweep_paths hi0))) hp htz rfl
    (by rw [hclock]; exact hps) (by rw [hclock]; exact hjob.parses) ss hss
    (by
      rw [hclock]
      exact hopts ▸ ⟨fun i => hM (hm.replaced i), hM hm.latest, hM hm.schema, fun x => hM (hm.dirs x),
        fun x => hM (hm.files x), fun x => hM (hm.sizes x), fun x => hM (hdata x)⟩)
    (by
      rw [hclock]
      exact hopts ▸ hgood ss hshow) outs h3
  rw [al.readsR]
  exact hread

/-- **C102, changes, exactly.**  Writers work on a table, a cleaner deletes files of versions of file groups that
completed writes up to the time `r` have superseded, and an archiver deletes the timeline files of completed commits
before the time `q` other than replacecommits.  A handle opened at any moment `s0` reads the changes between any time
from `q` on and any commit from `r` on that had completed at `s0`, while all of them go on working: each request of the read is
answered at some later moment.  The read returns exactly the records that the writes completed in the span had written,
and those of blocks, in log files that these writes have appended to, of failed writes that no block in such a log file
rolls back. -/
theorem C102_changes_and_failed (E : Env) (A : Arrow) (S : Setting) (M : MergeEnv A) (hmono : MonotoneTz E.ltz)
    (hsec : WholeSecondsTz E.ltz) (r q : Str) (s0 : Work) (hs0 : Archives S r q nothingYet s0) (hdoc : AllDocumented s0.done)
    (m : Moments) (hm : SinceArchived S r q s0 m) (tb : Table) (ho : HandleAt E S s0 tb)
    (hmeta : MetaFields S.o) (start : Str) (hs : WriterTimestamp start ∧ start.length = S.width)
    (hps : ∃ d, parseDatetime S.ltz start S.tz = .ok d) (hqs : (compare q start).isLE) (c : HCommit)
    (hc : c ∈ s0.history) (hr : (compare r c.ts).isLE) :
    ∃ outs, tb.readIncrementalR E A S.C M m.race start (some c.ts) = .ok outs ∧
      ReadsEvolvingChanges A (columnsBy s0.done) S.pre start c.ts s0.history (fun schema k r =>
        (r ∈ recordsAt (rowsOf s0.done) s0.history c.ts k ∧ CommittedIn schema start (some c.ts) r) ∨
          PendingChange S.C S.ltz S.tz start c.ts s0.history s0.blocksAt k r) outs := by
  obtain ⟨v0, g0, a0, hw0, hi0, hg0, ht0, rfl⟩ := archives_sweep hs0 (inv_nothing S) (swept_nothing S r _)
    (trimmed_nothing q _) (by rw [sweep_sweep]; exact (sweep_nothing _).symm)
  obtain ⟨j0, hj0, rfl⟩ := mem_commitsOf.1 hc
  change j0 ∈ v0.done at hj0
  change AllDocumented v0.done at hdoc
  have hi' := inv_lasting hi0
  obtain ⟨o, tlf, hloadf, hzonef, hread⟩ := archived_changes (A := A) (M := M) hmono hsec hi0 hg0 ht0 hdoc ho.load ho.clock
    ho.zone ho.options ho.merges.plain ho.merges.zone hs hps hqs hj0 hr (fun ss hshow => ho.options ▸
      goodLogs_works (ho.options ▸ ho.overwrites) hi' (placed_lasting hi0 (placed_works hw0)) (times_lasting hi0 (times_works hw0))
        hshow) hm
  have hof : HandleAt E S v0 { tb with timeline := tlf } :=
    ⟨⟨o, hloadf⟩, ho.clock, hzonef, ho.options, ⟨ho.merges.plain, ho.merges.merges, ho.merges.noStart, ho.merges.zone⟩⟩
  -- the changes, when nobody works
  obtain ⟨outs, h3, ks, h4, h5, h6⟩ := changes_through A M hmono hsec hw0 hdoc hof hmeta hs hps hj0
    (R := Race.still (lasting S v0).tree) (by
      intro ss _
      have hM : MeanwhileAfter S.C S.ltz S.tz S.o j0.commit.ts tlf (lasting S v0).tree ss (lasting S v0).tree :=
        ⟨fun _ _ => rfl, fun _ _ _ h => h,
          fun _ _ _ _ _ ws h _ => ⟨[], by rw [List.append_nil]; exact h, fun _ h => nomatch h⟩⟩
      exact ⟨fun _ => hM, hM, hM, fun _ => hM, fun _ => hM, fun _ => hM, fun _ => hM⟩)
  rw [C68_nobody_writes] at h3
  refine ⟨outs, hread outs h3, ks, h4, h5, h6.imp ?_⟩
  rintro k out ⟨v, rows, q1, q2, q3, q4⟩
  refine ⟨v, rows, q1, q2, fun r' => (q3 r').trans (or_congr_right (pendingChange_congr k ?_ r')), q4⟩
  intro w hw l c hap
  obtain ⟨d1, j, d2, ls, v, ws, hcl, _⟩ := commit_log hi0 (placed_works hw0) hap
  obtain ⟨hkey, _, _⟩ := tableAt_key hi0 hw
  unfold Work.blocksAt
  rw [hcl.segs, get_sweep (log_kept hi0 ht0 hkey), blocks_sweep hi0 hr hg0 hw hcl.parts]

/-- **C102, changes up to a commit (partial).**  Likewise, when rollbacks leave their blocks where those of the failed
write are: the read returns exactly the records that the writes completed in the span had written, as if nothing had been
deleted.  Missing: spans that start before `q` (`C102_false_changes`), and rollbacks whose blocks are in other log files
than those of the failed write (`C84_false`). -/
theorem C102_changes_partial (E : Env) (A : Arrow) (S : Setting) (M : MergeEnv A) (hmono : MonotoneTz E.ltz)
    (hsec : WholeSecondsTz E.ltz) (r q : Str) (s0 : Work) (hs0 : Archives S r q nothingYet s0) (hdoc : AllDocumented s0.done)
    (hin : RollbacksInPlace s0) (m : Moments) (hm : SinceArchived S r q s0 m) (tb : Table) (ho : HandleAt E S s0 tb)
    (hmeta : MetaFields S.o) (start : Str) (hs : WriterTimestamp start ∧ start.length = S.width)
    (hps : ∃ d, parseDatetime S.ltz start S.tz = .ok d) (hqs : (compare q start).isLE) (c : HCommit)
    (hc : c ∈ s0.history) (hr : (compare r c.ts).isLE) :
    ∃ outs, tb.readIncrementalR E A S.C M m.race start (some c.ts) = .ok outs ∧
      ReadsEvolvingChanges A (columnsBy s0.done) S.pre start c.ts s0.history (fun schema k r =>
        r ∈ recordsAt (rowsOf s0.done) s0.history c.ts k ∧ CommittedIn schema start (some c.ts) r) outs := by
  obtain ⟨outs, h3, ks, h4, h5, h6⟩ := C102_changes_and_failed E A S M hmono hsec r q s0 hs0 hdoc m hm tb ho hmeta start hs
    hps hqs c hc hr
  obtain ⟨v0, g0, a0, hw0, hi0, hg0, ht0, rfl⟩ := archives_sweep hs0 (inv_nothing S) (swept_nothing S r _)
    (trimmed_nothing q _) (by rw [sweep_sweep]; exact (sweep_nothing _).symm)
  obtain ⟨j0, hj0, rfl⟩ := mem_commitsOf.1 hc
  refine ⟨outs, h3, ks, h4, h5, h6.imp ?_⟩
  rintro k out ⟨v, rows, q1, q2, q3, q4⟩
  refine ⟨v, rows, q1, q2, fun r' => (q3 r').trans ?_, q4⟩
  have hget : ∀ {w}, tableAt v0.history j0.commit.ts k = some w → ∀ {l : Str × Str}, NamePart l.1 ∧ NamePart l.2 →
      (sweep (sweep v0 g0) a0).store.get (logAt k w.base l) = v0.store.get (logAt k w.base l) := by
    intro w hw l hl
    rw [get_sweep (log_kept hi0 ht0 (tableAt_key hi0 hw).1), blocks_sweep hi0 hr hg0 hw hl]
  have hno : ¬ PendingChange S.C S.ltz S.tz start j0.commit.ts v0.history v0.blocksAt k r' := by
    refine no_pending_change_at (fun w hw => no_pending_at (ho.clock ▸ hmono) (ho.clock ▸ hsec) hi0 (placed_works hw0)
      (times_works hw0) ?_ hj0 hs hps)
    intro l ws w' i hl h
    exact hin _ ws w' i ((hget hw hl).trans h)
  have hsame : PendingChange S.C S.ltz S.tz start j0.commit.ts v0.history (sweep (sweep v0 g0) a0).blocksAt k r' ↔
      PendingChange S.C S.ltz S.tz start j0.commit.ts v0.history v0.blocksAt k r' := by
    refine pendingChange_congr k ?_ r'
    intro w hw l c hap
    obtain ⟨d1, j, d2, ls, v, ws, hcl, _⟩ := commit_log hi0 (placed_works hw0) hap
    unfold Work.blocksAt
    rw [hcl.segs, hget hw hcl.parts]
  change _ ∨ PendingChange S.C S.ltz S.tz start j0.commit.ts v0.history (sweep (sweep v0 g0) a0).blocksAt k r' ↔ _
  rw [hsame]
  simp [hno]

/-- **C102, changes up to now (partial).**  Likewise without an end, if cleaner and archiver keep to a time that the
handle knows: the read returns exactly the records that had been written, when the handle was opened, by the writes
completed since `start`; nothing if there were none.  Missing: as in `C102_changes_partial`. -/
theorem C102_latest_changes_partial (E : Env) (A : Arrow) (S : Setting) (M : MergeEnv A) (hmono : MonotoneTz E.ltz)
    (hsec : WholeSecondsTz E.ltz) (r q : Str) (s0 : Work) (hs0 : Archives S r q nothingYet s0) (hdoc : AllDocumented s0.done)
    (hin : RollbacksInPlace s0) (m : Moments) (hm : SinceArchived S r q s0 m) (tb : Table) (ho : HandleAt E S s0 tb)
    (hmeta : MetaFields S.o) (start : Str) (hs : WriterTimestamp start ∧ start.length = S.width)
    (hps : ∃ d, parseDatetime S.ltz start S.tz = .ok d) (hqs : (compare q start).isLE)
    (hr : ∀ c, s0.history.getLast? = some c → (compare r c.ts).isLE)
    (hq : ∀ c, s0.history.getLast? = some c → (compare q c.ts).isLE) :
    (s0.history = [] ∧ tb.readIncrementalR E A S.C M m.race start none = .ok []) ∨
    ∃ c outs, s0.history.getLast? = some c ∧ tb.readIncrementalR E A S.C M m.race start none = .ok outs ∧
      ReadsEvolvingChanges A (columnsBy s0.done) S.pre start c.ts s0.history (fun schema k r =>
        r ∈ recordsAfter (rowsOf s0.done) s0.history k ∧ CommittedIn schema start (some c.ts) r) outs := by
  obtain ⟨v0, g0, a0, _, hi0, hg0, ht0, e0⟩ := archives_sweep hs0 (inv_nothing S) (swept_nothing S r _)
    (trimmed_nothing q _) (by rw [sweep_sweep]; exact (sweep_nothing _).symm)
  have hh : s0.history = v0.history := by rw [e0]; rfl
  obtain ⟨o, hload⟩ := ho.load
  rw [e0, sweep_sweep] at hload
  obtain ⟨t1, t2, t3⟩ := timeline_of hload ho.zone (wf_filter hi0.wf (fun c => decide (instantAt c ∉ g0 ++ a0)))
    (by rw [ho.clock]; exact sweep_timeline hi0 _)
  cases hlast : s0.history.getLast? with
  | none =>
    have hnil := List.getLast?_eq_none_iff.1 hlast
    refine .inl ⟨hnil, ?_⟩
    have h2 : tb.timeline.completed = [] := by
      rw [List.eq_nil_iff_forall_not_mem]
      intro i hi
      obtain ⟨c, hc, _⟩ := t1 i hi
      have := (List.mem_filter.1 hc).1
      rw [← hh, hnil] at this
      cases this
    unfold Table.readIncrementalR Timeline.latestTimestamp
    rw [h2]
    rfl
  | some c0 =>
    right
    obtain ⟨j0, hj0, hjc⟩ := mem_commitsOf.1 (hh ▸ List.mem_of_getLast? hlast : c0 ∈ v0.history)
    have hk := keeps_trimmed hi0 hg0 ht0 (hh ▸ hq)
    have hl := last_left hk
    rw [← hh, hlast] at hl
    rcases timeline_last hmono (wf_filter hi0.wf _) t1 t2 t3 with ⟨h1, _⟩ | ⟨c, d0, h1, h2, _⟩
    · unfold leftOf at hl; rw [h1] at hl; cases hl
    · unfold leftOf at hl; rw [h1] at hl; cases hl
      obtain ⟨outs, h4, h5⟩ := C102_changes_partial E A S M hmono hsec r q s0 hs0 hdoc hin m hm tb ho hmeta start hs hps hqs
        c0 (List.mem_of_getLast? hlast) (hr c0 hlast)
      refine ⟨c0, outs, rfl, ?_, ?_⟩
      · unfold Table.readIncrementalR Timeline.latestTimestamp at h4 ⊢
        rw [h2]
        exact h4
      · have e2 : recordsAt (rowsOf s0.done) s0.history c0.ts = recordsAfter (rowsOf s0.done) s0.history := by
          funext k; unfold recordsAt; rw [hh, upTo_last hi0.wf (hh ▸ hlast)]
        rw [e2] at h5
        exact h5

end Hudi
