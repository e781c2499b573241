import Verif.Spec.CountedArchived
import Verif.Props.CountedChanges
import Verif.Props.Archiver
import Verif.Props.ArchiverChanges

/-!
# C101: tables that keep every record, while writers, a cleaner and an archiver work
-/

namespace Hudi
open Spec

/-- Writers that append once, a cleaner and an archiver amount to such writers alone, but for the files of superseded
versions and the timeline files that are gone. -/
theorem archivesOnce_sweep {S : Setting} {r q : Str} {s : Work} (h : ArchivesOnce S r q nothingYet s) :
    ∃ v g a, WorksOnce S nothingYet v ∧ Inv S v ∧ Swept S r v g ∧ Trimmed q v a ∧ s = sweep (sweep v g) a := by
  induction h with
  | refl => exact ⟨_, _, _, .refl, inv_nothing S, swept_nothing S r _, trimmed_nothing q _,
      by rw [sweep_sweep]; exact (sweep_nothing _).symm⟩
  | step _ hstep ho ih =>
    obtain ⟨v1, g1, a1, w1, hi1, hg1, ht1, rfl⟩ := ih
    cases hstep with
    | clean _ h =>
      obtain ⟨c, h1, rfl⟩ := clean_trim hi1 ht1 h
      obtain ⟨v2, g2, h2 | h2, h3, rfl⟩ := clean_sweep hi1 hg1 h1
      · rw [h2] at h3 ⊢
        exact ⟨v1, g2, a1, w1, hi1, h3, ht1, rfl⟩
      · refine ⟨v2, g2, a1, .step w1 h2 ho, inv_step hi1 h2, h3, ?_, rfl⟩
        obtain ⟨more, hd⟩ := done_works (.step (.refl _) h2)
        intro p hp
        obtain ⟨j, hj, h⟩ := ht1 p hp
        exact ⟨j, by rw [hd]; simp [hj], h⟩
    | archive j hj hr ha =>
      refine ⟨v1, g1, instantAt j.commit :: a1, w1, hi1, hg1, ?_, ?_⟩
      · intro p hp
        rcases List.mem_cons.1 hp with rfl | hp
        · exact ⟨j, hj, hr, ha, rfl⟩
        · exact ht1 p hp
      · show _ = ({ sweep v1 g1 with store := without (sweep v1 g1).store _ } : Work)
        rw [← delete_without]
        rfl

/-- A handle opened when timeline files were gone knows the last commit, if the archiver keeps that one. -/
theorem knows_last {E : Env} {S : Setting} (hmono : MonotoneTz E.ltz) {r q : Str} {v0 : Work} {g0 a0 : List (List Str)}
    (hi0 : Inv S v0) (hg0 : Swept S r v0 g0) (ht0 : Trimmed q v0 a0) {tl : Timeline}
    (hl : ∃ o, Timeline.load E o (sweep (sweep v0 g0) a0).tree = .ok tl) (hclock : E.ltz = S.ltz)
    (hzone : timezoneOf tl.opts = .ok S.tz) (hq : ∀ c, v0.history.getLast? = some c → (compare q c.ts).isLE) :
    (v0.history = [] ∧ tl.completed = []) ∨
    ∃ c, v0.history.getLast? = some c ∧ tl.latestTimestamp = some c.ts ∧
      v0.history.filter (fun c' => (compare c'.ts c.ts).isLE) = v0.history := by
  obtain ⟨o, hload⟩ := hl
  rw [sweep_sweep] at hload
  obtain ⟨t1, t2, t3⟩ := timeline_of hload hzone (wf_filter hi0.wf (fun c => decide (instantAt c ∉ g0 ++ a0)))
    (by rw [hclock]; exact sweep_timeline hi0 _)
  cases hlast : v0.history.getLast? with
  | none =>
    have hnil := List.getLast?_eq_none_iff.1 hlast
    refine .inl ⟨hnil, ?_⟩
    rw [List.eq_nil_iff_forall_not_mem]
    intro i hi
    obtain ⟨c, hc, _⟩ := t1 i hi
    have := (List.mem_filter.1 hc).1
    rw [hnil] at this
    cases this
  | some c0 =>
    right
    obtain ⟨j0, hj0, rfl⟩ := mem_commitsOf.1 (List.mem_of_getLast? hlast)
    have hk := last_left (keeps_trimmed hi0 hg0 ht0 hq)
    rw [hlast] at hk
    unfold leftOf at hk
    have hall : v0.history.filter (fun c => (compare c.ts j0.commit.ts).isLE) = v0.history := by
      rw [List.filter_eq_self]
      intro c hc
      rcases List.eq_nil_or_concat v0.history with e | ⟨l, c', e⟩
      · rw [e] at hc; cases hc
      · rw [List.concat_eq_append] at e
        rw [e] at hlast hc
        simp only [List.getLast?_append, List.getLast?_singleton, Option.some_or, Option.some.injEq] at hlast
        subst hlast
        rcases List.mem_append.1 hc with h1 | h1
        · have := hi0.wf.ordered
          rw [e, List.pairwise_append] at this
          rw [this.2.2 _ h1 j0.commit (by simp)]; rfl
        · rw [List.mem_singleton.1 h1, Std.ReflCmp.compare_self (cmp := (compare : Str → Str → Ordering))]; rfl
    rcases timeline_last hmono (wf_filter hi0.wf (fun c => decide (instantAt c ∉ g0 ++ a0))) t1 t2 t3 with
      ⟨h1, _⟩ | ⟨c1, d1, h1, h2, _⟩
    · rw [h1] at hk; cases hk
    · rw [h1] at hk
      cases hk
      refine ⟨_, rfl, ?_, hall⟩
      unfold Timeline.latestTimestamp
      rw [h2]
      rfl

/-- **C101, beside an archiver.**  The same while a cleaner works that deletes versions superseded by the time `r`, and an
archiver that takes commits before `q` out of the timeline, as in C102, before and after the handle is opened: reads as
of commits from `r` on, archived or not, return each record exactly as often as it was written.

Missing: writers that have repeated a request to append before the handle was opened (`C101_false`), cleaners that
delete in another order or what the handle still needs (`C90_false`), and archivers that take replacecommits
(`C102_false`). -/
theorem C101_archived_as_of_partial (E : Env) (A : Arrow) (S : Setting) (M : MergeEnv A) (hmono : MonotoneTz E.ltz)
    (hsec : WholeSecondsTz E.ltz) (r q : Str) (s0 : Work) (hs0 : ArchivesOnce S r q nothingYet s0) (hn : NamesCurrent s0)
    (m : Moments) (hm : SinceArchived S r q s0 m) (hcount : ∀ j ∈ s0.done, Counts S j) (tb : Table)
    (filters : List (Str × Str × Str)) (fs : List Filter) (hive url : Bool)
    (ho : AppendingAt E A S s0 tb filters fs hive url) (depth : Nat) (hdepth : S.depth < depth) (c : HCommit)
    (hc : c ∈ s0.history) (hr : (compare r c.ts).isLE)
    (hq : ∀ c, s0.history.getLast? = some c → (compare q c.ts).isLE) :
    ∃ outs, tb.readSnapshotAsOfR E A S.C M depth m.race c.ts filters = .ok outs ∧
      ReadsAll (columnsBy s0.done) (tableAt s0.history c.ts) (Kept A S.pcols hive url fs)
        (recordsAt (rowsOf s0.done) s0.history c.ts) outs := by
  obtain ⟨v0, g0, a0, hw0, hi0, hg0, ht0, rfl⟩ := archivesOnce_sweep hs0
  have hi' := inv_lasting hi0
  obtain ⟨j0, hj0, rfl⟩ := mem_commitsOf.1 hc
  change j0 ∈ v0.done at hj0
  obtain ⟨o, tlf, hloadf, hzonef, hread⟩ := archived_read (A := A) (M := M) hmono hsec hi0 hg0 ht0 hn ho.load ho.clock
    ho.zone ho.options ho.appends.plain (fun hm => absurd hm.1 ho.appends.keeps) ho.appends.noStart ho.appends.zone hj0 hr hq
    hm hdepth
  have hof : AppendingAt E A S v0 { tb with timeline := tlf } filters fs hive url :=
    ⟨⟨o, hloadf⟩, ho.clock, hzonef, ho.options, ⟨ho.appends.plain, ho.appends.keeps, ho.appends.notReadOptimized,
      ho.appends.noStart, ho.appends.zone⟩,
      ho.names, ho.parsed, ho.applicable, ho.style, ho.parallelism⟩
  obtain ⟨outs, h1, h2⟩ := upTo_all E A S M hmono hsec (s := lasting S v0) hi0 hi' (more := [])
    (by rw [List.append_nil]; rfl) (placed_lasting hi0 (placed_works (works_of_once hw0)))
    (doneOnce_lasting hi0 (once_works hw0).1) hcount hof (mem_commitsOf.2 ⟨j0, hj0, rfl⟩)
  obtain ⟨outs', h3, h4⟩ := hread filters outs h1
  exact ⟨outs', h3, readsAll_same h4 h2⟩

/-- **C101, the latest snapshot beside an archiver.**

Missing: as in `C101_archived_as_of_partial`. -/
theorem C101_archived_latest_partial (E : Env) (A : Arrow) (S : Setting) (M : MergeEnv A) (hmono : MonotoneTz E.ltz)
    (hsec : WholeSecondsTz E.ltz) (r q : Str) (s0 : Work) (hs0 : ArchivesOnce S r q nothingYet s0) (hn : NamesCurrent s0)
    (m : Moments) (hm : SinceArchived S r q s0 m) (hcount : ∀ j ∈ s0.done, Counts S j) (tb : Table)
    (filters : List (Str × Str × Str)) (fs : List Filter) (hive url : Bool)
    (ho : AppendingAt E A S s0 tb filters fs hive url) (depth : Nat) (hdepth : S.depth < depth)
    (hr : ∀ c, s0.history.getLast? = some c → (compare r c.ts).isLE)
    (hq : ∀ c, s0.history.getLast? = some c → (compare q c.ts).isLE) :
    ∃ outs, tb.readSnapshotR E A S.C M depth m.race filters = .ok outs ∧
      ReadsAll (columnsBy s0.done) (versionAfter s0.history) (Kept A S.pcols hive url fs)
        (recordsAfter (rowsOf s0.done) s0.history) outs := by
  obtain ⟨v0, g0, a0, hw0, hi0, hg0, ht0, e0⟩ := archivesOnce_sweep hs0
  have hh : s0.history = v0.history := by rw [e0]; rfl
  rcases knows_last hmono hi0 hg0 ht0 (e0 ▸ ho.load) ho.clock ho.zone (hh ▸ hq) with ⟨h1, h2⟩ | ⟨c0, h1, h2, h3⟩
  · refine ⟨[], ?_, [], .nil, ?_, .nil⟩
    · unfold Table.readSnapshotR Timeline.latestTimestamp
      rw [h2]
      rfl
    · intro k
      rw [hh, h1]
      simp [versionAfter]
  · rw [← hh] at h1 h3
    obtain ⟨outs, h4, h5⟩ := C101_archived_as_of_partial E A S M hmono hsec r q s0 hs0 hn m hm hcount tb filters fs hive url
      ho depth hdepth c0 (List.mem_of_getLast? h1) (hr c0 h1) hq
    refine ⟨outs, ?_, ?_⟩
    · unfold Table.readSnapshotR
      rw [h2]
      exact h4
    · have e1 : tableAt s0.history c0.ts = versionAfter s0.history := by
        funext k; unfold tableAt; rw [h3]
      have e2 : recordsAt (rowsOf s0.done) s0.history c0.ts = recordsAfter (rowsOf s0.done) s0.history := by
        funext k; unfold recordsAt; rw [h3]
      rw [e1, e2] at h5
      exact h5

/-- **C101, changes beside an archiver.**  The same of changes, in spans that start at `q` or later and end at `r` or
later: the read returns each record that was committed in the span exactly as often as it was written.

Missing: as in `C101_changes_partial`, and spans that start before `q` (`C102_false_changes`) or end before `r`
(`C92_false`). -/
theorem C101_archived_changes_partial (E : Env) (A : Arrow) (S : Setting) (M : MergeEnv A) (hmono : MonotoneTz E.ltz)
    (hsec : WholeSecondsTz E.ltz) (r q : Str) (s0 : Work) (hs0 : ArchivesOnce S r q nothingYet s0)
    (hdoc : AllDocumented s0.done) (hin : RollbacksInPlace s0) (hcount : ∀ j ∈ s0.done, Counts S j) (m : Moments)
    (hm : SinceArchived S r q s0 m) (tb : Table) (ho : AppendsAt E S s0 tb) (hmeta : MetaFields S.o) (start : Str)
    (hs : WriterTimestamp start ∧ start.length = S.width) (hps : ∃ d, parseDatetime S.ltz start S.tz = .ok d)
    (hqs : (compare q start).isLE) (c : HCommit) (hc : c ∈ s0.history) (hr : (compare r c.ts).isLE) :
    ∃ outs, tb.readIncrementalR E A S.C M m.race start (some c.ts) = .ok outs ∧
      ReadsAllChanges (columnsBy s0.done) start c.ts s0.history (recordsAt (rowsOf s0.done) s0.history c.ts) outs := by
  obtain ⟨v0, g0, a0, hv0, hi0, hg0, ht0, rfl⟩ := archivesOnce_sweep hs0
  have hw0 := works_of_once hv0
  have hi' := inv_lasting hi0
  obtain ⟨j0, hj0, rfl⟩ := mem_commitsOf.1 hc
  change j0 ∈ v0.done at hj0
  change AllDocumented v0.done at hdoc
  have hev : AppendsEvolving S.C S.ltz S.tz (columnsBy v0.done) (lasting S v0).tree v0.history (rowsOf v0.done)
    (heldIn (lasting S v0)) := appends_evolving hi' (placed_lasting hi0 (placed_works hw0))
      (times_lasting hi0 (times_works hw0)) (doneOnce_lasting hi0 (once_works hv0).1) hcount
  obtain ⟨o, tlf, hloadf, hzonef, hread⟩ := archived_changes (A := A) (M := M) hmono hsec hi0 hg0 ht0 hdoc ho.load ho.clock
    ho.zone ho.options ho.appends.plain ho.appends.zone hs hps hqs hj0 hr (fun ss h2 => by
      intro _ x hx l hl
      obtain ⟨v, hv⟩ := Option.ne_none_iff_exists'.1 ((h2.groups (sliceKey x)).1 ⟨x, hx, rfl⟩).2
      obtain ⟨b1, b2, b3, c0, token, hsp⟩ := spanSlice_of hi0.wf rfl hv (h2.versions x hx v hv)
      obtain ⟨c, hap, _⟩ := (hsp.named (l.version, l.writeToken)).1 ⟨l, hl, rfl⟩
      rw [hsp.paths l hl]
      exact ⟨_, hev.logs _ _ _ _ hap, fun w hw => (hev.blocks _ _ w ⟨_, c, hap, hw⟩).1⟩) hm
  have hof : AppendsAt E S v0 { tb with timeline := tlf } :=
    ⟨⟨o, hloadf⟩, ho.clock, hzonef, ho.options, ⟨ho.appends.plain, ho.appends.keeps, ho.appends.notReadOptimized,
      ho.appends.noStart, ho.appends.zone⟩⟩
  obtain ⟨outs, h3, h4⟩ := all_changes_through A M hmono hsec hv0 hdoc hcount hof hmeta hs hps hj0
    (R := Race.still (lasting S v0).tree) (by
      intro k r'
      refine no_pending_change_at (fun w hw => no_pending_at (ho.clock ▸ hmono) (ho.clock ▸ hsec) hi0 (placed_works hw0)
        (times_works hw0) ?_ hj0 hs hps)
      intro l ws w' i hl hget
      have hsame : (sweep (sweep v0 g0) a0).store.get (logAt k w.base l) = v0.store.get (logAt k w.base l) := by
        rw [get_sweep (log_kept hi0 ht0 (tableAt_key hi0 hw).1), blocks_sweep hi0 hr hg0 hw hl]
      exact hin _ ws w' i (hsame.trans hget))
    (by
      intro ss _
      have hM : MeanwhileAfter S.C S.ltz S.tz S.o j0.commit.ts tlf (lasting S v0).tree ss (lasting S v0).tree :=
        ⟨fun _ _ => rfl, fun _ _ _ h => h,
          fun _ _ _ _ _ ws h _ => ⟨[], by rw [List.append_nil]; exact h, fun _ h => nomatch h⟩⟩
      exact ⟨fun _ => hM, hM, hM, fun _ => hM, fun _ => hM, fun _ => hM, fun _ => hM⟩)
  rw [C68_nobody_writes] at h3
  exact ⟨outs, hread outs h3, h4⟩

/-- **C101, changes up to now beside an archiver.**  Likewise without an end, if cleaner and archiver keep what the
handle's last commit needs.

Missing: as in `C101_archived_changes_partial`. -/
theorem C101_archived_latest_changes_partial (E : Env) (A : Arrow) (S : Setting) (M : MergeEnv A)
    (hmono : MonotoneTz E.ltz) (hsec : WholeSecondsTz E.ltz) (r q : Str) (s0 : Work)
    (hs0 : ArchivesOnce S r q nothingYet s0) (hdoc : AllDocumented s0.done) (hin : RollbacksInPlace s0)
    (hcount : ∀ j ∈ s0.done, Counts S j) (m : Moments) (hm : SinceArchived S r q s0 m) (tb : Table)
    (ho : AppendsAt E S s0 tb) (hmeta : MetaFields S.o) (start : Str)
    (hs : WriterTimestamp start ∧ start.length = S.width) (hps : ∃ d, parseDatetime S.ltz start S.tz = .ok d)
    (hqs : (compare q start).isLE) (hr : ∀ c, s0.history.getLast? = some c → (compare r c.ts).isLE)
    (hq : ∀ c, s0.history.getLast? = some c → (compare q c.ts).isLE) :
    (s0.history = [] ∧ tb.readIncrementalR E A S.C M m.race start none = .ok []) ∨
    ∃ c outs, s0.history.getLast? = some c ∧ tb.readIncrementalR E A S.C M m.race start none = .ok outs ∧
      ReadsAllChanges (columnsBy s0.done) start c.ts s0.history (recordsAfter (rowsOf s0.done) s0.history) outs := by
  obtain ⟨v0, g0, a0, hw0, hi0, hg0, ht0, e0⟩ := archivesOnce_sweep hs0
  have hh : s0.history = v0.history := by rw [e0]; rfl
  rcases knows_last hmono hi0 hg0 ht0 (e0 ▸ ho.load) ho.clock ho.zone (hh ▸ hq) with ⟨h1, h2⟩ | ⟨c0, h1, h2, h3⟩
  · refine .inl ⟨hh ▸ h1, ?_⟩
    unfold Table.readIncrementalR Timeline.latestTimestamp
    rw [h2]
    rfl
  · right
    rw [← hh] at h1 h3
    obtain ⟨outs, h4, h5⟩ := C101_archived_changes_partial E A S M hmono hsec r q s0 hs0 hdoc hin hcount m hm tb ho hmeta
      start hs hps hqs c0 (List.mem_of_getLast? h1) (hr c0 h1)
    refine ⟨c0, outs, h1, ?_, ?_⟩
    · unfold Table.readIncrementalR at h4 ⊢
      rw [h2]
      exact h4
    · have e2 : recordsAt (rowsOf s0.done) s0.history c0.ts = recordsAfter (rowsOf s0.done) s0.history := by
        funext k; unfold recordsAt; rw [h3]
      rw [e2] at h5
      exact h5

end Hudi
