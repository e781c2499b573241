import Verif.Spec.ArchiverTail
import Verif.Props.Archiver
import Verif.Props.ArchiverChanges
import Verif.Props.CleanerMirror

/-!
# C103: consumers that follow a table while writers, a cleaner and an archiver work
-/

namespace Hudi

open Spec

theorem archives_mono {S : Setting} {r r' q q' : Str} (hr : (compare r r').isLE = true) (hq : (compare q q').isLE = true)
    {a b : Work} (h : Archives S r q a b) : Archives S r' q' a b := by
  have hsup : ∀ {js k base}, Superseded js r k base → Superseded js r' k base :=
    fun ⟨j, hj, h1, h2, h3⟩ => ⟨j, hj, h1, trans_le h2 hr, h3⟩
  induction h with
  | refl => exact .refl _
  | step _ hs ih =>
    refine .step ih ?_
    cases hs with
    | clean _ h =>
      refine .clean _ _ ?_
      cases h with
      | work _ h => exact .work _ _ h
      | log j k token l hj hk hs hl => exact .log _ j k token l hj hk (hsup hs) hl
      | base j k token hj hk hs hl => exact .base _ j k token hj hk (hsup hs) hl
    | archive j hj hlt ha => exact .archive _ j hj (Std.TransCmp.lt_of_lt_of_isLE hlt hq) ha

theorem archives_after {S : Setting} {r q : Str} {a b c : Work} (h1 : Archives S r q a b) (h2 : Archives S r q b c) :
    Archives S r q a c := by
  induction h2 with
  | refl => exact h1
  | step _ hs ih => exact .step ih hs

theorem archives_done {S : Setting} {r q : Str} {a b : Work} (h : Archives S r q a b) :
    ∃ more, b.done = a.done ++ more := by
  induction h with
  | refl => exact ⟨[], by simp⟩
  | step _ hs ih =>
    obtain ⟨more, hd⟩ := ih
    cases hs with
    | clean _ h =>
      obtain ⟨more', hd'⟩ := cleans_done (.step (.refl _) h)
      exact ⟨more ++ more', by rw [hd', hd]; simp⟩
    | archive => exact ⟨more, hd⟩

theorem archives_jobs {S : Setting} {r q : Str} {s : Work} (h : Archives S r q nothingYet s) : JobsOk S s.done := by
  obtain ⟨v, g, a, _, hi, _, _, rfl⟩ := archives_sweep h (inv_nothing S) (swept_nothing S r _) (trimmed_nothing q _)
    (by rw [sweep_sweep]; exact (sweep_nothing _).symm)
  exact hi.jobs

/-- A time no later than a commit is no later than the latest one, whatever writers do. -/
theorem keeps_later {S : Setting} {q : Str} {s s' : Work} (hj : JobsOk S s'.done) {more : List Job}
    (hd : s'.done = s.done ++ more) {c : HCommit} (hc : s.history.getLast? = some c) (hq : (compare q c.ts).isLE = true) :
    KeepsLatest q s' := by
  intro c' hc'
  obtain ⟨j, hj', rfl⟩ := mem_commitsOf.1 (List.mem_of_getLast? hc)
  exact Std.TransCmp.isLE_trans hq (later_last hj hc' j (by rw [hd]; simp [hj']))

/-- What a handle takes for the latest commit. -/
theorem latest_archived {E : Env} {S : Setting} (hmono : MonotoneTz E.ltz) {r q : Str} {s : Work}
    (h : Archives S r q nothingYet s) (hq : KeepsLatest q s) {tb : Table} (ho : HandleAt E S s tb) {c0 : HCommit}
    (hc : s.history.getLast? = some c0) :
    ∃ d0, tb.timeline.completed.getLast? = some ⟨c0.ts, c0.action, .completed, DateTime.epochMillis d0⟩ := by
  obtain ⟨v0, g0, a0, _, hi0, hg0, ht0, rfl⟩ := archives_sweep h (inv_nothing S) (swept_nothing S r _)
    (trimmed_nothing q _) (by rw [sweep_sweep]; exact (sweep_nothing _).symm)
  obtain ⟨o, hload⟩ := ho.load
  rw [sweep_sweep] at hload
  obtain ⟨t1, t2, t3⟩ := timeline_of hload ho.zone (wf_filter hi0.wf (fun c => decide (instantAt c ∉ g0 ++ a0)))
    (by rw [ho.clock]; exact sweep_timeline hi0 _)
  have hl := last_left (keeps_trimmed hi0 hg0 ht0 hq)
  change v0.history.getLast? = some c0 at hc
  rw [hc] at hl
  unfold leftOf at hl
  rcases timeline_last hmono (wf_filter hi0.wf (fun c => decide (instantAt c ∉ g0 ++ a0))) t1 t2 t3 with
    ⟨h1, _⟩ | ⟨c1, d1, h1, h2, _⟩
  · rw [h1] at hl; cases hl
  · rw [h1] at hl
    cases hl
    exact ⟨d1, h2⟩

theorem latest_archived_of {E : Env} {S : Setting} (hmono : MonotoneTz E.ltz) {r q : Str} {s : Work}
    (h : Archives S r q nothingYet s) (hq : KeepsLatest q s) {c : HCommit} (hne : c ∈ s.history) {tb : Table}
    (ho : HandleAt E S s tb) :
    ∃ c0 d0, s.history.getLast? = some c0 ∧ tb.timeline.latestTimestampR = .ok c0.ts ∧
      tb.timeline.completed.getLast? = some ⟨c0.ts, c0.action, .completed, DateTime.epochMillis d0⟩ := by
  cases hl : s.history.getLast? with
  | none => rw [List.getLast?_eq_none_iff.1 hl] at hne; cases hne
  | some c0 =>
    obtain ⟨d0, h1⟩ := latest_archived hmono h hq ho hl
    refine ⟨c0, d0, rfl, ?_, h1⟩
    unfold Timeline.latestTimestampR Timeline.latestTimestamp
    rw [h1]
    rfl

theorem follows_archives {E : Env} {A : Arrow} {S : Setting} {M : MergeEnv A} {pos0 r q : Str} {ps : List Poll} {s : Work}
    {pos : Str} (h : FollowsArchived E A S M pos0 r q ps s pos) : Archives S r q nothingYet s := by
  induction h with
  | begins r q s c hs hl hp => exact hs
  | polls h r' q' hr' hq' s' hs hk hq tb ho m hm stop hl outs hr ih => exact archives_after (archives_mono hr' hq' ih) hs

theorem followed_archived {E : Env} {A : Arrow} {S : Setting} {M : MergeEnv A} (hmono : MonotoneTz E.ltz)
    (hsec : WholeSecondsTz E.ltz) {pos0 r q : Str} {ps : List Poll} {s : Work} {pos : Str}
    (h : FollowsArchived E A S M pos0 r q ps s pos) : Followed A S pos0 ps s pos := by
  induction h with
  | begins r q s c hs hl hp =>
    subst hp
    exact followed_begins (archives_jobs hs) hl
  | @polls r q ps s pos h r' q' hr' hq' s' hs hk hq tb ho m hm stop hl outs hr ih =>
    have hw' := archives_after (archives_mono hr' hq' (follows_archives h)) hs
    obtain ⟨more, hd⟩ := archives_done hs
    obtain ⟨c, hc, rfl⟩ := ih.last
    have hkq := keeps_later (archives_jobs hw') hd hc hq
    obtain ⟨j, hj', rfl⟩ := mem_commitsOf.1 (List.mem_of_getLast? hc)
    obtain ⟨c0, d0, h1, h3, h2⟩ := latest_archived_of hmono hw' hkq
      (mem_commitsOf.2 ⟨j, by rw [hd]; simp [hj'], rfl⟩ : j.commit ∈ s'.history) ho
    rw [hl] at h3
    cases h3
    refine followed_polls ih (archives_jobs hw') hd h1 (fun hdoc hmeta hin ht hp => ?_)
    obtain ⟨outs', h4, h5⟩ := C102_changes_partial E A S M hmono hsec r' q' s' hw' hdoc hin m hm tb ho hmeta _ ht hp hq c0
      (List.mem_of_getLast? h1) (hk c0 h1)
    rw [up_to_latest h2, h4] at hr
    cases hr
    exact h5

/-- **C103, nothing missed (partial).**  As C93, while an archiver deletes timeline files of completed commits before a
time that moves on, other than replacecommits; at each visit, that time is no later than the consumer's visit before.
However things go on afterwards, up to any moment `s'`, each visit has received what the completed writes had changed in
its span, as the history at `s'` has it; each write completed after the beginning and before the last visit falls in
exactly one visit; and all later writes will fall in later ones.  Missing: what is missing in C93, and an archiver that
goes beyond the consumer's last visit (`C103_false`). -/
theorem C103_nothing_missed_partial (E : Env) (A : Arrow) (S : Setting) (M : MergeEnv A) (hmono : MonotoneTz E.ltz)
    (hsec : WholeSecondsTz E.ltz) (pos0 r q : Str) (ps : List Poll) (s : Work) (pos : Str)
    (h : FollowsArchived E A S M pos0 r q ps s pos) (r' q' : Str) (hr : (compare r r').isLE = true)
    (hq : (compare q q').isLE = true)
    (s' : Work) (hs' : Archives S r' q' s s') (hdoc : AllDocumented s'.done) (hmeta : MetaFields S.o)
    (hin : ∀ p ∈ ps, RollbacksInPlace p.moment) :
    (∀ p ∈ ps, p.Received A S s'.done) ∧
    (∀ j ∈ s.done, compare pos0 j.commit.ts = .lt → ∃! i : Nat, ∃ p, ps[i]? = some p ∧ p.Covers j.commit.ts) ∧
    ∀ j ∈ s'.done, j ∉ s.done → compare pos j.commit.ts = .lt := by
  obtain ⟨more, hd⟩ := archives_done hs'
  exact nothing_missed (followed_archived hmono hsec h)
    (archives_jobs (archives_after (archives_mono hr hq (follows_archives h)) hs')) hd hdoc hmeta hin

/-- **C103, nothing twice (partial).**  No two visits receive rows of the same commit.  Missing: as in
`C103_nothing_missed_partial`. -/
theorem C103_nothing_twice_partial (E : Env) (A : Arrow) (S : Setting) (M : MergeEnv A) (hmono : MonotoneTz E.ltz)
    (hsec : WholeSecondsTz E.ltz) (pos0 r q : Str) (ps : List Poll) (s : Work) (pos : Str)
    (h : FollowsArchived E A S M pos0 r q ps s pos) (hdoc : AllDocumented s.done) (hmeta : MetaFields S.o)
    (hin : ∀ p ∈ ps, RollbacksInPlace p.moment)
    (i i' : Nat) (p p' : Poll) (hp : ps[i]? = some p) (hp' : ps[i']? = some p') (out out' : Batch) (ho : out ∈ p.outs)
    (ho' : out' ∈ p'.outs) (r r' : List Cell) (hr : r ∈ out.rows) (hr' : r' ∈ out'.rows)
    (he : commitTimeOf out.schema r = commitTimeOf out'.schema r') : i = i' :=
  nothing_twice (followed_archived hmono hsec h) hdoc hmeta hin hp hp' ho ho' hr hr' he

/-- **C103, visits succeed (partial).**  Whenever the consumer visits the table, and however writers, cleaner and archiver
go on working meanwhile, it is told the latest commit and receives the changes.  Missing: as in
`C103_nothing_missed_partial`. -/
theorem C103_visits_succeed_partial (E : Env) (A : Arrow) (S : Setting) (M : MergeEnv A) (hmono : MonotoneTz E.ltz)
    (hsec : WholeSecondsTz E.ltz) (pos0 r q : Str) (ps : List Poll) (s : Work) (pos : Str)
    (h : FollowsArchived E A S M pos0 r q ps s pos) (r' q' : Str) (hr : (compare r r').isLE = true)
    (hq : (compare q q').isLE = true) (s' : Work) (hs' : Archives S r' q' s s') (hk : KeepsLatest r' s')
    (hkq : (compare q' pos).isLE = true) (hdoc : AllDocumented s'.done) (hmeta : MetaFields S.o)
    (hin : RollbacksInPlace s') (tb : Table) (ho : HandleAt E S s' tb) (m : Moments) (hm : SinceArchived S r' q' s' m) :
    ∃ c outs, s'.history.getLast? = some c ∧ tb.timeline.latestTimestampR = .ok c.ts ∧
      tb.readIncrementalR E A S.C M m.race pos none = .ok outs := by
  have hf := followed_archived hmono hsec h
  have hw' := archives_after (archives_mono hr hq (follows_archives h)) hs'
  obtain ⟨c, hc, rfl⟩ := hf.last
  obtain ⟨more, hd⟩ := archives_done hs'
  have hkq' := keeps_later (archives_jobs hw') hd hc hkq
  obtain ⟨j, hj, rfl⟩ := mem_commitsOf.1 (List.mem_of_getLast? hc)
  obtain ⟨d1, hjob⟩ := hf.jobs.jobOf hj
  obtain ⟨c0, d0, h1, h3, h2⟩ := latest_archived_of hmono hw' hkq'
    (mem_commitsOf.2 ⟨j, by rw [hd]; simp [hj], rfl⟩ : j.commit ∈ s'.history) ho
  obtain ⟨outs, h4, _⟩ := C102_changes_partial E A S M hmono hsec r' q' s' hw' hdoc hin m hm tb ho hmeta _ hjob.time
    hjob.parses hkq c0 (List.mem_of_getLast? h1) (hk c0 h1)
  exact ⟨c0, outs, h1, h3, by rw [up_to_latest h2]; exact h4⟩

theorem mirrors_archives {E : Env} {A : Arrow} {S : Setting} {M : MergeEnv A} {schema : Schema} {r q : Str}
    {visited : List Work} {copy : List (List Cell)} {s : Work} {pos : Str}
    (h : MirrorsArchived E A S M schema r q visited copy s pos) : Archives S r q nothingYet s := by
  induction h with
  | begins r q s c hs hk hq hn hl tb hive url ho m hm depth hd outs hr copy hc => exact hs
  | polls h r' q' hr' hq' s' hs hk hq tb ho m hm stop hl outs hr copy' hc ih =>
    exact archives_after (archives_mono hr' hq' ih) hs

theorem mirrored_archived {E : Env} {A : Arrow} {S : Setting} {M : MergeEnv A} {schema : Schema}
    (hmono : MonotoneTz E.ltz) (hsec : WholeSecondsTz E.ltz) {r q : Str} {visited : List Work} {copy : List (List Cell)}
    {s : Work} {pos : Str} (h : MirrorsArchived E A S M schema r q visited copy s pos) :
    Mirrored A S schema visited copy s pos := by
  induction h with
  | begins r q s c hs hk hq hn hl tb hive url ho m hm depth hd outs hr copy hc =>
    refine ⟨archives_jobs hs, ⟨c, hl, rfl⟩, fun _ _ _ hu _ => ?_⟩
    obtain ⟨outs', h1, h2⟩ := C102_reads_latest_partial E A S M hmono hsec r q s hs hn m hm tb [] [] hive url ho depth hd
      hk hq
    rw [hr] at h1
    cases h1
    obtain ⟨h3, h4⟩ := snapshot_parts (archives_jobs hs) hu h2
    exact latest_of_parts h3 h4 hc
  | @polls r q visited copy s pos h r' q' hr' hq' s' hs hk hq tb ho m hm stop hl outs hr copy' hc ih =>
    have hw' := archives_after (archives_mono hr' hq' (mirrors_archives h)) hs
    obtain ⟨more, hd⟩ := archives_done hs
    obtain ⟨c, hc0, rfl⟩ := ih.last
    have hkq := keeps_later (archives_jobs hw') hd hc0 hq
    obtain ⟨j, hj', rfl⟩ := mem_commitsOf.1 (List.mem_of_getLast? hc0)
    obtain ⟨c0, d0, h1, h3, h2⟩ := latest_archived_of hmono hw' hkq
      (mem_commitsOf.2 ⟨j, by rw [hd]; simp [hj'], rfl⟩ : j.commit ∈ s'.history) ho
    rw [hl] at h3
    cases h3
    refine mirrored_polls ih (archives_jobs hw') hd h1 (fun hdoc hmeta hin ht hp => ?_) hc
    obtain ⟨outs', h4, h5⟩ := C102_changes_partial E A S M hmono hsec r' q' s' hw' hdoc hin m hm tb ho hmeta _ ht hp hq c0
      (List.mem_of_getLast? h1) (hk c0 h1)
    rw [up_to_latest h2, h4] at hr
    cases hr
    exact h5

/-- **C103, the copy (partial).**  A consumer that reads the table once, and from then on only what has changed, has at
each visit what it would get if it read the whole table then: the latest version of each record, those of archived commits
included.  Missing: what is missing in C94 (writes that delete records) and in `C103_nothing_missed_partial`. -/
theorem C103_copy_partial (E : Env) (A : Arrow) (S : Setting) (M : MergeEnv A) (schema : Schema) (hmono : MonotoneTz E.ltz)
    (hsec : WholeSecondsTz E.ltz) (r q : Str) (visited : List Work) (copy : List (List Cell)) (s : Work) (pos : Str)
    (h : MirrorsArchived E A S M schema r q visited copy s pos) (hdoc : AllDocumented s.done) (hmeta : MetaFields S.o)
    (hin : ∀ v ∈ visited, RollbacksInPlace v) (hu : AllUpserts A schema S.pre s.done) (ht : Untied A schema S.pre s.done)
    (hk : KeepsLatest r s) (hq : KeepsLatest q s) (hn : NamesCurrent s) (tb : Table) (hive url : Bool)
    (ho : OpenedAt E A S s tb [] [] hive url)
    (m : Moments) (hm : SinceArchived S r q s m) (depth : Nat) (hd : S.depth < depth) :
    ∃ outs, tb.readSnapshotR E A S.C M depth m.race [] = .ok outs ∧
      LatestVersions A schema S.pre (outs.flatMap Batch.rows) copy := by
  have hm' := mirrored_archived hmono hsec h
  obtain ⟨outs, h1, h2⟩ := C102_reads_latest_partial E A S M hmono hsec r q s (mirrors_archives h) hn m hm tb [] [] hive
    url ho depth hd hk hq
  obtain ⟨h3, h4⟩ := snapshot_parts hm'.jobs hu h2
  exact ⟨outs, h1, parts_of_latest h3 h4 (fun r r' hr hr' => ht s.done s.done r r' (List.prefix_refl _)
    (List.prefix_refl _) hr hr') (hm'.copied hdoc hmeta hin hu ht)⟩

/-- **C103, what the copy is (partial).**  Whether or not anybody could read the table then, the copy has of each record
of the table exactly the latest version, and nothing else.  Missing: as in `C103_copy_partial`. -/
theorem C103_latest_partial (E : Env) (A : Arrow) (S : Setting) (M : MergeEnv A) (schema : Schema)
    (hmono : MonotoneTz E.ltz) (hsec : WholeSecondsTz E.ltz) (r q : Str) (visited : List Work) (copy : List (List Cell))
    (s : Work) (pos : Str) (h : MirrorsArchived E A S M schema r q visited copy s pos) (hdoc : AllDocumented s.done)
    (hmeta : MetaFields S.o) (hin : ∀ v ∈ visited, RollbacksInPlace v) (hu : AllUpserts A schema S.pre s.done)
    (ht : Untied A schema S.pre s.done) : LatestOf A schema S.pre (InTable s.done) copy :=
  (mirrored_archived hmono hsec h).copied hdoc hmeta hin hu ht

end Hudi
