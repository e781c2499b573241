import Verif.Spec.CleanerTail
import Verif.Props.CleanerChanges
import Verif.Props.Tail

/-!
# C93: a consumer that follows a table while writers and a cleaner work
-/

namespace Hudi

open Spec

theorem cleans_mono {S : Setting} {r r' : Str} (hle : (compare r r').isLE = true) {a b : Work} (h : Cleans S r a b) :
    Cleans S r' a b := by
  have hsup : ∀ {js k base}, Superseded js r k base → Superseded js r' k base :=
    fun ⟨j, hj, h1, h2, h3⟩ => ⟨j, hj, h1, trans_le h2 hle, h3⟩
  induction h with
  | refl => exact .refl _
  | step _ hs ih =>
    refine .step ih ?_
    cases hs with
    | work _ h => exact .work _ _ h
    | log j k token l hj hk hs hl => exact .log _ j k token l hj hk (hsup hs) hl
    | base j k token hj hk hs hl => exact .base _ j k token hj hk (hsup hs) hl

theorem cleans_after {S : Setting} {r : Str} {a b c : Work} (h1 : Cleans S r a b) (h2 : Cleans S r b c) :
    Cleans S r a c := by
  induction h2 with
  | refl => exact h1
  | step _ hs ih => exact .step ih hs

theorem cleans_done {S : Setting} {r : Str} {a b : Work} (h : Cleans S r a b) : ∃ more, b.done = a.done ++ more := by
  induction h with
  | refl => exact ⟨[], by simp⟩
  | step _ hs ih =>
    obtain ⟨more, hd⟩ := ih
    cases hs with
    | work _ h =>
      obtain ⟨more', hd'⟩ := done_works (.step (.refl _) h)
      exact ⟨more ++ more', by rw [hd', hd]; simp⟩
    | log => exact ⟨more, hd⟩
    | base => exact ⟨more, hd⟩

theorem cleans_jobs {S : Setting} {r : Str} {s : Work} (h : Cleans S r nothingYet s) : JobsOk S s.done := by
  obtain ⟨v, g, _, hi, _, rfl⟩ := cleans_sweep h (inv_nothing S) (swept_nothing S r _) (sweep_nothing _).symm
  exact hi.jobs

/-- What a handle takes for the latest commit. -/
theorem latest_cleaned {E : Env} {S : Setting} (hmono : MonotoneTz E.ltz) {r : Str} {s : Work}
    (h : Cleans S r nothingYet s) {tb : Table} (ho : HandleAt E S s tb) {stop : Str}
    (hl : tb.timeline.latestTimestampR = .ok stop) :
    ∃ c0 d0, s.history.getLast? = some c0 ∧ stop = c0.ts ∧
      tb.timeline.completed.getLast? = some ⟨c0.ts, c0.action, .completed, DateTime.epochMillis d0⟩ := by
  obtain ⟨v, g, _, hi, hg, rfl⟩ := cleans_sweep h (inv_nothing S) (swept_nothing S r _) (sweep_nothing _).symm
  obtain ⟨o, hload⟩ := ho.load
  rw [sweep_load hi hg] at hload
  exact latest_of hmono hi hload ho.clock ho.zone hl

theorem follows_cleans {E : Env} {A : Arrow} {S : Setting} {M : MergeEnv A} {pos0 r : Str} {ps : List Poll} {s : Work}
    {pos : Str} (h : FollowsCleaned E A S M pos0 r ps s pos) : Cleans S r nothingYet s := by
  induction h with
  | begins r s c hs hl hp => exact hs
  | polls h r' hle s' hs hk tb ho m hm stop hl outs hr ih => exact cleans_after (cleans_mono hle ih) hs

theorem followed_cleaned {E : Env} {A : Arrow} {S : Setting} {M : MergeEnv A} (hmono : MonotoneTz E.ltz)
    (hsec : WholeSecondsTz E.ltz) {pos0 r : Str} {ps : List Poll} {s : Work} {pos : Str}
    (h : FollowsCleaned E A S M pos0 r ps s pos) : Followed A S pos0 ps s pos := by
  induction h with
  | begins r s c hs hl hp =>
    subst hp
    exact followed_begins (cleans_jobs hs) hl
  | @polls r ps s pos h r' hle s' hs hk tb ho m hm stop hl outs hr ih =>
    have hw' := cleans_after (cleans_mono hle (follows_cleans h)) hs
    obtain ⟨c0, d0, h1, rfl, h2⟩ := latest_cleaned hmono hw' ho hl
    obtain ⟨more, hd⟩ := cleans_done hs
    refine followed_polls ih (cleans_jobs hw') hd h1 (fun hdoc hmeta hin ht hp => ?_)
    obtain ⟨outs', h4, h5⟩ := C92_changes_partial E A S M hmono hsec r' s' hw' hdoc hin m hm tb ho hmeta pos ht hp c0
      (List.mem_of_getLast? h1) (hk c0 h1)
    rw [up_to_latest h2, h4] at hr
    cases hr
    exact h5

/-- **C93, nothing missed (partial).**  As C88, while a cleaner deletes files of versions of file groups that were
superseded by a time that moves on, and that is, at each visit, no later than the latest commit.  However things go on
afterwards, up to any moment `s'`, each visit has received what the completed writes had changed in its span, as the
history at `s'` has it; each write completed after the beginning and before the last visit falls in exactly one visit;
and all later writes will fall in later ones.  Thus the consumer may be away for as long as it likes: files that were
written since its last visit may have been deleted when it comes back.  Missing: what is missing in C88, and a cleaner
that, during a visit, goes beyond the latest commit at its beginning (`C93_false`). -/
theorem C93_nothing_missed_partial (E : Env) (A : Arrow) (S : Setting) (M : MergeEnv A) (hmono : MonotoneTz E.ltz)
    (hsec : WholeSecondsTz E.ltz) (pos0 r : Str) (ps : List Poll) (s : Work) (pos : Str)
    (h : FollowsCleaned E A S M pos0 r ps s pos) (r' : Str) (hle : (compare r r').isLE = true)
    (s' : Work) (hs' : Cleans S r' s s') (hdoc : AllDocumented s'.done) (hmeta : MetaFields S.o)
    (hin : ∀ p ∈ ps, RollbacksInPlace p.moment) :
    (∀ p ∈ ps, p.Received A S s'.done) ∧
    (∀ j ∈ s.done, compare pos0 j.commit.ts = .lt → ∃! i : Nat, ∃ p, ps[i]? = some p ∧ p.Covers j.commit.ts) ∧
    ∀ j ∈ s'.done, j ∉ s.done → compare pos j.commit.ts = .lt := by
  obtain ⟨more, hd⟩ := cleans_done hs'
  exact nothing_missed (followed_cleaned hmono hsec h)
    (cleans_jobs (cleans_after (cleans_mono hle (follows_cleans h)) hs')) hd hdoc hmeta hin

/-- **C93, nothing twice (partial).**  No two visits receive rows of the same commit.  Missing: as in
`C93_nothing_missed_partial`. -/
theorem C93_nothing_twice_partial (E : Env) (A : Arrow) (S : Setting) (M : MergeEnv A) (hmono : MonotoneTz E.ltz)
    (hsec : WholeSecondsTz E.ltz) (pos0 r : Str) (ps : List Poll) (s : Work) (pos : Str)
    (h : FollowsCleaned E A S M pos0 r ps s pos) (hdoc : AllDocumented s.done) (hmeta : MetaFields S.o)
    (hin : ∀ p ∈ ps, RollbacksInPlace p.moment)
    (i i' : Nat) (p p' : Poll) (hp : ps[i]? = some p) (hp' : ps[i']? = some p') (out out' : Batch) (ho : out ∈ p.outs)
    (ho' : out' ∈ p'.outs) (r r' : List Cell) (hr : r ∈ out.rows) (hr' : r' ∈ out'.rows)
    (he : commitTimeOf out.schema r = commitTimeOf out'.schema r') : i = i' :=
  nothing_twice (followed_cleaned hmono hsec h) hdoc hmeta hin hp hp' ho ho' hr hr' he

/-- **C93, visits succeed (partial).**  Whenever the consumer visits the table, and however writers and the cleaner go
on working meanwhile, it is told the latest commit and receives the changes.  Missing: as in
`C93_nothing_missed_partial`. -/
theorem C93_visits_succeed_partial (E : Env) (A : Arrow) (S : Setting) (M : MergeEnv A) (hmono : MonotoneTz E.ltz)
    (hsec : WholeSecondsTz E.ltz) (pos0 r : Str) (ps : List Poll) (s : Work) (pos : Str)
    (h : FollowsCleaned E A S M pos0 r ps s pos) (r' : Str) (hle : (compare r r').isLE = true)
    (s' : Work) (hs' : Cleans S r' s s') (hk : KeepsLatest r' s') (hdoc : AllDocumented s'.done) (hmeta : MetaFields S.o)
    (hin : RollbacksInPlace s') (tb : Table) (ho : HandleAt E S s' tb) (m : Moments) (hm : SinceCleaned S r' s' m) :
    ∃ c outs, s'.history.getLast? = some c ∧ tb.timeline.latestTimestampR = .ok c.ts ∧
      tb.readIncrementalR E A S.C M m.race pos none = .ok outs := by
  have hf := followed_cleaned hmono hsec h
  have hw' := cleans_after (cleans_mono hle (follows_cleans h)) hs'
  obtain ⟨c, hc, rfl⟩ := hf.last
  obtain ⟨j, hj, rfl⟩ := mem_commitsOf.1 (List.mem_of_getLast? hc)
  obtain ⟨d1, hjob⟩ := hf.jobs.jobOf hj
  obtain ⟨more, hd⟩ := cleans_done hs'
  rcases C92_latest_changes_partial E A S M hmono hsec r' s' hw' hdoc hin m hm tb ho hmeta j.commit.ts hjob.time
    hjob.parses hk with ⟨h1, _⟩ | ⟨c0, outs, h1, h2, _⟩
  · exfalso
    have : j.commit ∈ s'.history := mem_commitsOf.2 ⟨j, by rw [hd]; simp [hj], rfl⟩
    rw [h1] at this
    cases this
  · refine ⟨c0, outs, h1, ?_, h2⟩
    obtain ⟨v, g, _, hi, hg, rfl⟩ := cleans_sweep hw' (inv_nothing S) (swept_nothing S r' _) (sweep_nothing _).symm
    obtain ⟨o, hload⟩ := ho.load
    rw [sweep_load hi hg] at hload
    obtain ⟨t1, t2, t3⟩ := timeline_of hload ho.zone hi.wf (by rw [ho.clock]; exact hi.timeline)
    rcases timeline_last hmono hi.wf t1 t2 t3 with ⟨h3, _⟩ | ⟨c1, d1, h3, h4, _⟩
    · change (commitsOf v.done).getLast? = some c0 at h1
      change commitsOf v.done = [] at h3
      rw [h3] at h1
      cases h1
    · change v.history.getLast? = some c0 at h1
      rw [h1] at h3
      cases h3
      unfold Timeline.latestTimestampR Timeline.latestTimestamp
      rw [h4]
      rfl

end Hudi
