import Verif.Lemmas.Tail
import Verif.Props.WriterChanges
import Verif.Lemmas.RacingConcurrentRun

/-!
# C88: a consumer that follows a table
-/

namespace Hudi

open Spec

theorem refl_le (a : Str) : (compare a a).isLE = true := by
  have : compare a a = .eq := Std.ReflCmp.compare_self
  rw [this]
  rfl

/-- All writes of the list are as writers make them. -/
def JobsOk (S : Setting) (js : List Job) : Prop := ∀ d1 j d2, js = d1 ++ j :: d2 → JobOk S d1 j

theorem JobsOk.jobOf {S : Setting} {js : List Job} (h : JobsOk S js) {j : Job} (hj : j ∈ js) : ∃ d1, JobOk S d1 j := by
  obtain ⟨d1, d2, e⟩ := List.append_of_mem hj
  exact ⟨d1, h d1 j d2 e⟩

theorem JobsOk.unique {S : Setting} {js : List Job} (h : JobsOk S js) : ∀ j ∈ js, ∀ j' ∈ js,
    j.commit.ts = j'.commit.ts → j = j' := by
  intro j hj j' hj' ht
  obtain ⟨d1, d2, e⟩ := List.append_of_mem hj
  rw [e] at hj'
  rcases List.mem_append.1 hj' with hm | hm
  · exact absurd ((h d1 j d2 e).later j' hm) (by rw [ht]; exact cmp_irrefl)
  · rcases List.mem_cons.1 hm with rfl | hm
    · rfl
    · obtain ⟨a, b, rfl⟩ := List.append_of_mem hm
      have := (h (d1 ++ j :: a) j' b (by rw [e]; simp)).later j (by simp)
      exact absurd this (by rw [ht]; exact cmp_irrefl)

theorem later_last {S : Setting} {s : Work} (hj : JobsOk S s.done) {c : HCommit} (hl : s.history.getLast? = some c) :
    ∀ j ∈ s.done, (compare j.commit.ts c.ts).isLE = true := by
  obtain ⟨l, e⟩ : ∃ l, s.history = l ++ [c] := List.getLast?_eq_some_iff.1 hl
  intro j hjm
  have hp : (s.history).Pairwise _ := (wf_commits hj).ordered
  have hm : j.commit ∈ s.history := mem_commitsOf.2 ⟨j, hjm, rfl⟩
  rw [e] at hp hm
  rcases List.mem_append.1 hm with hm | hm
  · rw [(List.pairwise_append.1 hp).2.2 _ hm c (by simp)]
    rfl
  · rw [List.mem_singleton.1 hm]
    exact refl_le _

theorem later_more {S : Setting} {s : Work} (h : JobsOk S s.done) {js more : List Job} (hd : s.done = js ++ more)
    {j0 : Job} (hj0 : j0 ∈ js) : ∀ j ∈ more, compare j0.commit.ts j.commit.ts = .lt := by
  intro j hj
  obtain ⟨d1, d2, e⟩ := List.append_of_mem hj
  exact (h (js ++ d1) j d2 (by rw [hd, e]; simp)).later j0 (by simp [hj0])

theorem documented_prefix {js more : List Job} (h : AllDocumented (js ++ more)) : AllDocumented js := by
  rintro d1 j d2 rfl
  exact h d1 j (d2 ++ more) (by simp)

theorem trans_le {a b c : Str} (h1 : (compare a b).isLE = true) (h2 : (compare b c).isLE = true) :
    (compare a c).isLE = true := Std.TransCmp.isLE_trans h1 h2

theorem not_le_lt {a b : Str} (h1 : (compare a b).isLE = true) (h2 : compare b a = .lt) : False := by
  rw [Std.OrientedCmp.gt_of_lt h2] at h1
  cases h1

theorem lt_of_not_le {a b : Str} (h : ¬ (compare a b).isLE = true) : compare b a = .lt := by
  cases hc : compare a b with
  | lt => rw [hc] at h; exact absurd rfl h
  | eq => rw [hc] at h; exact absurd rfl h
  | gt => exact Std.OrientedCmp.lt_of_gt hc

/-- What holds of a consumer that follows a table. -/
structure Followed (A : Arrow) (S : Setting) (pos0 : Str) (ps : List Poll) (s : Work) (pos : Str) : Prop where
  jobs : JobsOk S s.done
  last : ∃ c, s.history.getLast? = some c ∧ c.ts = pos
  first : (compare pos0 pos).isLE = true
  moments : ∀ p ∈ ps, ∃ more, s.done = p.moment.done ++ more
  stops : ∀ p ∈ ps, (compare p.stop pos).isLE = true
  spans : ps.Pairwise (fun p q => (compare p.stop q.start).isLE = true)
  covered : ∀ ts, compare pos0 ts = .lt → (compare ts pos).isLE = true → ∃ p ∈ ps, p.Covers ts
  ends : ∀ p ∈ ps, ∃ c, p.moment.history.getLast? = some c ∧ c.ts = p.stop
  received : AllDocumented s.done → MetaFields S.o → (∀ p ∈ ps, RollbacksInPlace p.moment) →
    ∀ p ∈ ps, p.Received A S p.moment.done

theorem followed_begins {A : Arrow} {S : Setting} {s : Work} (hj : JobsOk S s.done) {c : HCommit}
    (hl : s.history.getLast? = some c) : Followed A S c.ts [] s c.ts := by
  refine ⟨hj, ⟨c, hl, rfl⟩, refl_le _, nofun, nofun, .nil, ?_, nofun, fun _ _ _ => nofun⟩
  intro ts h1 h2
  exact (not_le_lt h2 h1).elim

/-- One more visit. -/
theorem followed_polls {A : Arrow} {S : Setting} {pos0 : Str} {ps : List Poll} {s : Work} {pos : Str}
    (ih : Followed A S pos0 ps s pos) {s' : Work} (hj' : JobsOk S s'.done) {more : List Job}
    (hd : s'.done = s.done ++ more) {c0 : HCommit} (h1 : s'.history.getLast? = some c0) {outs : List Batch}
    (hrec : AllDocumented s'.done → MetaFields S.o → RollbacksInPlace s' → (WriterTimestamp pos ∧ pos.length = S.width) →
      (∃ d, parseDatetime S.ltz pos S.tz = .ok d) → (Poll.mk s' pos c0.ts outs).Received A S s'.done) :
    Followed A S pos0 (ps ++ [⟨s', pos, c0.ts, outs⟩]) s' c0.ts := by
  obtain ⟨c, hc, rfl⟩ := ih.last
  have hcs : c ∈ s.history := List.mem_of_getLast? hc
  obtain ⟨j, hj, rfl⟩ := mem_commitsOf.1 hcs
  have hle : (compare j.commit.ts c0.ts).isLE = true := later_last hj' h1 j (by rw [hd]; simp [hj])
  refine ⟨hj', ⟨c0, h1, rfl⟩, trans_le ih.first hle, ?_, ?_, ?_, ?_, ?_, ?_⟩
  · intro p hp
    rcases List.mem_append.1 hp with hp | hp
    · obtain ⟨more1, hd1⟩ := ih.moments p hp
      exact ⟨more1 ++ more, by rw [hd, hd1]; simp⟩
    · rw [List.mem_singleton.1 hp]
      exact ⟨[], by simp⟩
  · intro p hp
    rcases List.mem_append.1 hp with hp | hp
    · exact trans_le (ih.stops p hp) hle
    · rw [List.mem_singleton.1 hp]
      exact refl_le _
  · refine List.pairwise_append.2 ⟨ih.spans, by simp, fun p hp q hq => ?_⟩
    rw [List.mem_singleton.1 hq]
    exact ih.stops p hp
  · intro ts h4 h5
    by_cases h6 : (compare ts j.commit.ts).isLE = true
    · obtain ⟨p, hp, h7⟩ := ih.covered ts h4 h6
      exact ⟨p, by simp [hp], h7⟩
    · exact ⟨⟨s', j.commit.ts, c0.ts, outs⟩, List.mem_append.2 (.inr (List.mem_singleton.2 rfl)), lt_of_not_le h6, h5⟩
  · intro p hp
    rcases List.mem_append.1 hp with hp | hp
    · exact ih.ends p hp
    · rw [List.mem_singleton.1 hp]
      exact ⟨c0, h1, rfl⟩
  · intro hdoc hmeta hin p hp
    rcases List.mem_append.1 hp with hp | hp
    · exact ih.received (documented_prefix (hd ▸ hdoc)) hmeta (fun p hp => hin p (by simp [hp])) p hp
    · rw [List.mem_singleton.1 hp]
      obtain ⟨d1, hjob⟩ := ih.jobs.jobOf hj
      exact hrec hdoc hmeta (hin _ (List.mem_append.2 (.inr (List.mem_singleton.2 rfl)))) hjob.time hjob.parses

/-- What a handle takes for the latest commit. -/
theorem latest_of {E : Env} {S : Setting} (hmono : MonotoneTz E.ltz) {v : Work} (hi : Inv S v) {o : Opts} {tb : Table}
    (hload : Timeline.load E o v.tree = .ok tb.timeline) (hclock : E.ltz = S.ltz)
    (hzone : timezoneOf tb.timeline.opts = .ok S.tz) {stop : Str} (hl : tb.timeline.latestTimestampR = .ok stop) :
    ∃ c0 d0, v.history.getLast? = some c0 ∧ stop = c0.ts ∧
      tb.timeline.completed.getLast? = some ⟨c0.ts, c0.action, .completed, DateTime.epochMillis d0⟩ := by
  obtain ⟨t1, t2, t3⟩ := timeline_of hload hzone hi.wf (by rw [hclock]; exact hi.timeline)
  rcases timeline_last hmono hi.wf t1 t2 t3 with ⟨h1, h2⟩ | ⟨c0, d0, h1, h2, h3⟩
  · exfalso
    unfold Timeline.latestTimestampR Timeline.latestTimestamp at hl
    rw [h2] at hl
    cases hl
  · refine ⟨c0, d0, h1, ?_, h2⟩
    unfold Timeline.latestTimestampR Timeline.latestTimestamp at hl
    rw [h2] at hl
    cases hl
    rfl

/-- Changes up to now are those up to what the handle takes for the latest commit. -/
theorem up_to_latest {E : Env} {A : Arrow} {C : Codec} {M : MergeEnv A} {R : Race} {tb : Table} {start : Str} {i : Instant}
    (h : tb.timeline.completed.getLast? = some i) :
    tb.readIncrementalR E A C M R start none = tb.readIncrementalR E A C M R start (some i.timestamp) := by
  unfold Table.readIncrementalR Timeline.latestTimestamp
  rw [h]
  rfl

theorem follows_works {E : Env} {A : Arrow} {S : Setting} {M : MergeEnv A} {pos0 : Str} {ps : List Poll} {s : Work}
    {pos : Str} (h : Follows E A S M pos0 ps s pos) : Works S nothingYet s := by
  induction h with
  | begins s c hs hl hp => exact hs
  | polls h s' hs tb ho m hm stop hl outs hr ih => exact works_after ih hs

theorem followed {E : Env} {A : Arrow} {S : Setting} {M : MergeEnv A} (hmono : MonotoneTz E.ltz)
    (hsec : WholeSecondsTz E.ltz) {pos0 : Str} {ps : List Poll} {s : Work} {pos : Str}
    (h : Follows E A S M pos0 ps s pos) : Followed A S pos0 ps s pos := by
  induction h with
  | begins s c hs hl hp =>
    subst hp
    exact followed_begins (inv_works (inv_nothing S) hs).jobs hl
  | @polls ps s pos h s' hs tb ho m hm stop hl outs hr ih =>
    have hw' : Works S nothingYet s' := works_after (follows_works h) hs
    have hi' := inv_works (inv_nothing S) hw'
    obtain ⟨o, hload⟩ := ho.load
    obtain ⟨c0, d0, h1, rfl, h2⟩ := latest_of hmono hi' hload ho.clock ho.zone hl
    obtain ⟨more, hd⟩ := done_works hs
    refine followed_polls ih hi'.jobs hd h1 (fun hdoc hmeta hin ht hp => ?_)
    obtain ⟨outs', h4, h5⟩ := C84_changes_partial E A S M hmono hsec s' hw' hdoc hin m hm tb ho hmeta pos ht hp c0
      (List.mem_of_getLast? h1)
    rw [up_to_latest h2, h4] at hr
    cases hr
    exact h5

theorem nothing_missed {A : Arrow} {S : Setting} {pos0 : Str} {ps : List Poll} {s : Work} {pos : Str}
    (hf : Followed A S pos0 ps s pos) {s' : Work} (hj' : JobsOk S s'.done) {more : List Job}
    (hd : s'.done = s.done ++ more) (hdoc : AllDocumented s'.done) (hmeta : MetaFields S.o)
    (hin : ∀ p ∈ ps, RollbacksInPlace p.moment) :
    (∀ p ∈ ps, p.Received A S s'.done) ∧
    (∀ j ∈ s.done, compare pos0 j.commit.ts = .lt → ∃! i : Nat, ∃ p, ps[i]? = some p ∧ p.Covers j.commit.ts) ∧
    ∀ j ∈ s'.done, j ∉ s.done → compare pos j.commit.ts = .lt := by
  obtain ⟨c, hc, rfl⟩ := hf.last
  refine ⟨?_, ?_, ?_⟩
  · intro p hp
    obtain ⟨more1, hd1⟩ := hf.moments p hp
    have hd2 : s'.done = p.moment.done ++ (more1 ++ more) := by rw [hd, hd1]; simp
    obtain ⟨c1, hc1, e1⟩ := hf.ends p hp
    obtain ⟨j1, hj1, rfl⟩ := mem_commitsOf.1 (List.mem_of_getLast? hc1)
    rw [hd2]
    refine received_later (fun j hj => ?_) (hf.received (documented_prefix (hd ▸ hdoc)) hmeta hin p hp)
    rw [← e1]
    exact later_more hj' hd2 hj1 j hj
  · intro j hj h0
    obtain ⟨p, hp, h1⟩ := hf.covered j.commit.ts h0 (later_last hf.jobs hc j hj)
    obtain ⟨i, hi1⟩ := List.mem_iff_getElem?.1 hp
    refine ⟨i, ⟨p, hi1, h1⟩, ?_⟩
    rintro i' ⟨p', hi2, h2⟩
    have apart : ∀ (i i' : Nat) (p p' : Poll), ps[i]? = some p → ps[i']? = some p' → p.Covers j.commit.ts →
        p'.Covers j.commit.ts → ¬ i < i' := by
      intro i i' p p' e e' hcov hcov' hlt
      obtain ⟨l1, rfl⟩ := List.getElem?_eq_some_iff.1 e
      obtain ⟨l2, rfl⟩ := List.getElem?_eq_some_iff.1 e'
      have := List.pairwise_iff_getElem.1 hf.spans i i' l1 l2 hlt
      exact not_le_lt (trans_le hcov.2 this) hcov'.1
    rcases Nat.lt_trichotomy i i' with hlt | heq | hgt
    · exact (apart i i' p p' hi1 hi2 h1 h2 hlt).elim
    · exact heq.symm
    · exact (apart i' i p' p hi2 hi1 h2 h1 hgt).elim
  · intro j hj hn
    rw [hd] at hj
    rcases List.mem_append.1 hj with hj | hj
    · exact absurd hj hn
    · obtain ⟨j1, hj1, rfl⟩ := mem_commitsOf.1 (List.mem_of_getLast? hc)
      exact later_more hj' hd hj1 j hj

theorem nothing_twice {A : Arrow} {S : Setting} {pos0 : Str} {ps : List Poll} {s : Work} {pos : Str}
    (hf : Followed A S pos0 ps s pos) (hdoc : AllDocumented s.done) (hmeta : MetaFields S.o)
    (hin : ∀ p ∈ ps, RollbacksInPlace p.moment) {i i' : Nat} {p p' : Poll} (hp : ps[i]? = some p) (hp' : ps[i']? = some p')
    {out out' : Batch} (ho : out ∈ p.outs) (ho' : out' ∈ p'.outs) {r r' : List Cell} (hr : r ∈ out.rows)
    (hr' : r' ∈ out'.rows) (he : commitTimeOf out.schema r = commitTimeOf out'.schema r') : i = i' := by
  have hall := (nothing_missed hf (more := []) hf.jobs (by simp) hdoc hmeta hin).1
  have within : ∀ p ∈ ps, ∀ out ∈ p.outs, ∀ r ∈ out.rows, CommittedIn out.schema p.start (some p.stop) r := by
    intro p hp out ho r hr
    obtain ⟨ks, _, _, h3⟩ := hall p hp
    obtain ⟨i, hi⟩ := List.mem_iff_getElem?.1 ho
    obtain ⟨l2, e2⟩ := List.getElem?_eq_some_iff.1 hi
    have l1 : i < ks.length := by rw [h3.length_eq]; exact l2
    obtain ⟨v, rows, q1, q2, q3, q4⟩ := (List.forall₂_iff_get.1 h3).2 i l1 l2
    have e3 : p.outs.get ⟨i, l2⟩ = out := e2
    rw [e3] at q2 q4
    rw [q2]
    exact ((q3 r).1 (q4.sound r hr)).2
  have apart : ∀ (i i' : Nat) (p p' : Poll), ps[i]? = some p → ps[i']? = some p' → ∀ t, p.Covers t → p'.Covers t →
      ¬ i < i' := by
    intro i i' p p' e e' t hcov hcov' hlt
    obtain ⟨l1, rfl⟩ := List.getElem?_eq_some_iff.1 e
    obtain ⟨l2, rfl⟩ := List.getElem?_eq_some_iff.1 e'
    have := List.pairwise_iff_getElem.1 hf.spans i i' l1 l2 hlt
    exact not_le_lt (trans_le hcov.2 this) hcov'.1
  obtain ⟨t, h1, h2, h3⟩ := within p (List.mem_of_getElem? hp) out ho r hr
  obtain ⟨t', h1', h2', h3'⟩ := within p' (List.mem_of_getElem? hp') out' ho' r' hr'
  rw [← he, h1] at h1'
  cases h1'
  rcases Nat.lt_trichotomy i i' with hlt | heq | hgt
  · exact (apart i i' p p' hp hp' t ⟨h2, h3 _ rfl⟩ ⟨h2', h3' _ rfl⟩ hlt).elim
  · exact heq
  · exact (apart i' i p' p hp' hp t ⟨h2', h3' _ rfl⟩ ⟨h2, h3 _ rfl⟩ hgt).elim

/-- **C88, nothing missed (partial).**  Writers work on a table, several at a time, and may stop at any moment, to be
rolled back.  A consumer that begins after the latest commit opens the table from time to time and asks each time for
the changes since the latest commit that the table showed it the time before, while writers go on working.  However
things go on afterwards, up to any moment `s'`, each visit has received what the completed writes had changed in its
span, as the history at `s'` has it; each write completed after the beginning and before the last visit falls in exactly
one visit; and all later writes will fall in later ones.  Missing: rollbacks whose blocks are in other log files than
those of the failed write; writers that complete in another order than that of their timestamps (`C88_false`). -/
theorem C88_nothing_missed_partial (E : Env) (A : Arrow) (S : Setting) (M : MergeEnv A) (hmono : MonotoneTz E.ltz)
    (hsec : WholeSecondsTz E.ltz) (pos0 : Str) (ps : List Poll) (s : Work) (pos : Str) (h : Follows E A S M pos0 ps s pos)
    (s' : Work) (hs' : Works S s s') (hdoc : AllDocumented s'.done) (hmeta : MetaFields S.o)
    (hin : ∀ p ∈ ps, RollbacksInPlace p.moment) :
    (∀ p ∈ ps, p.Received A S s'.done) ∧
    (∀ j ∈ s.done, compare pos0 j.commit.ts = .lt → ∃! i : Nat, ∃ p, ps[i]? = some p ∧ p.Covers j.commit.ts) ∧
    ∀ j ∈ s'.done, j ∉ s.done → compare pos j.commit.ts = .lt := by
  obtain ⟨more, hd⟩ := done_works hs'
  exact nothing_missed (followed hmono hsec h) (inv_works (inv_works (inv_nothing S) (follows_works h)) hs').jobs hd hdoc
    hmeta hin

/-- **C88, nothing twice (partial).**  No two visits receive rows of the same commit.  Missing: as in
`C88_nothing_missed_partial`. -/
theorem C88_nothing_twice_partial (E : Env) (A : Arrow) (S : Setting) (M : MergeEnv A) (hmono : MonotoneTz E.ltz)
    (hsec : WholeSecondsTz E.ltz) (pos0 : Str) (ps : List Poll) (s : Work) (pos : Str) (h : Follows E A S M pos0 ps s pos)
    (hdoc : AllDocumented s.done) (hmeta : MetaFields S.o) (hin : ∀ p ∈ ps, RollbacksInPlace p.moment)
    (i i' : Nat) (p p' : Poll) (hp : ps[i]? = some p) (hp' : ps[i']? = some p') (out out' : Batch) (ho : out ∈ p.outs)
    (ho' : out' ∈ p'.outs) (r r' : List Cell) (hr : r ∈ out.rows) (hr' : r' ∈ out'.rows)
    (he : commitTimeOf out.schema r = commitTimeOf out'.schema r') : i = i' := by
  exact nothing_twice (followed hmono hsec h) hdoc hmeta hin hp hp' ho ho' hr hr' he

/-- **C88, visits succeed (partial).**  Whenever the consumer visits the table, and however writers go on working
meanwhile, it is told the latest commit and receives the changes.  Missing: as in `C88_nothing_missed_partial`. -/
theorem C88_visits_succeed_partial (E : Env) (A : Arrow) (S : Setting) (M : MergeEnv A) (hmono : MonotoneTz E.ltz)
    (hsec : WholeSecondsTz E.ltz) (pos0 : Str) (ps : List Poll) (s : Work) (pos : Str) (h : Follows E A S M pos0 ps s pos)
    (s' : Work) (hs' : Works S s s') (hdoc : AllDocumented s'.done) (hmeta : MetaFields S.o) (hin : RollbacksInPlace s')
    (tb : Table) (ho : HandleAt E S s' tb) (m : Moments) (hm : Since S s' m) :
    ∃ c outs, s'.history.getLast? = some c ∧ tb.timeline.latestTimestampR = .ok c.ts ∧
      tb.readIncrementalR E A S.C M m.race pos none = .ok outs := by
  have hf := followed hmono hsec h
  have hw' := works_after (follows_works h) hs'
  have hi := inv_works (inv_nothing S) (follows_works h)
  have hi' := inv_works hi hs'
  obtain ⟨c, hc, rfl⟩ := hf.last
  obtain ⟨j, hj, rfl⟩ := mem_commitsOf.1 (List.mem_of_getLast? hc)
  obtain ⟨d1, hjob⟩ := hi.jobOf hj
  obtain ⟨more, hd⟩ := done_works hs'
  obtain ⟨o, hload⟩ := ho.load
  obtain ⟨t1, t2, t3⟩ := timeline_of hload ho.zone hi'.wf (by rw [ho.clock]; exact hi'.timeline)
  rcases C84_latest_changes_partial E A S M hmono hsec s' hw' hdoc hin m hm tb ho hmeta j.commit.ts hjob.time
    hjob.parses with ⟨h1, _⟩ | ⟨c0, outs, h1, h2, _⟩
  · exfalso
    have : j.commit ∈ s'.history := mem_commitsOf.2 ⟨j, by rw [hd]; simp [hj], rfl⟩
    rw [h1] at this
    cases this
  · refine ⟨c0, outs, h1, ?_, h2⟩
    rcases timeline_last hmono hi'.wf t1 t2 t3 with ⟨h3, _⟩ | ⟨c1, d1, h3, h4, _⟩
    · rw [h3] at h1
      cases h1
    · rw [h1] at h3
      cases h3
      unfold Timeline.latestTimestampR Timeline.latestTimestamp
      rw [h4]
      rfl

end Hudi
