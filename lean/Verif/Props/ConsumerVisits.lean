import Verif.Spec.ConsumerVisits
import Verif.Props.ArchiverTail
import Verif.Props.ArchiverOpened

/-!
# C103 for consumers that open the table by its path at each visit, and whose visits may fail
-/

namespace Hudi
open Spec

/-- A read of changes that succeeds although requests may fail has the answer of one of which none fails. -/
theorem visit_ok {E : Env} {A : Arrow} {C : Codec} {M : MergeEnv A} {tb : Table} {depth : Nat} {R : Race} {start : Str}
    {F : Faults} {outs : List Batch}
    (h : ((TableCall.incremental start none).race E A C M tb depth R F []).2.2 = .ok (.batches outs)) :
    tb.readIncrementalR E A C M R start none = .ok outs := by
  obtain ⟨h1, h2⟩ := C86_failures_are_reported E A C M tb depth R [] (.incremental start none) F
  by_cases hF : (TableCall.incremental start none).SomeFails E A C M tb depth R F []
  · obtain ⟨e, he⟩ := h1 hF
    rw [he] at h
    cases h
  · rw [h2 hF] at h
    obtain ⟨outs', h3, h4⟩ := answerOf_ok.1 h
    cases h4
    have h7 := (faithfulO_io (faithful_incrementalRF E A C M tb R start none) ([] : Cache)).none
    exact h7.symm.trans h3

theorem opened_is {E : Env} {S : Setting} {s : Work} {w : World} {uri : Str} {calls : List Call}
    (hw : TableOf E S s w uri calls) {tb : Table} (hb : (builderOf uri calls).build E w = .ok tb) :
    (∀ k, hmGet k S.o = hmGet k tb.opts) ∧ HandleAt E { S with o := tb.opts } s tb := by
  obtain ⟨tb', hb', h⟩ := tableOf_opens hw
  rw [hb] at hb'
  cases hb'
  exact h

/-- What a visit through the path finds. -/
theorem visit_changes {E : Env} {A : Arrow} {S : Setting} {M : MergeEnv A} (hmono : MonotoneTz E.ltz)
    (hsec : WholeSecondsTz E.ltz) {r q : Str} {s : Work} (hs : Archives S r q nothingYet s) (hk : KeepsLatest r s)
    (hkq : KeepsLatest q s) {c : HCommit} (hc : c ∈ s.history) {pos : Str} (hq : (compare q pos).isLE = true)
    {w : World} {uri : Str} {calls : List Call} (hw : TableOf E S s w uri calls) {tb : Table}
    (hb : (builderOf uri calls).build E w = .ok tb) {m : Moments} (hm : SinceArchived S r q s m) :
    ∃ c0, s.history.getLast? = some c0 ∧ tb.timeline.latestTimestampR = .ok c0.ts ∧
      (AllDocumented s.done → MetaFields S.o → RollbacksInPlace s → (WriterTimestamp pos ∧ pos.length = S.width) →
        (∃ d, parseDatetime S.ltz pos S.tz = .ok d) →
        ∃ outs, tb.readIncrementalR E A S.C M m.race pos none = .ok outs ∧
          (Poll.mk s pos c0.ts outs).Received A S s.done) := by
  obtain ⟨ho, hh⟩ := opened_is hw hb
  have hp := partitionPath_same ho
  have hf := agree_same ho
  obtain ⟨c0, d0, h1, h3, h2⟩ := latest_archived_of (S := { S with o := tb.opts }) hmono (archives_with hp hf hs) hkq hc hh
  refine ⟨c0, h1, h3, fun hdoc hmeta hin ht hps => ?_⟩
  obtain ⟨outs, h4, h5⟩ := C102_changes_partial E A { S with o := tb.opts } M hmono hsec r q s (archives_with hp hf hs) hdoc
    hin m (sinceArchived_with hp hf hm) tb hh (by unfold MetaFields; rw [← ho]; exact hmeta) pos ht hps hq c0
    (List.mem_of_getLast? h1) (hk c0 h1)
  exact ⟨outs, by rw [up_to_latest h2]; exact h4, h5⟩

theorem visits_archives {E : Env} {A : Arrow} {S : Setting} {M : MergeEnv A} {pos0 r q : Str} {ps : List Poll} {s : Work}
    {pos : Str} (h : VisitsByPath E A S M pos0 r q ps s pos) : Archives S r q nothingYet s := by
  induction h with
  | begins r q s c hs hl hp => exact hs
  | visits h r' q' hr' hq' s' hs hk hq w uri calls hw tb hb m hm depth F stop hl outs hr ih =>
    exact archives_after (archives_mono hr' hq' ih) hs
  | fails _ _ _ _ _ _ _ ih => exact ih

theorem visits_followed {E : Env} {A : Arrow} {S : Setting} {M : MergeEnv A} (hmono : MonotoneTz E.ltz)
    (hsec : WholeSecondsTz E.ltz) {pos0 r q : Str} {ps : List Poll} {s : Work} {pos : Str}
    (h : VisitsByPath E A S M pos0 r q ps s pos) : Followed A S pos0 ps s pos := by
  induction h with
  | begins r q s c hs hl hp =>
    subst hp
    exact followed_begins (archives_jobs hs) hl
  | fails _ _ _ _ _ _ _ ih => exact ih
  | @visits r q ps s pos h r' q' hr' hq' s' hs hk hq w uri calls hw tb hb m hm depth F stop hl outs hr ih =>
    have hw' := archives_after (archives_mono hr' hq' (visits_archives h)) hs
    obtain ⟨more, hd⟩ := archives_done hs
    obtain ⟨c, hc, rfl⟩ := ih.last
    have hkq := keeps_later (archives_jobs hw') hd hc hq
    obtain ⟨j, hj', rfl⟩ := mem_commitsOf.1 (List.mem_of_getLast? hc)
    obtain ⟨c0, h1, h3, h4⟩ := visit_changes (A := A) (M := M) hmono hsec hw' hk hkq
      (mem_commitsOf.2 ⟨j, by rw [hd]; simp [hj'], rfl⟩ : j.commit ∈ s'.history) hq hw hb hm
    rw [hl] at h3
    cases h3
    refine followed_polls ih (archives_jobs hw') hd h1 (fun hdoc hmeta hin ht hp => ?_)
    obtain ⟨outs', h5, h6⟩ := h4 hdoc hmeta hin ht hp
    rw [visit_ok hr] at h5
    cases h5
    exact h6

/-- **C103, from the path, nothing missed (partial).**  The consumer opens the table by its path at each visit, and any
requests of its visits may fail; when a visit fails, the consumer comes again later.  However things go on, up to any
moment `s'`, each visit that has succeeded has received what the completed writes had changed in its span, as the history
at `s'` has it; each write completed after the beginning and before the last of them falls in exactly one; and all later
writes will fall in later ones.  Missing: as in `C103_nothing_missed_partial`. -/
theorem C103_by_path_nothing_missed_partial (E : Env) (A : Arrow) (S : Setting) (M : MergeEnv A) (hmono : MonotoneTz E.ltz)
    (hsec : WholeSecondsTz E.ltz) (pos0 r q : Str) (ps : List Poll) (s : Work) (pos : Str)
    (h : VisitsByPath E A S M pos0 r q ps s pos) (r' q' : Str) (hr : (compare r r').isLE = true)
    (hq : (compare q q').isLE = true)
    (s' : Work) (hs' : Archives S r' q' s s') (hdoc : AllDocumented s'.done) (hmeta : MetaFields S.o)
    (hin : ∀ p ∈ ps, RollbacksInPlace p.moment) :
    (∀ p ∈ ps, p.Received A S s'.done) ∧
    (∀ j ∈ s.done, compare pos0 j.commit.ts = .lt → ∃! i : Nat, ∃ p, ps[i]? = some p ∧ p.Covers j.commit.ts) ∧
    ∀ j ∈ s'.done, j ∉ s.done → compare pos j.commit.ts = .lt := by
  obtain ⟨more, hd⟩ := archives_done hs'
  exact nothing_missed (visits_followed hmono hsec h)
    (archives_jobs (archives_after (archives_mono hr hq (visits_archives h)) hs')) hd hdoc hmeta hin

/-- **C103, from the path, nothing twice (partial).**  No two visits that have succeeded receive rows of the same commit.
Missing: as in `C103_nothing_missed_partial`. -/
theorem C103_by_path_nothing_twice_partial (E : Env) (A : Arrow) (S : Setting) (M : MergeEnv A) (hmono : MonotoneTz E.ltz)
    (hsec : WholeSecondsTz E.ltz) (pos0 r q : Str) (ps : List Poll) (s : Work) (pos : Str)
    (h : VisitsByPath E A S M pos0 r q ps s pos) (hdoc : AllDocumented s.done) (hmeta : MetaFields S.o)
    (hin : ∀ p ∈ ps, RollbacksInPlace p.moment)
    (i i' : Nat) (p p' : Poll) (hp : ps[i]? = some p) (hp' : ps[i']? = some p') (out out' : Batch) (ho : out ∈ p.outs)
    (ho' : out' ∈ p'.outs) (r r' : List Cell) (hr : r ∈ out.rows) (hr' : r' ∈ out'.rows)
    (he : commitTimeOf out.schema r = commitTimeOf out'.schema r') : i = i' :=
  nothing_twice (visits_followed hmono hsec h) hdoc hmeta hin hp hp' ho ho' hr hr' he

/-- **C103, from the path, visits (partial).**  Whenever the consumer visits the table, and however writers, cleaner and
archiver go on working meanwhile, the table opens by its path and tells the latest commit; and reading the changes gives
an error if one of the requests fails, and otherwise succeeds.  Missing: as in `C103_nothing_missed_partial`. -/
theorem C103_by_path_visits_partial (E : Env) (A : Arrow) (S : Setting) (M : MergeEnv A) (hmono : MonotoneTz E.ltz)
    (hsec : WholeSecondsTz E.ltz) (pos0 r q : Str) (ps : List Poll) (s : Work) (pos : Str)
    (h : VisitsByPath E A S M pos0 r q ps s pos) (r' q' : Str) (hr : (compare r r').isLE = true)
    (hq : (compare q q').isLE = true) (s' : Work) (hs' : Archives S r' q' s s') (hk : KeepsLatest r' s')
    (hkq : (compare q' pos).isLE = true) (hdoc : AllDocumented s'.done) (hmeta : MetaFields S.o)
    (hin : RollbacksInPlace s') (w : World) (uri : Str) (calls : List Call) (hw : TableOf E S s' w uri calls)
    (depth : Nat) :
    ∃ c tb, s'.history.getLast? = some c ∧ (builderOf uri calls).build E w = .ok tb ∧
      tb.timeline.latestTimestampR = .ok c.ts ∧ ∀ m, SinceArchived S r' q' s' m → ∀ F,
      ((TableCall.incremental pos none).SomeFails E A S.C M tb depth m.race F [] →
        ∃ e, ((TableCall.incremental pos none).race E A S.C M tb depth m.race F []).2.2 = .err e) ∧
      (¬ (TableCall.incremental pos none).SomeFails E A S.C M tb depth m.race F [] →
        ∃ outs, ((TableCall.incremental pos none).race E A S.C M tb depth m.race F []).2.2 = .ok (.batches outs)) := by
  have hf := visits_followed hmono hsec h
  have hw' := archives_after (archives_mono hr hq (visits_archives h)) hs'
  obtain ⟨c, hc, rfl⟩ := hf.last
  obtain ⟨more, hd⟩ := archives_done hs'
  have hkq' := keeps_later (archives_jobs hw') hd hc hkq
  obtain ⟨j, hj, rfl⟩ := mem_commitsOf.1 (List.mem_of_getLast? hc)
  obtain ⟨d1, hjob⟩ := hf.jobs.jobOf hj
  obtain ⟨tb, hb, ho, hh⟩ := tableOf_opens hw
  have hin' : j.commit ∈ s'.history := mem_commitsOf.2 ⟨j, by rw [hd]; simp [hj], rfl⟩
  obtain ⟨c0, d0, h1, h3, _⟩ := latest_archived_of (S := { S with o := tb.opts }) hmono
    (archives_with (partitionPath_same ho) (agree_same ho) hw') hkq' hin' hh
  refine ⟨c0, tb, h1, hb, h3, fun m hm F => ?_⟩
  obtain ⟨g1, g2⟩ := C86_failures_are_reported E A S.C M tb depth m.race [] (.incremental j.commit.ts none) F
  refine ⟨g1, fun hF => ?_⟩
  rw [g2 hF]
  obtain ⟨_, _, _, h4⟩ := visit_changes (A := A) (M := M) hmono hsec hw' hk hkq' hin' hkq hw hb hm
  obtain ⟨outs, h5, _⟩ := h4 hdoc hmeta hin hjob.time hjob.parses
  have h7 := (faithfulO_io (faithful_incrementalRF E A S.C M tb m.race j.commit.ts none) ([] : Cache)).none
  rw [h5] at h7
  exact ⟨outs, answerOf_ok.2 ⟨outs, h7, rfl⟩⟩

theorem copies_archives {E : Env} {A : Arrow} {S : Setting} {M : MergeEnv A} {schema : Schema} {r q : Str}
    {visited : List Work} {copy : List (List Cell)} {s : Work} {pos : Str}
    (h : CopiesByPath E A S M schema r q visited copy s pos) : Archives S r q nothingYet s := by
  induction h with
  | begins r q s c hs => exact hs
  | visits h r' q' hr' hq' s' hs hk hq w uri calls hw tb hb m hm depth F stop hl outs hr copy' hc ih =>
    exact archives_after (archives_mono hr' hq' ih) hs
  | fails _ _ _ _ _ _ _ ih => exact ih

theorem copies_mirrored {E : Env} {A : Arrow} {S : Setting} {M : MergeEnv A} {schema : Schema}
    (hmono : MonotoneTz E.ltz) (hsec : WholeSecondsTz E.ltz) {r q : Str} {visited : List Work} {copy : List (List Cell)}
    {s : Work} {pos : Str} (h : CopiesByPath E A S M schema r q visited copy s pos) :
    Mirrored A S schema visited copy s pos := by
  induction h with
  | begins r q s c hs hk hq hn hl w uri calls hw tb hb hive url ha m hm depth hd F outs hr copy hc =>
    refine ⟨archives_jobs hs, ⟨c, hl, rfl⟩, fun _ _ _ hu _ => ?_⟩
    obtain ⟨ho, hh⟩ := opened_is hw hb
    have hp := partitionPath_same ho
    have hf := agree_same ho
    obtain ⟨g1, g2⟩ := C102_kept_latest_partial E A { S with o := tb.opts } M hmono hsec r q s (archives_with hp hf hs) hn
      m (sinceArchived_with hp hf hm) tb [] [] hive url (askable_with ho ha hh) depth hd [] .opened hk hq F
    by_cases hF : (TableCall.snapshot []).SomeFails E A S.C M tb depth m.race F []
    · obtain ⟨e, he⟩ := g1 hF
      rw [hr] at he
      cases he
    · obtain ⟨outs', h1, h2⟩ := g2 hF
      rw [hr] at h1
      cases h1
      obtain ⟨h3, h4⟩ := snapshot_parts (archives_jobs hs) hu h2
      exact latest_of_parts h3 h4 hc
  | fails _ _ _ _ _ _ _ ih => exact ih
  | @visits r q visited copy s pos h r' q' hr' hq' s' hs hk hq w uri calls hw tb hb m hm depth F stop hl outs hr copy' hc
      ih =>
    have hw' := archives_after (archives_mono hr' hq' (copies_archives h)) hs
    obtain ⟨more, hd⟩ := archives_done hs
    obtain ⟨c, hc0, rfl⟩ := ih.last
    have hkq := keeps_later (archives_jobs hw') hd hc0 hq
    obtain ⟨j, hj', rfl⟩ := mem_commitsOf.1 (List.mem_of_getLast? hc0)
    obtain ⟨c0, h1, h3, h4⟩ := visit_changes (A := A) (M := M) hmono hsec hw' hk hkq
      (mem_commitsOf.2 ⟨j, by rw [hd]; simp [hj'], rfl⟩ : j.commit ∈ s'.history) hq hw hb hm
    rw [hl] at h3
    cases h3
    refine mirrored_polls ih (archives_jobs hw') hd h1 (fun hdoc hmeta hin ht hp => ?_) hc
    obtain ⟨outs', h5, h6⟩ := h4 hdoc hmeta hin ht hp
    rw [visit_ok hr] at h5
    cases h5
    exact h6

/-- **C103, from the path, what the copy is (partial).**  A consumer that reads the table once, and from then on only what
has changed, opening the table by its path each time and coming again when a visit fails, has of each record of the table
exactly the latest version, and nothing else.  Missing: as in `C103_copy_partial`. -/
theorem C103_by_path_latest_partial (E : Env) (A : Arrow) (S : Setting) (M : MergeEnv A) (schema : Schema)
    (hmono : MonotoneTz E.ltz) (hsec : WholeSecondsTz E.ltz) (r q : Str) (visited : List Work) (copy : List (List Cell))
    (s : Work) (pos : Str) (h : CopiesByPath E A S M schema r q visited copy s pos) (hdoc : AllDocumented s.done)
    (hmeta : MetaFields S.o) (hin : ∀ v ∈ visited, RollbacksInPlace v) (hu : AllUpserts A schema S.pre s.done)
    (ht : Untied A schema S.pre s.done) : LatestOf A schema S.pre (InTable s.done) copy :=
  (copies_mirrored hmono hsec h).copied hdoc hmeta hin hu ht

/-- **C103, from the path, the copy (partial).**  Whoever opens the table by its path then, and reads the whole of it, gets
an error if one of the requests of the read fails, and what the consumer has otherwise: the latest versions of the rows
that are read are the rows of the copy.  Missing: as in `C103_copy_partial`. -/
theorem C103_by_path_copy_partial (E : Env) (A : Arrow) (S : Setting) (M : MergeEnv A) (schema : Schema)
    (hmono : MonotoneTz E.ltz) (hsec : WholeSecondsTz E.ltz) (r q : Str) (visited : List Work) (copy : List (List Cell))
    (s : Work) (pos : Str) (h : CopiesByPath E A S M schema r q visited copy s pos) (hdoc : AllDocumented s.done)
    (hmeta : MetaFields S.o) (hin : ∀ v ∈ visited, RollbacksInPlace v) (hu : AllUpserts A schema S.pre s.done)
    (ht : Untied A schema S.pre s.done) (hk : KeepsLatest r s) (hq : KeepsLatest q s) (hn : NamesCurrent s)
    (w : World) (uri : Str) (calls : List Call) (hw : TableOf E S s w uri calls) (hive url : Bool)
    (ha : Askable A S [] [] hive url) (depth : Nat) (hd : S.depth < depth) :
    ∃ tb, (builderOf uri calls).build E w = .ok tb ∧ ∀ m, SinceArchived S r q s m → ∀ F,
      ((TableCall.snapshot []).SomeFails E A S.C M tb depth m.race F [] →
        ∃ e, ((TableCall.snapshot []).race E A S.C M tb depth m.race F []).2.2 = .err e) ∧
      (¬ (TableCall.snapshot []).SomeFails E A S.C M tb depth m.race F [] →
        ∃ outs, ((TableCall.snapshot []).race E A S.C M tb depth m.race F []).2.2 = .ok (.batches outs) ∧
          LatestVersions A schema S.pre (outs.flatMap Batch.rows) copy) := by
  have hs := copies_archives h
  have hm' := copies_mirrored hmono hsec h
  obtain ⟨tb, hb, _, _⟩ := tableOf_opens hw
  refine ⟨tb, hb, fun m hm F => ?_⟩
  obtain ⟨ho, hh⟩ := opened_is hw hb
  have hp := partitionPath_same ho
  have hf := agree_same ho
  obtain ⟨g1, g2⟩ := C102_kept_latest_partial E A { S with o := tb.opts } M hmono hsec r q s (archives_with hp hf hs) hn
    m (sinceArchived_with hp hf hm) tb [] [] hive url (askable_with ho ha hh) depth hd [] .opened hk hq F
  refine ⟨g1, fun hF => ?_⟩
  obtain ⟨outs, h1, h2⟩ := g2 hF
  obtain ⟨h3, h4⟩ := snapshot_parts hm'.jobs hu h2
  exact ⟨outs, h1, parts_of_latest h3 h4 (fun r r' hr hr' => ht s.done s.done r r' (List.prefix_refl _)
    (List.prefix_refl _) hr hr') (hm'.copied hdoc hmeta hin hu ht)⟩

end Hudi
