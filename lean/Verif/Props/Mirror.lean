import Verif.Lemmas.Mirror
import Verif.Props.Tail
import Verif.Props.RacingWriter

/-!
# C89: a copy kept up to date from changes
-/

namespace Hudi

open Spec

theorem upserts_prefix {A : Arrow} {schema : Schema} {pre : Str} {js more : List Job}
    (h : AllUpserts A schema pre (js ++ more)) : AllUpserts A schema pre js := by
  rintro d1 j d2 rfl
  exact h d1 j (d2 ++ more) (by simp)

theorem untied_prefix {A : Arrow} {schema : Schema} {pre : Str} {js more : List Job}
    (h : Untied A schema pre (js ++ more)) : Untied A schema pre js :=
  fun d1 d2 r r' h1 h2 => h d1 d2 r r' (h1.trans (List.prefix_append _ _)) (h2.trans (List.prefix_append _ _))

theorem mem_forall₂ {α β : Type} {R : α → β → Prop} {l : List α} {l' : List β} (h : List.Forall₂ R l l') :
    (∀ b ∈ l', ∃ a ∈ l, R a b) ∧ ∀ a ∈ l, ∃ b ∈ l', R a b := by
  induction h with
  | nil => exact ⟨nofun, nofun⟩
  | @cons a b l l' hab _ ih =>
    constructor
    · intro b' hb'
      rcases List.mem_cons.1 hb' with rfl | hb'
      · exact ⟨a, by simp, hab⟩
      · obtain ⟨a', h1, h2⟩ := ih.1 b' hb'
        exact ⟨a', by simp [h1], h2⟩
    · intro a' ha'
      rcases List.mem_cons.1 ha' with rfl | ha'
      · exact ⟨b, by simp, hab⟩
      · obtain ⟨b', h1, h2⟩ := ih.2 a' ha'
        exact ⟨b', by simp [h1], h2⟩

/-- The rows of a snapshot are the table's, and of each record there is the latest version. -/
theorem snapshot_parts {A : Arrow} {S : Setting} {schema : Schema} {s : Work} (hj : JobsOk S s.done)
    (hu : AllUpserts A schema S.pre s.done) {hive url : Bool} {outs : List Batch}
    (h : ReadsEvolving A (columnsBy s.done) S.pre (versionAfter s.history) (Kept A S.pcols hive url [])
      (fun k r => r ∈ recordsAfter (rowsOf s.done) s.history k) outs) :
    (∀ r ∈ outs.flatMap Batch.rows, InTable s.done r) ∧
    ∀ r, InTable s.done r → ∃ r' ∈ outs.flatMap Batch.rows, keyOf schema r' = keyOf schema r ∧
      VersionLE A schema S.pre r r' := by
  obtain ⟨ks, _, h2, h3⟩ := h
  have huniq := hj.unique
  constructor
  · intro r hr
    obtain ⟨out, ho, hr⟩ := List.mem_flatMap.1 hr
    obtain ⟨k, _, v, rows, q1, q2, q3, q4⟩ := (mem_forall₂ h3).1 out ho
    exact ⟨k, (q3 r).1 (q4.sound r hr)⟩
  · rintro r ⟨k, hr⟩
    have hk : k ∈ ks := (h2 k).2 ⟨(by rintro ⟨_, _, f, hf, _⟩; cases hf), records_version hj hr⟩
    obtain ⟨out, ho, v, rows, q1, q2, q3, q4⟩ := (mem_forall₂ h3).2 k hk
    rw [upserts_columns hu huniq q1] at q4
    obtain ⟨r', h4, h5⟩ := q4.all r ((q3 r).2 hr)
    exact ⟨r', List.mem_flatMap.2 ⟨out, ho, h4⟩, h5, q4.latest r' h4 r ((q3 r).2 hr) h5.symm⟩

/-- The rows of a visit are the table's, and of each record written since the last visit there is the latest
version. -/
theorem changes_parts {A : Arrow} {S : Setting} {schema : Schema} {s s' : Work} (hj' : JobsOk S s'.done)
    {more : List Job} (hd : s'.done = s.done ++ more) (hu : AllUpserts A schema S.pre s'.done) {c c0 : HCommit} (hc : s.history.getLast? = some c)
    (hc0 : s'.history.getLast? = some c0) {outs : List Batch} (h : (Poll.mk s' c.ts c0.ts outs).Received A S s'.done) :
    (∀ r ∈ outs.flatMap Batch.rows, InTable s'.done r) ∧
    ∀ r, InTable s'.done r → InTable s.done r ∨ ∃ r' ∈ outs.flatMap Batch.rows, keyOf schema r' = keyOf schema r ∧
      VersionLE A schema S.pre r r' := by
  obtain ⟨ks, _, h2, h3⟩ := h
  have huniq := hj'.unique
  have hall : (commitsOf s'.done).filter (fun c => (compare c.ts c0.ts).isLE) = commitsOf s'.done := by
    refine List.filter_eq_self.2 (fun c hc => ?_)
    obtain ⟨j, hj, rfl⟩ := mem_commitsOf.1 hc
    exact later_last hj' hc0 j hj
  have ht : ∀ k, tableAt (commitsOf s'.done) c0.ts k = versionAfter (commitsOf s'.done) k := fun k => by
    unfold tableAt
    rw [hall]
  have hrec : ∀ k, recordsAt (rowsOf s'.done) (commitsOf s'.done) c0.ts k =
      recordsAfter (rowsOf s'.done) (commitsOf s'.done) k := fun k => by
    unfold recordsAt
    rw [hall]
  constructor
  · intro r hr
    obtain ⟨out, ho, hr⟩ := List.mem_flatMap.1 hr
    obtain ⟨k, _, v, rows, q1, q2, q3, q4⟩ := (mem_forall₂ h3).1 out ho
    exact ⟨k, hrec k ▸ ((q3 r).1 (q4.sound r hr)).1⟩
  · rintro r ⟨k, hr⟩
    by_cases hold : InTable s.done r
    · exact .inl hold
    · right
      have hlater : ∀ j ∈ more, compare c.ts j.commit.ts = .lt ∧ (compare j.commit.ts c0.ts).isLE = true := by
        intro j hj
        obtain ⟨j1, hj1, rfl⟩ := mem_commitsOf.1 (List.mem_of_getLast? hc)
        exact ⟨later_more hj' hd hj1 j hj, later_last hj' hc0 j (by rw [hd]; simp [hj])⟩
      have hk : k ∈ ks := by
        obtain ⟨j, hj, ch, hch⟩ := changed_of_new (hd ▸ hr) hold
        refine (h2 k).2 ⟨⟨j.commit, mem_commitsOf.2 ⟨j, by rw [hd]; simp [hj], rfl⟩, hlater j hj, ch, hch⟩, ?_⟩
        rw [ht]
        exact records_version hj' hr
      obtain ⟨out, ho, v, rows, q1, q2, q3, q4⟩ := (mem_forall₂ h3).2 k hk
      have e := upserts_columns hu huniq ((ht k).symm.trans q1)
      rw [e] at q3 q4
      have hmem : r ∈ rows := by
        refine (q3 r).2 ⟨?_, ?_⟩
        · rw [hrec]
          exact hr
        · rcases upserts_dated more (hd ▸ hu) r (hd ▸ ⟨k, hr⟩) with h | ⟨j, hj, h⟩
          · exact absurd h hold
          · exact ⟨_, h, (hlater j hj).1, fun e he => by cases he; exact (hlater j hj).2⟩
      obtain ⟨r', h4, h5⟩ := q4.all r hmem
      exact ⟨r', List.mem_flatMap.2 ⟨out, ho, h4⟩, h5, q4.latest r' h4 r hmem h5.symm⟩

/-- What holds of a consumer that keeps a copy. -/
structure Mirrored (A : Arrow) (S : Setting) (schema : Schema) (visited : List Work) (copy : List (List Cell)) (s : Work)
    (pos : Str) : Prop where
  jobs : JobsOk S s.done
  last : ∃ c, s.history.getLast? = some c ∧ c.ts = pos
  copied : AllDocumented s.done → MetaFields S.o → (∀ v ∈ visited, RollbacksInPlace v) →
    AllUpserts A schema S.pre s.done → Untied A schema S.pre s.done → LatestOf A schema S.pre (InTable s.done) copy

/-- One more visit. -/
theorem mirrored_polls {A : Arrow} {S : Setting} {schema : Schema} {visited : List Work} {copy : List (List Cell)}
    {s : Work} {pos : Str} (ih : Mirrored A S schema visited copy s pos) {s' : Work} (hj' : JobsOk S s'.done)
    {more : List Job} (hd : s'.done = s.done ++ more) {c0 : HCommit} (h1 : s'.history.getLast? = some c0)
    {outs : List Batch} {copy' : List (List Cell)}
    (hrec : AllDocumented s'.done → MetaFields S.o → RollbacksInPlace s' → (WriterTimestamp pos ∧ pos.length = S.width) →
      (∃ d, parseDatetime S.ltz pos S.tz = .ok d) → (Poll.mk s' pos c0.ts outs).Received A S s'.done)
    (hc : LatestVersions A schema S.pre (copy ++ outs.flatMap Batch.rows) copy') :
    Mirrored A S schema (visited ++ [s']) copy' s' c0.ts := by
  refine ⟨hj', ⟨c0, h1, rfl⟩, fun hdoc hmeta hin hu ht => ?_⟩
  obtain ⟨c, hcl, rfl⟩ := ih.last
  obtain ⟨j, hj, rfl⟩ := mem_commitsOf.1 (List.mem_of_getLast? hcl)
  obtain ⟨d1, hjob⟩ := ih.jobs.jobOf hj
  obtain ⟨h7, h8⟩ := changes_parts hj' hd hu hcl h1 (hrec hdoc hmeta (hin s' (by simp)) hjob.time hjob.parses)
  refine copy_step (ih.copied (documented_prefix (hd ▸ hdoc)) hmeta (fun v hv => hin v (by simp [hv]))
    (upserts_prefix (hd ▸ hu)) (untied_prefix (hd ▸ ht))) ?_ h8 h7 ?_ hc
  · intro r hr
    rw [hd]
    exact upserts_kept more (hd ▸ hu) r hr
  · intro r r' hr hr'
    exact ht s.done s'.done r r' (hd ▸ List.prefix_append _ _) (List.prefix_refl _) hr hr'

theorem mirrors_works {E : Env} {A : Arrow} {S : Setting} {M : MergeEnv A} {schema : Schema} {visited : List Work}
    {copy : List (List Cell)} {s : Work} {pos : Str} (h : Mirrors E A S M schema visited copy s pos) :
    Works S nothingYet s := by
  induction h with
  | begins s c hs hl tb hive url ho m hm depth hd outs hr copy hc => exact hs
  | polls h s' hs tb ho m hm stop hl outs hr copy' hc ih => exact works_after ih hs

theorem mirrored {E : Env} {A : Arrow} {S : Setting} {M : MergeEnv A} {schema : Schema} (hmono : MonotoneTz E.ltz)
    (hsec : WholeSecondsTz E.ltz) {visited : List Work} {copy : List (List Cell)} {s : Work} {pos : Str}
    (h : Mirrors E A S M schema visited copy s pos) : Mirrored A S schema visited copy s pos := by
  induction h with
  | begins s c hs hl tb hive url ho m hm depth hd outs hr copy hc =>
    have hi := inv_works (inv_nothing S) hs
    refine ⟨hi.jobs, ⟨c, hl, rfl⟩, fun _ _ _ hu _ => ?_⟩
    obtain ⟨outs', h1, h2⟩ := C83_reads_latest E A S M hmono hsec s hs m hm tb [] [] hive url ho depth hd
    rw [hr] at h1
    cases h1
    obtain ⟨h3, h4⟩ := snapshot_parts hi.jobs hu h2
    exact latest_of_parts h3 h4 hc
  | @polls visited copy s pos h s' hs tb ho m hm stop hl outs hr copy' hc ih =>
    have hw' : Works S nothingYet s' := works_after (mirrors_works h) hs
    have hi' := inv_works (inv_nothing S) hw'
    obtain ⟨o, hload⟩ := ho.load
    obtain ⟨c0, d0, h1, rfl, h2⟩ := latest_of hmono hi' hload ho.clock ho.zone hl
    obtain ⟨more, hd⟩ := done_works hs
    refine mirrored_polls ih hi'.jobs hd h1 (fun hdoc hmeta hin ht hp => ?_) hc
    obtain ⟨outs', h4, h5⟩ := C84_changes_partial E A S M hmono hsec s' hw' hdoc hin m hm tb ho hmeta pos ht hp c0
      (List.mem_of_getLast? h1)
    rw [up_to_latest h2, h4] at hr
    cases hr
    exact h5

/-- The rows of a copy and those of a read at the same time, if no record is in two file groups. -/
theorem same_rows {A : Arrow} {S : Setting} {schema : Schema} {s : Work} (hj : JobsOk S s.done) {copy : List (List Cell)}
    (hu : AllUpserts A schema S.pre s.done)
    (hone : ∀ k k' r r', r ∈ recordsAfter (rowsOf s.done) s.history k → r' ∈ recordsAfter (rowsOf s.done) s.history k' →
      keyOf schema r = keyOf schema r' → k = k') {hive url : Bool} {outs : List Batch}
    (h : ReadsEvolving A (columnsBy s.done) S.pre (versionAfter s.history) (Kept A S.pcols hive url [])
      (fun k r => r ∈ recordsAfter (rowsOf s.done) s.history k) outs)
    (h6 : LatestVersions A schema S.pre (outs.flatMap Batch.rows) copy) : copy.Perm (outs.flatMap Batch.rows) := by
  obtain ⟨ks, h2, h3, h4⟩ := h
  have huniq := hj.unique
  have hnodup : ((outs.flatMap Batch.rows).map (keyOf schema)).Nodup := by
    clear h6 h3
    induction h4 with
    | nil => exact .nil
    | @cons k out ks outs hko hrest ih =>
      obtain ⟨v, rows, q1, q2, q3, q4⟩ := hko
      rw [upserts_columns hu huniq q1] at q4
      rw [List.flatMap_cons, List.map_append]
      refine List.nodup_append.2 ⟨q4.one, ih (List.nodup_cons.1 h2).2, ?_⟩
      rintro a ha b hb rfl
      obtain ⟨r, hr, e⟩ := List.mem_map.1 ha
      obtain ⟨r', hr', e'⟩ := List.mem_map.1 hb
      obtain ⟨out', ho', hr'⟩ := List.mem_flatMap.1 hr'
      obtain ⟨k', hk', v', rows', p1, p2, p3, p4⟩ := (mem_forall₂ hrest).1 out' ho'
      have := hone k k' r r' ((q3 r).1 (q4.sound r hr)) ((p3 r').1 (p4.sound r' hr')) (e.trans e'.symm)
      subst this
      exact (List.nodup_cons.1 h2).1 hk'
  refine (List.perm_ext_iff_of_nodup (h6.one.of_map _) (hnodup.of_map _)).2 (fun r => ⟨h6.sound r, fun hr => ?_⟩)
  obtain ⟨r', h7, h8⟩ := h6.all r hr
  rw [← List.inj_on_of_nodup_map hnodup (h6.sound r' h7) hr h8]
  exact h7

/-- **C89, the copy (partial).**  Writers work on a table, several at a time, and may stop at any moment, to be rolled
back; they insert and update records and rewrite files, without deleting records.  A consumer reads the table once, and
then, as often as it likes, what has changed since the time before; of each record it keeps the latest version.  At each
visit its copy is what it would get if it read the whole table then: the latest version of each record.  Missing: writes
that delete records (`C89_false`), and what is missing in C88. -/
theorem C89_copy_partial (E : Env) (A : Arrow) (S : Setting) (M : MergeEnv A) (schema : Schema) (hmono : MonotoneTz E.ltz)
    (hsec : WholeSecondsTz E.ltz) (visited : List Work) (copy : List (List Cell)) (s : Work) (pos : Str)
    (h : Mirrors E A S M schema visited copy s pos) (hdoc : AllDocumented s.done) (hmeta : MetaFields S.o)
    (hin : ∀ v ∈ visited, RollbacksInPlace v) (hu : AllUpserts A schema S.pre s.done) (ht : Untied A schema S.pre s.done)
    (tb : Table) (hive url : Bool) (ho : OpenedAt E A S s tb [] [] hive url) (m : Moments) (hm : Since S s m) (depth : Nat)
    (hd : S.depth < depth) :
    ∃ outs, tb.readSnapshotR E A S.C M depth m.race [] = .ok outs ∧
      LatestVersions A schema S.pre (outs.flatMap Batch.rows) copy := by
  have hm' := mirrored hmono hsec h
  obtain ⟨outs, h1, h2⟩ := C83_reads_latest E A S M hmono hsec s (mirrors_works h) m hm tb [] [] hive url ho depth hd
  obtain ⟨h3, h4⟩ := snapshot_parts hm'.jobs hu h2
  exact ⟨outs, h1, parts_of_latest h3 h4 (fun r r' hr hr' => ht s.done s.done r r' (List.prefix_refl _)
    (List.prefix_refl _) hr hr') (hm'.copied hdoc hmeta hin hu ht)⟩

/-- **C89, the same rows (partial).**  If, moreover, no record is in two file groups at the time of the visit, the copy
has exactly the rows of the table.  Missing: as in `C89_copy_partial`. -/
theorem C89_same_rows_partial (E : Env) (A : Arrow) (S : Setting) (M : MergeEnv A) (schema : Schema)
    (hmono : MonotoneTz E.ltz) (hsec : WholeSecondsTz E.ltz) (visited : List Work) (copy : List (List Cell)) (s : Work)
    (pos : Str) (h : Mirrors E A S M schema visited copy s pos) (hdoc : AllDocumented s.done) (hmeta : MetaFields S.o)
    (hin : ∀ v ∈ visited, RollbacksInPlace v) (hu : AllUpserts A schema S.pre s.done) (ht : Untied A schema S.pre s.done)
    (hone : ∀ k k' r r', r ∈ recordsAfter (rowsOf s.done) s.history k → r' ∈ recordsAfter (rowsOf s.done) s.history k' →
      keyOf schema r = keyOf schema r' → k = k')
    (tb : Table) (hive url : Bool) (ho : OpenedAt E A S s tb [] [] hive url) (m : Moments) (hm : Since S s m) (depth : Nat)
    (hd : S.depth < depth) :
    ∃ outs, tb.readSnapshotR E A S.C M depth m.race [] = .ok outs ∧ copy.Perm (outs.flatMap Batch.rows) := by
  obtain ⟨outs, h1, h2⟩ := C83_reads_latest E A S M hmono hsec s (mirrors_works h) m hm tb [] [] hive url ho depth hd
  obtain ⟨outs', h5, h6⟩ := C89_copy_partial E A S M schema hmono hsec visited copy s pos h hdoc hmeta hin hu ht tb hive url
    ho m hm depth hd
  rw [h1] at h5
  cases h5
  exact ⟨outs, h1, same_rows (mirrored hmono hsec h).jobs hu hone h2 h6⟩

end Hudi
