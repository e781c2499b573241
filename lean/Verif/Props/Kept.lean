import Verif.Spec.Kept
import Verif.Props.Faults
import Verif.Props.WriterOpened

/-! # C85: a handle that is kept while writers work -/

namespace Hudi
open Spec

/-- A partition with a base file up to a commit that the handle knows stays. -/
theorem stillThere_works {S : Setting} {s0 s : Work} (hi0 : Inv S s0) (hs : Works S s0 s) {c : HCommit}
    (hc : c ∈ s0.history) {hist : List Tree} (hh : ∀ t ∈ hist, ∃ s1, Works S s0 s1 ∧ t = s1.tree) :
    StillThere S.o hist s.tree c.ts := by
  intro t ht x hx b hb hle
  obtain ⟨s1, hs1, rfl⟩ := hh t ht
  have hi := inv_works hi0 hs
  have hi1 := inv_works hi0 hs1
  obtain ⟨name, size, hf, _⟩ := id hb
  have hsite := site_of_partition hi1 hx hf
  obtain ⟨j, f, token, hj, hk, rfl⟩ := base_in hi1 hsite hb
  obtain ⟨j0, hj0, rfl⟩ := mem_commitsOf.1 hc
  obtain ⟨more1, hd1⟩ := done_works hs1
  obtain ⟨more, hd⟩ := done_works hs
  have hj := before_known hi1 hd1 hj0 hj hle
  have hj : j ∈ s.done := by rw [hd]; simp [hj]
  obtain ⟨_, y, hy⟩ := (mem_filesOf hi).1 (base_there hi hj hk).1
  exact partition_of_site hi hsite hy

theorem forall₂_perm_right {α β : Type} {R : α → β → Prop} {as : List α} {bs bs' : List β} (h : List.Forall₂ R as bs)
    (hp : bs.Perm bs') : ∃ as', as.Perm as' ∧ List.Forall₂ R as' bs' := by
  induction hp generalizing as with
  | nil => cases h; exact ⟨[], .nil, .nil⟩
  | cons b _ ih =>
    cases h with
    | cons h1 h2 =>
      obtain ⟨as', h3, h4⟩ := ih h2
      exact ⟨_ :: as', h3.cons _, .cons h1 h4⟩
  | swap b b' l =>
    cases h with
    | cons h1 h2 =>
      cases h2 with
      | cons h3 h4 => exact ⟨_ :: _ :: _, .swap _ _ _, .cons h3 (.cons h1 h4)⟩
  | trans _ _ ih1 ih2 =>
    obtain ⟨as', h3, h4⟩ := ih1 h
    obtain ⟨as'', h5, h6⟩ := ih2 h4
    exact ⟨as'', h3.trans h5, h6⟩

theorem readsEvolving_perm {A : Arrow} {cols : Columns} {pre : Str} {table : GroupKey → Option Version}
    {parts : Str → Prop} {rowOf : GroupKey → List Cell → Prop} {outs outs' : List Batch} (hp : outs.Perm outs')
    (h : ReadsEvolving A cols pre table parts rowOf outs) : ReadsEvolving A cols pre table parts rowOf outs' := by
  obtain ⟨ks, h1, h2, h3⟩ := h
  obtain ⟨ks', hk, h4⟩ := forall₂_perm_right h3 hp
  exact ⟨ks', hk.nodup_iff.1 h1, fun k => by rw [← hk.mem_iff]; exact h2 k, h4⟩

/-- **C85, like a fresh handle.**  A handle opened at any moment `s0` and kept while writers work, on which any calls have
been made since, answers at any later moment `s` every call about the table as of a commit that had completed at `s0`
(and every call that is not about a time) as a fresh handle on the same timeline does, up to order. -/
theorem C85_kept_like_fresh (E : Env) (A : Arrow) (S : Setting) (M : MergeEnv A) (s0 s : Work)
    (hs0 : Works S nothingYet s0) (hs : Works S s0 s) (tb : Table) (ho : tb.opts = S.o) (cache : Cache)
    (hk : KeptSince E A S M s0 tb cache) (call : TableCall)
    (hcall : ∀ ts, call.IsAsOf tb ts → ∃ c ∈ s0.history, c.ts = ts) :
    (∀ a, (call.answer E A S.C M tb s.tree []).2 = .ok a →
      ∃ a', (call.answer E A S.C M tb s.tree cache).2 = .ok a' ∧ a.Same a') ∧
    (∀ a, (call.answer E A S.C M tb s.tree cache).2 = .ok a →
      ∃ a', (call.answer E A S.C M tb s.tree []).2 = .ok a' ∧ a.Same a') := by
  have hi0 := inv_works (inv_nothing S) hs0
  obtain ⟨hist, hcalls, hh⟩ := hk
  have hwfs : ∀ t ∈ hist, TreeWF t := by
    intro t ht
    obtain ⟨s1, hs1, rfl⟩ := hh t ht
    exact (inv_works hi0 hs1).treeWF
  refine C72_failed_calls_leave_no_trace_partial E A S.C M tb hist cache hcalls hwfs s.tree
    (inv_works hi0 hs).treeWF call (fun ts hts => ?_)
  obtain ⟨c, hc, rfl⟩ := hcall ts hts
  rw [ho]
  exact stillThere_works hi0 hs hc hh

/-- **C85, as of a commit.**  A handle opened at any moment `s0` and kept while writers work, on which any calls have been
made since, reads at any later moment `s`, as of any commit that had completed at `s0`, exactly the records that the
writes completed by then had written. -/
theorem C85_kept_as_of (E : Env) (A : Arrow) (S : Setting) (M : MergeEnv A) (hmono : MonotoneTz E.ltz)
    (hsec : WholeSecondsTz E.ltz) (s0 s : Work) (hs0 : Works S nothingYet s0) (hs : Works S s0 s) (tb : Table)
    (filters : List (Str × Str × Str)) (fs : List Filter) (hive url : Bool)
    (ho : OpenedAt E A S s0 tb filters fs hive url) (cache : Cache) (hk : KeptSince E A S M s0 tb cache) (c : HCommit)
    (hc : c ∈ s0.history) :
    ∃ outs, (tb.readSnapshotAsOf E A S.C M s.tree c.ts filters cache).2 = .ok outs ∧
      ReadsEvolving A (columnsBy s0.done) S.pre (tableAt s0.history c.ts) (Kept A S.pcols hive url fs)
        (fun k r => r ∈ recordsAt (rowsOf s0.done) s0.history c.ts k) outs := by
  obtain ⟨outs, h1, h2⟩ := C82_reads_as_of E A S M hmono hsec s0 s hs0 hs tb filters fs hive url ho c hc
  obtain ⟨hfresh, _⟩ := C85_kept_like_fresh E A S M s0 s hs0 hs tb ho.options cache hk (.snapshotAsOf c.ts filters)
    (fun ts hts => ⟨c, hc, hts.symm⟩)
  obtain ⟨a, h3, h4⟩ := hfresh (.batches outs) (answerOf_ok.2 ⟨outs, h1, rfl⟩)
  obtain ⟨outs', h5, rfl⟩ := answerOf_ok.1 h3
  exact ⟨outs', h5, readsEvolving_perm h4 h2⟩

/-- **C85, with failing requests.**  And whatever requests of the read fail: it returns an error when one of them does, and
these records when none does. -/
theorem C85_kept_or_error (E : Env) (A : Arrow) (S : Setting) (M : MergeEnv A) (hmono : MonotoneTz E.ltz)
    (hsec : WholeSecondsTz E.ltz) (s0 s : Work) (hs0 : Works S nothingYet s0) (hs : Works S s0 s) (tb : Table)
    (filters : List (Str × Str × Str)) (fs : List Filter) (hive url : Bool)
    (ho : OpenedAt E A S s0 tb filters fs hive url) (cache : Cache) (hk : KeptSince E A S M s0 tb cache) (c : HCommit)
    (hc : c ∈ s0.history) (F : Faults) :
    ((∃ k < (TableCall.snapshotAsOf c.ts filters).requests E A S.C M tb s.tree cache, F k = true) →
      ∃ e, ((TableCall.snapshotAsOf c.ts filters).run E A S.C M tb s.tree F cache).2.2 = .err e) ∧
    ((∀ k < (TableCall.snapshotAsOf c.ts filters).requests E A S.C M tb s.tree cache, F k = false) →
      ∃ outs, ((TableCall.snapshotAsOf c.ts filters).run E A S.C M tb s.tree F cache).2.2 = .ok (.batches outs) ∧
        ReadsEvolving A (columnsBy s0.done) S.pre (tableAt s0.history c.ts) (Kept A S.pcols hive url fs)
          (fun k r => r ∈ recordsAt (rowsOf s0.done) s0.history c.ts k) outs) := by
  obtain ⟨h1, h2⟩ := C72_failures_are_reported E A S.C M tb s.tree cache (.snapshotAsOf c.ts filters) F
  refine ⟨h1, fun hF => ?_⟩
  obtain ⟨outs, h3, h4⟩ := C85_kept_as_of E A S M hmono hsec s0 s hs0 hs tb filters fs hive url ho cache hk c hc
  refine ⟨outs, ?_, h4⟩
  rw [h2 hF]
  exact answerOf_ok.2 ⟨outs, h3, rfl⟩

/-- **C85, the latest snapshot.**  Likewise without a timestamp: the handle reads the table as it was when it was opened,
however often it has been used, and whatever has been written since. -/
theorem C85_kept_latest (E : Env) (A : Arrow) (S : Setting) (M : MergeEnv A) (hmono : MonotoneTz E.ltz)
    (hsec : WholeSecondsTz E.ltz) (s0 s : Work) (hs0 : Works S nothingYet s0) (hs : Works S s0 s) (tb : Table)
    (filters : List (Str × Str × Str)) (fs : List Filter) (hive url : Bool)
    (ho : OpenedAt E A S s0 tb filters fs hive url) (cache : Cache) (hk : KeptSince E A S M s0 tb cache) :
    ∃ outs, (tb.readSnapshot E A S.C M s.tree filters cache).2 = .ok outs ∧
      ReadsEvolving A (columnsBy s0.done) S.pre (versionAfter s0.history) (Kept A S.pcols hive url fs)
        (fun k r => r ∈ recordsAfter (rowsOf s0.done) s0.history k) outs := by
  have hi0 := inv_works (inv_nothing S) hs0
  obtain ⟨o, hload⟩ := ho.load
  obtain ⟨t1, t2, t3⟩ := timeline_of hload ho.zone hi0.wf (by rw [ho.clock]; exact hi0.timeline)
  rcases timeline_last hmono hi0.wf t1 t2 t3 with ⟨h1, h2⟩ | ⟨c0, d0, h1, h2, h3⟩
  · refine ⟨[], ?_, [], .nil, ?_, .nil⟩
    · unfold Table.readSnapshot Timeline.latestTimestamp
      rw [h2]
      rfl
    · intro k
      rw [h1]
      simp [versionAfter]
  · obtain ⟨outs, h4, h5⟩ := C85_kept_as_of E A S M hmono hsec s0 s hs0 hs tb filters fs hive url ho cache hk c0
      (List.mem_of_getLast? h1)
    refine ⟨outs, ?_, ?_⟩
    · unfold Table.readSnapshot Timeline.latestTimestamp
      rw [h2]
      exact h4
    · have e1 : tableAt s0.history c0.ts = versionAfter s0.history := by
        funext k; unfold tableAt; rw [h3]
      have e2 : recordsAt (rowsOf s0.done) s0.history c0.ts = recordsAfter (rowsOf s0.done) s0.history := by
        funext k; unfold recordsAt; rw [h3]
      rw [e1, e2] at h5
      exact h5

/-- **C85, from the path.**  While writers work on a table, it opens by its path at any moment `s0`; and the handle, kept
and used for any calls, goes on reading as of any commit that had completed at `s0`, and without a timestamp, exactly
the records that the writes completed by then had written. -/
theorem C85_opened_and_kept (E : Env) (A : Arrow) (S : Setting) (M : MergeEnv A) (hmono : MonotoneTz E.ltz)
    (hsec : WholeSecondsTz E.ltz) (s0 : Work) (hs0 : Works S nothingYet s0) (w : World) (uri : Str)
    (calls : List Call) (hw : TableOf E S s0 w uri calls) (filters : List (Str × Str × Str)) (fs : List Filter)
    (hive url : Bool) (ha : Askable A S filters fs hive url) :
    ∃ tb, (builderOf uri calls).build E w = .ok tb ∧ ∀ cache, KeptSince E A S M s0 tb cache → ∀ s, Works S s0 s →
      (∀ c ∈ s0.history, ∃ outs, (tb.readSnapshotAsOf E A S.C M s.tree c.ts filters cache).2 = .ok outs ∧
        ReadsEvolving A (columnsBy s0.done) S.pre (tableAt s0.history c.ts) (Kept A S.pcols hive url fs)
          (fun k r => r ∈ recordsAt (rowsOf s0.done) s0.history c.ts k) outs) ∧
      ∃ outs, (tb.readSnapshot E A S.C M s.tree filters cache).2 = .ok outs ∧
        ReadsEvolving A (columnsBy s0.done) S.pre (versionAfter s0.history) (Kept A S.pcols hive url fs)
          (fun k r => r ∈ recordsAfter (rowsOf s0.done) s0.history k) outs := by
  obtain ⟨tb, hb, ho, hh⟩ := tableOf_opens hw
  have hp := partitionPath_same ho
  have hf := agree_same ho
  refine ⟨tb, hb, fun cache ⟨hist, hcalls, hhist⟩ s hs => ?_⟩
  have hk : KeptSince E A { S with o := tb.opts } M s0 tb cache := ⟨hist, hcalls, fun t ht => by
    obtain ⟨s1, hs1, e⟩ := hhist t ht
    exact ⟨s1, works_with hp hf hs1, e⟩⟩
  exact ⟨fun c hc => C85_kept_as_of E A { S with o := tb.opts } M hmono hsec s0 s (works_with hp hf hs0)
      (works_with hp hf hs) tb filters fs hive url (askable_with ho ha hh) cache hk c hc,
    C85_kept_latest E A { S with o := tb.opts } M hmono hsec s0 s (works_with hp hf hs0)
      (works_with hp hf hs) tb filters fs hive url (askable_with ho ha hh) cache hk⟩

end Hudi
