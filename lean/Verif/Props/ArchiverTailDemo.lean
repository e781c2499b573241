import Verif.Props.ArchiverTail
import Verif.Props.ArchiverChangesDemo
import Verif.Props.CleanerMirrorDemo

/-! # C103: consumers that meet the hypotheses, and a counterexample -/

namespace Hudi
open Spec
namespace Demo

theorem allAt_archived {S : Setting} {r q : Str} {s0 s : Work} (h : Archives S r q s0 s) :
    SinceArchived S r q s0 (allAt s) :=
  ⟨fun _ => h, h, h, fun _ => h, fun _ => h, fun _ => h, fun _ _ => .refl _⟩

theorem archives_of_cleans {S : Setting} {r q : Str} {a b : Work} (h : Cleans S r a b) : Archives S r q a b := by
  induction h with
  | refl => exact .refl _
  | step _ hs ih => exact .step ih (.clean _ _ hs)

theorem at_works_K : Works spSetting spI ccK := works_trans works_IY works_K

theorem ccK_inPlace : RollbacksInPlace ccK := by
  refine ac_inPlace (by simp [ccK]) ?_
  intro e he ws hws
  have hs : ccK.store = [(baseAt f1 c!"0-0-0" t0, .file (.parquet 1 base1)),
      (instantAt jobI.commit, .file (.json (.obj chDoc0))), (logAt f1 t0 here, .log [x1]),
      (instantAt jobY.commit, .file (.json (.obj chDoc2))),
      (baseAt f1 c!"0-9-9" clTs, .file (.parquet 1 ccBatch)),
      (instantAt jobK.commit, .file (.json (.obj jobK.doc)))] := rfl
  rw [hs] at he
  simp only [List.mem_cons, List.not_mem_nil, or_false] at he
  rcases he with rfl | rfl | rfl | rfl | rfl | rfl
  · cases hws
  · cases hws
  · cases hws; rfl
  all_goals cases hws

/-- The visits: one after the third write, and one when the files of the first commits are being archived. -/
def atPolls : List Poll := [⟨ccK, t0, clTs, [⟨incSchema, x1Batch.rows ++ [rowE]⟩]⟩, ⟨acA, clTs, arTs, [acBatch]⟩]

theorem at_begins : FollowsArchived env arrow spSetting (mergeEnv arrow) t0 t0 t0 [] spI t0 :=
  .begins t0 t0 spI jobI.commit (archives_of_works works_I) rfl rfl

theorem at_toA {r q : Str} (h : compare t0 q = .lt) : Archives spSetting r q ccK acA :=
  .step (archives_of_works ac_works_Z) (.archive acZ jobI (by simp [acZ]) h (by decide))

theorem at_follows : FollowsArchived env arrow spSetting (mergeEnv arrow) t0 clTs clTs atPolls acA arTs := by
  have h1 := FollowsArchived.polls at_begins clTs t0 (by decide) (by decide) ccK (archives_of_works at_works_K)
    (by intro c hc; cases hc; decide) (by decide) ccTable (ar_opened ccK _ rfl (by rfl)).toHandleAt (allAt ccK)
    (allAt_archived (.refl _)) clTs rfl [⟨incSchema, x1Batch.rows ++ [rowE]⟩] (by decide +kernel)
  exact FollowsArchived.polls h1 clTs clTs (by decide) (by decide) acA (at_toA (by decide))
    (by intro c hc; cases hc; decide) (by decide) acTable (ar_opened acA _ rfl (by rfl)).toHandleAt acMoments ac_since arTs
    rfl [acBatch] (by decide +kernel)

/-- The cleaner has deleted a log file, and the archiver the timeline file of the first commit. -/
def amA : Work := { ccL with store := (Request.delete (instantAt jobI.commit)).run ccL.store }

def amTable : Table := ⟨morOpts, [], ⟨[], [⟨t1, .deltaCommit, .completed, 1704067200000⟩,
  ⟨clTs, .commit, .completed, 1704499200000⟩]⟩⟩

theorem am_toA : Archives spSetting clTs t1 spY amA :=
  .step (archives_of_cleans (cleans_more (cleans_of_works works_K) cc_toL))
    (.archive ccL jobI (by simp [ccL, ccK]) (by decide) (by decide))

theorem am_inPlace : RollbacksInPlace amA := by
  refine ac_inPlace (by simp [amA, ccL, ccK]) ?_
  intro e he ws hws
  have hs : amA.store = [(baseAt f1 c!"0-0-0" t0, .file (.parquet 1 base1)),
      (instantAt jobY.commit, .file (.json (.obj chDoc2))),
      (baseAt f1 c!"0-9-9" clTs, .file (.parquet 1 ccBatch)),
      (instantAt jobK.commit, .file (.json (.obj jobK.doc)))] := rfl
  rw [hs] at he
  simp only [List.mem_cons, List.not_mem_nil, or_false] at he
  rcases he with rfl | rfl | rfl | rfl
  all_goals cases hws

theorem am_begins : MirrorsArchived env arrow spSetting (mergeEnv arrow) incSchema t0 t0 [] [oldC, rowA, rowB] spY t1 :=
  .begins t0 t0 spY jobY.commit (archives_of_works works_Y) (by intro c hc; cases hc; decide)
    (by intro c hc; cases hc; decide) sv_current' rfl spTable false false sv_opened' (allAt spY)
    (allAt_archived (.refl _)) 1 (by decide) [⟨incSchema, [oldC, rowA, rowB]⟩] (by decide +kernel) _
    (latest_self (by decide))

theorem am_mirrors : MirrorsArchived env arrow spSetting (mergeEnv arrow) incSchema clTs t1 [amA]
    [oldC, rowA, rowB, rowE] amA clTs :=
  MirrorsArchived.polls am_begins clTs t1 (by decide) (by decide) amA am_toA (by intro c hc; cases hc; decide) (by decide)
    amTable (ar_opened amA _ rfl (by rfl)).toHandleAt (allAt amA) (allAt_archived (.refl _)) clTs rfl
    [⟨incSchema, [rowE]⟩] (by decide +kernel) _ (latest_self (by decide))

end Demo

open Demo in
/-- The hypotheses of C103 are met by a consumer that begins after an insert.  It visits the table when a write that
appends a block and one that gives the file group a new base file have completed, and receives the records added.  A
fourth write makes a file group; the archiver deletes the timeline file of the insert, and, during the second visit, that
of the second write, when the cleaner deletes a log file, too.  The consumer receives the record of the fourth write. -/
example : MonotoneTz env.ltz ∧ WholeSecondsTz env.ltz ∧
    FollowsArchived env arrow spSetting (mergeEnv arrow) t0 clTs clTs atPolls acA arTs ∧
    (compare clTs clTs).isLE = true ∧ Archives spSetting clTs clTs acA acC ∧ AllDocumented acC.done ∧
    MetaFields spSetting.o ∧ (∀ p ∈ atPolls, RollbacksInPlace p.moment) ∧
    (∀ p ∈ atPolls, p.Received arrow spSetting acC.done) ∧ (∀ p ∈ atPolls, p.outs.flatMap Batch.rows ≠ []) ∧
    KeepsLatest clTs acA ∧ (compare clTs arTs).isLE = true ∧ RollbacksInPlace acA ∧
    HandleAt env spSetting acA acTable ∧ SinceArchived spSetting clTs clTs acA acMoments := by
  have hmono : MonotoneTz env.ltz := by intro a b a' b' h1 h2 h; cases h1; cases h2; exact h
  have hsec : WholeSecondsTz env.ltz := by intro n d h; cases h; rfl
  have hmeta : MetaFields spSetting.o := by decide
  have hC : Archives spSetting clTs clTs acA acC := archives_more (ac_toB (by decide)) ac_toC
  have hin : ∀ p ∈ atPolls, RollbacksInPlace p.moment := by
    intro p hp
    simp only [atPolls, List.mem_cons, List.not_mem_nil, or_false] at hp
    rcases hp with rfl | rfl
    · exact ccK_inPlace
    · exact acA_inPlace
  refine ⟨hmono, hsec, at_follows, by decide, hC, acZ_documented, hmeta, hin,
    (C103_nothing_missed_partial env arrow spSetting (mergeEnv arrow) hmono hsec t0 clTs clTs atPolls _ _ at_follows clTs
      clTs (by decide) (by decide) _ hC acZ_documented hmeta hin).1, ?_, by intro c hc; cases hc; decide, by decide,
    acA_inPlace, (ar_opened acA _ rfl (by rfl)).toHandleAt, ac_since⟩
  intro p hp
  simp only [atPolls, List.mem_cons, List.not_mem_nil, or_false] at hp
  rcases hp with rfl | rfl <;> decide

open Demo in
/-- The hypotheses of C103's theorems about copies are met by a consumer that reads the table after an insert and a write
that appends a record, and again what has changed when another write has added one, the log file of the version before has
been cleaned, and the insert has been archived.  The copy has all rows of the table. -/
example : MirrorsArchived env arrow spSetting (mergeEnv arrow) incSchema clTs t1 [amA] [oldC, rowA, rowB, rowE] amA clTs ∧
    AllDocumented amA.done ∧ MetaFields spSetting.o ∧ (∀ v ∈ [amA], RollbacksInPlace v) ∧
    AllUpserts arrow incSchema spSetting.pre amA.done ∧ Untied arrow incSchema spSetting.pre amA.done ∧
    KeepsLatest clTs amA ∧ KeepsLatest t1 amA ∧ NamesCurrent amA ∧
    OpenedAt env arrow spSetting amA amTable [] [] false false ∧ SinceArchived spSetting clTs t1 amA (allAt amA) ∧
    spSetting.depth < 1 ∧
    amTable.readSnapshotR env arrow spSetting.C (mergeEnv arrow) 1 (allAt amA).race [] =
      .ok [⟨incSchema, [rowA, oldC, rowB, rowE]⟩] := by
  refine ⟨am_mirrors, ccK_documented, by decide, ?_, ccm_upserts, ccm_untied, by intro c hc; cases hc; decide,
    by intro c hc; cases hc; decide, ccL_current, ar_opened amA _ rfl (by rfl), allAt_archived (.refl _), by decide,
    by decide +kernel⟩
  intro v hv
  rw [List.mem_singleton.1 hv]
  exact am_inPlace

open Demo in
/-- **C103 is false when the archiver goes beyond the consumer's last visit.**  The consumer has begun after an insert and
stays away while three writes complete.  The cleaner and the archiver keep what the latest commit needs, but the archiver
has deleted the timeline files of the commits before.  The visit succeeds, and the consumer is told the latest commit, but
it does not receive what the archived commits had changed. -/
theorem C103_false : ∃ (E : Env) (A : Arrow) (S : Setting) (M : MergeEnv A) (pos0 r q : Str) (ps : List Poll) (s : Work)
    (pos r' q' : Str) (s' : Work) (tb : Table) (stop : Str) (outs : List Batch),
    MonotoneTz E.ltz ∧ WholeSecondsTz E.ltz ∧ FollowsArchived E A S M pos0 r q ps s pos ∧ (compare r r').isLE = true ∧
    (compare q q').isLE = true ∧ Archives S r' q' s s' ∧ KeepsLatest r' s' ∧ KeepsLatest q' s' ∧
    AllDocumented s'.done ∧ MetaFields S.o ∧ RollbacksInPlace s' ∧ HandleAt E S s' tb ∧
    tb.timeline.latestTimestampR = .ok stop ∧
    tb.readIncrementalR E A S.C M (Race.still s'.tree) pos none = .ok outs ∧
    ¬ Poll.Received A S s'.done ⟨s', pos, stop, outs⟩ := by
  refine ⟨env, arrow, spSetting, mergeEnv arrow, t0, t0, t0, [], spI, t0, t0, arTs, acD, acTableD, arTs, [acBatch],
    by intro a b a' b' h1 h2 h; cases h1; cases h2; exact h, by intro n d h; cases h; rfl, at_begins, by decide,
    by decide, archives_more (archives_more (archives_more (archives_of_works at_works_K) (at_toA (by decide)))
      (ac_toB (by decide))) ac_toD, by intro c hc; cases hc; decide, by intro c hc; cases hc; decide, acZ_documented,
    by decide, acD_inPlace, (ar_opened acD _ rfl (by rfl)).toHandleAt, rfl, by decide +kernel, ?_⟩
  rintro ⟨ks, h1, h2, h3⟩
  have hf1 : f1 ∈ ks := (h2 f1).2 ⟨⟨jobK.commit, by simp [acD, acB, acA, acZ, commitsOf], by decide, _,
    List.mem_cons_self⟩, by decide⟩
  have hf5 : svF5 ∈ ks := (h2 svF5).2 ⟨⟨acJob.commit, by simp [acD, acB, acA, acZ, commitsOf], by decide, _,
    List.mem_cons_self⟩, by decide⟩
  obtain ⟨a, rfl⟩ := List.length_eq_one_iff.1 h3.length_eq
  rw [List.mem_singleton] at hf1 hf5
  rw [← hf1] at hf5
  exact absurd hf5 (by decide)

end Hudi
