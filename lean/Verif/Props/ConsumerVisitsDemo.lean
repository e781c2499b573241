import Verif.Props.ConsumerVisits
import Verif.Props.ArchiverTailDemo
import Verif.Props.ArchiverOpenedDemo

/-! # C103 from the path: consumers that meet the hypotheses -/

namespace Hudi
open Spec
namespace Demo

theorem path_archives {r q : Str} {s s' : Work} (h : Archives spSetting r q s s') : Archives pathSpSetting r q s s' :=
  archives_with (S := spSetting) path_sites (by decide) h

/-- Three writes have completed, and the properties file is there. -/
def cvK : Work := withProps ccK

/-- A further write has completed. -/
def cvZ : Work := ⟨acJob.completion.run (acPut.run cvK.store), [jobI, jobY, jobK, acJob], [], [arTs, clTs, t1, t0]⟩

/-- The first commit has been archived. -/
def cvA : Work := { cvZ with store := (Request.delete (instantAt jobI.commit)).run cvZ.store }

theorem cv_toK {r q : Str} : Archives pathSpSetting r q spI cvK :=
  archives_more (path_archives (archives_of_works at_works_K)) (archives_of_works (props_works _ rfl rfl _))

theorem cv_works_Z : Works spSetting cvK cvZ := by
  have hu : ∀ u ∈ cvK.used, compare u arTs = .lt := by decide
  have h1 := Works.step (.refl _) (alone_begin cvK acJob rfl hu acJob_ok)
  have h2 := Works.step h1 (alone_request _ ⟨acJob, [], none, []⟩ acPut rfl rfl List.mem_cons_self)
  have h3 := Works.step h2 (alone_complete _ ⟨acJob, [acPut], none, []⟩ rfl rfl (fun q hq => hq))
  exact h3

theorem cv_toA {r q : Str} (h : compare t0 q = .lt) : Archives pathSpSetting r q cvK cvA :=
  path_archives (.step (archives_of_works cv_works_Z) (.archive cvZ jobI (by simp [cvZ]) h (by decide)))

def cvTable (is : List Instant) : Table :=
  ⟨openOpts, [(c!"timeout", c!"10s"), (c!"aws_region", c!"env")], ⟨openOpts, is⟩⟩

theorem cv_buildK : (builderOf c!"s3://b/trips" openCalls).build env (openWorld cvK.tree) =
    .ok (cvTable ccTable.timeline.completed) := by decide +kernel

theorem cv_buildA : (builderOf c!"s3://b/trips" openCalls).build env (openWorld cvA.tree) =
    .ok (cvTable acTable.timeline.completed) := by decide +kernel

theorem incremental_answer {A : Arrow} {C : Codec} {M : MergeEnv A} {tb : Table} {depth : Nat} {R : Race} {start : Str}
    {outs : List Batch} (h : (tb.readIncrementalRF env A C M R start none noFaults 0).2 = .ok outs) :
    ((TableCall.incremental start none).race env A C M tb depth R noFaults []).2.2 = .ok (.batches outs) := by
  unfold TableCall.race
  exact answerOf_ok.2 ⟨outs, h, rfl⟩

theorem snapshot_answer {A : Arrow} {C : Codec} {M : MergeEnv A} {tb : Table} {depth : Nat} {R : Race}
    {outs : List Batch} (h : (tb.readSnapshotRF env A C M depth R [] noFaults 0 []).2.2 = .ok outs) :
    ((TableCall.snapshot []).race env A C M tb depth R noFaults []).2.2 = .ok (.batches outs) := by
  unfold TableCall.race
  exact answerOf_ok.2 ⟨outs, h, rfl⟩

/-- The visits that succeed. -/
def cvPolls : List Poll := [⟨cvK, t0, clTs, [⟨incSchema, x1Batch.rows ++ [rowE]⟩]⟩, ⟨cvA, clTs, arTs, [acBatch]⟩]

/-- The second visit fails first, with its first request. -/
theorem cv_visits : VisitsByPath env arrow pathSpSetting (mergeEnv arrow) t0 clTs clTs cvPolls cvA arTs := by
  have h0 : VisitsByPath env arrow pathSpSetting (mergeEnv arrow) t0 t0 t0 [] spI t0 :=
    .begins t0 t0 spI jobI.commit (path_archives (archives_of_works works_I)) rfl rfl
  have h1 := VisitsByPath.visits h0 clTs t0 (by decide) (by decide) cvK cv_toK
    (by intro c hc; cases hc; decide) (by decide) (openWorld cvK.tree) c!"s3://b/trips" openCalls
    (tableOf_build rfl rfl rfl rfl rfl cv_buildK) _ cv_buildK (allAt cvK) (allAt_archived (.refl _)) 1 noFaults clTs rfl
    [⟨incSchema, x1Batch.rows ++ [rowE]⟩] (incremental_answer (by decide +kernel))
  have h2 := VisitsByPath.fails h1 (cvTable acTable.timeline.completed) (allAt cvA) 1 (fun n => n == 0) .storage rfl
  exact VisitsByPath.visits h2 clTs clTs (by decide) (by decide) cvA (cv_toA (by decide))
    (by intro c hc; cases hc; decide) (by decide) (openWorld cvA.tree) c!"s3://b/trips" openCalls
    (tableOf_build rfl rfl rfl rfl rfl cv_buildA) _ cv_buildA (allAt cvA) (allAt_archived (.refl _)) 1 noFaults arTs rfl
    [acBatch] (incremental_answer (by decide +kernel))

theorem inPlace_props {s : Work} (h : RollbacksInPlace s) : RollbacksInPlace (withProps s) := by
  intro p ws w i hg hw hr hb
  refine h p ws w i ?_ hw hr hb
  by_cases hp : p = putProps.path
  · subst hp
    have : (withProps s).store.get putProps.path = some (.file (.bytes (utf8Encode tripsText))) :=
      (get_run putProps _).trans (if_pos rfl)
    rw [this] at hg
    cases hg
  · rw [← hg]
    exact ((get_run putProps p).trans (if_neg hp)).symm

/-- The copy: the table is read when two writes have completed, ... -/
def cpY : Work := withProps spY

def cpK : Work := ⟨jobK.completion.run (putK.run cpY.store), [jobI, jobY, jobK], [], [clTs, t1, t0]⟩

/-- ... and visited when a third has, and the first has been archived. -/
def cpA : Work := { cpK with store := (Request.delete (instantAt jobI.commit)).run cpK.store }

theorem cp_toY {r q : Str} : Archives pathSpSetting r q nothingYet cpY :=
  archives_more (path_archives (archives_of_works works_Y)) (archives_of_works (props_works _ rfl rfl _))

theorem cp_works_K : Works spSetting cpY cpK := by
  have hu : ∀ u ∈ cpY.used, compare u clTs = .lt := by decide
  have h1 := Works.step (.refl _) (alone_begin cpY jobK rfl hu jobK_ok)
  have h2 := Works.step h1 (alone_request _ ⟨jobK, [], none, []⟩ putK rfl rfl List.mem_cons_self)
  have h3 := Works.step h2 (alone_complete _ ⟨jobK, [putK], none, []⟩ rfl rfl (fun q hq => hq))
  exact h3

theorem cp_toA : Archives pathSpSetting clTs t1 cpY cpA :=
  path_archives (.step (archives_of_works cp_works_K) (.archive cpK jobI (by simp [cpK]) (by decide) (by decide)))

theorem cp_buildY : (builderOf c!"s3://b/trips" openCalls).build env (openWorld cpY.tree) =
    .ok (cvTable spTable.timeline.completed) := by decide +kernel

theorem cp_buildA : (builderOf c!"s3://b/trips" openCalls).build env (openWorld cpA.tree) =
    .ok (cvTable amTable.timeline.completed) := by decide +kernel

theorem cp_copies : CopiesByPath env arrow pathSpSetting (mergeEnv arrow) incSchema clTs t1 [cpA]
    [oldC, rowA, rowB, rowE] cpA clTs := by
  have h1 : CopiesByPath env arrow pathSpSetting (mergeEnv arrow) incSchema t0 t0 [] [oldC, rowA, rowB] cpY t1 :=
    .begins t0 t0 cpY jobY.commit cp_toY (by intro c hc; cases hc; decide)
      (by intro c hc; cases hc; decide) sv_current' rfl (openWorld cpY.tree) c!"s3://b/trips" openCalls
      (tableOf_build rfl rfl rfl rfl rfl cp_buildY) _ cp_buildY false false
      ⟨⟨by decide, by decide⟩, rfl, by simp, ⟨rfl, rfl⟩, by intro v hv; cases hv; decide⟩ (allAt cpY)
      (allAt_archived (.refl _)) 1 (by decide) noFaults [⟨incSchema, [oldC, rowA, rowB]⟩] (snapshot_answer (by decide +kernel)) _
      (latest_self (by decide))
  have h2 := CopiesByPath.fails h1 (cvTable amTable.timeline.completed) (allAt cpA) 1 (fun n => n == 0) .storage rfl
  exact CopiesByPath.visits h2 clTs t1 (by decide) (by decide) cpA cp_toA (by intro c hc; cases hc; decide) (by decide)
    (openWorld cpA.tree) c!"s3://b/trips" openCalls (tableOf_build rfl rfl rfl rfl rfl cp_buildA) _ cp_buildA (allAt cpA)
    (allAt_archived (.refl _)) 1 noFaults clTs rfl [⟨incSchema, [rowE]⟩] (incremental_answer (by decide +kernel)) _ (latest_self (by decide))

theorem cv_inPlace : RollbacksInPlace cvA := by
  refine ac_inPlace (by simp [cvA, cvZ]) ?_
  intro e he ws hws
  have hs : cvA.store = [(baseAt f1 c!"0-0-0" t0, .file (.parquet 1 base1)), (logAt f1 t0 here, .log [x1]),
      (instantAt jobY.commit, .file (.json (.obj chDoc2))),
      (baseAt f1 c!"0-9-9" clTs, .file (.parquet 1 ccBatch)), (instantAt jobK.commit, .file (.json (.obj jobK.doc))),
      (putProps.path, .file (.bytes (utf8Encode tripsText))),
      (baseAt svF5 c!"0-2-2" arTs, .file (.parquet 1 acBatch)),
      (instantAt acJob.commit, .file (.json (.obj acJob.doc)))] := rfl
  rw [hs] at he
  simp only [List.mem_cons, List.not_mem_nil, or_false] at he
  rcases he with rfl | rfl | rfl | rfl | rfl | rfl | rfl | rfl
  · cases hws
  · cases hws; rfl
  all_goals cases hws

theorem cp_inPlace : RollbacksInPlace cpA := by
  refine ac_inPlace (by simp [cpA, cpK]) ?_
  intro e he ws hws
  have hs : cpA.store = [(baseAt f1 c!"0-0-0" t0, .file (.parquet 1 base1)), (logAt f1 t0 here, .log [x1]),
      (instantAt jobY.commit, .file (.json (.obj chDoc2))), (putProps.path, .file (.bytes (utf8Encode tripsText))),
      (baseAt f1 c!"0-9-9" clTs, .file (.parquet 1 ccBatch)),
      (instantAt jobK.commit, .file (.json (.obj jobK.doc)))] := rfl
  rw [hs] at he
  simp only [List.mem_cons, List.not_mem_nil, or_false] at he
  rcases he with rfl | rfl | rfl | rfl | rfl | rfl
  · cases hws
  · cases hws; rfl
  all_goals cases hws

end Demo

open Demo in
/-- The hypotheses of C103 from the path are met by a consumer that begins after an insert.  It opens the table by its
path when two more writes have completed; and again when a further one has and the insert has been archived: the first
time a request fails, the second time the visit succeeds. -/
example : MonotoneTz env.ltz ∧ WholeSecondsTz env.ltz ∧
    VisitsByPath env arrow pathSpSetting (mergeEnv arrow) t0 clTs clTs cvPolls cvA arTs ∧
    (compare clTs clTs).isLE = true ∧ Archives pathSpSetting clTs clTs cvA cvA ∧ AllDocumented cvA.done ∧
    MetaFields pathSpSetting.o ∧ (∀ p ∈ cvPolls, RollbacksInPlace p.moment) ∧
    (∀ p ∈ cvPolls, p.outs.flatMap Batch.rows ≠ []) ∧ KeepsLatest clTs cvA ∧ (compare clTs arTs).isLE = true ∧
    RollbacksInPlace cvA ∧ TableOf env pathSpSetting cvA (openWorld cvA.tree) c!"s3://b/trips" openCalls ∧
    SinceArchived pathSpSetting clTs clTs cvA (allAt cvA) := by
  refine ⟨by intro a b a' b' h1 h2 h; cases h1; cases h2; exact h, by intro n d h; cases h; rfl, cv_visits, by decide,
    .refl _, acZ_documented, by decide, ?_, ?_, by intro c hc; cases hc; decide, by decide, cv_inPlace,
    tableOf_build rfl rfl rfl rfl rfl cv_buildA, allAt_archived (.refl _)⟩
  · intro p hp
    simp only [cvPolls, List.mem_cons, List.not_mem_nil, or_false] at hp
    rcases hp with rfl | rfl
    · exact inPlace_props ccK_inPlace
    · exact cv_inPlace
  · intro p hp
    simp only [cvPolls, List.mem_cons, List.not_mem_nil, or_false] at hp
    rcases hp with rfl | rfl <;> decide

open Demo in
/-- Those about copies are met by a consumer that opens and reads the table after an insert and a write that appends a
record, and opens it again when another write has added one and the insert has been archived; that visit, too, fails
first.  The copy has all rows of the table. -/
example : CopiesByPath env arrow pathSpSetting (mergeEnv arrow) incSchema clTs t1 [cpA] [oldC, rowA, rowB, rowE] cpA clTs ∧
    AllDocumented cpA.done ∧ MetaFields pathSpSetting.o ∧ (∀ v ∈ [cpA], RollbacksInPlace v) ∧
    AllUpserts arrow incSchema pathSpSetting.pre cpA.done ∧ Untied arrow incSchema pathSpSetting.pre cpA.done ∧
    KeepsLatest clTs cpA ∧ KeepsLatest t1 cpA ∧ NamesCurrent cpA ∧
    TableOf env pathSpSetting cpA (openWorld cpA.tree) c!"s3://b/trips" openCalls ∧
    Askable arrow pathSpSetting [] [] false false ∧ SinceArchived pathSpSetting clTs t1 cpA (allAt cpA) ∧
    pathSpSetting.depth < 1 := by
  refine ⟨cp_copies, ccK_documented, by decide, ?_, ccm_upserts, ccm_untied, by intro c hc; cases hc; decide,
    by intro c hc; cases hc; decide, ccL_current, tableOf_build rfl rfl rfl rfl rfl cp_buildA,
    ⟨⟨by decide, by decide⟩, rfl, by simp, ⟨rfl, rfl⟩, by intro v hv; cases hv; decide⟩, allAt_archived (.refl _),
    by decide⟩
  intro v hv
  rw [List.mem_singleton.1 hv]
  exact cp_inPlace

end Hudi
