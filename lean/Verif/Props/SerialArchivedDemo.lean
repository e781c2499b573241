import Verif.Props.SerialArchived
import Verif.Props.SerialDemo
import Verif.Props.ArchiverOpenedDemo

/-! # C100 beside an archiver: concrete cases -/

namespace Hudi
open Spec
namespace Demo

theorem sa_one : oneByOne acA.done = acZ := rfl

/-- Opened on the table of one writer, which has all its commits. -/
def saTable : Table := ⟨morOpts, [], ⟨[], [⟨t0, .commit, .completed, 1703980800000⟩,
  ⟨t1, .deltaCommit, .completed, 1704067200000⟩,
  ⟨clTs, .commit, .completed, 1704499200000⟩, ⟨arTs, .commit, .completed, 1704672000000⟩]⟩⟩

theorem sa_current : NamesCurrent acA := pa_current

theorem sa_noTies : NoTies arrow c!"ts" [jobI, jobY, jobK, acJob] := by
  intro k r hr r' hr' hk _ _
  by_cases h1 : k = f1
  · subst h1
    exact List.inj_on_of_nodup_map (f := keyOf incSchema) (l := ccBatch.rows) (by decide) hr hr' hk
  · by_cases h2 : k = svF5
    · subst h2
      exact List.inj_on_of_nodup_map (f := keyOf incSchema) (l := acBatch.rows) (by decide) hr hr' hk
    · have h1' : ¬ f1 = k := fun e => h1 e.symm
      have h2' : ¬ svF5 = k := fun e => h2 e.symm
      have e : recordsNow [jobI, jobY, jobK, acJob] k = [] := by
        simp [recordsNow, recordsAfter, commitsOf, HCommit.changeOf, jobI, jobY, jobK, acJob, arJob, spAppend, h1', h2']
      rw [e] at hr
      cases hr

theorem sa_noTiesAt : NoTiesAt arrow c!"ts" [jobI, jobY, jobK, acJob] arTs := by
  intro k v hv r hr r' hr'
  have hv' : versionAfter (commitsOf [jobI, jobY, jobK, acJob]) k = some v := hv
  have hcol : columnsNow [jobI, jobY, jobK, acJob] k = columnsBy [jobI, jobY, jobK, acJob] v.base k := by
    unfold columnsNow
    rw [hv']
    rfl
  have h := sa_noTies k r hr r' hr'
  rw [hcol] at h
  exact h

theorem sa_works : Works pathSpSetting (oneByOne paA.done) (withProps acZ) := props_works _ rfl rfl _

end Demo

open Demo in
/-- The hypotheses of C100 with an archiver are met by an insert, a write that appends, a new base file, and a further
write; the archiver has deleted the timeline file of the first commit before the handle is opened, and deletes that of the
second while it reads, when the cleaner deletes a log file.  The table of one writer still has all these files; the reads
are the same, also when both tables are opened by their paths. -/
example : MonotoneTz env.ltz ∧ WholeSecondsTz env.ltz ∧ Archives spSetting clTs clTs nothingYet acA ∧ NamesCurrent acA ∧
    oneByOne acA.done = acZ ∧ acZ.store.get (instantAt jobI.commit) ≠ none ∧
    acA.store.get (instantAt jobI.commit) = none ∧
    SinceArchived spSetting clTs clTs acA acMoments ∧ Since spSetting (oneByOne acA.done) (allAt acZ) ∧
    OpenedAt env arrow spSetting acA acTable [] [] false false ∧
    OpenedAt env arrow spSetting (oneByOne acA.done) saTable [] [] false false ∧ spSetting.depth < 1 ∧
    acJob.commit ∈ acA.history ∧ (compare clTs acJob.commit.ts).isLE ∧
    (∀ c, acA.history.getLast? = some c → (compare clTs c.ts).isLE) ∧
    NoTies arrow spSetting.pre acA.done ∧ NoTiesAt arrow spSetting.pre acA.done acJob.commit.ts ∧
    AllDocumented acA.done ∧ RollbacksInPlace acA ∧ MetaFields spSetting.o ∧
    (WriterTimestamp clTs ∧ clTs.length = spSetting.width) ∧
    (∃ d, parseDatetime spSetting.ltz clTs spSetting.tz = .ok d) ∧ (compare clTs clTs).isLE ∧
    acTable.readSnapshotR env arrow spSetting.C (mergeEnv arrow) 1 acMoments.race [] = .ok [acBatch, ccBatch] ∧
    saTable.readSnapshotR env arrow spSetting.C (mergeEnv arrow) 1 (allAt acZ).race [] = .ok [acBatch, ccBatch] ∧
    acTable.readIncrementalR env arrow codecDated (mergeEnv arrow) acMoments.race clTs (some arTs) = .ok [acBatch] ∧
    saTable.readIncrementalR env arrow codecDated (mergeEnv arrow) (allAt acZ).race clTs (some arTs) = .ok [acBatch] ∧
    Archives pathSpSetting clTs clTs nothingYet paA ∧ NamesCurrent paA ∧
    Works pathSpSetting (oneByOne paA.done) (withProps acZ) ∧ (withProps acZ).done = paA.done ∧
    TableOf env pathSpSetting paA (openWorld paA.tree) c!"s3://b/trips" openCalls ∧
    TableOf env pathSpSetting (withProps acZ) (openWorld (withProps acZ).tree) c!"s3://b/trips" openCalls ∧
    Askable arrow pathSpSetting [] [] false false ∧ NoTies arrow pathSpSetting.pre paA.done ∧
    SinceArchived pathSpSetting clTs clTs paA paMoments ∧
    Since pathSpSetting (withProps acZ) (allAt (withProps acZ)) :=
  ⟨by intro a b a' b' h1 h2 h; cases h1; cases h2; exact h, by intro n d h; cases h; rfl, ac_toA (by decide), sa_current,
    sa_one, by decide, by decide, ac_since, sa_one ▸ allAt_since acZ, ar_opened acA _ rfl (by rfl),
    sa_one ▸ ar_opened acZ _ rfl (by rfl), by decide, by simp [acA, acZ, Work.history, commitsOf], by decide,
    by intro c hc; cases hc; decide, sa_noTies, sa_noTiesAt, acZ_documented, acA_inPlace, by decide, by decide, ⟨_, rfl⟩,
    by decide, by decide +kernel, by decide +kernel, by decide +kernel, by decide +kernel, pa_works, pa_current, sa_works,
    rfl, tableOf_build rfl rfl rfl rfl rfl pa_build,
    tableOf_build rfl rfl rfl rfl rfl (show (builderOf c!"s3://b/trips" openCalls).build env
      (openWorld (withProps acZ).tree) = .ok ⟨openOpts, [(c!"timeout", c!"10s"), (c!"aws_region", c!"env")],
        ⟨openOpts, saTable.timeline.completed⟩⟩ by decide +kernel),
    ⟨⟨by decide, by decide⟩, rfl, by simp, ⟨rfl, rfl⟩, by intro v hv; cases hv; decide⟩, sa_noTies, pa_since,
    allAt_since _⟩

end Hudi
