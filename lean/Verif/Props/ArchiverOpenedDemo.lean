import Verif.Props.ArchiverOpened
import Verif.Props.ArchiverChangesDemo
import Verif.Props.CleanerOpenedDemo

/-! # C102 for tables opened by their path: a table that meets the hypotheses -/

namespace Hudi
open Spec
namespace Demo

/-- The first commit has been archived, and the properties file is there. -/
def paA : Work := withProps acA

/-- Then the second commit is archived. -/
def paB : Work := { paA with store := (Request.delete (instantAt jobY.commit)).run paA.store }

theorem pa_works : Archives pathSpSetting clTs clTs nothingYet paA :=
  archives_more (archives_with (S := spSetting) path_sites (by decide) (ac_toA (by decide)))
    (archives_of_works (props_works _ rfl rfl _))

theorem pa_toB : Archives pathSpSetting clTs clTs paA paB :=
  .step (.refl _) (.archive paA jobY (by simp [paA, withProps, acA, acZ]) (by decide) (by decide))

def paMoments : Moments := ⟨fun _ => paB, paB, paA, fun _ => paA, fun _ => paA, fun _ => paB, fun _ => paB⟩

theorem pa_since : SinceArchived pathSpSetting clTs clTs paA paMoments :=
  ⟨fun _ => pa_toB, pa_toB, .refl _, fun _ => .refl _, fun _ => .refl _, fun _ => pa_toB, fun _ _ => pa_toB⟩

theorem pa_inPlace : RollbacksInPlace paA := by
  intro p ws w i hg hw hr hb
  refine acA_inPlace p ws w i ?_ hw hr hb
  by_cases hp : p = putProps.path
  · subst hp
    have : paA.store.get putProps.path = some (.file (.bytes (utf8Encode tripsText))) := rfl
    rw [this] at hg
    cases hg
  · rw [← hg]
    exact ((get_run putProps p).trans (if_neg hp)).symm

theorem pa_current : NamesCurrent paA := by
  intro j hj path hp
  cases (Option.some.inj hj : acJob = j)
  refine ⟨svF5, ⟨arTs, c!"0-2-2", []⟩, rfl, ?_⟩
  have : path = arBase := by
    obtain ⟨_, _, _, _, _, h1, h2, h3⟩ := hp
    simp [acJob, arJob, jGet] at h1
    obtain ⟨⟨_, rfl, _⟩, _⟩ := h1
    simp [jGet] at h2
    subst h2
    rcases h3 with ⟨_, h⟩ | ⟨h, _⟩
    · exact h
    · exact absurd ⟨c!"f5_0-2-2_20240108000000000", rfl⟩ h
  rw [this]
  decide

def paTable : Table := ⟨openOpts, [(c!"timeout", c!"10s"), (c!"aws_region", c!"env")],
  ⟨openOpts, acTable.timeline.completed⟩⟩

theorem pa_build : (builderOf c!"s3://b/trips" openCalls).build env (openWorld paA.tree) = .ok paTable := by
  decide +kernel

/-- The handle has read the table before, and the fourth of its requests has failed. -/
def paFirst : Nat × Cache × Res Answer :=
  (TableCall.snapshot []).race env arrow pathSpSetting.C (mergeEnv arrow) paTable 1 paMoments.race
    (fun n => n == 3) []

theorem pa_kept : KeptArchived env arrow pathSpSetting (mergeEnv arrow) clTs clTs paA paTable 1 paFirst.2.1 :=
  .call paMoments (.snapshot []) _ pa_since .opened

end Demo

open Demo in
/-- The hypotheses of C102 from the path are met by a table in which a properties file has been put, and of which the
first commit has been archived; the second is archived while the reads run. -/
example : MonotoneTz env.ltz ∧ WholeSecondsTz env.ltz ∧ Archives pathSpSetting clTs clTs nothingYet paA ∧ NamesCurrent paA ∧
    TableOf env pathSpSetting paA (openWorld paA.tree) c!"s3://b/trips" openCalls ∧
    Askable arrow pathSpSetting [] [] false false ∧ pathSpSetting.depth < 1 ∧
    (builderOf c!"s3://b/trips" openCalls).build env (openWorld paA.tree) = .ok paTable ∧
    KeptArchived env arrow pathSpSetting (mergeEnv arrow) clTs clTs paA paTable 1 paFirst.2.1 ∧ (∃ e, paFirst.2.2 = .err e) ∧
    SinceArchived pathSpSetting clTs clTs paA paMoments ∧ acJob.commit ∈ paA.history ∧
    (compare clTs acJob.commit.ts).isLE ∧ (∀ c, paA.history.getLast? = some c → (compare clTs c.ts).isLE) ∧
    AllDocumented paA.done ∧ RollbacksInPlace paA ∧ MetaFields pathSpSetting.o ∧
    WriterTimestamp clTs ∧ clTs.length = pathSpSetting.width ∧
    (∃ d, parseDatetime pathSpSetting.ltz clTs pathSpSetting.tz = .ok d) ∧ (compare clTs clTs).isLE ∧
    paTable.readSnapshotR env arrow pathSpSetting.C (mergeEnv arrow) 1 paMoments.race [] =
      .ok [acBatch, ⟨incSchema, [rowA, oldC, rowB, rowE]⟩] ∧
    (paTable.readSnapshotRF env arrow pathSpSetting.C (mergeEnv arrow) 1 paMoments.race [] noFaults 0
      paFirst.2.1).2.2 = .ok [acBatch, ⟨incSchema, [rowA, oldC, rowB, rowE]⟩] ∧
    (paTable.readIncrementalRF env arrow pathSpSetting.C (mergeEnv arrow) paMoments.race clTs (some arTs) noFaults
      0).2 = .ok [acBatch] :=
  ⟨by intro a b a' b' h1 h2 h; cases h1; cases h2; exact h, by intro n d h; cases h; rfl, pa_works, pa_current,
    tableOf_build rfl rfl rfl rfl rfl pa_build,
    ⟨⟨by decide, by decide⟩, rfl, by simp, ⟨rfl, rfl⟩, by intro v hv; cases hv; decide⟩, by decide, pa_build, pa_kept, ⟨_, rfl⟩, pa_since,
    by simp [paA, withProps, acA, acZ, Work.history, commitsOf], by decide,
    by intro c hc; cases hc; decide, acZ_documented, pa_inPlace, by decide, by decide, by decide, ⟨_, rfl⟩, by decide,
    by decide +kernel, by decide +kernel, by decide +kernel⟩

end Hudi
