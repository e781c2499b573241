import Verif.Props.CleanerOpened
import Verif.Props.WriterOpenedDemo
import Verif.Props.SerialDemo

/-! # C91, C92 and C100 for tables opened by their path: tables that meet the hypotheses -/

namespace Hudi
open Spec
namespace Demo

/-- The cleaner has deleted the log file, and the properties file is there. -/
def pcL : Work := withProps ccL

/-- Then it deletes the base file. -/
def pcB : Work := { pcL with store := (Request.delete (baseAt f1 c!"0-0-0" t0)).run pcL.store }

theorem path_cleans {s s' : Work} (h : Cleans spSetting clTs s s') : Cleans pathSpSetting clTs s s' :=
  cleans_with (S := spSetting) path_sites (by decide) h

theorem pc_works : Cleans pathSpSetting clTs nothingYet pcL :=
  cleans_more (path_cleans (cleans_more (cleans_of_works (works_trans works_Y works_K)) cc_toL))
    (cleans_of_works (props_works _ rfl rfl _))

theorem pc_logs (l : Str × Str) (hl : NamePart l.1 ∧ NamePart l.2) : pcL.store.get (logAt f1 t0 l) = none := by
  have hp : logAt f1 t0 l ≠ putProps.path := by
    intro h
    exact absurd (congrArg List.length h) (by simp [logAt, inPartition, f1, putProps, Request.path]; decide)
  exact ((get_run putProps _).trans (if_neg hp)).trans (ccL_logs l hl)

theorem pc_toB : Cleans pathSpSetting clTs pcL pcB :=
  .step (.refl _) (.base pcL jobI f1 c!"0-0-0" List.mem_cons_self List.mem_cons_self cc_superseded pc_logs)

/-- The files are read when the base file is gone. -/
def pcMoments : Moments := ⟨fun _ => pcL, pcB, pcL, fun _ => pcL, fun _ => pcL, fun _ => pcB, fun _ => pcB⟩

theorem pc_since : SinceCleaned pathSpSetting clTs pcL pcMoments :=
  ⟨fun _ => .refl _, pc_toB, .refl _, fun _ => .refl _, fun _ => .refl _, fun _ => pc_toB, fun _ _ => pc_toB⟩

theorem pc_inPlace : RollbacksInPlace pcL := by
  intro p ws w i hg hw hr hb
  refine ccL_inPlace p ws w i ?_ hw hr hb
  by_cases hp : p = putProps.path
  · subst hp
    have : pcL.store.get putProps.path = some (.file (.bytes (utf8Encode tripsText))) := rfl
    rw [this] at hg
    cases hg
  · rw [← hg]
    exact ((get_run putProps p).trans (if_neg hp)).symm

def pcTable : Table := ⟨openOpts, [(c!"timeout", c!"10s"), (c!"aws_region", c!"env")],
  ⟨openOpts, ccTable.timeline.completed⟩⟩

theorem pc_build : (builderOf c!"s3://b/trips" openCalls).build env (openWorld pcL.tree) = .ok pcTable := by
  decide +kernel

theorem pc_build' : (builderOf c!"s3://b/trips" openCalls).build env (openWorld (withProps ccK).tree) = .ok pcTable := by
  decide +kernel

/-- The handle has read the table before, and the fourth of its requests has failed. -/
def pcFirst : Nat × Cache × Res Answer :=
  (TableCall.snapshot []).race env arrow pathSpSetting.C (mergeEnv arrow) pcTable 1 pcMoments.race
    (fun n => n == 3) []

theorem pc_kept : KeptCleaned env arrow pathSpSetting (mergeEnv arrow) clTs pcL pcTable 1 pcFirst.2.1 :=
  .call pcMoments (.snapshot []) _ pc_since .opened

end Demo

open Demo in
/-- The hypotheses of C91, C92 and C100 from the path are met by the table of C92 and C100, in which a properties file
has been put; the cleaner deletes the base file of the version before while the reads run.  The table of one writer still
has both files. -/
example : MonotoneTz env.ltz ∧ WholeSecondsTz env.ltz ∧ Cleans pathSpSetting clTs nothingYet pcL ∧ NamesCurrent pcL ∧
    TableOf env pathSpSetting pcL (openWorld pcL.tree) c!"s3://b/trips" openCalls ∧
    Askable arrow pathSpSetting [] [] false false ∧ pathSpSetting.depth < 1 ∧
    (builderOf c!"s3://b/trips" openCalls).build env (openWorld pcL.tree) = .ok pcTable ∧
    KeptCleaned env arrow pathSpSetting (mergeEnv arrow) clTs pcL pcTable 1 pcFirst.2.1 ∧
    (∃ e, pcFirst.2.2 = .err e) ∧ SinceCleaned pathSpSetting clTs pcL pcMoments ∧
    jobK.commit ∈ pcL.history ∧ (compare clTs jobK.commit.ts).isLE ∧
    (∀ c, pcL.history.getLast? = some c → (compare clTs c.ts).isLE) ∧
    AllDocumented pcL.done ∧ RollbacksInPlace pcL ∧ MetaFields pathSpSetting.o ∧
    WriterTimestamp t0 ∧ t0.length = pathSpSetting.width ∧
    (∃ d, parseDatetime pathSpSetting.ltz t0 pathSpSetting.tz = .ok d) ∧
    Works pathSpSetting (oneByOne pcL.done) (withProps ccK) ∧ (withProps ccK).done = pcL.done ∧
    TableOf env pathSpSetting (withProps ccK) (openWorld (withProps ccK).tree) c!"s3://b/trips" openCalls ∧
    NoTies arrow pathSpSetting.pre pcL.done ∧ Since pathSpSetting (withProps ccK) (allAt (withProps ccK)) ∧
    (pcTable.readSnapshotRF env arrow pathSpSetting.C (mergeEnv arrow) 1 pcMoments.race [] noFaults 0
      pcFirst.2.1).2.2 = .ok [⟨incSchema, [rowA, oldC, rowB, rowE]⟩] ∧
    pcTable.readSnapshotR env arrow pathSpSetting.C (mergeEnv arrow) 1 (allAt (withProps ccK)).race [] =
      .ok [⟨incSchema, [rowA, oldC, rowB, rowE]⟩] ∧
    (pcTable.readIncrementalRF env arrow pathSpSetting.C (mergeEnv arrow) pcMoments.race t0 (some clTs) noFaults
      0).2 = .ok [⟨incSchema, x1Batch.rows ++ [datedRow c!"5" c!"E" c!"eve" 2 clTs]⟩] :=
  ⟨by intro a b a' b' h1 h2 h; cases h1; cases h2; exact h, by intro n d h; cases h; rfl, pc_works, ccL_current,
    tableOf_build rfl rfl rfl rfl rfl pc_build,
    ⟨⟨by decide, by decide⟩, rfl, by simp, ⟨rfl, rfl⟩, by intro v hv; cases hv; decide⟩, by decide, pc_build, pc_kept,
    ⟨_, rfl⟩, pc_since, by simp [pcL, withProps, ccL, ccK, Work.history, commitsOf], by decide,
    by intro c hc; cases hc; decide, ccK_documented, pc_inPlace, by decide, by decide, by decide, ⟨_, rfl⟩,
    props_works _ rfl rfl ccK, rfl, tableOf_build rfl rfl rfl rfl rfl pc_build', sr_noTiesK, allAt_since _,
    by decide +kernel, by decide +kernel, by decide +kernel⟩

end Hudi
