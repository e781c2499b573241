import Verif.Props.CountedOpened
import Verif.Props.CountedChangesDemo
import Verif.Props.CleanerOpenedDemo

/-! # C101 for tables opened by their path and handles that are kept: a table that meets the hypotheses -/

namespace Hudi
open Spec
namespace Demo

/-- The caller asks for every record to be kept. -/
def keepCalls : List Call :=
  [.options [(c!"hoodie.read.listing.parallelism", c!"4"), (c!"hoodie.table.record.merge.strategy", c!"APPEND_ONLY"),
    (c!"timeout", c!"10s")]]

def keepOpts : Opts :=
  [(c!"hoodie.base.path", c!"s3://b/trips"), (c!"hoodie.read.listing.parallelism", c!"4"),
   (c!"hoodie.table.record.merge.strategy", c!"APPEND_ONLY"),
   (c!"hoodie.table.name", c!"trips"), (c!"hoodie.table.type", c!"MERGE_ON_READ"),
   (c!"hoodie.table.version", c!"6"), (c!"hoodie.timeline.layout.version", c!"1"),
   (c!"hoodie.table.precombine.field", c!"ts"),
   (c!"hoodie.datasource.write.hive_style_partitioning", c!"false"),
   (c!"hoodie.datasource.write.partitionpath.urlencode", c!"false")]

def keepSetting : Setting := { spSetting with o := keepOpts }

theorem keep_sites (x : Str) : PartitionPath everyOpts x ↔ PartitionPath keepOpts x := by
  unfold PartitionPath
  rw [show Partitioned everyOpts ↔ Partitioned keepOpts by decide]

theorem keep_once {s s' : Work} (h : CleansOnce dcSetting clTs s s') : CleansOnce keepSetting clTs s s' :=
  cleansOnce_with (S := dcSetting) keep_sites (by decide) h

def keepTable : Table := ⟨keepOpts, [(c!"timeout", c!"10s"), (c!"aws_region", c!"env")],
  ⟨keepOpts, ccTable.timeline.completed⟩⟩

theorem keep_build : (builderOf c!"s3://b/trips" keepCalls).build env (openWorld pcL.tree) = .ok keepTable := by
  decide +kernel

theorem keep_works : CleansOnce keepSetting clTs nothingYet pcL :=
  .step (keep_once dc_L) (.work _ _ (.aside _ putProps (props_unread _ rfl rfl))) none_current

theorem keep_toB : Cleans keepSetting clTs pcL pcB :=
  .step (.refl _) (.base pcL jobI f1 c!"0-0-0" List.mem_cons_self List.mem_cons_self cc_superseded pc_logs)

theorem keep_since : SinceCleaned keepSetting clTs pcL pcMoments :=
  ⟨fun _ => .refl _, keep_toB, .refl _, fun _ => .refl _, fun _ => .refl _, fun _ => keep_toB, fun _ _ => keep_toB⟩

theorem keep_of : AppendedTableOf env keepSetting pcL (openWorld pcL.tree) c!"s3://b/trips" keepCalls := by
  have hat : TableAt (openWorld pcL.tree) c!"s3://b/trips" keepCalls ⟨pcL.tree, fun _ => none⟩ keepOpts :=
    tableAt_of_build (fun _ => rfl) keep_build rfl
  obtain ⟨h1, h2⟩ := (C71_opens_exactly env _ _ _ _ _ hat).1.1 ⟨_, keep_build⟩
  have h3 := h1.resolve_left (by unfold SkipsValidation; decide)
  exact ⟨⟨_, hat, rfl⟩, by decide, h3.1, h3.2, h2, rfl, rfl, by decide, by decide, rfl⟩

theorem keep_handle : AppendingAt env arrow keepSetting pcL keepTable [] [] false false where
  load := ⟨keepOpts, by decide +kernel⟩
  clock := rfl
  zone := rfl
  options := rfl
  appends := ⟨opened_plain (by decide) keep_build, by decide, by decide, rfl, rfl⟩
  names := ⟨by decide, by decide⟩
  parsed := rfl
  applicable := by simp
  style := ⟨rfl, rfl⟩
  parallelism := by intro v hv; cases hv; decide

/-- The handle has read the table before, and the fourth of its requests has failed. -/
def keepFirst : Nat × Cache × Res Answer :=
  (TableCall.snapshot []).race env arrow keepSetting.C (mergeEnv arrow) keepTable 1 pcMoments.race
    (fun n => n == 3) []

theorem keep_kept : KeptCleaned env arrow keepSetting (mergeEnv arrow) clTs pcL keepTable 1 keepFirst.2.1 :=
  .call pcMoments (.snapshot []) _ keep_since .opened

end Demo

open Demo in
/-- The hypotheses are met by the table of C92, in which a properties file has been put and whose caller asks for every
record to be kept; the cleaner deletes the base file of the version before while the reads run. -/
example : MonotoneTz env.ltz ∧ WholeSecondsTz env.ltz ∧ CleansOnce keepSetting clTs nothingYet pcL ∧ NamesCurrent pcL ∧
    (∀ j ∈ pcL.done, Counts keepSetting j) ∧
    AppendedTableOf env keepSetting pcL (openWorld pcL.tree) c!"s3://b/trips" keepCalls ∧
    Askable arrow keepSetting [] [] false false ∧ keepSetting.depth < 1 ∧
    (builderOf c!"s3://b/trips" keepCalls).build env (openWorld pcL.tree) = .ok keepTable ∧
    AppendingAt env arrow keepSetting pcL keepTable [] [] false false ∧
    KeptCleaned env arrow keepSetting (mergeEnv arrow) clTs pcL keepTable 1 keepFirst.2.1 ∧
    (∃ e, keepFirst.2.2 = .err e) ∧ SinceCleaned keepSetting clTs pcL pcMoments ∧
    jobK.commit ∈ pcL.history ∧ (compare clTs jobK.commit.ts).isLE ∧
    (∀ c, pcL.history.getLast? = some c → (compare clTs c.ts).isLE) ∧
    AllDocumented pcL.done ∧ RollbacksInPlace pcL ∧ AppendsAt env keepSetting pcL keepTable ∧ MetaFields keepSetting.o ∧
    WriterTimestamp t0 ∧ t0.length = keepSetting.width ∧
    (∃ d, parseDatetime keepSetting.ltz t0 keepSetting.tz = .ok d) ∧
    (keepTable.readSnapshotRF env arrow keepSetting.C (mergeEnv arrow) 1 pcMoments.race [] noFaults 0
      keepFirst.2.1).2.2 = .ok [⟨incSchema, [rowA, oldC, rowB, rowE]⟩] ∧
    (TableCall.snapshot []).SomeFails env arrow keepSetting.C (mergeEnv arrow) keepTable 1 pcMoments.race
      (fun n => n == 3) keepFirst.2.1 ∧
    (keepTable.readIncrementalRF env arrow keepSetting.C (mergeEnv arrow) pcMoments.race t0 (some clTs) noFaults
      0).2 = .ok [⟨incSchema, x1Batch.rows ++ [datedRow c!"5" c!"E" c!"eve" 2 clTs]⟩] :=
  ⟨by intro a b a' b' h1 h2 h; cases h1; cases h2; exact h, by intro n d h; cases h; rfl, keep_works, ccL_current, by
      intro j hj
      rcases (show j = jobI ∨ j = jobY ∨ j = jobK by simpa [pcL, withProps, ccL, ccK] using hj) with rfl | rfl | rfl
      · exact jobI_counts
      · exact jobY_counts
      · exact jobK_counts,
    keep_of, ⟨⟨by decide, by decide⟩, rfl, by simp, ⟨rfl, rfl⟩, by intro v hv; cases hv; decide⟩, by decide, keep_build,
    keep_handle, keep_kept, ⟨_, rfl⟩, keep_since, by simp [pcL, withProps, ccL, ccK, Work.history, commitsOf],
    by decide, by intro c hc; cases hc; decide, ccK_documented, pc_inPlace,
    ⟨keep_handle.load, rfl, rfl, rfl, keep_handle.appends⟩, by decide, by decide, by decide, ⟨_, rfl⟩,
    by decide +kernel, by unfold TableCall.SomeFails; decide +kernel, by decide +kernel⟩

end Hudi
