import Verif.Props.CountedArchivedOpened
import Verif.Props.CountedOpenedDemo

/-! # C101 beside an archiver, for tables opened by their path and handles that are kept: a table that meets the hypotheses -/

namespace Hudi
open Spec
namespace Demo

/-- The archiver has deleted the timeline file of the insert. -/
def kaA : Work := { pcL with store := (Request.delete (instantAt jobI.commit)).run pcL.store }

/-- The cleaner has deleted the base file of the first version. -/
def kaB : Work := { kaA with store := (Request.delete (baseAt f1 c!"0-0-0" t0)).run kaA.store }

theorem archivesOnce_of_cleans {S : Setting} {r q : Str} {a b : Work} (h : CleansOnce S r a b) : ArchivesOnce S r q a b := by
  induction h with
  | refl => exact .refl
  | step _ hs ho ih => exact .step ih (.clean _ _ hs) ho

theorem ka_A : ArchivesOnce keepSetting clTs t1 nothingYet kaA :=
  .step (archivesOnce_of_cleans keep_works) (.archive pcL jobI (by simp [pcL, withProps, ccL, ccK]) (by decide) (by decide))
    none_current

theorem ka_logs (l : Str × Str) (hl : NamePart l.1 ∧ NamePart l.2) : kaA.store.get (logAt f1 t0 l) = none := by
  have h := pc_logs l hl
  have hs : kaA.store = without pcL.store [instantAt jobI.commit] := by rw [← delete_without]; rfl
  rw [hs, get_without, h, ite_self]

theorem ka_toB : Archives keepSetting clTs t1 kaA kaB :=
  .step (.refl _) (.clean _ _ (.base kaA jobI f1 c!"0-0-0" List.mem_cons_self List.mem_cons_self cc_superseded ka_logs))

/-- Files are read when the base file is gone. -/
def kaMoments : Moments := ⟨fun _ => kaA, kaB, kaA, fun _ => kaA, fun _ => kaA, fun _ => kaB, fun _ => kaB⟩

theorem ka_since : SinceArchived keepSetting clTs t1 kaA kaMoments :=
  ⟨fun _ => .refl _, ka_toB, .refl _, fun _ => .refl _, fun _ => .refl _, fun _ => ka_toB, fun _ _ => ka_toB⟩

def kaTable : Table := ⟨keepOpts, [(c!"timeout", c!"10s"), (c!"aws_region", c!"env")],
  ⟨keepOpts, [⟨t1, .deltaCommit, .completed, 1704067200000⟩, ⟨clTs, .commit, .completed, 1704499200000⟩]⟩⟩

theorem ka_build : (builderOf c!"s3://b/trips" keepCalls).build env (openWorld kaA.tree) = .ok kaTable := by
  decide +kernel

theorem ka_of : AppendedTableOf env keepSetting kaA (openWorld kaA.tree) c!"s3://b/trips" keepCalls := by
  have hat : TableAt (openWorld kaA.tree) c!"s3://b/trips" keepCalls ⟨kaA.tree, fun _ => none⟩ keepOpts :=
    tableAt_of_build (fun _ => rfl) ka_build rfl
  obtain ⟨h1, h2⟩ := (C71_opens_exactly env _ _ _ _ _ hat).1.1 ⟨_, ka_build⟩
  have h3 := h1.resolve_left (by unfold SkipsValidation; decide)
  exact ⟨⟨_, hat, rfl⟩, by decide, h3.1, h3.2, h2, rfl, rfl, by decide, by decide, rfl⟩

theorem ka_handle : AppendingAt env arrow keepSetting kaA kaTable [] [] false false where
  load := ⟨keepOpts, by decide +kernel⟩
  clock := rfl
  zone := rfl
  options := rfl
  appends := ⟨opened_plain (by decide) ka_build, by decide, by decide, rfl, rfl⟩
  names := ⟨by decide, by decide⟩
  parsed := rfl
  applicable := by simp
  style := ⟨rfl, rfl⟩
  parallelism := by intro v hv; cases hv; decide

theorem ka_inPlace : RollbacksInPlace kaA := by
  intro p ws w' i h
  refine pc_inPlace p ws w' i ?_
  have hs : kaA.store = without pcL.store [instantAt jobI.commit] := by rw [← delete_without]; rfl
  rw [hs, get_without] at h
  split at h
  · cases h
  · exact h

/-- The handle has read the table before, and the fourth of its requests has failed. -/
def kaFirst : Nat × Cache × Res Answer :=
  (TableCall.snapshot []).race env arrow keepSetting.C (mergeEnv arrow) kaTable 1 kaMoments.race (fun n => n == 3) []

theorem ka_kept : KeptArchived env arrow keepSetting (mergeEnv arrow) clTs t1 kaA kaTable 1 kaFirst.2.1 :=
  .call kaMoments (.snapshot []) _ ka_since .opened

end Demo

open Demo in
/-- The hypotheses are met by the table of C92, in which a properties file has been put and whose caller asks for every
record to be kept.  The insert has been archived when the table is opened; the cleaner deletes the base file that it wrote
while the reads run. -/
example : ArchivesOnce keepSetting clTs t1 nothingYet kaA ∧ NamesCurrent kaA ∧
    (∀ j ∈ kaA.done, Counts keepSetting j) ∧
    AppendedTableOf env keepSetting kaA (openWorld kaA.tree) c!"s3://b/trips" keepCalls ∧
    Askable arrow keepSetting [] [] false false ∧ keepSetting.depth < 1 ∧
    (builderOf c!"s3://b/trips" keepCalls).build env (openWorld kaA.tree) = .ok kaTable ∧
    AppendingAt env arrow keepSetting kaA kaTable [] [] false false ∧
    KeptArchived env arrow keepSetting (mergeEnv arrow) clTs t1 kaA kaTable 1 kaFirst.2.1 ∧
    (∃ e, kaFirst.2.2 = .err e) ∧ SinceArchived keepSetting clTs t1 kaA kaMoments ∧
    jobK.commit ∈ kaA.history ∧ (compare clTs jobK.commit.ts).isLE ∧
    (∀ c, kaA.history.getLast? = some c → (compare clTs c.ts).isLE) ∧
    (∀ c, kaA.history.getLast? = some c → (compare t1 c.ts).isLE) ∧
    AllDocumented kaA.done ∧ RollbacksInPlace kaA ∧ AppendsAt env keepSetting kaA kaTable ∧ MetaFields keepSetting.o ∧
    WriterTimestamp t1 ∧ t1.length = keepSetting.width ∧ (compare t1 t1).isLE ∧
    (∃ d, parseDatetime keepSetting.ltz t1 keepSetting.tz = .ok d) ∧
    (kaTable.readSnapshotRF env arrow keepSetting.C (mergeEnv arrow) 1 kaMoments.race [] noFaults 0
      kaFirst.2.1).2.2 = .ok [⟨incSchema, [rowA, oldC, rowB, rowE]⟩] ∧
    (TableCall.snapshot []).SomeFails env arrow keepSetting.C (mergeEnv arrow) kaTable 1 kaMoments.race
      (fun n => n == 3) kaFirst.2.1 ∧
    (kaTable.readIncrementalRF env arrow keepSetting.C (mergeEnv arrow) kaMoments.race t1 (some clTs) noFaults
      0).2 = .ok [⟨incSchema, [datedRow c!"5" c!"E" c!"eve" 2 clTs]⟩] :=
  ⟨ka_A, ccL_current, by
      intro j hj
      rcases (show j = jobI ∨ j = jobY ∨ j = jobK by simpa [kaA, pcL, withProps, ccL, ccK] using hj) with rfl | rfl | rfl
      · exact jobI_counts
      · exact jobY_counts
      · exact jobK_counts,
    ka_of, ⟨⟨by decide, by decide⟩, rfl, by simp, ⟨rfl, rfl⟩, by intro v hv; cases hv; decide⟩, by decide, ka_build,
    ka_handle, ka_kept, ⟨_, rfl⟩, ka_since, by simp [kaA, pcL, withProps, ccL, ccK, Work.history, commitsOf],
    by decide, by intro c hc; cases hc; decide, by intro c hc; cases hc; decide, ccK_documented, ka_inPlace,
    ⟨ka_handle.load, rfl, rfl, rfl, ka_handle.appends⟩, by decide, by decide, by decide, by decide, ⟨_, rfl⟩,
    by decide +kernel, by unfold TableCall.SomeFails; decide +kernel, by decide +kernel⟩

end Hudi
