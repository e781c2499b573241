import Verif.Props.CountedArchived
import Verif.Props.CountedDemo
import Verif.Props.CountedChangesDemo
import Verif.Props.ArchiverDemo

/-! # C101 beside an archiver: concrete cases -/

namespace Hudi
open Spec
namespace Demo

theorem archivesOnce_of {S : Setting} {r q : Str} {a b : Work} (h : CleansOnce S r a b) : ArchivesOnce S r q a b := by
  induction h with
  | refl => exact .refl
  | step _ hs ho ih => exact .step ih (.clean _ _ hs) ho

/-- The archiver has deleted the timeline file of the insert. -/
def caA : Work := { cntWE with store := (Request.delete (instantAt jobA.commit)).run cntWE.store }

/-- It has deleted that of the write that appended. -/
def caB : Work := { caA with store := (Request.delete (instantAt jobB.commit)).run caA.store }

/-- The cleaner has deleted the log file of the version before. -/
def caC : Work := { caB with store := (Request.delete (logAt f1 t0 (c!"1", c!"0-7-7"))).run caB.store }

theorem ca_A : ArchivesOnce cntSetting clTs clTs nothingYet caA :=
  .step (archivesOnce_of (cleansOnce_of cnt_WE)) (.archive cntWE jobA (by simp [cntWE]) (by decide) (by decide))
    none_current

theorem ca_toB : Archives cntSetting clTs clTs caA caB :=
  .step (.refl _) (.archive caA jobB (by simp [caA, cntWE]) (by decide) (by decide))

theorem ca_toC : Archives cntSetting clTs clTs caB caC :=
  .step (.refl _) (.clean _ _ (.log caB jobA f1 c!"0-0-0" (c!"1", c!"0-7-7") List.mem_cons_self List.mem_cons_self
    cnt_superseded (by decide)))

/-- Opened when the insert has been archived. -/
def caTable : Table := ⟨everyOpts, [], ⟨[], [⟨t1, .deltaCommit, .completed, 1704067200000⟩,
  ⟨clTs, .commit, .completed, 1704499200000⟩]⟩⟩

/-- Requests are answered while archiver and cleaner work. -/
def caMoments : Moments := ⟨fun _ => caC, caB, caC, fun _ => caA, fun _ => caB, fun _ => caA, fun _ => caC⟩

theorem ca_since : SinceArchived cntSetting clTs clTs caA caMoments :=
  ⟨fun _ => archives_more ca_toB ca_toC, ca_toB, archives_more ca_toB ca_toC, fun _ => .refl _, fun _ => ca_toB,
    fun _ => .refl _, fun _ _ => ca_toC⟩

theorem ca_current : NamesCurrent caA := cnt_current

/-- The archiver has deleted the timeline file of the insert, the cleaner the log file of the first version. -/
def daA : Work := { ccL with store := (Request.delete (instantAt jobI.commit)).run ccL.store }

/-- The cleaner has deleted the base file as well. -/
def daB : Work := { daA with store := (Request.delete (baseAt f1 c!"0-0-0" t0)).run daA.store }

theorem da_A : ArchivesOnce dcSetting clTs t1 nothingYet daA :=
  .step (archivesOnce_of dc_L) (.archive ccL jobI (by simp [ccL, ccK]) (by decide) (by decide)) none_current

theorem da_logs (l : Str × Str) (hl : NamePart l.1 ∧ NamePart l.2) : daA.store.get (logAt f1 t0 l) = none := by
  have h := ccL_logs l hl
  have hs : daA.store = without ccL.store [instantAt jobI.commit] := by rw [← delete_without]; rfl
  rw [hs, get_without, h, ite_self]

theorem da_toB : Archives dcSetting clTs t1 daA daB :=
  .step (.refl _) (.clean _ _ (.base daA jobI f1 c!"0-0-0" List.mem_cons_self List.mem_cons_self cc_superseded da_logs))

/-- Files are read when the base file is gone. -/
def daMoments : Moments := ⟨fun _ => daA, daB, daA, fun _ => daA, fun _ => daA, fun _ => daB, fun _ => daB⟩

theorem da_since : SinceArchived dcSetting clTs t1 daA daMoments :=
  ⟨fun _ => .refl _, da_toB, .refl _, fun _ => .refl _, fun _ => .refl _, fun _ => da_toB, fun _ _ => da_toB⟩

theorem da_inPlace : RollbacksInPlace daA := by
  refine inPlace_of (fun _ => False) ?_ (fun ws h => h.elim)
  intro e he ws hws
  have hs : daA.store = [(baseAt f1 c!"0-0-0" t0, .file (.parquet 1 base1)),
      (instantAt jobY.commit, .file (.json (.obj chDoc2))),
      (baseAt f1 c!"0-9-9" clTs, .file (.parquet 1 ccBatch)), (instantAt jobK.commit, .file (.json (.obj jobK.doc)))] := rfl
  rw [hs] at he
  simp only [List.mem_cons, List.not_mem_nil, or_false] at he
  rcases he with rfl | rfl | rfl | rfl <;> cases hws

end Demo

open Demo in
/-- The hypotheses of the theorems on reads beside an archiver are met by an insert, a write that appends, and a write that
gives the file group a new base file in which keys are repeated.  The insert has been archived when the handle is opened;
the second write is archived, and what it appended is cleaned, while the read runs. -/
example : ArchivesOnce cntSetting clTs clTs nothingYet caA ∧ NamesCurrent caA ∧
    SinceArchived cntSetting clTs clTs caA caMoments ∧ (∀ j ∈ caA.done, Counts cntSetting j) ∧
    AppendingAt env arrow cntSetting caA caTable [] [] false false ∧
    cntSetting.depth < 1 ∧ cntE.commit ∈ caA.history ∧ (compare clTs cntE.commit.ts).isLE ∧
    (∀ c, caA.history.getLast? = some c → (compare clTs c.ts).isLE) ∧
    caTable.readSnapshotAsOfR env arrow codec (mergeEnv arrow) 1 caMoments.race clTs [] = .ok [cntBatch, mor] ∧
    caTable.readSnapshotR env arrow codec (mergeEnv arrow) 1 caMoments.race [] = .ok [cntBatch, mor] :=
  ⟨ca_A, ca_current, ca_since, by
      intro j hj
      rcases (show j = jobA ∨ j = jobB ∨ j = cntE by simpa [caA, cntWE] using hj) with rfl | rfl | rfl
      · exact jobA_counts
      · exact jobB_counts
      · exact cntE_counts,
    ⟨⟨[], rfl⟩, rfl, rfl, rfl,
      ⟨⟨by simp [HmNodup, caTable], by simp [caTable]⟩, by decide, by decide, rfl, rfl⟩,
      ⟨by decide, by decide⟩, rfl, by simp, ⟨rfl, rfl⟩, by intro v hv; cases hv⟩,
    by decide, by simp [Work.history, commitsOf, caA, cntWE], by decide, by intro c hc; cases hc; decide,
    by decide +kernel, by decide +kernel⟩

open Demo in
/-- And for changes, by the writes of C92's example, the first of which has been archived when the handle is opened. -/
example : ArchivesOnce dcSetting clTs t1 nothingYet daA ∧ AllDocumented daA.done ∧ RollbacksInPlace daA ∧
    (∀ j ∈ daA.done, Counts dcSetting j) ∧ SinceArchived dcSetting clTs t1 daA daMoments ∧
    AppendsAt env dcSetting daA caTable ∧ MetaFields dcSetting.o ∧ (WriterTimestamp t1 ∧ t1.length = dcSetting.width) ∧
    (∃ d, parseDatetime dcSetting.ltz t1 dcSetting.tz = .ok d) ∧ (compare t1 t1).isLE ∧ jobK.commit ∈ daA.history ∧
    (compare clTs jobK.commit.ts).isLE ∧ (∀ c, daA.history.getLast? = some c → (compare clTs c.ts).isLE) ∧
    (∀ c, daA.history.getLast? = some c → (compare t1 c.ts).isLE) ∧
    caTable.readIncrementalR env arrow codecDated (mergeEnv arrow) daMoments.race t1 (some clTs) =
      .ok [⟨incSchema, [datedRow c!"5" c!"E" c!"eve" 2 clTs]⟩] ∧
    caTable.readIncrementalR env arrow codecDated (mergeEnv arrow) daMoments.race t1 none =
      .ok [⟨incSchema, [datedRow c!"5" c!"E" c!"eve" 2 clTs]⟩] :=
  ⟨da_A, ccK_documented, da_inPlace, by
      intro j hj
      rcases (show j = jobI ∨ j = jobY ∨ j = jobK by simpa [daA, ccL, ccK] using hj) with rfl | rfl | rfl
      · exact jobI_counts
      · exact jobY_counts
      · exact jobK_counts,
    da_since, dc_handle ⟨[], rfl⟩ rfl, by decide, by decide, ⟨_, rfl⟩, by decide,
    by simp [daA, ccL, ccK, Work.history, commitsOf], by decide, by intro c hc; cases hc; decide,
    by intro c hc; cases hc; decide, by decide +kernel, by decide +kernel⟩

end Hudi
