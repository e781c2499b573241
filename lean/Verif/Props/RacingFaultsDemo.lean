import Verif.Props.RacingFaults
import Verif.Props.RacingWriterDemo

/-! # C86: a concrete case -/

namespace Hudi
open Spec
namespace Demo

/-- The first call on the handle that was opened when the second write had stopped: a listing of the files at a later
time, whose requests are answered before and after that write is rolled back. -/
def firstCall : Nat × Cache × Res Answer :=
  (TableCall.slicesAsOf t1 []).race env arrow codec (mergeEnv arrow) wkTable 1 ⟨fun _ => wkB.tree, wkB.tree, wkB.tree,
    fun _ => wkR.tree, fun _ => wkB.tree, fun _ => wkB.tree, fun _ => wkC.tree⟩ noFaults []

/-- The second: a read of which a request fails. -/
def secondCall : Nat × Cache × Res Answer :=
  (TableCall.snapshot []).race env arrow codec (mergeEnv arrow) wkTable 1 wkMoments.race (fun n => n == 3) firstCall.2.1

theorem wk_keptWhile : KeptWhile env arrow wkSetting (mergeEnv arrow) wkB wkTable 1 secondCall.2.1 :=
  .call (S := wkSetting) wkMoments _ _ wk_since (.call (S := wkSetting)
    ⟨fun _ => wkB, wkB, wkB, fun _ => wkR, fun _ => wkB, fun _ => wkB, fun _ => wkC⟩ _ _
    ⟨fun _ => .refl _, .refl _, .refl _, fun _ => works_R, fun _ => .refl _, fun _ => .refl _,
      fun _ _ => works_trans works_R works_C⟩ .opened)

end Demo

open Demo in
/-- The hypotheses of C86 are met: the first call found the file of the write that failed, the second one returned an
error, and the read at the end returns the insert, or an error if a request fails. -/
example : MonotoneTz env.ltz ∧ WholeSecondsTz env.ltz ∧ Works wkSetting nothingYet wkB ∧ Since wkSetting wkB wkMoments ∧
    OpenedAt env arrow wkSetting wkB wkTable [] [] false false ∧ wkSetting.depth < 1 ∧
    KeptWhile env arrow wkSetting (mergeEnv arrow) wkB wkTable 1 secondCall.2.1 ∧ jobA.commit ∈ wkB.history ∧
    (∃ ss, firstCall.2.2 = .ok (.slices ss) ∧ ss.map (fun s => s.baseFile.fileId) = [c!"f2", c!"f1"]) ∧
    (∃ e, secondCall.2.2 = .err e) ∧
    ¬ (TableCall.snapshotAsOf t0 []).SomeFails env arrow codec (mergeEnv arrow) wkTable 1 wkMoments.race (fun n => n == 9)
      secondCall.2.1 ∧
    (wkTable.readSnapshotAsOfRF env arrow codec (mergeEnv arrow) 1 wkMoments.race t0 [] (fun n => n == 9) 0
      secondCall.2.1).2.2 = .ok [⟨mSchema, [mRow c!"1" c!"C" c!"bob" 7, mRow c!"1" c!"A" c!"ann" 5]⟩] ∧
    (TableCall.snapshotAsOf t0 []).SomeFails env arrow codec (mergeEnv arrow) wkTable 1 wkMoments.race (fun n => n == 3)
      secondCall.2.1 :=
  ⟨by intro a b a' b' h1 h2 h; cases h1; cases h2; exact h, by intro n d h; cases h; rfl,
    works_trans works_A works_B, wk_since, wk_opened, by decide, wk_keptWhile, List.mem_singleton.2 rfl,
    ⟨_, rfl, by decide +kernel⟩, ⟨_, rfl⟩, by unfold TableCall.SomeFails; decide +kernel,
    by decide +kernel, by unfold TableCall.SomeFails; decide +kernel⟩

end Hudi
