import Verif.Props.Kept
import Verif.Props.WriterDemo

/-! # C85: a concrete case -/

namespace Hudi
open Spec
namespace Demo

/-- Calls on the handle that was opened when the second write had stopped: a listing of the files at a later time,
made then; and a read made when that write has been rolled back, of which a request fails. -/
def keptCache : Cache :=
  ((TableCall.snapshot []).run env arrow codec (mergeEnv arrow) wkTable wkR.tree (fun n => n == 4)
    ((TableCall.slicesAsOf t1 []).run env arrow codec (mergeEnv arrow) wkTable wkB.tree noFaults []).2.1).2.1

theorem wk_kept : KeptSince env arrow wkSetting (mergeEnv arrow) wkB wkTable keptCache :=
  ⟨[wkR.tree, wkB.tree], .call _ _ _ (.call _ _ _ .opened), by
    intro t ht
    rcases List.mem_cons.1 ht with rfl | ht
    · exact ⟨wkR, works_R, rfl⟩
    · exact ⟨wkB, .refl _, List.mem_singleton.1 ht⟩⟩

end Demo

open Demo in
/-- The hypotheses of C85 are met: the first call had found the file of the failed write, the second one returned an error,
and the read at the end still returns the insert. -/
example : MonotoneTz env.ltz ∧ WholeSecondsTz env.ltz ∧ Works wkSetting nothingYet wkB ∧ Works wkSetting wkB wkC ∧
    OpenedAt env arrow wkSetting wkB wkTable [] [] false false ∧
    KeptSince env arrow wkSetting (mergeEnv arrow) wkB wkTable keptCache ∧ jobA.commit ∈ wkB.history ∧
    keptCache.map (fun e => e.2.map FileGroup.fileId) = [[c!"f1"]] ∧
    (∃ ss, ((TableCall.slicesAsOf t1 []).run env arrow codec (mergeEnv arrow) wkTable wkB.tree noFaults []).2.2 =
      .ok (.slices ss) ∧ ss.map (fun s => s.baseFile.fileId) = [c!"f2", c!"f1"]) ∧
    (∃ e, ((TableCall.snapshot []).run env arrow codec (mergeEnv arrow) wkTable wkR.tree (fun n => n == 4)
      ((TableCall.slicesAsOf t1 []).run env arrow codec (mergeEnv arrow) wkTable wkB.tree noFaults []).2.1).2.2 = .err e) ∧
    (wkTable.readSnapshotAsOf env arrow codec (mergeEnv arrow) wkC.tree t0 [] keptCache).2 =
      .ok [⟨mSchema, [mRow c!"1" c!"C" c!"bob" 7, mRow c!"1" c!"A" c!"ann" 5]⟩] :=
  ⟨by intro a b a' b' h1 h2 h; cases h1; cases h2; exact h, by intro n d h; cases h; rfl,
    works_trans works_A works_B, works_trans works_R works_C, wk_opened, wk_kept, List.mem_singleton.2 rfl,
    by decide +kernel, ⟨_, rfl, by decide +kernel⟩, ⟨_, rfl⟩, by decide +kernel⟩

end Hudi
