import Verif.Props.RacingWriter
import Verif.Props.WriterDemo

/-! # C83: concrete cases -/

namespace Hudi
open Spec

namespace Demo

/-- The handle is opened when the second write has stopped; the listing is answered then, the lookup of metadata when
the write has been rolled back, and the files are read when the third write has completed. -/
def wkMoments : Moments := ⟨fun _ => wkR, wkC, wkR, fun _ => wkC, fun _ => wkB, fun _ => wkR, fun _ => wkC⟩

theorem wk_since : Since wkSetting wkB wkMoments :=
  ⟨fun _ => works_R, works_trans works_R works_C, works_R, fun _ => works_trans works_R works_C, fun _ => .refl _,
    fun _ => works_R, fun _ _ => works_trans works_R works_C⟩

end Demo

open Demo in
/-- The hypotheses of C83 are met, and the read returns the insert. -/
example : MonotoneTz env.ltz ∧ WholeSecondsTz env.ltz ∧ Works wkSetting nothingYet wkB ∧
    Since wkSetting wkB wkMoments ∧ OpenedAt env arrow wkSetting wkB wkTable [] [] false false ∧
    wkSetting.depth < 1 ∧ jobA.commit ∈ wkB.history ∧
    wkTable.readSnapshotR env arrow codec (mergeEnv arrow) 1 wkMoments.race [] =
      .ok [⟨mSchema, [mRow c!"1" c!"C" c!"bob" 7, mRow c!"1" c!"A" c!"ann" 5]⟩] ∧
    wkTable.readSnapshotAsOfR env arrow codec (mergeEnv arrow) 1 wkMoments.race t0 [] =
      .ok [⟨mSchema, [mRow c!"1" c!"C" c!"bob" 7, mRow c!"1" c!"A" c!"ann" 5]⟩] :=
  ⟨by intro a b a' b' h1 h2 h; cases h1; cases h2; exact h, by intro n d h; cases h; rfl,
    works_trans works_A works_B, wk_since, wk_opened, by decide, List.mem_singleton.2 rfl, by decide +kernel,
    by decide +kernel⟩

end Hudi
