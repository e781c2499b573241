import Verif.Props.PlannedOpened
import Verif.Props.PlannedArchivedDemo
import Verif.Props.ArchiverOpenedDemo

/-! # C98 for tables opened by their path: a table that meets the hypotheses -/

namespace Hudi
open Spec

namespace Demo

/-- The path of a URL in the bucket `b`. -/
def bucketPath : Str → Option Str := fun s => some (s.drop 6)

theorem po_plain (s : Work) (h : ∀ f ∈ filesOf s.tree [], PlainName f.1) : PlainTable pathSpSetting.o s.tree := by
  intro x hx
  rcases hx with ⟨_, rfl⟩ | ⟨hx, _⟩
  · exact ⟨by decide, h⟩
  · exact absurd hx (by decide)

end Demo

open Demo in
/-- The hypotheses of C98 from the path are met by a table of which the first commit had been archived when it was opened,
and the second when the plan was made: the plan names the base file of the last version of the first file group, and that
of the second. -/
example : Readable arrow id ∧ MonotoneTz env.ltz ∧ WholeSecondsTz env.ltz ∧
    Archives pathSpSetting clTs clTs nothingYet paA ∧ Archives pathSpSetting clTs clTs paA paB ∧ NamesCurrent paA ∧
    TableOf env pathSpSetting paA (openWorld paA.tree) c!"s3://b/trips" openCalls ∧
    Askable arrow pathSpSetting (exprsToFilters id []) [] false false ∧ PlainTable pathSpSetting.o paB.tree ∧
    CarryPartitions arrow pathSpSetting.pcols false false paA.done ∧
    (∀ c, paA.history.getLast? = some c → (compare clTs c.ts).isLE) ∧
    (builderOf c!"s3://b/trips" openCalls).build env (openWorld paA.tree) = .ok paTable ∧
    paTable.baseUrlPath bucketPath = .ok c!"/trips" ∧ PlainBase c!"/trips" [c!"trips"] ∧
    ∃ plan, (paTable.scan env arrow bucketPath id paB.tree [] []).2 = .ok plan ∧
      plan.flatten = [⟨c!"trips/f5_0-2-2_20240108000000000.parquet", 1⟩, ⟨c!"trips/" ++ clBase, 1⟩] := by
  refine ⟨readable, by intro a b a' b' h1 h2 h; cases h1; cases h2; exact h, by intro n d h; cases h; rfl, pa_works,
    pa_toB, pa_current, tableOf_build rfl rfl rfl rfl rfl pa_build,
    ⟨⟨by decide, by decide⟩, rfl, by simp, ⟨rfl, rfl⟩, by intro v hv; cases hv; decide⟩, po_plain _ (by decide +kernel), ?_,
    by intro c hc; cases hc; decide, pa_build, by decide +kernel, ⟨by decide, .inr ⟨by decide, rfl⟩⟩,
    _, rfl, by decide +kernel⟩
  intro j hj k token hk vals hv r hr i f v h
  cases h

end Hudi
