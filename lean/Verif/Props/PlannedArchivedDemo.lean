import Verif.Props.PlannedArchived
import Verif.Props.PlannedDemo
import Verif.Props.ArchiverTailDemo

/-! # C98: a plan beside an archiver that meets the hypotheses -/

namespace Hudi
open Spec

namespace Demo

/-- The first version has been cleaned, and the first commit archived. -/
def plA : Work := { clB with store := (Request.delete (instantAt jobA.commit)).run clB.store }

/-- So has the second. -/
def plB : Work := { plA with store := (Request.delete (instantAt jobB.commit)).run plA.store }

/-- Opened when the first commit has been archived. -/
def plTableA : Table := ⟨scanOpts, [], ⟨[], [⟨t1, .deltaCommit, .completed, 1704067200000⟩,
  ⟨clTs, .commit, .completed, 1704499200000⟩]⟩⟩

end Demo

open Demo in
/-- The hypotheses of C98 beside an archiver are met by a handle opened when the first version of a file group has been
cleaned and the first commit archived, and a scan planned when the second commit has been archived as well: the plan
names the base files of the second version and of the other file group, which the second commit had written. -/
example : MonotoneTz env.ltz ∧ WholeSecondsTz env.ltz ∧ Archives plSetting clTs clTs nothingYet plA ∧
    Archives plSetting clTs clTs plA plB ∧ NamesCurrent plA ∧
    OpenedAt env arrow plSetting plA plTableA (exprsToFilters id []) [] false false ∧
    plTableA.baseUrlPath urlPath = .ok c!"/t" ∧ PlainBase c!"/t" [c!"t"] ∧ PlainTable plSetting.o plB.tree ∧
    CarryPartitions arrow plSetting.pcols false false plA.done ∧
    (∀ c, plA.history.getLast? = some c → (compare clTs c.ts).isLE) ∧
    (plTableA.scan env arrow urlPath id plB.tree [] []).2 = .ok [[plFile clBase], [plFile otherBase]] ∧
    plB.tree ≠ plA.tree := by
  refine ⟨?_, by intro n d h; cases h; rfl,
    .step (archives_of_cleans (pl_cleans (.step (.step (cleans_of_works cl_works_all) (.log clWE jobA f1 c!"0-0-0"
      (c!"1", c!"0-7-7") List.mem_cons_self List.mem_cons_self cl_superseded (by decide)))
      (.base clL jobA f1 c!"0-0-0" List.mem_cons_self List.mem_cons_self cl_superseded clL_logs))))
      (.archive clB jobA List.mem_cons_self (by decide) (by decide)),
    .step (.refl _) (.archive plA jobB (List.mem_cons_of_mem _ List.mem_cons_self) (by decide) (by decide)), cl_current,
    ⟨⟨⟨[], rfl⟩, rfl, rfl, rfl, ⟨⟨by simp [HmNodup, plTableA], by simp [plTableA]⟩, ⟨by decide, rfl, by decide⟩, rfl, rfl⟩⟩,
      pl_opened.names, pl_opened.parsed, pl_opened.applicable, pl_opened.style, pl_opened.parallelism⟩,
    by decide +kernel, scan_base, pl_plain _ (by decide +kernel), ?_, ?_, by decide +kernel, ?_⟩
  · intro a b a' b' h1 h2 h; cases h1; cases h2; exact h
  · intro j hj k token hk vals hv r hr i f v h
    cases h
  · intro c hc; cases hc; decide
  · intro h
    have := congrArg (fun t => (t.fileAt (instantAt jobB.commit)).isSome) h
    revert this
    decide +kernel

end Hudi
