import Verif.Props.Answers

/-! # C28: a later deletion of a partition -/

namespace Hudi
open Spec

theorem Demo.deleted_later : OnlyLater Demo.regionOpts c!"20240104153000000" 1704382200000
    Demo.regionTable.timeline Demo.deletedTable.timeline Demo.regionTree Demo.deletedTree := by
  have hp : ∀ x, PartitionOf Demo.regionOpts Demo.regionTree x ↔ x ∈ [c!"eu", c!"us"] :=
    partitionOf_mem (by decide) rfl
  have hp' : ∀ x, PartitionOf Demo.regionOpts Demo.deletedTree x ↔ x ∈ [c!"eu", c!"us"] :=
    partitionOf_mem (by decide) rfl
  refine ⟨?_, ?_, ?_, ?_, ?_⟩
  · intro x; rw [hp, hp']; exact id
  · intro x; rw [hp]; revert x; decide
  · intro x b; rw [hp, hp', ← mem_basesOf, ← mem_basesOf]
    intro hx hb _
    refine ⟨hx, ?_⟩
    revert b
    revert x
    decide
  · intro i hi
    simp only [Demo.regionTable, Demo.regionTimeline, List.mem_cons, List.not_mem_nil, or_false] at hi
    rcases hi with rfl | rfl
    · exact ⟨by decide, rfl⟩
    · exact ⟨by decide, rfl⟩
  · decide

/-- **C28 as stated is false.**  A later deletion of a partition, which leaves every file in place, makes
the query as of an earlier commit, which had an answer, fail. -/
theorem C28_false : ∃ (E : Env) (A : Arrow) (o : Opts) (t t' : Tree) (tb tb' : Table) (ts : Str) (T : Int)
    (ss : List FileSlice), TreeWF t ∧ TreeWF t' ∧ Timeline.load E o t = .ok tb.timeline ∧
    Timeline.load E o t' = .ok tb'.timeline ∧ tb'.opts = tb.opts ∧
    Healthy tb t ∧ Healthy tb' t' ∧ Bound E.ltz c!"utc" (some ts) (some T) ∧
    OnlyLater tb.opts ts T tb.timeline tb'.timeline t t' ∧ ss ≠ [] ∧
    (tb.fileSlicesAsOf E A t ts [] []).2 = .ok ss ∧
    (tb'.fileSlicesAsOf E A t' ts [] []).2 = .err .commitMetadata :=
  ⟨Demo.env, Demo.arrow, [], Demo.regionTree, Demo.deletedTree, Demo.regionTable, Demo.deletedTable,
    c!"20240104153000000", 1704382200000, _, by decide, by decide, rfl, rfl, rfl, Demo.region_healthy,
    Demo.deleted_healthy, ⟨_, rfl, rfl⟩, Demo.deleted_later, by simp, rfl, rfl⟩

end Hudi
