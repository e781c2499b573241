import Verif.Props.Optimized
import Verif.Props.ChangesDemo

/-! # C75: a table that meets the hypotheses -/

namespace Hudi
open Spec
namespace Demo

/-- The table of C60 with a log file that cannot be read. -/
def tornLogTree : Tree :=
  .dir c!".hoodie" (.file c!"20231231000000000.commit" 1 (.json (.obj chDoc0))
    (.file c!"20240102000000000.deltacommit" 1 (.json (.obj chDoc2))
    (.file c!"20240104000000000.commit" 1 (.json (.obj chDoc4)) .nil)))
  (.file morBase 1 (.parquet 1 base1) (.file morLog 1 (.bytes [1, 2, 3, 4, 5, 6, 7, 8])
    (.file recBase 1 (.parquet 1 base2) .nil)))

/-- The table, read in read-optimized mode. -/
def optTable : Table :=
  { recTable with opts := recTable.opts ++ [(c!"hoodie.read.use.read_optimized.mode", c!"true")] }

def optWritten (ts : Str) (k : GroupKey) : Batch := ⟨incSchema, chWritten.base ts k⟩

theorem torn_stored : Stores env.ltz c!"utc" optTable.opts tornLogTree recHistory :=
  stores_of (by decide) (by decide) (by decide) (partitionOf_mem (by decide) rfl) (by decide) (by decide)
    (by decide)

theorem torn_listable : ListableTable env arrow [] tornLogTree optTable c!"utc" recHistory 17 [] [] [] false false where
  load := rfl
  tree := by decide
  zone := rfl
  history := rec_wf
  stores := torn_stored
  parsed := rfl
  columns := (partitionSchema_ok (E := env) (o := []) (t0 := tornLogTree) rfl (timelineNames_normal (by decide))).1 (by decide +kernel)
  names := by unfold FieldNames; decide
  applicable := by simp
  style := ⟨rfl, rfl⟩
  parallelism := by intro v hv; cases hv
  docs := fun i hi ha => absurd ha (by revert i; decide)

theorem torn_docs : StoresDocs tornLogTree recHistory := by
  refine storesDocs_of chDocs chWrites (by decide) ?_ (fun x hx => chDocs_record _ ?_) (by decide) (by decide)
    (by decide)
  · intro x hx
    simp only [recHistory, recFirst, splitsOf, List.cons_append, List.nil_append, List.mem_cons,
      List.not_mem_nil, or_false] at hx
    rcases hx with rfl | rfl | rfl
    exacts [⟨1, rfl⟩, ⟨1, rfl⟩, ⟨1, rfl⟩]
  · revert x; decide

theorem torn_bases : StoresBases tornLogTree recHistory optWritten := by
  intro c hc k token hm
  simp only [recHistory, recFirst, List.cons_append, List.nil_append, List.mem_cons,
    List.not_mem_nil, or_false] at hc
  rcases hc with rfl | rfl | rfl <;> rw [List.mem_singleton] at hm <;> cases hm
  · exact ⟨⟨1, 1, _, rfl⟩, by unfold Batch.WF; decide⟩
  · exact ⟨⟨1, 1, _, rfl⟩, by unfold Batch.WF; decide⟩

/-- The hypotheses of C75 are met by this table, whose log file is unreadable: its read-optimized snapshots
and changes are those of the base files; the other kind of query fails on it. -/
example : MonotoneTz env.ltz ∧ PlainReader optTable ∧ MetaFields optTable.opts ∧ BaseFilesOnly optTable.opts recHistory ∧
    (∀ c ∈ recHistory, ∀ k token, (k, Change.write token) ∈ c.changes → HasCommitTime (optWritten c.ts k).schema) ∧
    (WriterTimestamp t2 ∧ t2.length = 17) ∧ (∃ d, parseDatetime env.ltz t2 c!"utc" = .ok d) ∧
    (optTable.readSnapshotAsOf env arrow codecDated (mergeEnv arrow) tornLogTree t2 [] []).2 = .ok [base1] ∧
    (optTable.readSnapshot env arrow codecDated (mergeEnv arrow) tornLogTree [] []).2 = .ok [base1, base2] ∧
    optTable.readIncremental env arrow codecDated (mergeEnv arrow) tornLogTree t0 (some t4) =
      .ok [⟨incSchema, []⟩, base2] ∧
    (∃ e, (recTable.readSnapshot env arrow codecDated (mergeEnv arrow) tornLogTree [] []).2 = .err e) :=
  ⟨by intro a b a' b' h1 h2 h; cases h1; cases h2; exact h,
    ⟨⟨by simp [HmNodup, optTable, recTable], by simp [optTable, recTable]⟩, rfl⟩, by decide, .inl rfl,
    fun _ _ _ _ _ => ⟨_, rfl, rfl⟩, by decide, ⟨_, rfl⟩, by decide +kernel, by decide +kernel, by decide +kernel,
    ⟨.logFormat, by decide +kernel⟩⟩

end Demo
end Hudi
