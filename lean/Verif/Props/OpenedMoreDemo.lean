import Verif.Props.OpenedMore
import Verif.Props.OpenedDemo
import Verif.Props.AppendedDemo

/-! # C71: tables that meet the further hypotheses -/

namespace Hudi
open Spec
namespace Demo

/-- The counterexample of C60 with its properties file. -/
def openFlightTree : Tree :=
  .dir c!".hoodie" (.file c!"hoodie.properties" 1 (.bytes (utf8Encode tripsText))
    (.file c!"20231231000000000.commit" 1 (.json (.obj chDoc0))
    (.file c!"20240101000000000.deltacommit.inflight" 1 .junk
    (.file c!"20240102000000000.deltacommit" 1 (.json (.obj chDoc2)) .nil))))
  (.file morBase 1 (.parquet 1 base1) (.file morLog 1 (.bytes (logBytes [x1, x2])) .nil))

theorem openFlight_build :
    (builderOf c!"s3://b/trips" openCalls).build env (openWorld openFlightTree) = .ok openDirtyTable := by
  decide +kernel

theorem openFlight_at :
    TableAt (openWorld openFlightTree) c!"s3://b/trips" openCalls ⟨openFlightTree, fun _ => none⟩ openOpts :=
  tableAt_of_build (fun _ => rfl) openFlight_build rfl

theorem openFlight_supported :
    (WellFormedOptions openOpts ∧ Supported openOpts) ∧ WellNamedTimeline openFlightTree := by
  obtain ⟨h1, h2⟩ := (C71_opens_exactly env _ _ _ _ _ openFlight_at).1.1 ⟨_, openFlight_build⟩
  exact ⟨h1.resolve_left (by unfold SkipsValidation; decide), h2⟩

theorem openFlight_docs : StoresDocs openFlightTree recFirst := by
  refine storesDocs_of chDocs chWrites (by decide) ?_ (fun x hx => chDocs_record _ ?_) (by decide) (by decide)
    (by decide)
  · intro x hx
    simp only [recFirst, splitsOf, List.nil_append, List.mem_cons, List.not_mem_nil, or_false] at hx
    rcases hx with rfl | rfl
    exacts [⟨1, rfl⟩, ⟨1, rfl⟩]
  · revert x; decide

theorem openFlight_records : StoresRecords codecDated some c!"utc" incSchema openFlightTree recFirst chWritten
    flightHeld := by
  refine stores_dated [x1, x2] (by simp) (by simp) flight_appends rfl ⟨1, _, rfl, rfl⟩ ?_ (by decide) (by decide)
  intro c hc e he token ht
  simp only [recFirst, List.mem_cons, List.not_mem_nil, or_false] at hc
  rcases hc with rfl | rfl <;> rw [List.mem_singleton] at he <;> subst he <;> cases ht
  exact ⟨⟨1, 1, _, rfl⟩, by decide⟩

/-- The hypotheses of `C71_opened_changes` are met by this table, opened with some options; what is read from
it: the record of the delta commit and that of the one in flight (see the examples beside `C60_false`). -/
example : TableAt (openWorld openFlightTree) c!"s3://b/trips" openCalls ⟨openFlightTree, fun _ => none⟩ openOpts ∧
    (∀ e ∈ openCalls.flatMap Call.storage, ¬ HudiKey e.1) ∧ WellFormedOptions openOpts ∧ Supported openOpts ∧
    WellNamedTimeline openFlightTree ∧ MonotoneTz env.ltz ∧ WholeSecondsTz env.ltz ∧ TreeWF openFlightTree ∧
    timezoneOf openOpts = .ok c!"utc" ∧ recFirst.WF 17 ∧
    Stores env.ltz c!"utc" openOpts openFlightTree recFirst ∧ StoresDocs openFlightTree recFirst ∧
    MergesBy openOpts c!"ts" ∧ startOf openOpts = none ∧ MetaFields openOpts ∧ MergeColumns incSchema c!"ts" ∧
    HasCommitTime incSchema ∧
    StoresRecords codecDated env.ltz c!"utc" incSchema openFlightTree recFirst chWritten flightHeld ∧
    Dated incSchema recFirst chWritten flightHeld ∧
    (WriterTimestamp t0 ∧ t0.length = 17) ∧ (WriterTimestamp t2 ∧ t2.length = 17) ∧
    (∃ d, parseDatetime env.ltz t0 c!"utc" = .ok d) ∧ (∃ d, parseDatetime env.ltz t2 c!"utc" = .ok d) ∧
    openDirtyTable.readIncremental env arrow codecDated (mergeEnv arrow) openFlightTree t0 (some t2) =
      .ok [⟨incSchema, [datedRow c!"4" c!"C" c!"z" 9 t2, datedRow c!"3" c!"B" c!"y" 1 t1]⟩] :=
  ⟨openFlight_at, by decide, openFlight_supported.1.1, openFlight_supported.1.2, openFlight_supported.2,
    by intro a b a' b' h1 h2 h; cases h1; cases h2; exact h, by intro n d h; cases h; rfl, by decide, rfl,
    rec_wf.prefix (h' := [⟨t4, .commit, [(f2, .write c!"0-4-1")]⟩]),
    stores_of (by decide) (by decide) (by decide) (partitionOf_mem (by decide) rfl) (by decide) (by decide)
      (by decide), openFlight_docs, ⟨by decide, rfl, by decide⟩, rfl, by decide,
    ⟨by decide, by decide, _, rfl, rfl⟩, ⟨_, rfl, rfl⟩, openFlight_records, dated_of flight_appends (by decide),
    by decide, by decide, ⟨_, rfl⟩, ⟨_, rfl⟩, by decide +kernel⟩

/-- The hypotheses of `C71_opened_table_and_pending` are met by the counterexample of C71; what is read from
it: a record of the delta commit in flight too. -/
example : TableAt (openWorld openDirtyTree) c!"s3://b/trips" openCalls ⟨openDirtyTree, fun _ => none⟩ openOpts ∧
    WellFormedOptions openOpts ∧ Supported openOpts ∧ WellNamedTimeline openDirtyTree ∧
    StoredTable env arrow openOpts openDirtyTree c!"utc" recFirst 17 [] [] [] false false ∧
    StoresRecords codec env.ltz c!"utc" mSchema openDirtyTree recFirst recWritten dirtyHeld ∧
    (openDirtyTable.readSnapshotAsOf env arrow codec (mergeEnv arrow) openDirtyTree t2 [] []).2 =
      .ok [⟨mSchema, [mRow c!"2" c!"A" c!"x" 9, mRow c!"1" c!"C" c!"bob" 7, mRow c!"3" c!"B" c!"y" 1]⟩] :=
  ⟨openDirty_at, openDirty_supported.1.1, openDirty_supported.1.2, openDirty_supported.2, openDirty_stored,
    openDirty_records, by decide +kernel⟩

/-! ## Append-only -/

/-- The caller says that the table is append-only. -/
def openEveryCalls : List Call :=
  [.options [(c!"hoodie.table.record.merge.strategy", c!"APPEND_ONLY"), (c!"timeout", c!"10s")]]

def openEveryTree : Tree :=
  .dir c!".hoodie" (.file c!"hoodie.properties" 1 (.bytes (utf8Encode tripsText))
    (.file c!"20231231000000000.commit" 1 (.json (.obj chDoc0))
    (.file c!"20240102000000000.deltacommit" 1 (.json (.obj chDoc2))
    (.file c!"20240104000000000.commit" 1 (.json (.obj chDoc4)) .nil))))
  (.file morBase 1 (.parquet 1 base1) (.file morLog 1 (.bytes (logBytes [x1, x2, x2, w3]))
    (.file recBase 1 (.parquet 1 base2) .nil)))

def openEveryOpts : Opts :=
  [(c!"hoodie.base.path", c!"s3://b/trips"), (c!"hoodie.table.record.merge.strategy", c!"APPEND_ONLY"),
   (c!"hoodie.table.name", c!"trips"), (c!"hoodie.table.type", c!"MERGE_ON_READ"),
   (c!"hoodie.table.version", c!"6"), (c!"hoodie.timeline.layout.version", c!"1"),
   (c!"hoodie.table.precombine.field", c!"ts"),
   (c!"hoodie.datasource.write.hive_style_partitioning", c!"false"),
   (c!"hoodie.datasource.write.partitionpath.urlencode", c!"false")]

def openEveryTable : Table := ⟨openEveryOpts, [(c!"timeout", c!"10s"), (c!"aws_region", c!"env")],
  ⟨openEveryOpts, [⟨t0, .commit, .completed, 1703980800000⟩, ⟨t2, .deltaCommit, .completed, 1704153600000⟩,
    ⟨t4, .commit, .completed, 1704326400000⟩]⟩⟩

theorem openEvery_build :
    (builderOf c!"s3://b/trips" openEveryCalls).build env (openWorld openEveryTree) = .ok openEveryTable := by
  decide +kernel

theorem openEvery_at :
    TableAt (openWorld openEveryTree) c!"s3://b/trips" openEveryCalls ⟨openEveryTree, fun _ => none⟩ openEveryOpts :=
  tableAt_of_build (fun _ => rfl) openEvery_build rfl

theorem openEvery_supported :
    (WellFormedOptions openEveryOpts ∧ Supported openEveryOpts) ∧ WellNamedTimeline openEveryTree := by
  obtain ⟨h1, h2⟩ := (C71_opens_exactly env _ _ _ _ _ openEvery_at).1.1 ⟨_, openEvery_build⟩
  exact ⟨h1.resolve_left (by unfold SkipsValidation; decide), h2⟩

theorem openEvery_stored :
    StoredTable env arrow openEveryOpts openEveryTree c!"utc" recHistory 17 [] [] [] false false where
  tree := by decide
  zone := rfl
  history := rec_wf
  stores := stores_of (by decide) (by decide) (by decide) (partitionOf_mem (by decide) rfl) (by decide)
    (by decide) (by decide)
  last := ⟨_, _, _, _, rfl, ⟨1, rfl⟩, ⟨[], _, [], [], recBase, rfl, rfl, .inl ⟨⟨c!"f2_0-4-1_20240104000000000", rfl⟩, rfl⟩⟩,
    ⟨1, 1, base2, rfl⟩, rfl⟩
  docs := fun c hc ha => absurd ha (by revert c; decide)
  style := ⟨rfl, rfl⟩
  parallelism := by intro v hv; cases hv
  names := by unfold FieldNames; decide
  parsed := rfl
  applicable := by simp

theorem openEvery_records : StoresAppends codecDated some c!"utc" incSchema openEveryTree recHistory everyWritten
    everyHeld := by
  refine stores_every [x1, x2, x2, w3] (by simp) ch_appends rfl ⟨1, _, rfl, rfl⟩ ?_ (by decide)
    (only_append (by decide)) (by decide) ⟨x2Batch.rows ++ x2Batch.rows, ?_, .refl _⟩
  · intro c hc e he token ht
    simp only [recHistory, recFirst, List.cons_append, List.nil_append, List.mem_cons,
      List.not_mem_nil, or_false] at hc
    rcases hc with rfl | rfl | rfl <;> rw [List.mem_singleton] at he <;> subst he <;> cases ht
    · exact ⟨⟨1, 1, _, rfl⟩, by decide⟩
    · exact ⟨⟨1, 1, _, rfl⟩, by decide⟩
  · rw [blocksBy_cons, if_neg (by decide), blocksBy_cons, if_pos (by decide), blocksBy_cons,
      if_pos (by decide), blocksBy_cons, if_neg (by decide)]
    exact ⟨[[x2Batch], [x2Batch]], .cons rfl (.cons rfl .nil), rfl⟩

/-- The hypotheses of `C71_opened_every_record` are met by this table, opened as append-only; a record
that was appended twice is read twice. -/
example : TableAt (openWorld openEveryTree) c!"s3://b/trips" openEveryCalls ⟨openEveryTree, fun _ => none⟩
      openEveryOpts ∧
    (∀ e ∈ openEveryCalls.flatMap Call.storage, ¬ HudiKey e.1) ∧ WellFormedOptions openEveryOpts ∧
    Supported openEveryOpts ∧ WellNamedTimeline openEveryTree ∧
    StoredTable env arrow openEveryOpts openEveryTree c!"utc" recHistory 17 [] [] [] false false ∧
    ¬ OverwritesWithLatest openEveryOpts ∧ ¬ ReadOptimized openEveryOpts ∧ startOf openEveryOpts = none ∧
    StoresAppends codecDated env.ltz c!"utc" incSchema openEveryTree recHistory everyWritten everyHeld ∧
    NoPendingBlocks env.ltz c!"utc" t4 recHistory everyHeld ∧
    (openEveryTable.readSnapshotAsOf env arrow codecDated (mergeEnv arrow) openEveryTree t4 [] []).2 =
      .ok [⟨incSchema, base1.rows ++ (x2Batch.rows ++ x2Batch.rows)⟩, base2] :=
  ⟨openEvery_at, by decide, openEvery_supported.1.1, openEvery_supported.1.2, openEvery_supported.2,
    openEvery_stored, by decide, by decide, rfl, openEvery_records, every_pending, by decide +kernel⟩

end Demo
end Hudi
