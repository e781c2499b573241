import Verif.Props.Crash
import Verif.Props.FaultsDemo
import Verif.Props.AvroTableDemo

/-! # C77: tables that meet the hypotheses, and counterexamples -/

namespace Hudi
open Spec Avro

namespace Demo

/-- The table of C71, with the log file replaced by other bytes. -/
def crashTree (b : Bytes) : Tree :=
  .dir c!".hoodie" (.file c!"hoodie.properties" 1 (.bytes (utf8Encode tripsText))
    (.file c!"20231231000000000.commit" 1 .junk
    (.file c!"20240102000000000.deltacommit" 1 morDoc
    (.file c!"20240104000000000.commit" 1 recDoc .nil))))
  (.file morBase 1 (.parquet 1 mor) (.file morLog 1 (.bytes b) (.file recBase 1 (.parquet 1 mor) .nil)))

/-- A block whose instant time is only a year. -/
def yearBlock : WBlock := ⟨.v1, [(.instantTime, c!"2024")], .parquet [80, 52, 67, 122, 3, 69], [], 0, 0⟩

/-- A codec whose records have one column. -/
def narrowCodec : Codec :=
  { codec with toBatch := fun _ vs => .ok ⟨mSchema.take 1, vs.map (fun v => (rowOfBytes v).take 1)⟩ }

/-- The properties of the table of C71 without those that say how partition paths are written. -/
def bareText : Str := c!"hoodie.table.name=trips\nhoodie.table.type=MERGE_ON_READ\nhoodie.table.version=6\nhoodie.timeline.layout.version=1\nhoodie.table.precombine.field=ts\n"

def bareTree : Tree :=
  .dir c!".hoodie" (.file c!"hoodie.properties" 1 (.bytes (utf8Encode bareText))
    (.file c!"20231231000000000.commit" 1 .junk
    (.file c!"20240102000000000.deltacommit" 1 morDoc
    (.file c!"20240104000000000.commit" 1 recDoc .nil))))
  (.file morBase 1 (.parquet 1 mor) (.file morLog 1 (.bytes (logBytes [w1, w2, w3]))
    (.file recBase 1 (.parquet 1 mor) .nil)))

def bareOpts : Opts :=
  [(c!"hoodie.base.path", c!"s3://b/trips"), (c!"hoodie.read.listing.parallelism", c!"4"),
   (c!"hoodie.table.name", c!"trips"), (c!"hoodie.table.type", c!"MERGE_ON_READ"),
   (c!"hoodie.table.version", c!"6"), (c!"hoodie.timeline.layout.version", c!"1"),
   (c!"hoodie.table.precombine.field", c!"ts")]

def bareTable : Table := ⟨bareOpts, [(c!"timeout", c!"10s"), (c!"aws_region", c!"env")],
  ⟨bareOpts, [⟨t0, .commit, .completed, 1703980800000⟩, ⟨t2, .deltaCommit, .completed, 1704153600000⟩,
    ⟨t4, .commit, .completed, 1704326400000⟩]⟩⟩

theorem bare_build : (builderOf c!"s3://b/trips" openCalls).build env (openWorld bareTree) = .ok bareTable := by
  decide +kernel

/-- The table of C71 meets the hypotheses whatever its log file contains.  When the log file ends in the middle of a
block, or is not a log file, reading the snapshot is an error. -/
example : (∃ o t₀, Timeline.load env o t₀ = .ok openTable.timeline) ∧ (∀ b, TreeWF (crashTree b)) ∧
    (∀ v, hmGet c!"hoodie.read.listing.parallelism" openTable.opts = some v → parseUsize v ≠ some 0) ∧
    (openTable.readSnapshot env arrow codec (mergeEnv arrow) (crashTree (logBytes [w1, w2, w3])) [] []).2.isOk = true ∧
    (openTable.readSnapshot env arrow codec (mergeEnv arrow) (crashTree ((logBytes [w1, w2]).take 100)) [] []).2 =
      .err .readLogFile ∧
    (openTable.readSnapshot env arrow codec (mergeEnv arrow) (crashTree [1, 2, 3, 4, 5, 6, 7]) [] []).2 = .err .logFormat := by
  refine ⟨⟨openOpts, openTree, by decide +kernel⟩, fun b => ?_, ?_, ?_, ?_, ?_⟩
  · unfold crashTree; exact (by decide : TreeWF openTree)
  · intro v hv; cases hv; decide
  all_goals decide +kernel

end Demo

/-- **C77 is false of tables whose properties do not say how partition paths are written.**  Such a table opens, its
options being as they should, and then every snapshot and every lookup of its files crashes. -/
theorem C77_false : ∃ (E : Env) (A : Arrow) (C : Codec) (M : MergeEnv A) (w : World) (uri : Str) (calls : List Call)
    (s : Storage) (tb : Table), TableAt w uri calls s tb.opts ∧ (builderOf uri calls).build E w = .ok tb ∧
    WellFormedOptions tb.opts ∧ Supported tb.opts ∧ TreeWF s.tree ∧
    (tb.fileSlices E A s.tree [] []).2 = .panic ∧ (tb.readSnapshot E A C M s.tree [] []).2 = .panic := by
  have hat : TableAt (Demo.openWorld Demo.bareTree) c!"s3://b/trips" Demo.openCalls ⟨Demo.bareTree, fun _ => none⟩
      Demo.bareTable.opts := tableAt_of_build (fun _ => rfl) Demo.bare_build rfl
  obtain ⟨h, _⟩ := (C71_opens_exactly Demo.env _ _ _ _ _ hat).1.1 ⟨_, Demo.bare_build⟩
  obtain ⟨h1, h2⟩ := h.resolve_left (by unfold SkipsValidation; decide)
  exact ⟨Demo.env, Demo.arrow, Demo.codec, Demo.mergeEnv Demo.arrow, _, _, _, _, Demo.bareTable, hat, Demo.bare_build,
    h1, h2, by decide, by decide +kernel, by decide +kernel⟩

/-- **C77 is false of log files that contain a time too short to be a timestamp.** -/
theorem C77_false_log_time : ∃ (E : Env) (A : Arrow) (C : Codec) (M : MergeEnv A) (tb : Table) (t : Tree),
    Timeline.load E tb.opts t = .ok tb.timeline ∧ TreeWF t ∧ (∃ hive url, PathStyle tb.opts hive url) ∧
    (∃ ss, (tb.fileSlices E A t [] []).2 = .ok ss ∧
      ∃ s ∈ ss, ∃ l ∈ s.logFiles, t.fileAt (pathSegs (s.logPath l)) = some (1, .bytes (logBytes [Demo.yearBlock]))) ∧
    (tb.readSnapshot E A C M t [] []).2 = .panic :=
  ⟨Demo.env, Demo.arrow, Demo.codec, Demo.mergeEnv Demo.arrow, Demo.openTable,
    Demo.crashTree (logBytes [Demo.yearBlock]), by decide +kernel, by decide, ⟨false, false, rfl, rfl⟩,
    ⟨_, rfl, _, List.mem_cons_self, _, List.mem_cons_self, rfl⟩, by decide +kernel⟩

/-- **C77 is false of log files whose records have fewer columns than the base file.**  The decoder crashes on no
schema and on no bytes. -/
theorem C77_false_columns : ∃ (E : Env) (A : Arrow) (C : Codec) (M : MergeEnv A) (tb : Table) (t : Tree),
    Timeline.load E tb.opts t = .ok tb.timeline ∧ TreeWF t ∧ (∃ hive url, PathStyle tb.opts hive url) ∧
    (∀ s, ¬ DecoderCrash C s) ∧ (∀ b, C.parquet b ≠ .panic) ∧
    (tb.readSnapshot E A C M t [] []).2 = .panic := by
  refine ⟨Demo.env, Demo.arrow, Demo.narrowCodec, Demo.mergeEnv Demo.arrow, Demo.openTable,
    Demo.crashTree (logBytes [Demo.w1]),
    by decide +kernel, by decide, ⟨false, false, rfl, rfl⟩, ?_, ?_, by decide +kernel⟩
  · rintro s (h | ⟨b, h⟩ | ⟨vs, _, h⟩)
    · cases h
    · change Demo.codec.datum () b = .panic at h
      unfold Demo.codec at h
      simp only at h
      split at h
      · cases h
      · split at h <;> cases h
    · cases h
  · intro b h
    change Demo.codec.parquet b = .panic at h
    unfold Demo.codec at h
    simp only at h
    split at h <;> cases h

end Hudi
