import Verif.Props.TableReads
import Verif.Lemmas.Decode

/-! # A merge-on-read table, read -/

namespace Hudi.Demo
open Spec

def t0 : Str := c!"20231231000000000"

/-- A base file with two rows. -/
def mor : Batch := ⟨mSchema, [mRow c!"1" c!"A" c!"ann" 5, mRow c!"1" c!"C" c!"bob" 7]⟩

def morBase : Str := c!"f1_0-0-0_20231231000000000.parquet"
def morLog : Str := c!".f1_20231231000000000.log.1_0-0-1"

/-- The metadata of the delta commit. -/
def morDoc : Content :=
  .json (.obj [(c!"partitionToWriteStats", .obj [([], .arr [.obj [(c!"fileId", .str c!"f1"),
    (c!"path", .str morLog), (c!"baseFile", .str morBase)]])])])

def morTree : Tree :=
  .dir c!".hoodie" (.file c!"20231231000000000.commit" 1 .junk
    (.file c!"20240103000000000.deltacommit" 1 morDoc .nil))
  (.file morBase 1 (.parquet 1 mor) (.file morLog 1 (.bytes (logBytes [w1, w2, w3])) .nil))

def morOpts : Opts := [(c!"hoodie.datasource.write.hive_style_partitioning", c!"false"),
    (c!"hoodie.datasource.write.partitionpath.urlencode", c!"false"),
    (c!"hoodie.table.precombine.field", c!"ts")]

def morTable : Table := ⟨morOpts, [], ⟨[], [⟨t0, .commit, .completed, 1703980800000⟩,
  ⟨t3, .deltaCommit, .completed, 1704240000000⟩]⟩⟩

def morSlice : FileSlice :=
  ⟨⟨c!"f1", c!"0-0-0", t0, c!"parquet", some ⟨morBase, 1, 1, 2, true⟩⟩,
   [⟨c!"f1", t0, c!"log", c!"1", c!"0-0-1", some ⟨morLog, 1, 0, 0, false⟩⟩], []⟩

theorem mRow_fits (r : Bytes) : (rowOfBytes r).length = mSchema.length ∧
    ∀ p ∈ mSchema.zip (rowOfBytes r),
      (p.2 = none → p.1.nullable = true) ∧ (∀ v, p.2 = some v → v.hasType p.1.dtype = true) := by
  have key : ∀ a b c n, (mRow a b c n).length = mSchema.length ∧ ∀ p ∈ mSchema.zip (mRow a b c n),
      (p.2 = none → p.1.nullable = true) ∧ (∀ v, p.2 = some v → v.hasType p.1.dtype = true) := by
    intro a b c n
    refine ⟨rfl, ?_⟩
    intro p hp
    simp only [mSchema, mRow, List.zip_cons_cons, List.zip_nil_right, List.mem_cons, List.not_mem_nil,
      or_false] at hp
    rcases hp with rfl | rfl | rfl | rfl <;> refine ⟨fun _ => rfl, fun v hv => ?_⟩ <;> cases hv <;> rfl
  unfold rowOfBytes
  split <;> exact key _ _ _ _

theorem mor_logs : ReadableLogs codec some c!"utc" morTree (morSlice.logFiles.map morSlice.logPath)
    [[w1, w2, w3]] where
  at_ := .cons ⟨1, _, rfl, rfl⟩ .nil
  wf := by
    intro w hw
    simp only [List.flatten_cons, List.flatten_nil, List.append_nil, List.mem_cons, List.not_mem_nil,
      or_false] at hw
    rcases hw with rfl | rfl | rfl
    · exact w1_wf
    · exact w2_wf
    · exact w3_wf
  decodes := by
    intro w hw
    simp only [List.flatten_cons, List.flatten_nil, List.append_nil, List.mem_cons, List.not_mem_nil,
      or_false] at hw
    rcases hw with rfl | rfl | rfl
    · exact ⟨_, w1_decodes⟩
    · exact ⟨_, w2_decodes⟩
    · exact ⟨_, w3_decodes⟩
  times := by
    intro w hw
    simp only [List.flatten_cons, List.flatten_nil, List.append_nil, List.mem_cons, List.not_mem_nil,
      or_false] at hw
    rcases hw with rfl | rfl | rfl
    · exact ⟨t1, _, rfl, rfl⟩
    · exact ⟨t2, _, rfl, rfl⟩
    · exact ⟨t3, _, rfl, rfl⟩
  targets := by
    intro w hw h
    simp only [List.flatten_cons, List.flatten_nil, List.append_nil, List.mem_cons, List.not_mem_nil,
      or_false] at hw
    rcases hw with rfl | rfl | rfl
    · exact absurd h.1 (by decide)
    · exact absurd h.1 (by decide)
    · exact ⟨t1, h, rfl⟩

theorem mor_fit : BatchesFit codec mSchema [w1, w2, w3] := by
  intro w hw bs h b hb
  simp only [List.mem_cons, List.not_mem_nil, or_false] at hw
  have key : ∀ l : List Bytes, Batch.WF ⟨mSchema, l.map rowOfBytes⟩ := by
    intro l r hr
    obtain ⟨x, _, rfl⟩ := List.mem_map.1 hr
    exact mRow_fits x
  rcases hw with rfl | rfl | rfl
  · rw [decodes_det h w1_decodes, List.mem_singleton] at hb
    subst hb
    exact ⟨key [[50, 65, 120, 9], [51, 66, 121, 1]], rfl⟩
  · rw [decodes_det h w2_decodes, List.mem_singleton] at hb
    subst hb
    exact ⟨key [[52, 67, 122, 3]], rfl⟩
  · rw [decodes_det h w3_decodes] at hb
    cases hb

/-- The files of the slice, for any range. -/
theorem mor_files (r : InstantRange) : SliceFiles codec some c!"utc" morTree r morSlice mor [[w1, w2, w3]] where
  base := ⟨1, 1, _, rfl⟩
  baseWf := by unfold Batch.WF; decide
  logs := mor_logs
  fit := fun w hw => mor_fit w (by
    have := (List.mem_filter.1 hw).1
    simpa using this)

/-- All the hypotheses of C40 hold of this table, as of the second write (the rollback comes later, so
the first write is still seen) and as of the rollback. -/
example : PlainStorage morTable ∧ MergesBy morTable.opts c!"ts" ∧ startOf morTable.opts = none ∧
    timezoneOf morTable.opts = .ok c!"utc" ∧ MergeColumns mor.schema c!"ts" ∧
    (morTable.fileSlicesAsOf env arrow morTree t2 [] []).2 = .ok [morSlice] ∧
    (morTable.readSnapshotAsOf env arrow codec (mergeEnv arrow) morTree t2 [] []).2 =
      .ok [⟨mSchema, [mRow c!"2" c!"A" c!"x" 9, mRow c!"1" c!"C" c!"bob" 7, mRow c!"3" c!"B" c!"y" 1]⟩] ∧
    (morTable.readSnapshot env arrow codec (mergeEnv arrow) morTree [] []).2 =
      .ok [⟨mSchema, [mRow c!"1" c!"C" c!"bob" 7, mRow c!"1" c!"A" c!"ann" 5]⟩] :=
  ⟨⟨by simp [HmNodup, morTable], by simp [morTable]⟩, ⟨by decide, rfl, by decide⟩, rfl, rfl,
    ⟨by decide, by decide, _, rfl, rfl⟩, by decide +kernel, by decide +kernel, by decide +kernel⟩

/-! An incremental read: a base file rewritten by the second commit, which kept one row of the first. -/

def incSchema : Schema := mSchema ++ [⟨c!"_hoodie_commit_time", .utf8, true⟩]

def inc : Batch := ⟨incSchema, [mRow c!"1" c!"A" c!"ann" 5 ++ [some (.str t1)],
  mRow c!"1" c!"C" c!"bob" 7 ++ [some (.str t2)]]⟩

def incBase : Str := c!"f1_0-0-0_20240102000000000.parquet"

def incDoc : Content :=
  .json (.obj [(c!"partitionToWriteStats", .obj [([], .arr [.obj [(c!"fileId", .str c!"f1"),
    (c!"path", .str incBase)]])])])

def incTree : Tree :=
  .dir c!".hoodie" (.file c!"20240101000000000.commit" 1 .junk
    (.file c!"20240102000000000.commit" 1 incDoc .nil))
  (.file incBase 1 (.parquet 1 inc) .nil)

def incTable : Table := ⟨morOpts, [], ⟨[], [⟨t1, .commit, .completed, 1704067200000⟩,
  ⟨t2, .commit, .completed, 1704153600000⟩]⟩⟩

def incSlice : FileSlice := ⟨⟨c!"f1", c!"0-0-0", t2, c!"parquet", none⟩, [], []⟩

theorem inc_files (r : InstantRange) : SliceFiles codec some c!"utc" incTree r incSlice inc [] where
  base := ⟨1, 1, _, rfl⟩
  baseWf := by unfold Batch.WF; decide
  logs := ⟨.nil, by simp, by simp, by simp, by simp⟩
  fit := by
    intro w hw
    exact absurd (List.mem_filter.1 hw).1 (by simp)

/-- All the hypotheses of C51 hold of this table; reading what changed after the first commit returns the
row of the second. -/
example : PlainStorage incTable ∧ MergesBy incTable.opts c!"ts" ∧ MetaFields incTable.opts ∧
    timezoneOf incTable.opts = .ok c!"utc" ∧ MergeColumns inc.schema c!"ts" ∧ HasCommitTime inc.schema ∧
    incTable.fileSlicesBetween env incTree (some t1) (some t2) = .ok [incSlice] ∧
    incTable.readIncremental env arrow codec (mergeEnv arrow) incTree t1 (some t2) =
      .ok [⟨incSchema, [mRow c!"1" c!"C" c!"bob" 7 ++ [some (.str t2)]]⟩] :=
  ⟨⟨by simp [HmNodup, incTable], by simp [incTable]⟩, ⟨by decide, rfl, by decide⟩, by decide, rfl,
    ⟨by decide, by decide, _, rfl, rfl⟩, ⟨_, rfl, rfl⟩, by decide +kernel, by decide +kernel⟩

end Hudi.Demo
