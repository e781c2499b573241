import Verif.Props.ReadDemo
import Verif.Props.TimeTravel

/-! # A merge-on-read table before and after later writes -/

namespace Hudi.Demo
open Spec

def morLog2 : Str := c!".f1_20231231000000000.log.2_0-0-1"
def morBase3 : Str := c!"f2_0-0-0_20240103000000000.parquet"

/-- The table after its first delta commit. -/
def travelTree : Tree :=
  .dir c!".hoodie" (.file c!"20231231000000000.commit" 1 .junk
    (.file c!"20240101000000000.deltacommit" 1 morDoc .nil))
  (.file morBase 1 (.parquet 1 mor) (.file morLog 1 (.bytes (logBytes [w1])) .nil))

/-- Then a second delta commit wrote a new log file, and a third appended a rollback of the first to the
first log file and wrote a new base file. -/
def travelTree' : Tree :=
  .dir c!".hoodie" (.file c!"20231231000000000.commit" 1 .junk
    (.file c!"20240101000000000.deltacommit" 1 morDoc
    (.file c!"20240102000000000.deltacommit" 1 morDoc
    (.file c!"20240103000000000.deltacommit" 1 morDoc .nil))))
  (.file morBase 1 (.parquet 1 mor) (.file morLog 2 (.bytes (logBytes [w1, w3]))
    (.file morLog2 1 (.bytes (logBytes [w2])) (.file morBase3 1 (.parquet 1 mor) .nil))))

def travelTable : Table := ⟨morOpts, [], ⟨[], [⟨t0, .commit, .completed, 1703980800000⟩,
  ⟨t1, .deltaCommit, .completed, 1704067200000⟩]⟩⟩

def travelTable' : Table := ⟨morOpts, [], ⟨[], [⟨t0, .commit, .completed, 1703980800000⟩,
  ⟨t1, .deltaCommit, .completed, 1704067200000⟩, ⟨t2, .deltaCommit, .completed, 1704153600000⟩,
  ⟨t3, .deltaCommit, .completed, 1704240000000⟩]⟩⟩

def travelHeld (p : Str) : List WBlock := if p = morLog then [w1] else []
def travelHeld' (p : Str) : List WBlock :=
  if p = morLog then [w1, w3] else if p = morLog2 then [w2] else []

theorem travel_part (x : Str) : PartitionOf morOpts travelTree x ↔ x ∈ [([] : Str)] :=
  partitionOf_mem (by decide) rfl x

theorem travel_part' (x : Str) : PartitionOf morOpts travelTree' x ↔ x ∈ [([] : Str)] :=
  partitionOf_mem (by decide) rfl x

theorem good_w (w : WBlock) (hw : w ∈ [w1, w2, w3]) : GoodBlock codec some c!"utc" w := by
  simp only [List.mem_cons, List.not_mem_nil, or_false] at hw
  rcases hw with rfl | rfl | rfl
  · exact ⟨w1_wf, ⟨_, w1_decodes⟩, ⟨t1, _, rfl, rfl⟩, fun h => absurd h.1 (by decide)⟩
  · exact ⟨w2_wf, ⟨_, w2_decodes⟩, ⟨t2, _, rfl, rfl⟩, fun h => absurd h.1 (by decide)⟩
  · exact ⟨w3_wf, ⟨_, w3_decodes⟩, ⟨t3, _, rfl, rfl⟩, fun h => ⟨t1, h, rfl⟩⟩

theorem travel_later_of {o : Opts} (hpart : ∀ x, PartitionOf o travelTree x ↔ x ∈ [([] : Str)])
    (hpart' : ∀ x, PartitionOf o travelTree' x ↔ x ∈ [([] : Str)]) :
    LaterActivity codec some c!"utc" o t1 1704067200000 travelTable.timeline
    travelTable'.timeline travelTree travelTree' travelHeld travelHeld' where
  partitions := by intro x; rw [hpart, hpart']; exact id
  bases := by
    intro x hx b hb
    rw [hpart, List.mem_singleton] at hx
    subst hx
    rw [← mem_basesOf] at hb
    obtain rfl : b = ⟨c!"f1", c!"0-0-0", t0, c!"parquet", some (FileMeta.new morBase 1)⟩ := by
      have : basesOf (metas (filesOf travelTree [])) =
        [⟨c!"f1", c!"0-0-0", t0, c!"parquet", some (FileMeta.new morBase 1)⟩] := by decide +kernel
      rw [this] at hb
      simpa using hb
    refine ⟨mem_basesOf.1 (by decide +kernel), ?_⟩
    rintro c ⟨z, z', z'', hc⟩
    exact ⟨z, z', z'', by rw [← hc]; rfl⟩
  newBases := by
    intro x b hx hb hle
    rw [hpart', List.mem_singleton] at hx
    subst hx
    refine ⟨(hpart []).2 (by simp), ?_⟩
    rw [← mem_basesOf] at hb ⊢
    have : ∀ b ∈ basesOf (metas (filesOf travelTree' [])), (compare b.commitTimestamp t1).isLE →
      b ∈ basesOf (metas (filesOf travelTree [])) := by decide +kernel
    exact this b hb hle
  instants := by
    intro i hi
    simp only [travelTable, List.mem_cons, List.not_mem_nil, or_false] at hi
    rcases hi with rfl | rfl
    · exact ⟨by decide +kernel, rfl⟩
    · exact ⟨by decide +kernel, rfl⟩
  newInstants := by decide +kernel
  logs := by
    intro x hx l hl
    rw [hpart, List.mem_singleton] at hx
    subst hx
    rw [← mem_logsOf] at hl
    have : ∀ l ∈ logsOf (metas (filesOf travelTree [])), ∃ l' ∈ logsOf (metas (filesOf travelTree' [])),
        l'.fileName = l.fileName := by decide +kernel
    obtain ⟨l', h1, h2⟩ := this l hl
    exact ⟨l', mem_logsOf.1 h1, h2⟩
  appended := by
    intro _ x hx l hl
    rw [hpart', List.mem_singleton] at hx
    subst hx
    rw [← mem_logsOf] at hl
    have : (logsOf (metas (filesOf travelTree' []))).map LogFile.fileName = [morLog, morLog2] := by
      decide +kernel
    have hn := List.mem_map_of_mem (f := LogFile.fileName) hl
    rw [this] at hn
    simp only [List.mem_cons, List.not_mem_nil, or_false] at hn
    rcases hn with hn | hn
    · rw [hn]
      refine ⟨⟨_, _, rfl, rfl⟩, [w3], rfl, ?_⟩
      intro w hw
      rw [List.mem_singleton] at hw
      subst hw
      exact ⟨good_w _ (by simp), t3, _, _, rfl, rfl, rfl, by unfold Before; decide⟩
    · rw [hn]
      refine ⟨⟨_, _, rfl, rfl⟩, [w2], rfl, ?_⟩
      intro w hw
      rw [List.mem_singleton] at hw
      subst hw
      exact ⟨good_w _ (by simp), t2, _, _, rfl, rfl, rfl, by unfold Before; decide⟩
  fresh := by
    intro _ x hx l hl hno
    rw [hpart', List.mem_singleton] at hx
    subst hx
    rw [← mem_logsOf] at hl
    have h1 : ∀ l ∈ logsOf (metas (filesOf travelTree' [])), l.fileName ≠ morLog →
      travelHeld (pathPush [] l.fileName) = [] := by
      have : ∀ l ∈ logsOf (metas (filesOf travelTree' [])), l.fileName ≠ morLog →
        pathPush [] l.fileName ≠ morLog := by decide +kernel
      intro l hl hn
      unfold travelHeld
      rw [if_neg (this l hl hn)]
    refine h1 l hl ?_
    intro e
    have h2 : ∃ l0 ∈ logsOf (metas (filesOf travelTree [])), l0.fileName = morLog := by decide +kernel
    obtain ⟨l0, k1, k2⟩ := h2
    exact hno l0 (mem_logsOf.1 k1) (by rw [k2, e])

theorem travel_data_of {o : Opts} (hpart : ∀ x, PartitionOf o travelTree x ↔ x ∈ [([] : Str)]) :
    DataFiles codec some c!"utc" c!"ts" o travelTree (fun _ => mor) travelHeld where
  bases := by
    intro x hx b hb
    rw [hpart, List.mem_singleton] at hx
    subst hx
    rw [← mem_basesOf] at hb
    have : (basesOf (metas (filesOf travelTree []))).map BaseFile.fileName = [morBase] := by decide +kernel
    have hn := List.mem_map_of_mem (f := BaseFile.fileName) hb
    rw [this, List.mem_singleton] at hn
    rw [hn]
    exact ⟨⟨1, 1, _, rfl⟩, by unfold Batch.WF; decide, fun _ => ⟨by decide, by decide, _, rfl, rfl⟩⟩
  logs := by
    intro _ x hx l hl
    rw [hpart, List.mem_singleton] at hx
    subst hx
    rw [← mem_logsOf] at hl
    have : (logsOf (metas (filesOf travelTree []))).map LogFile.fileName = [morLog] := by decide +kernel
    have hn := List.mem_map_of_mem (f := LogFile.fileName) hl
    rw [this, List.mem_singleton] at hn
    rw [hn]
    refine ⟨⟨_, _, rfl, rfl⟩, ?_⟩
    intro w hw
    rw [show travelHeld (pathPush [] morLog) = [w1] from rfl, List.mem_singleton] at hw
    subst hw
    exact good_w _ (by simp)
  fit := by
    intro _ x hx b hb l hl _ _ w hw
    refine mor_fit w ?_
    unfold travelHeld at hw
    split at hw
    · rw [List.mem_singleton] at hw; simp [hw]
    · cases hw

theorem travel_later : LaterActivity codec some c!"utc" morOpts t1 1704067200000 travelTable.timeline
    travelTable'.timeline travelTree travelTree' travelHeld travelHeld' := travel_later_of travel_part travel_part'
theorem travel_data : DataFiles codec some c!"utc" c!"ts" morOpts travelTree (fun _ => mor) travelHeld :=
  travel_data_of travel_part

/-- All the hypotheses of `C28_rows_unchanged_partial` hold of this table, and the rows as of the first delta
commit are the same before and after, although the latest snapshot no longer has them. -/
example : Timeline.load env [] travelTree = .ok travelTable.timeline ∧
    Timeline.load env [] travelTree' = .ok travelTable'.timeline ∧
    PlainStorage travelTable ∧ MergesBy travelTable.opts c!"ts" ∧ PrecombinedBy travelTable.opts c!"ts" ∧ startOf travelTable.opts = none ∧
    timezoneOf travelTable.opts = .ok c!"utc" ∧
    OneRowPerKey morOpts travelTree (fun _ => mor) ∧
    (∃ schema, travelTable.partitionSchema travelTree = .ok schema ∧
      travelTable'.partitionSchema travelTree' = .ok schema) ∧
    (∃ ss, (travelTable.fileSlicesAsOf env arrow travelTree t1 [] []).2 = .ok ss ∧ ss.length = 1) ∧
    (∃ ss, (travelTable'.fileSlicesAsOf env arrow travelTree' t1 [] []).2 = .ok ss ∧ ss.length = 1) ∧
    (travelTable.readSnapshotAsOf env arrow codec (mergeEnv arrow) travelTree t1 [] []).2 =
      (travelTable'.readSnapshotAsOf env arrow codec (mergeEnv arrow) travelTree' t1 [] []).2 ∧
    (travelTable.readSnapshot env arrow codec (mergeEnv arrow) travelTree [] []).2 ≠
      (travelTable'.readSnapshot env arrow codec (mergeEnv arrow) travelTree' [] []).2 := by
  refine ⟨by decide +kernel, by decide +kernel, ⟨by simp [HmNodup, travelTable], by simp [travelTable]⟩,
    ⟨by decide, rfl, by decide⟩, fun _ => rfl, rfl, rfl, ?_, ⟨_, rfl, rfl⟩, ⟨_, rfl, rfl⟩, ⟨_, rfl, rfl⟩, by decide +kernel,
    by decide +kernel⟩
  intro _ x _ b _
  show (mor.rows.map (keyOf mor.schema)).Nodup
  decide

/-- The same table, read without merging the versions of a record. -/
def appendOpts : Opts := (c!"hoodie.table.record.merge.strategy", c!"append_only") :: morOpts
def appendTable : Table := { travelTable with opts := appendOpts }
def appendTable' : Table := { travelTable' with opts := appendOpts }

/-- The hypotheses of `C28_rows_unchanged_partial` also hold of a table that does not merge versions. -/
example : ¬ OverwritesWithLatest appendOpts ∧ PrecombinedBy appendOpts c!"ts" ∧
    DataFiles codec some c!"utc" c!"ts" appendOpts travelTree (fun _ => mor) travelHeld ∧
    LaterActivity codec some c!"utc" appendOpts t1 1704067200000 travelTable.timeline
      travelTable'.timeline travelTree travelTree' travelHeld travelHeld' ∧
    OneRowPerKey appendOpts travelTree (fun _ => mor) ∧
    ∃ outs, (appendTable.readSnapshotAsOf env arrow codec (mergeEnv arrow) travelTree t1 [] []).2 = .ok outs ∧
      (appendTable'.readSnapshotAsOf env arrow codec (mergeEnv arrow) travelTree' t1 [] []).2 = .ok outs ∧
      (outs.flatMap Batch.rows).length = 4 := by
  have hn : ¬ OverwritesWithLatest appendOpts := by decide
  have hp : ∀ x, PartitionOf appendOpts travelTree x ↔ x ∈ [([] : Str)] := fun x => partitionOf_mem (by decide) rfl x
  have hp' : ∀ x, PartitionOf appendOpts travelTree' x ↔ x ∈ [([] : Str)] :=
    fun x => partitionOf_mem (by decide) rfl x
  refine ⟨hn, fun h => absurd h.1 hn, travel_data_of hp, travel_later_of hp hp', fun h => absurd h.1 hn,
    [⟨mSchema, mor.rows ++ (w1Batch.rows)⟩], by decide +kernel, by decide +kernel, rfl⟩

end Hudi.Demo
