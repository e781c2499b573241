import Verif.Props.Available
import Verif.Props.RacingDemo

/-! # C67: a read during later writes returns; a read during an append may fail -/

namespace Hudi
open Spec

theorem okOf {α : Type} {r : Res α} (h : r.isOk = true) : ∃ a, r = .ok a := by
  cases r with
  | ok a => exact ⟨a, rfl⟩
  | err e => cases h
  | panic => cases h

namespace Demo

/-- The read of `travelTree` while it becomes `travelTree'` meets the hypotheses of the two theorems of C67 that
are not among those of C65. -/
example : Orderly some morOpts t1 travelTable.timeline travelTree travelRace ∧ (∀ x, (travelRace.dirs x).height ≤ 1) ∧
    ∃ ss, (travelTable.fileSlicesAsOf env arrow travelTree t1 [] []).2 = .ok ss ∧ ss.length = 1 := by
  refine ⟨⟨?_, ?_⟩, fun _ => (by decide : travelTree.height ≤ 1), ?_⟩
  · intro x hx
    rw [mor_path hx]
    exact (listFileGroups_ok_iff morOpts travelTree' [] (by decide)).1 (okOf (by decide +kernel))
  · rintro _ x _ ⟨hx, _⟩ l hl _
    rw [travel_part, List.mem_singleton] at hx
    subst hx
    obtain ⟨name, size, h1, _, _, h2⟩ := hl
    rw [((C13_log_file_name_regenerated name l _).2 h2).1]
    have : ∀ e ∈ filesOf travelTree' [], (travelTree'.fileAt (pathSegs (pathPush [] e.1))).isSome := by
      decide +kernel
    exact Option.isSome_iff_exists.1 (this _ h1)
  · obtain ⟨ss, h⟩ := okOf (r := (travelTable.fileSlicesAsOf env arrow travelTree t1 [] []).2) (by decide +kernel)
    refine ⟨ss, h, ?_⟩
    have : (match (travelTable.fileSlicesAsOf env arrow travelTree t1 [] []).2 with
      | .ok ss => ss.length | _ => 0) = 1 := by decide +kernel
    rw [h] at this
    exact this

/-- `travelTree` with the first twenty bytes of another block at the end of the log file. -/
def tornTree : Tree :=
  .dir c!".hoodie" (.file c!"20231231000000000.commit" 1 .junk
    (.file c!"20240101000000000.deltacommit" 1 morDoc .nil))
  (.file morBase 1 (.parquet 1 mor) (.file morLog 2 (.bytes (logBytes [w1] ++ (logBytes [w3]).take 20)) .nil))

/-- The log file is read while a block is being appended to it. -/
def tornRace : Race where
  replaced := fun _ => travelTree
  latest := travelTree
  schema := travelTree
  dirs := fun _ => travelTree
  files := fun _ => travelTree
  sizes := fun _ => travelTree
  data := fun _ => tornTree

/-- The same table, read without its log files. -/
def baseOnlyOpts : Opts := (c!"hoodie.read.use.read_optimized.mode", c!"true") :: morOpts
def baseOnlyTable : Table := { travelTable with opts := baseOnlyOpts }

theorem baseOnly_path {x : Str} (h : PartitionPath baseOnlyOpts x) : x = [] := by
  rcases h with h | h
  · exact h.2
  · exact absurd h.1 (by decide)

theorem baseOnly_part (x : Str) : PartitionOf baseOnlyOpts travelTree x ↔ x ∈ [([] : Str)] :=
  partitionOf_mem (by decide) rfl x

theorem torn_kept {path : Str} {s : Nat} {z : Int} {b : Batch} {f : Schema}
    (h : travelTree.fileAt (pathSegs path) = some (s, .parquet z b f)) :
    tornTree.fileAt (pathSegs path) = some (s, .parquet z b f) := by
  revert h
  match hs : pathSegs path with
  | [] => exact id
  | [n] =>
    simp only [Tree.fileAt, travelTree, tornTree, Tree.file?]
    intro h
    split at h
    · rename_i hn; rw [if_pos hn]; exact h
    · split at h
      · cases h
      · cases h
  | n :: m :: ms => exact id

/-- A read limited to base files meets the hypotheses of C67 even while a block is being appended, and
returns. -/
example : ReadOptimized baseOnlyOpts ∧ PrecombinedBy baseOnlyOpts c!"ts" ∧
    DataFiles codec some c!"utc" c!"ts" baseOnlyOpts travelTree (fun _ => mor) (fun _ => []) ∧
    OneRowPerKey baseOnlyOpts travelTree (fun _ => mor) ∧ HeldOnly baseOnlyOpts travelTree (fun _ => []) ∧
    AllSeen (Meanwhile codec some c!"utc" baseOnlyOpts t1 baseOnlyTable.timeline travelTree (fun _ => [])) tornRace ∧
    Orderly some baseOnlyOpts t1 baseOnlyTable.timeline travelTree tornRace ∧
    (baseOnlyTable.readSnapshotAsOf env arrow codec (mergeEnv arrow) travelTree t1 [] []).2 = .ok [mor] ∧
    baseOnlyTable.readSnapshotAsOfR env arrow codec (mergeEnv arrow) 1 tornRace t1 [] = .ok [mor] := by
  have hro : ReadOptimized baseOnlyOpts := by decide
  have hfiles : filesOf tornTree [] = [(morBase, 1), (morLog, 2)] := by decide +kernel
  have hfiles0 : filesOf travelTree [] = [(morBase, 1), (morLog, 1)] := by decide +kernel
  have h1 : Meanwhile codec some c!"utc" baseOnlyOpts t1 baseOnlyTable.timeline travelTree (fun _ => []) travelTree :=
    { wf := by decide
      one := by intro x hx; rw [baseOnly_path hx]; exact oneExtension_of (by decide)
      partitions := fun _ _ h => h.part
      parquet := fun _ _ _ _ => id
      columns := fun _ _ _ _ _ _ _ => id
      docs := fun _ _ => rfl
      bases := fun _ _ h => h.base
      newBases := by
        intro x b hx hb _
        rw [baseOnly_path hx] at hb ⊢
        exact ⟨(baseOnly_part []).2 (by simp), hb⟩
      logs := fun x _ _ l hl _ => ⟨l, hl, rfl⟩
      appended := fun h => absurd hro h }
  have h2 : Meanwhile codec some c!"utc" baseOnlyOpts t1 baseOnlyTable.timeline travelTree (fun _ => []) tornTree :=
    { wf := by decide
      one := by intro x hx; rw [baseOnly_path hx]; exact oneExtension_of (by decide)
      partitions := by
        rintro x _ ⟨hx, _⟩
        exact (partitionOf_mem (t := tornTree) (paths := [([] : Str)]) (by decide) rfl x).2 ((baseOnly_part x).1 hx)
      parquet := fun _ _ _ _ ⟨s, z, f, h⟩ => ⟨s, z, f, torn_kept h⟩
      columns := fun _ _ _ _ _ _ _ ⟨s, z, b, h⟩ => ⟨s, z, b, torn_kept h⟩
      docs := by
        intro i hi
        simp only [baseOnlyTable, travelTable, List.mem_cons, List.not_mem_nil, or_false] at hi
        rcases hi with rfl | rfl <;> rfl
      bases := by
        rintro x b ⟨hx, hb, _⟩
        rw [baseOnly_part, List.mem_singleton] at hx
        subst hx
        rw [← mem_basesOf] at hb ⊢
        have : ∀ b ∈ basesOf (metas (filesOf travelTree [])), b ∈ basesOf (metas (filesOf tornTree [])) := by
          decide +kernel
        exact this b hb
      newBases := by
        intro x b hx hb _
        rw [baseOnly_path hx] at hb ⊢
        refine ⟨(baseOnly_part []).2 (by simp), ?_⟩
        rw [← mem_basesOf] at hb ⊢
        have : ∀ b ∈ basesOf (metas (filesOf tornTree [])), b ∈ basesOf (metas (filesOf travelTree [])) := by
          decide +kernel
        exact this b hb
      logs := by
        rintro x _ ⟨hx, _⟩ l hl _
        rw [baseOnly_part, List.mem_singleton] at hx
        subst hx
        rw [← mem_logsOf] at hl
        have : ∀ l ∈ logsOf (metas (filesOf travelTree [])), ∃ l' ∈ logsOf (metas (filesOf tornTree [])),
            l'.fileName = l.fileName := by decide +kernel
        obtain ⟨l', h1, h2⟩ := this l hl
        exact ⟨l', mem_logsOf.1 h1, h2⟩
      appended := fun h => absurd hro h }
  refine ⟨hro, fun h => absurd hro h.2, ⟨(travel_data_of baseOnly_part).bases, fun h => absurd hro h,
      fun h => absurd hro h⟩, fun h => absurd hro h.2, fun _ _ _ _ _ => rfl,
    ⟨fun _ => h1, h1, h1, fun _ => h1, fun _ => h1, fun _ => h1, fun _ => h2⟩, ⟨?_, fun h => absurd hro h⟩,
    by decide +kernel, by decide +kernel⟩
  intro x hx
  rw [baseOnly_path hx]
  exact (listFileGroups_ok_iff baseOnlyOpts travelTree [] (by decide)).1 (okOf (by decide +kernel))

end Demo

/-- **C67 as stated is false.**  A read of the latest snapshot fails while a block of a later delta commit is
being appended to a log file, although the table can be read before, no file is removed, and the block is of no
consequence for the rows of the snapshot: it is later than the time that is read. -/
theorem C67_false : ∃ (E : Env) (A : Arrow) (C : Codec) (M : MergeEnv A) (t t' : Tree) (tb : Table) (R : Race)
    (ts tz : Str) (p : List Str) (size size' k : Nat) (bs : Bytes) (w : WBlock) (outs : List Batch) (e : ErrKind),
    TreeWF t ∧ TreeWF t' ∧ Timeline.load E [] t = .ok tb.timeline ∧ Timeline.load E [] t' = .ok tb.timeline ∧
    tb.timeline.latestTimestamp = some ts ∧ timezoneOf tb.opts = .ok tz ∧
    GoodBlock C E.ltz tz w ∧ WrittenAfter E.ltz tz ts w ∧
    t.fileAt p = some (size, .bytes bs) ∧ t'.fileAt p = some (size', .bytes (bs ++ (logBytes [w]).take k)) ∧
    (∀ q, q ≠ p → t'.fileAt q = t.fileAt q) ∧
    AllSeen (fun u => u = t ∨ u = t') R ∧
    (tb.readSnapshot E A C M t [] []).2 = .ok outs ∧ tb.readSnapshotR E A C M 1 R [] = .err e := by
  refine ⟨Demo.env, Demo.arrow, Demo.codec, Demo.mergeEnv Demo.arrow, Demo.travelTree, Demo.tornTree,
    Demo.travelTable, Demo.tornRace, Demo.t1, c!"utc", [Demo.morLog], 1, 2, 20, logBytes [Demo.w1], Demo.w3,
    [⟨Demo.mSchema, [Demo.mRow c!"2" c!"A" c!"x" 9, Demo.mRow c!"1" c!"C" c!"bob" 7,
      Demo.mRow c!"3" c!"B" c!"y" 1]⟩], .readLogFile,
    by decide, by decide, by decide +kernel, by decide +kernel, rfl, by decide +kernel,
    Demo.good_w _ (by simp), ⟨Demo.t3, _, _, rfl, rfl, rfl, by unfold Before; decide⟩, rfl, rfl, ?_,
    ⟨fun _ => .inl rfl, .inl rfl, .inl rfl, fun _ => .inl rfl, fun _ => .inl rfl, fun _ => .inl rfl,
      fun _ => .inr rfl⟩, by decide +kernel, by decide +kernel⟩
  intro q hq
  match q with
  | [] => rfl
  | [n] =>
    have : ¬ Demo.morLog = n := fun e => hq (by rw [e])
    simp only [Tree.fileAt, Demo.travelTree, Demo.tornTree, Tree.file?, this, if_false]
  | n :: m :: ms =>
    simp only [Tree.fileAt, Demo.travelTree, Demo.tornTree, Tree.sub]

end Hudi
