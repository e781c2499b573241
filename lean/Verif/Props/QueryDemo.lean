import Verif.Props.QueryScan
import Verif.Props.ReadDemo

/-! # C47, C53: tables scanned by the query engine -/

namespace Hudi
open Spec

namespace Demo

/-- The url crate on a plain path. -/
def urlPath : Str → Option Str := some

def scanOpts : Opts := (c!"hoodie.base.path", c!"/t") :: (c!"hoodie.read.input.partitions", c!"2") :: morOpts

def scanBatch : Batch := ⟨mSchema, [mRow c!"1" c!"A" c!"ann" 5]⟩

def scanBase (n : Str) : Str := n ++ c!"_0-0-0_20240101000000000.parquet"

def scanDoc : Content :=
  .json (.obj [(c!"partitionToWriteStats", .obj [([], .arr [.obj [(c!"fileId", .str c!"f1"),
    (c!"path", .str (scanBase c!"f1"))]])])])

/-- Three base files, without partitions. -/
def scanTree : Tree :=
  .dir c!".hoodie" (.file c!"20240101000000000.commit" 1 scanDoc .nil)
  (.file (scanBase c!"f1") 10 (.parquet 1 scanBatch) (.file (scanBase c!"f2") 20 (.parquet 1 scanBatch)
    (.file (scanBase c!"f3") 30 (.parquet 1 scanBatch) .nil)))

def scanTable : Table := ⟨scanOpts, [], ⟨[], [⟨t1, .commit, .completed, 1704067200000⟩]⟩⟩

def scanGroups : List (List ScanFile) :=
  [[⟨c!"t/f1_0-0-0_20240101000000000.parquet", 10⟩, ⟨c!"t/f2_0-0-0_20240101000000000.parquet", 20⟩],
   [⟨c!"t/f3_0-0-0_20240101000000000.parquet", 30⟩]]

theorem scan_partition {x : Str} (h : PartitionOf scanOpts scanTree x) : x = [] := by
  rcases h with ⟨_, rfl⟩ | ⟨h, _⟩
  · rfl
  · exact absurd h (by decide)

theorem scanTree_one {x : Str} (h : PartitionOf scanOpts scanTree x) :
    OneExtension (filesOf scanTree x) := by
  rw [scan_partition h]
  exact oneExtension_of (by decide)

theorem scanTree_plain : PlainTable scanOpts scanTree := by
  intro x h
  rw [scan_partition h]
  decide

theorem scan_base : PlainBase c!"/t" [c!"t"] := ⟨by decide, .inr ⟨by decide, rfl⟩⟩

/-- All the hypotheses of C47 and C53 hold of this table: three files in two groups. -/
example : TreeWF scanTree ∧ scanTable.baseUrlPath urlPath = .ok c!"/t" ∧
    (scanTable.scan env arrow urlPath id scanTree [] []).2 = .ok scanGroups ∧
    AskedPartitions scanTable.opts 2 ∧ PlainStorage scanTable ∧ startOf scanTable.opts = none ∧
    ∃ ss, (scanTable.fileSlices env arrow scanTree [] []).2 = .ok ss ∧ ss.length = 3 ∧
      ∀ s ∈ ss, (s.logFiles = [] ∨ ReadOptimized scanTable.opts) ∧
        ParquetAt scanTree s.basePath scanBatch := by
  refine ⟨by decide, by decide +kernel, by decide +kernel, .inl ⟨_, ⟨c!"2", rfl, c!"2", 2, ⟨by decide, by decide, rfl⟩, .inl rfl, by decide, rfl⟩, rfl⟩,
    ⟨by simp [HmNodup, scanTable], by simp [scanTable]⟩, rfl, ?_⟩
  refine ⟨_, rfl, rfl, ?_⟩
  intro s hs
  rcases List.mem_cons.1 hs with rfl | hs
  · exact ⟨.inl rfl, _, _, _, rfl⟩
  rcases List.mem_cons.1 hs with rfl | hs
  · exact ⟨.inl rfl, _, _, _, rfl⟩
  rcases List.mem_cons.1 hs with rfl | hs
  · exact ⟨.inl rfl, _, _, _, rfl⟩
  cases hs

/-- A table partitioned by city, with a space in the name of a partition. -/
def cityTree : Tree :=
  .dir c!".hoodie" (.file c!"20240101000000000.commit" 1
    (.json (.obj [(c!"partitionToWriteStats", .obj [(c!"san francisco", .arr [.obj [
      (c!"fileId", .str c!"f1"), (c!"path", .str (c!"san francisco/" ++ scanBase c!"f1"))]])])])) .nil)
  (.dir c!"san francisco" (.file (scanBase c!"f1") 10
    (.parquet 1 ⟨[⟨c!"city", .utf8, true⟩], [[some (.str c!"san francisco")]]⟩) .nil) .nil)

def cityTable : Table := ⟨(c!"hoodie.table.partition.fields", c!"city") :: scanOpts, [],
  ⟨[], [⟨t1, .commit, .completed, 1704067200000⟩]⟩⟩

end Demo

/-- **C47 does not hold in general**: for a partition whose name has a space, the engine is told to
read a file that does not exist; the file is stored under another name. -/
theorem C47_false : ∃ (E : Env) (A : Arrow) (U : Str → Option Str) (D : Str → Str) (tb : Table) (t : Tree)
    (base : Str) (s : FileSlice) (f : ScanFile), TreeWF t ∧
    (∀ x, PartitionOf tb.opts t x → OneExtension (filesOf t x)) ∧
    tb.baseUrlPath U = .ok base ∧ PlainBase base [c!"t"] ∧
    (tb.fileSlices E A t [] []).2 = .ok [s] ∧ (tb.scan E A U D t [] []).2 = .ok [[f]] ∧
    storageKey base s.basePath = .ok c!"t/san francisco/f1_0-0-0_20240101000000000.parquet" ∧
    f.path = c!"t/san%2520francisco/f1_0-0-0_20240101000000000.parquet" := by
  refine ⟨Demo.env, Demo.arrow, Demo.urlPath, id, Demo.cityTable, Demo.cityTree, c!"/t",
    ⟨⟨c!"f1", c!"0-0-0", Demo.t1, c!"parquet", some ⟨Demo.scanBase c!"f1", 10, 1, 1, true⟩⟩, [],
      c!"san francisco"⟩, ⟨c!"t/san%2520francisco/f1_0-0-0_20240101000000000.parquet", 10⟩,
    by decide, ?_, by decide +kernel, Demo.scan_base, by decide +kernel, by decide +kernel,
    by decide +kernel, rfl⟩
  intro x hx
  have := (partitionOf_mem (o := Demo.cityTable.opts) (paths := [c!"san francisco"]) (t := Demo.cityTree)
    (by decide) rfl x).1 hx
  rw [List.mem_singleton.1 this]
  exact oneExtension_of (by decide)

namespace Demo

/-- The merge-on-read table after two delta commits. -/
def mor2Tree : Tree :=
  .dir c!".hoodie" (.file c!"20231231000000000.commit" 1 .junk
    (.file c!"20240102000000000.deltacommit" 1 morDoc .nil))
  (.file morBase 1 (.parquet 1 mor) (.file morLog 1 (.bytes (logBytes [w1, w2])) .nil))

def mor2Table : Table := ⟨scanOpts, [], ⟨[], [⟨t0, .commit, .completed, 1703980800000⟩,
  ⟨t2, .deltaCommit, .completed, 1704153600000⟩]⟩⟩

end Demo

/-- **C53 does not hold in general**: of a merge-on-read table the engine reads the base files alone.
Here it returns an old version of one record and misses another, which the table's reader returns. -/
theorem C53_false : ∃ (E : Env) (A : Arrow) (C : Codec) (M : MergeEnv A) (U : Str → Option Str)
    (D : Str → Str) (tb : Table) (t : Tree) (base rel : Str) (f : ScanFile) (b out : Batch)
    (r : List Cell),
    tb.baseUrlPath U = .ok base ∧ PlainBase base [c!"t"] ∧
    (tb.scan E A U D t [] []).2 = .ok [[f]] ∧ storageKey base rel = .ok f.path ∧ ParquetAt t rel b ∧
    (tb.readSnapshot E A C M t [] []).2 = .ok [out] ∧ r ∈ out.rows ∧ r ∉ b.rows := by
  refine ⟨Demo.env, Demo.arrow, Demo.codec, Demo.mergeEnv Demo.arrow, Demo.urlPath, id, Demo.mor2Table,
    Demo.mor2Tree, c!"/t", Demo.morBase, ⟨c!"t/f1_0-0-0_20231231000000000.parquet", 1⟩, Demo.mor,
    ⟨Demo.mSchema, [Demo.mRow c!"2" c!"A" c!"x" 9, Demo.mRow c!"1" c!"C" c!"bob" 7,
      Demo.mRow c!"3" c!"B" c!"y" 1]⟩, Demo.mRow c!"2" c!"A" c!"x" 9,
    by decide +kernel, Demo.scan_base, by decide +kernel, by decide +kernel, ⟨1, 1, _, rfl⟩,
    by decide +kernel, by decide, by decide⟩

end Hudi
