import Verif.Props.QueryRows
import Verif.Props.QueryDemo
import Verif.Props.AvailableDemo

/-! # C69, C70: a partitioned table that is queried with predicates -/

namespace Hudi
open Spec

namespace Demo

def calSchema : Schema := [⟨c!"id", .int true 64, true⟩, ⟨c!"year", .int true 32, true⟩]

def cal23 : Batch := ⟨calSchema, [[some (.int 1), some (.int 2023)], [some (.int 2), some (.int 2023)]]⟩

def cal24 : Batch := ⟨calSchema, [[some (.int 3), some (.int 2024)], [some (.int 4), none]]⟩

def calDoc : Content :=
  .json (.obj [(c!"partitionToWriteStats", .obj [
    (c!"year=2023", .arr [.obj [(c!"fileId", .str c!"f1"), (c!"path", .str (c!"year=2023/" ++ scanBase c!"f1"))]]),
    (c!"year=2024", .arr [.obj [(c!"fileId", .str c!"f2"), (c!"path", .str (c!"year=2024/" ++ scanBase c!"f2"))]])])])

/-- A table partitioned by year. -/
def calTree : Tree :=
  .dir c!".hoodie" (.file c!"20240101000000000.commit" 1 calDoc .nil)
  (.dir c!"year=2023" (.file (scanBase c!"f1") 10 (.parquet 1 cal23) .nil)
    (.dir c!"year=2024" (.file (scanBase c!"f2") 20 (.parquet 1 cal24) .nil) .nil))

def calOpts : Opts := (c!"hoodie.table.partition.fields", c!"year") ::
  (c!"hoodie.datasource.write.hive_style_partitioning", c!"true") :: scanOpts

def calTable : Table := ⟨calOpts, [], ⟨[], [⟨t1, .commit, .completed, 1704067200000⟩]⟩⟩

def calYear : Schema := [⟨c!"year", .int true 32, true⟩]

def calContent (s : FileSlice) : Batch := if s.partitionPath = c!"year=2023" then cal23 else cal24

theorem cal_partition {x : Str} (h : PartitionOf calOpts calTree x) :
    x = c!"year=2023" ∨ x = c!"year=2024" := by
  have := (partitionOf_mem (o := calOpts) (paths := [c!"year=2023", c!"year=2024"]) (t := calTree)
    (by decide) (by decide +kernel) x).1 h
  simpa using this

theorem cal_reads {x : Str} {vals : List Val} (h : PathReads arrow calYear true false x vals) :
    (x = c!"year=2023" → vals = [.int 2023]) ∧ (x = c!"year=2024" → vals = [.int 2024]) := by
  have hp : ∀ x, PathReads arrow calYear true false x vals →
      (⟨calYear, true, false, []⟩ : Pruner).parseSegments arrow x =
        .ok (hmOfList ((calYear.map Field.name).zip vals)) :=
    fun x h => reads_parse (p := ⟨calYear, true, false, []⟩) (fun _ => by decide) h
  have hl : vals.length = 1 := by
    obtain ⟨_, _, _, _, _, h, _⟩ := h
    exact h
  obtain ⟨v, rfl⟩ := List.length_eq_one_iff.1 hl
  constructor
  · rintro rfl
    have h1 := hp _ h
    rw [show (⟨calYear, true, false, []⟩ : Pruner).parseSegments arrow c!"year=2023" =
      .ok [(c!"year", .int 2023)] by decide +kernel] at h1
    have h2 : [(c!"year", Val.int 2023)] = [(c!"year", v)] := Res.ok.inj h1
    simp only [List.cons.injEq, Prod.mk.injEq, and_true, true_and] at h2
    rw [← h2]
  · rintro rfl
    have h1 := hp _ h
    rw [show (⟨calYear, true, false, []⟩ : Pruner).parseSegments arrow c!"year=2024" =
      .ok [(c!"year", .int 2024)] by decide +kernel] at h1
    have h2 : [(c!"year", Val.int 2024)] = [(c!"year", v)] := Res.ok.inj h1
    simp only [List.cons.injEq, Prod.mk.injEq, and_true, true_and] at h2
    rw [← h2]

theorem cal_carries (s : FileSlice) (h : s.partitionPath = c!"year=2023" ∨ s.partitionPath = c!"year=2024") :
    CarriesPartition arrow calYear true false s.partitionPath (calContent s) := by
  intro vals hv r hr
  obtain ⟨h1, h2⟩ := cal_reads hv
  intro i f v hi hvv
  have key : ∀ k : Int, (batchRow calSchema r c!"year" = some (.int k) ∨ batchRow calSchema r c!"year" = none) →
      vals = [.int k] → batchRow calSchema r f.name = some v ∨ batchRow calSchema r f.name = none := by
    rintro k hk rfl
    rcases i with _ | i
    · cases hi; cases hvv; exact hk
    · cases hi
  rcases h with h | h
  · unfold calContent at hr ⊢
    rw [if_pos h] at hr ⊢
    refine key 2023 ?_ (h1 h)
    have : ∀ r ∈ cal23.rows, batchRow calSchema r c!"year" = some (.int 2023) ∨
      batchRow calSchema r c!"year" = none := by decide
    exact this r hr
  · unfold calContent at hr ⊢
    rw [if_neg (by rw [h]; decide)] at hr ⊢
    refine key 2024 ?_ (h2 h)
    have : ∀ r ∈ cal24.rows, batchRow calSchema r c!"year" = some (.int 2024) ∨
      batchRow calSchema r c!"year" = none := by decide
    exact this r hr

/-- `year >= 2024 and id = 3`; the engine hands the first predicate to the table. -/
def calQuery : List Expr := [.binary (.column c!"year") .gtEq (.literal (some (.int 2024))),
  .binary (.column c!"id") .eq (.literal (some (.int 3)))]

/-- All the hypotheses of C70 hold of this table and query; one file is read, and one row returned. -/
example : TreeWF calTree ∧ (∀ x, PartitionOf calOpts calTree x → OneExtension (filesOf calTree x)) ∧
    PlainTable calOpts calTree ∧ calTable.baseUrlPath urlPath = .ok c!"/t" ∧ PlainBase c!"/t" [c!"t"] ∧
    PlainStorage calTable ∧ startOf calTable.opts = none ∧ calTable.partitionSchema calTree = .ok calYear ∧
    FieldNames calYear ∧ PathStyle calTable.opts true false ∧ (∀ e ∈ calQuery.take 1, e ∈ calQuery) ∧
    (∀ e ∈ calQuery.take 1, ColumnFirst e) ∧
    (calTable.scan env arrow urlPath id calTree (calQuery.take 1) []).2 =
      .ok [[⟨c!"t/year=2024/" ++ scanBase c!"f2", 20⟩]] ∧
    (∃ ss, (calTable.fileSlices env arrow calTree [] []).2 = .ok ss ∧ ss.length = 2 ∧
      ∀ s ∈ ss, (s.logFiles = [] ∨ ReadOptimized calTable.opts) ∧
        ParquetAt calTree s.basePath (calContent s) ∧
        CarriesPartition arrow calYear true false s.partitionPath (calContent s)) ∧
    [cal23, cal24].flatMap (matching arrow ⟨fun _ _ => none, fun _ _ _ => none⟩ calQuery) =
      [[some (.int 3), some (.int 2024)]] := by
  refine ⟨by decide, ?_, ?_, by decide +kernel, scan_base, ⟨by simp [HmNodup, calTable], by simp [calTable]⟩,
    rfl, by decide +kernel, ⟨by decide, by decide⟩, ⟨by decide, by decide⟩, by decide, ?_,
    by decide +kernel, ?_, by decide⟩
  · intro x hx
    rcases cal_partition hx with rfl | rfl <;> exact oneExtension_of (by decide)
  · intro x hx
    rcases cal_partition hx with rfl | rfl <;> decide
  · intro e he
    rcases List.mem_cons.1 he with rfl | he
    · trivial
    · cases he
  · refine ⟨_, rfl, rfl, ?_⟩
    intro s hs
    rcases List.mem_cons.1 hs with rfl | hs
    · exact ⟨.inl rfl, ⟨_, _, _, rfl⟩, cal_carries _ (.inl rfl)⟩
    rcases List.mem_cons.1 hs with rfl | hs
    · exact ⟨.inl rfl, ⟨_, _, _, rfl⟩, cal_carries _ (.inr rfl)⟩
    cases hs

/-- The hypotheses of C69 hold of this table, with the filter `year != 2024`. -/
example : fromStrTuples [(c!"year", c!"!=", c!"2024")] = .ok [⟨c!"year", .ne, c!"2024"⟩] ∧
    (∀ f ∈ [(⟨c!"year", .ne, c!"2024"⟩ : Filter)], Applicable arrow calYear f) ∧
    (calTable.readSnapshot env arrow codec (mergeEnv arrow) calTree [] []).2 = .ok [cal23, cal24] ∧
    (calTable.readSnapshot env arrow codec (mergeEnv arrow) calTree [(c!"year", c!"!=", c!"2024")] []).2 =
      .ok [cal23] ∧
    ¬ Applicable arrow calYear ⟨c!"id", .eq, c!"3"⟩ := by
  refine ⟨by decide, ?_, by decide +kernel, by decide +kernel, ?_⟩
  · intro f hf
    rw [List.mem_singleton.1 hf]
    exact ⟨_, .int 2024, rfl, textReads_iff.1 (by decide)⟩
  · rintro ⟨field, v, h, _⟩
    cases h

end Demo

/-- **C70 does not hold in general**: a query for `2023 < year` reads no file of the year 2024, whose rows
satisfy the predicate. -/
theorem C70_false : ∃ (E : Env) (A : Arrow) (C : Codec) (M : MergeEnv A) (U : Str → Option Str)
    (D : Str → Str) (S : Meaning) (tb : Table) (t : Tree) (e : Expr) (gs : List (List ScanFile))
    (outs : List Batch) (schema : Schema), Readable A D ∧
    tb.schema t = .ok schema ∧ Handed schema e ∧
    (tb.scan E A U D t [e] []).2 = .ok gs ∧ gs.flatten = [] ∧
    (tb.readSnapshot E A C M t [] []).2 = .ok outs ∧
    outs.flatMap (matching A S [e]) = [[some (.int 3), some (.int 2024)]] :=
  ⟨Demo.env, Demo.arrow, Demo.codec, Demo.mergeEnv Demo.arrow, Demo.urlPath, id,
    ⟨fun _ _ => none, fun _ _ _ => none⟩, Demo.calTable, Demo.calTree,
    .binary (.literal (some (.int 2023))) .lt (.column c!"year"), [], [Demo.cal23, Demo.cal24],
    Demo.calSchema, Demo.readable, by decide +kernel,
    .comparison _ _ _ (by simp) (.inl ⟨_, rfl⟩) (.inr ⟨⟨c!"year", .int true 32, true⟩, by decide, rfl⟩),
    by decide +kernel, rfl, by decide +kernel, by decide⟩

/-- **C70 does not hold in general**: a query with a predicate on a column that is no partition column
fails, although the table asks to be handed the predicate. -/
theorem C70_false_other_columns : ∃ (E : Env) (A : Arrow) (U : Str → Option Str) (D : Str → Str)
    (tb : Table) (t : Tree) (e : Expr) (schema : Schema), tb.schema t = .ok schema ∧ Handed schema e ∧
    (∃ gs, (tb.scan E A U D t [] []).2 = .ok gs) ∧ (tb.scan E A U D t [e] []).2 = .err .schema :=
  ⟨Demo.env, Demo.arrow, Demo.urlPath, id, Demo.calTable, Demo.calTree,
    .binary (.column c!"id") .eq (.literal (some (.int 3))), Demo.calSchema, by decide +kernel,
    .comparison _ _ _ (by simp) (.inr ⟨⟨c!"id", .int true 64, true⟩, by decide, rfl⟩) (.inl ⟨_, rfl⟩),
    okOf (by decide +kernel), by decide +kernel⟩

namespace Demo

def tripSchema : Schema := [⟨c!"origin", .utf8, true⟩, ⟨c!"dest", .utf8, true⟩]

def tripBatch : Batch := ⟨tripSchema, [[some (.str c!"rome"), some (.str c!"oslo")]]⟩

/-- A table partitioned by destination and origin, in this order, with paths in plain style. -/
def tripTree : Tree :=
  .dir c!".hoodie" (.file c!"20240101000000000.commit" 1
    (.json (.obj [(c!"partitionToWriteStats", .obj [(c!"oslo/rome", .arr [.obj [
      (c!"fileId", .str c!"f1"), (c!"path", .str (c!"oslo/rome/" ++ scanBase c!"f1"))]])])])) .nil)
  (.dir c!"oslo" (.dir c!"rome" (.file (scanBase c!"f1") 10 (.parquet 1 tripBatch) .nil) .nil) .nil)

def tripTable : Table := ⟨(c!"hoodie.table.partition.fields", c!"dest,origin") :: scanOpts, [],
  ⟨[], [⟨t1, .commit, .completed, 1704067200000⟩]⟩⟩

end Demo

/-- **C70 does not hold in general**: when the columns of the table are not in the order of the partition
fields, paths are read in the order of the columns, and a query for the destination skips the partition
of that destination. -/
theorem C70_false_column_order : ∃ (E : Env) (A : Arrow) (C : Codec) (M : MergeEnv A)
    (U : Str → Option Str) (D : Str → Str) (S : Meaning) (tb : Table) (t : Tree) (e : Expr)
    (gs : List (List ScanFile)) (outs : List Batch) (schema : Schema), Readable A D ∧
    tb.schema t = .ok schema ∧ Handed schema e ∧ ColumnFirst e ∧
    (tb.scan E A U D t [e] []).2 = .ok gs ∧ gs.flatten = [] ∧
    (tb.readSnapshot E A C M t [] []).2 = .ok outs ∧
    outs.flatMap (matching A S [e]) = [[some (.str c!"rome"), some (.str c!"oslo")]] :=
  ⟨Demo.env, Demo.arrow, Demo.codec, Demo.mergeEnv Demo.arrow, Demo.urlPath, id,
    ⟨fun _ _ => none, fun _ _ _ => none⟩, Demo.tripTable, Demo.tripTree,
    .binary (.column c!"dest") .eq (.literal (some (.str c!"oslo"))), [], [Demo.tripBatch],
    Demo.tripSchema, Demo.readable, by decide +kernel,
    .comparison _ _ _ (by simp) (.inr ⟨⟨c!"dest", .utf8, true⟩, by decide, rfl⟩) (.inl ⟨_, rfl⟩),
    trivial, by decide +kernel, rfl, by decide +kernel, by decide⟩

end Hudi
