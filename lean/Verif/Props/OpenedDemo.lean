import Verif.Props.Opened
import Verif.Props.RecordsDemo

/-! # C71: tables that meet the hypotheses, and a counterexample -/

namespace Hudi
open Spec

/-- A table that opens is at its base path. -/
theorem tableAt_of_build {E : Env} {w : World} {uri : Str} {calls : List Call} {s : Storage} {tb : Table}
    (hc : ∀ so, w.connect so uri = .ok s) (hb : (builderOf uri calls).build E w = .ok tb)
    (hh : hmGet c!"hoodie.base.path" tb.opts = some uri) : TableAt w uri calls s tb.opts := by
  obtain ⟨s', table, global, env, h1, h2, h3, h4, h5, _⟩ := C41_precedence E w uri calls tb hb
  rw [hc] at h1
  cases h1
  exact ⟨⟨env, h4, fun so _ => hc so⟩, ⟨table, global, h2, h3, h5⟩, hh⟩

namespace Demo

/-- The properties file of a table of version 6. -/
def tripsText : Str := c!"#Properties saved on 2024-01-01\nhoodie.table.name=trips\nhoodie.table.type=MERGE_ON_READ\nhoodie.table.version=6\nhoodie.timeline.layout.version=1\nhoodie.table.precombine.field=ts\nhoodie.datasource.write.hive_style_partitioning=false\nhoodie.datasource.write.partitionpath.urlencode=false\n"

/-- The table of C59 with its properties file. -/
def openTree : Tree :=
  .dir c!".hoodie" (.file c!"hoodie.properties" 1 (.bytes (utf8Encode tripsText))
    (.file c!"20231231000000000.commit" 1 .junk
    (.file c!"20240102000000000.deltacommit" 1 morDoc
    (.file c!"20240104000000000.commit" 1 recDoc .nil))))
  (.file morBase 1 (.parquet 1 mor) (.file morLog 1 (.bytes (logBytes [w1, w2, w3]))
    (.file recBase 1 (.parquet 1 mor) .nil)))

/-- The counterexample of C59 with its properties file. -/
def openDirtyTree : Tree :=
  .dir c!".hoodie" (.file c!"hoodie.properties" 1 (.bytes (utf8Encode tripsText))
    (.file c!"20231231000000000.commit" 1 .junk
    (.file c!"20240101000000000.deltacommit.inflight" 1 .junk
    (.file c!"20240102000000000.deltacommit" 1 morDoc .nil))))
  (.file morBase 1 (.parquet 1 mor) (.file morLog 1 (.bytes (logBytes [w1, w2])) .nil))

def openWorld (t : Tree) : World where
  vars := [(c!"AWS_REGION", c!"env")]
  connect _ uri := if uri = c!"s3://b/trips" then .ok ⟨t, fun _ => none⟩ else .err .storage

/-- The caller sets the listing parallelism and a storage option. -/
def openCalls : List Call :=
  [.options [(c!"hoodie.read.listing.parallelism", c!"4"), (c!"timeout", c!"10s")]]

def openOpts : Opts :=
  [(c!"hoodie.base.path", c!"s3://b/trips"), (c!"hoodie.read.listing.parallelism", c!"4"),
   (c!"hoodie.table.name", c!"trips"), (c!"hoodie.table.type", c!"MERGE_ON_READ"),
   (c!"hoodie.table.version", c!"6"), (c!"hoodie.timeline.layout.version", c!"1"),
   (c!"hoodie.table.precombine.field", c!"ts"),
   (c!"hoodie.datasource.write.hive_style_partitioning", c!"false"),
   (c!"hoodie.datasource.write.partitionpath.urlencode", c!"false")]

def openTable : Table := ⟨openOpts, [(c!"timeout", c!"10s"), (c!"aws_region", c!"env")],
  ⟨openOpts, [⟨t0, .commit, .completed, 1703980800000⟩, ⟨t2, .deltaCommit, .completed, 1704153600000⟩,
    ⟨t4, .commit, .completed, 1704326400000⟩]⟩⟩

def openDirtyTable : Table := ⟨openOpts, [(c!"timeout", c!"10s"), (c!"aws_region", c!"env")],
  ⟨openOpts, [⟨t0, .commit, .completed, 1703980800000⟩, ⟨t2, .deltaCommit, .completed, 1704153600000⟩]⟩⟩

theorem open_build : (builderOf c!"s3://b/trips" openCalls).build env (openWorld openTree) = .ok openTable := by
  decide +kernel

theorem openDirty_build :
    (builderOf c!"s3://b/trips" openCalls).build env (openWorld openDirtyTree) = .ok openDirtyTable := by
  decide +kernel

theorem open_at : TableAt (openWorld openTree) c!"s3://b/trips" openCalls ⟨openTree, fun _ => none⟩ openOpts :=
  tableAt_of_build (fun _ => rfl) open_build rfl

theorem openDirty_at :
    TableAt (openWorld openDirtyTree) c!"s3://b/trips" openCalls ⟨openDirtyTree, fun _ => none⟩ openOpts :=
  tableAt_of_build (fun _ => rfl) openDirty_build rfl

theorem open_supported : (WellFormedOptions openOpts ∧ Supported openOpts) ∧ WellNamedTimeline openTree := by
  obtain ⟨h1, h2⟩ := (C71_opens_exactly env _ _ _ _ _ open_at).1.1 ⟨_, open_build⟩
  exact ⟨h1.resolve_left (by unfold SkipsValidation; decide), h2⟩

theorem openDirty_supported :
    (WellFormedOptions openOpts ∧ Supported openOpts) ∧ WellNamedTimeline openDirtyTree := by
  obtain ⟨h1, h2⟩ := (C71_opens_exactly env _ _ _ _ _ openDirty_at).1.1 ⟨_, openDirty_build⟩
  exact ⟨h1.resolve_left (by unfold SkipsValidation; decide), h2⟩

theorem morLog_name : ¬ ParquetName morLog := by
  rintro ⟨stem, h⟩
  have := congrArg List.getLast? h
  rw [List.getLast?_append] at this
  have h2 : some '1' = some 't' := this
  cases h2

theorem open_stored : StoredTable env arrow openOpts openTree c!"utc" recHistory 17 [] [] [] false false where
  tree := by decide
  zone := rfl
  history := rec_wf
  stores := stores_of (by decide) (by decide) (by decide) (partitionOf_mem (by decide) rfl) (by decide)
    (by decide) (by decide)
  last := ⟨_, _, _, _, rfl, ⟨1, rfl⟩, ⟨[], _, [], [], recBase, rfl, rfl, .inl ⟨⟨c!"f2_0-4-1_20240104000000000", rfl⟩, rfl⟩⟩,
    ⟨1, 1, mor, rfl⟩, rfl⟩
  docs := fun c hc ha => absurd ha (by revert c; decide)
  style := ⟨rfl, rfl⟩
  parallelism := by intro v hv; cases hv; decide
  names := by unfold FieldNames; decide
  parsed := rfl
  applicable := by simp

theorem openDirty_stored :
    StoredTable env arrow openOpts openDirtyTree c!"utc" recFirst 17 [] [] [] false false where
  tree := by decide
  zone := rfl
  history := rec_wf.prefix (h' := [⟨t4, .commit, [(f2, .write c!"0-4-1")]⟩])
  stores := stores_of (by decide) (by decide) (by decide) (partitionOf_mem (by decide) rfl) (by decide)
    (by decide) (by decide)
  last := ⟨_, _, _, _, rfl, ⟨1, rfl⟩, ⟨[], _, [], [], morLog, rfl, rfl, .inr ⟨morLog_name, _, rfl, rfl⟩⟩,
    ⟨1, 1, mor, rfl⟩, rfl⟩
  docs := fun c hc ha => absurd ha (by revert c; decide)
  style := ⟨rfl, rfl⟩
  parallelism := by intro v hv; cases hv; decide
  names := by unfold FieldNames; decide
  parsed := rfl
  applicable := by simp

theorem open_records : StoresRecords codec some c!"utc" mSchema openTree recHistory recWritten recHeld := by
  refine stores_records [w1, w2, w3] (by simp) (by simp) ?_ rfl ⟨1, _, rfl, rfl⟩ ?_ (by decide) (by decide)
  · intro k base l c
    refine ⟨appends_rec, ?_⟩
    rintro ⟨rfl, rfl, rfl, rfl⟩
    rw [appendsTo_mem]
    decide
  · intro c hc e he token ht
    simp only [recHistory, recFirst, List.cons_append, List.nil_append, List.mem_cons,
      List.not_mem_nil, or_false] at hc
    rcases hc with rfl | rfl | rfl <;> rw [List.mem_singleton] at he <;> subst he <;> cases ht
    · exact ⟨⟨1, 1, _, rfl⟩, rfl⟩
    · exact ⟨⟨1, 1, _, rfl⟩, rfl⟩

theorem openDirty_records :
    StoresRecords codec some c!"utc" mSchema openDirtyTree recFirst recWritten dirtyHeld := by
  refine stores_records [w1, w2] (by simp) (by simp) ?_ rfl ⟨1, _, rfl, rfl⟩ ?_ (by decide) (by decide)
  · intro k base l c
    refine ⟨appends_dirty, ?_⟩
    rintro ⟨rfl, rfl, rfl, rfl⟩
    rw [appendsTo_mem]
    decide
  · intro c hc e he token ht
    simp only [recFirst, List.mem_cons, List.not_mem_nil, or_false] at hc
    rcases hc with rfl | rfl <;> rw [List.mem_singleton] at he <;> subst he <;> cases ht
    exact ⟨⟨1, 1, _, rfl⟩, rfl⟩

/-- The hypotheses of C71 are met by this table, opened with some options; what is read from it. -/
example : TableAt (openWorld openTree) c!"s3://b/trips" openCalls ⟨openTree, fun _ => none⟩ openOpts ∧
    (∀ e ∈ openCalls.flatMap Call.storage, ¬ HudiKey e.1) ∧ WellFormedOptions openOpts ∧ Supported openOpts ∧
    WellNamedTimeline openTree ∧ MonotoneTz env.ltz ∧ WholeSecondsTz env.ltz ∧
    StoredTable env arrow openOpts openTree c!"utc" recHistory 17 [] [] [] false false ∧
    MergesBy openOpts c!"ts" ∧ startOf openOpts = none ∧ MergeColumns mSchema c!"ts" ∧
    StoresRecords codec env.ltz c!"utc" mSchema openTree recHistory recWritten recHeld ∧
    (∀ c, recHistory.getLast? = some c → NoPendingBlocks env.ltz c!"utc" c.ts recHistory recHeld) ∧
    (openTable.readSnapshot env arrow codec (mergeEnv arrow) openTree [] []).2 =
      .ok [⟨mSchema, [mRow c!"1" c!"C" c!"bob" 7, mRow c!"1" c!"A" c!"ann" 5]⟩, mor] :=
  ⟨open_at, by decide, open_supported.1.1, open_supported.1.2, open_supported.2,
    by intro a b a' b' h1 h2 h; cases h1; cases h2; exact h, by intro n d h; cases h; rfl,
    open_stored, ⟨by decide, rfl, by decide⟩, rfl, ⟨by decide, by decide, _, rfl, rfl⟩, open_records,
    by intro c hc; cases hc; exact rec_pending, by decide +kernel⟩

end Demo

/-- **C71 is false.**  A table that is opened while a delta commit is in flight: the snapshot returns
records that no commit of the history wrote. -/
theorem C71_false : ∃ (E : Env) (A : Arrow) (C : Codec) (M : MergeEnv A) (w : World) (uri : Str)
    (calls : List Call) (s : Storage) (o : Opts) (h : History) (schema : Schema) (W : Written)
    (held : Str → List WBlock) (tb : Table) (outs : List Batch),
    MonotoneTz E.ltz ∧ WholeSecondsTz E.ltz ∧ TableAt w uri calls s o ∧ WellFormedOptions o ∧ Supported o ∧
    StoredTable E A o s.tree c!"utc" h 17 [] [] [] false false ∧ MergesBy o c!"ts" ∧
    MergeColumns schema c!"ts" ∧ StoresRecords C E.ltz c!"utc" schema s.tree h W held ∧
    (builderOf uri calls).build E w = .ok tb ∧ (tb.readSnapshot E A C M s.tree [] []).2 = .ok outs ∧
    ∃ out ∈ outs, ∃ r ∈ out.rows, ∀ k, r ∉ recordsAfter W h k := by
  refine ⟨Demo.env, Demo.arrow, Demo.codec, Demo.mergeEnv Demo.arrow, Demo.openWorld Demo.openDirtyTree,
    c!"s3://b/trips", Demo.openCalls, ⟨Demo.openDirtyTree, fun _ => none⟩, Demo.openOpts,
    Demo.recFirst, Demo.mSchema, Demo.recWritten, Demo.dirtyHeld, Demo.openDirtyTable,
    [⟨Demo.mSchema, [Demo.mRow c!"2" c!"A" c!"x" 9, Demo.mRow c!"1" c!"C" c!"bob" 7,
      Demo.mRow c!"3" c!"B" c!"y" 1]⟩],
    by intro a b a' b' h1 h2 h; cases h1; cases h2; exact h, by intro n d h; cases h; rfl,
    Demo.openDirty_at, Demo.openDirty_supported.1.1, Demo.openDirty_supported.1.2, Demo.openDirty_stored,
    ⟨by decide, rfl, by decide⟩, ⟨by decide, by decide, _, rfl, rfl⟩, Demo.openDirty_records,
    Demo.openDirty_build, by decide +kernel, _, List.mem_singleton_self _, Demo.mRow c!"3" c!"B" c!"y" 1,
    by simp, ?_⟩
  intro k hk
  obtain ⟨ts, h | h⟩ := recordsAfter_sub hk
  · have : ∀ rows, rows = Demo.recWritten.base ts k → rows = Demo.mor.rows ∨ rows = [] := by
      rintro rows rfl
      show (if _ then _ else _) = _ ∨ (if _ then _ else _) = _
      split
      · exact .inl rfl
      · split
        · exact .inl rfl
        · exact .inr rfl
    rcases this _ rfl with e | e <;> rw [e] at h
    · exact absurd h (by decide)
    · cases h
  · have : ∀ rows, rows = Demo.recWritten.appended ts k → rows = Demo.w2Batch.rows ∨ rows = [] := by
      rintro rows rfl
      show (if _ then _ else _) = _ ∨ (if _ then _ else _) = _
      split
      · exact .inl rfl
      · exact .inr rfl
    rcases this _ rfl with e | e <;> rw [e] at h
    · exact absurd h (by decide)
    · cases h

end Hudi
