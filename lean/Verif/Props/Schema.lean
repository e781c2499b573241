import Verif.Lemmas.Schema
import Verif.Model.DataFusion
import Verif.Props.Answers
import Verif.Props.ReadFalse

/-! # C64: the schema of a table -/

namespace Hudi
open Spec

/-- **C64, the Avro schema.**  `get_avro_schema` returns the schema that the latest completed instant
recorded, and is an error when there is no such instant or it recorded none. -/
theorem C64_avro_schema (E : Env) (o : Opts) (t0 t : Tree) (tb : Table)
    (hload : Timeline.load E o t0 = .ok tb.timeline) (hwf0 : ∀ n ∈ timelineNames t0, Spec.NormalName n) :
    (∀ s, tb.avroSchema t = .ok s ↔
      ∃ i md, tb.timeline.completed.getLast? = some i ∧ docOf t i = some md ∧ RecordsSchema md s) ∧
    tb.avroSchema t ≠ .panic := by
  obtain ⟨h1, h2, h3⟩ := latestMetadata_doc (t := t) hload hwf0
  have hrec : ∀ (md : List (Str × Json)) s, ((jGet c!"extraMetadata" md).bind Json.asObj).bind
      (fun o => (jGet c!"schema" o).bind Json.asStr) = some s ↔ RecordsSchema md s := by
    intro md s
    constructor
    · intro h
      obtain ⟨extra, h4, h5⟩ := Option.bind_eq_some_iff.1 h
      obtain ⟨j, h6, h7⟩ := Option.bind_eq_some_iff.1 h4
      obtain ⟨k, h8, h9⟩ := Option.bind_eq_some_iff.1 h5
      obtain rfl : j = .obj extra := by cases j <;> simp_all [Json.asObj]
      obtain rfl : k = .str s := by cases k <;> simp_all [Json.asStr]
      exact ⟨extra, h6, h8⟩
    · rintro ⟨extra, h4, h5⟩
      rw [h4]
      simp [Json.asObj, h5, Json.asStr]
  have hopt : ∀ x : Option Str, Res.ofOption .commitMetadata x ≠ .panic := by
    intro x; cases x <;> simp [Res.ofOption]
  unfold Table.avroSchema Timeline.latestAvroSchema
  cases hl : tb.timeline.completed.getLast? with
  | none =>
    rw [h3 hl]
    simp [jGet, Res.ofOption]
  | some i =>
    cases hd : docOf t i with
    | none =>
      obtain ⟨e, he⟩ := h2 i hl hd
      rw [he]
      simp [hd]
    | some md =>
      rw [h1 i md hl hd]
      simp only [Res.ok_bind, Res.ofOption_eq_ok, Option.some.injEq, exists_and_left, exists_eq_left', hd]
      exact ⟨fun s => hrec md s, hopt _⟩

/-- **C64, the Arrow schema.**  `get_schema` returns the columns of the first file written by the latest
completed instant (of the base file it was written against, if that file is a log file), and is an
error when there is none.  Missing: that these are the columns of the Avro schema which that instant recorded
(`C64_false`). -/
theorem C64_schema_partial (E : Env) (o : Opts) (t0 t : Tree) (tb : Table)
    (hload : Timeline.load E o t0 = .ok tb.timeline) (hwf0 : ∀ n ∈ timelineNames t0, Spec.NormalName n) :
    (∀ s, tb.schema t = .ok s ↔
      ∃ i md path, tb.timeline.completed.getLast? = some i ∧ docOf t i = some md ∧
        FirstFile md path ∧ ColumnsAt t path s) ∧
    tb.schema t ≠ .panic := by
  refine ⟨fun s => latestSchema_ok hload hwf0, ?_⟩
  obtain ⟨h1, h2, h3⟩ := latestMetadata_doc (t := t) hload hwf0
  have hpq : ∀ p, getParquetSchema t p ≠ .panic := by
    intro p
    unfold getParquetSchema getFile
    cases t.fileAt (pathSegs p) with
    | none => simp
    | some e => obtain ⟨n, c⟩ := e; cases c <;> simp
  have hmd : tb.timeline.latestMetadata t ≠ .panic := by
    cases hl : tb.timeline.completed.getLast? with
    | none => rw [h3 hl]; simp
    | some i =>
      cases hd : docOf t i with
      | none => obtain ⟨e, he⟩ := h2 i hl hd; rw [he]; simp
      | some md => rw [h1 i md hl hd]; simp
  unfold Table.schema Timeline.latestSchema schemaOfCommit
  cases hm : tb.timeline.latestMetadata t with
  | panic => exact absurd hm hmd
  | err e => simp
  | ok md =>
    simp only [Res.ok_bind]
    cases ((jGet c!"partitionToWriteStats" md).bind Json.asObj).bind List.head? with
    | none => simp [Res.ofOption]
    | some e =>
      obtain ⟨p, st⟩ := e
      simp only [Res.ofOption_some, Res.ok_bind]
      split
      · split
        · exact hpq _
        · generalize (Option.bind _ Json.asStr) = x
          cases x with
          | none => simp [Res.ofOption]
          | some b => exact hpq _
      · simp

/-- **C64, the query engine's schema.**  The schema of the table provider is that of `get_schema` when there
is one, and otherwise it has no columns; it is never an error. -/
theorem C64_provider_schema (E : Env) (o : Opts) (t0 t : Tree) (tb : Table)
    (hload : Timeline.load E o t0 = .ok tb.timeline) (hwf0 : ∀ n ∈ timelineNames t0, Spec.NormalName n) :
    (∀ i md path s, tb.timeline.completed.getLast? = some i → docOf t i = some md → FirstFile md path →
      ColumnsAt t path s → tb.dfSchema t = .ok s) ∧
    ((¬ ∃ i md path s, tb.timeline.completed.getLast? = some i ∧ docOf t i = some md ∧
      FirstFile md path ∧ ColumnsAt t path s) → tb.dfSchema t = .ok []) := by
  obtain ⟨h1, h2⟩ := C64_schema_partial E o t0 t tb hload hwf0
  unfold Table.dfSchema
  constructor
  · intro i md path s h3 h4 h5 h6
    rw [show tb.timeline.latestSchema t = .ok s from (h1 s).2 ⟨i, md, path, h3, h4, h5, h6⟩]
  · intro h3
    cases hs : tb.timeline.latestSchema t with
    | ok s =>
      obtain ⟨i, md, path, h⟩ := (h1 s).1 hs
      exact absurd ⟨i, md, path, s, h⟩ h3
    | err e => rfl
    | panic => exact absurd hs h2

/-- **C64, the partition columns.**  `get_partition_schema` returns those columns of `get_schema` that are
partition fields, in the order of the schema. -/
theorem C64_partition_schema (tb : Table) (t : Tree) (s : Schema) :
    tb.partitionSchema t = .ok s ↔
      ∃ schema, tb.schema t = .ok schema ∧
        s = schema.filter (fun f => decide (f.name ∈ partitionFieldNames tb.opts)) := by
  have hf : ((hmGet c!"hoodie.table.partition.fields" tb.opts).map (splitAll ',')).getD [] =
      partitionFieldNames tb.opts := by
    unfold partitionFieldNames
    cases hmGet c!"hoodie.table.partition.fields" tb.opts <;> rfl
  unfold Table.partitionSchema
  rw [partitionFieldsOf_eq, hf]
  simp only [Res.ok_bind, Res.bind_eq_ok]
  have : ∀ l : Schema, l.filter (fun f => (partitionFieldNames tb.opts).contains f.name) =
      l.filter (fun f => decide (f.name ∈ partitionFieldNames tb.opts)) := by
    intro l
    congr 1
    funext f
    simp
  simp only [this]
  constructor
  · rintro ⟨x, h1, h2⟩; cases h2; exact ⟨x, h1, rfl⟩
  · rintro ⟨x, h1, rfl⟩; exact ⟨x, h1, rfl⟩

/-- **C64, the columns of a batch.**  Every batch that a read returns has the columns of the base file of
its slice: for the latest snapshot, a snapshot as of a time, and the changes between two times. -/
theorem C64_batches_have_base_columns (E : Env) (A : Arrow) (C : Codec) (M : MergeEnv A) (tb : Table)
    (t : Tree) (c : Cache) :
    (∀ filters bs, (tb.readSnapshot E A C M t filters c).2 = .ok bs →
      ∃ ss, (tb.fileSlices E A t filters c).2 = .ok ss ∧ List.Forall₂ (HasBaseColumns t) ss bs) ∧
    (∀ ts filters bs, (tb.readSnapshotAsOf E A C M t ts filters c).2 = .ok bs →
      ∃ ss, (tb.fileSlicesAsOf E A t ts filters c).2 = .ok ss ∧
        List.Forall₂ (HasBaseColumns t) ss bs) ∧
    (∀ start stop bs, tb.readIncremental E A C M t start stop = .ok bs →
      ∃ ss, tb.fileSlicesBetween E t (some start) stop = .ok ss ∧
        List.Forall₂ (HasBaseColumns t) ss bs) := by
  have hread : ∀ (o : Opts) ss bs, Res.mapL (readFileSlice C A M E.ltz o t) ss = .ok bs →
      List.Forall₂ (HasBaseColumns t) ss bs := by
    intro o ss
    induction ss with
    | nil => intro bs h; cases h; exact .nil
    | cons s ss ih =>
      intro bs h
      obtain ⟨b, h1, h⟩ := Res.bind_eq_ok.1 h
      obtain ⟨bs', h2, h⟩ := Res.bind_eq_ok.1 h
      cases h
      exact .cons (readFileSlice_schema h1) (ih _ h2)
  have hint : ∀ ts fs bs, (tb.readSnapshotInternal E A C M t ts fs c).2 = .ok bs →
      ∃ ss, (tb.fileSlicesInternal E A t ts fs c).2 = .ok ss ∧
        List.Forall₂ (HasBaseColumns t) ss bs := by
    intro ts fs bs h
    obtain ⟨ss, h1, h2⟩ := Query.bind_snd.1 h
    exact ⟨ss, h1, hread _ _ _ h2⟩
  refine ⟨?_, ?_, ?_⟩
  · intro filters bs h
    unfold Table.readSnapshot at h
    unfold Table.fileSlices
    cases hl : tb.timeline.latestTimestamp with
    | some ts =>
      rw [hl] at h
      obtain ⟨fs, h1, h2⟩ := Query.bind_lift_snd.1 h
      obtain ⟨ss, h3, h4⟩ := hint _ _ _ h2
      exact ⟨ss, Query.bind_lift_snd.2 ⟨fs, h1, h3⟩, h4⟩
    | none =>
      rw [hl] at h
      cases h
      exact ⟨[], rfl, .nil⟩
  · intro ts filters bs h
    obtain ⟨fs, h1, h2⟩ := Query.bind_lift_snd.1 h
    obtain ⟨ss, h3, h4⟩ := hint _ _ _ h2
    exact ⟨ss, Query.bind_lift_snd.2 ⟨fs, h1, h3⟩, h4⟩
  · intro start stop bs h
    unfold Table.readIncremental at h
    unfold Table.fileSlicesBetween
    cases hl : stop.or tb.timeline.latestTimestamp with
    | none =>
      rw [hl] at h
      cases h
      exact ⟨[], rfl, .nil⟩
    | some e =>
      rw [hl] at h
      obtain ⟨ss, h1, h2⟩ := Res.bind_eq_ok.1 h
      exact ⟨ss, h1, hread _ _ _ h2⟩

/-- **C64, one schema.**  If all data files of the table have the same columns, those are the columns that
`get_schema` reports and the columns of every batch that a read returns.  Partial: see `C64_false` for
tables whose columns changed.  Missing: tables whose columns have changed (`C64_false`). -/
theorem C64_rows_have_the_schema_partial (E : Env) (A : Arrow) (C : Codec) (M : MergeEnv A) (o : Opts)
    (t0 t : Tree) (tb : Table) (hload : Timeline.load E o t0 = .ok tb.timeline)
    (hwf0 : ∀ n ∈ timelineNames t0, Spec.NormalName n) (schema : Schema) (hone : OneSchema t schema)
    (hown : OwnTypes t) (c : Cache) :
    (∀ s, tb.schema t = .ok s → s = schema) ∧
    (∀ filters bs, (tb.readSnapshot E A C M t filters c).2 = .ok bs → ∀ b ∈ bs, b.schema = schema) ∧
    (∀ ts filters bs, (tb.readSnapshotAsOf E A C M t ts filters c).2 = .ok bs →
      ∀ b ∈ bs, b.schema = schema) ∧
    (∀ start stop bs, tb.readIncremental E A C M t start stop = .ok bs → ∀ b ∈ bs, b.schema = schema) := by
  have hall : ∀ {ss : List FileSlice} {bs : List Batch}, List.Forall₂ (HasBaseColumns t) ss bs →
      ∀ b ∈ bs, b.schema = schema := by
    intro ss bs h
    induction h with
    | nil => intro b hb; cases hb
    | cons h _ ih =>
      intro b hb
      rcases List.mem_cons.1 hb with rfl | hb
      · obtain ⟨base, h1, h2⟩ := h
        rw [h2, hone _ _ h1]
      · exact ih b hb
  obtain ⟨h1, h2, h3⟩ := C64_batches_have_base_columns E A C M tb t c
  refine ⟨?_, ?_, ?_, ?_⟩
  · intro s hs
    obtain ⟨_, _, _, _, _, _, size, byteSize, b, hb⟩ := ((C64_schema_partial E o t0 t tb hload hwf0).1 s).1 hs
    rw [← hown _ _ _ _ _ hb]
    exact hone _ b ⟨_, _, _, hb⟩
  · intro filters bs h
    obtain ⟨_, _, h⟩ := h1 _ _ h
    exact hall h
  · intro ts filters bs h
    obtain ⟨_, _, h⟩ := h2 _ _ _ h
    exact hall h
  · intro start stop bs h
    obtain ⟨_, _, h⟩ := h3 _ _ _ h
    exact hall h

namespace Demo

/-- The columns after the second commit: one more. -/
def wideSchema : Schema := mSchema ++ [⟨c!"note", .utf8, true⟩]

def wideAvro : Str :=
  c!"{\"type\":\"record\",\"name\":\"r\",\"fields\":[{\"name\":\"name\",\"type\":\"string\"},{\"name\":\"ts\",\"type\":\"long\"},{\"name\":\"note\",\"type\":\"string\"}]}"

def wideRow : List Cell := rowOfBytes [52, 68, 122, 3] ++ [some (.str c!"new")]

/-- A codec whose parquet blocks have the new column. -/
def codecWide : Codec :=
  { codec with parquet := fun l => match l with
      | [80, a, b, c, d, 69] => .ok [⟨wideSchema, [rowOfBytes [a, b, c, d] ++ [some (.str c!"new")]]⟩]
      | _ => .err .parquet }

/-- A parquet block with a new record. -/
def w5 : WBlock := ⟨.v1, [(.instantTime, t3)], .parquet [80, 52, 68, 122, 3, 69], [], 0, 0⟩

/-- The metadata of the delta commit. -/
def wideDoc : Content :=
  .json (.obj [(c!"partitionToWriteStats", .obj [([], .arr [.obj [(c!"fileId", .str c!"f1"),
    (c!"path", .str morLog), (c!"baseFile", .str morBase)]])]),
    (c!"extraMetadata", .obj [(c!"schema", .str wideAvro)])])

def wideTree : Tree :=
  .dir c!".hoodie" (.file c!"20231231000000000.commit" 1 .junk
    (.file c!"20240103000000000.deltacommit" 1 wideDoc .nil))
  (.file morBase 1 (.parquet 1 mor) (.file morLog 1 (.bytes (logBytes [w5])) .nil))

def wideOut : Batch := ⟨mSchema, [mRow c!"1" c!"C" c!"bob" 7, mRow c!"1" c!"A" c!"ann" 5,
  mRow c!"4" c!"D" c!"z" 3]⟩

/-- Everything stored in a tree. -/
def contents : Tree → List Content
  | .nil => []
  | .file _ _ c rest => c :: contents rest
  | .dir _ sub rest => contents sub ++ contents rest

theorem contents_file {t : Tree} {n : Str} {k : Nat} {c : Content} (h : t.file? n = some (k, c)) :
    c ∈ contents t := by
  induction t with
  | nil => cases h
  | file n' s c' rest ih =>
    unfold Tree.file? at h
    split at h
    · cases h; exact .head _
    · exact .tail _ (ih h)
  | dir n' sub rest _ ih => exact List.mem_append_right _ (ih h)

theorem contents_sub {t : Tree} {n : Str} {c : Content} (h : c ∈ contents (t.sub n)) :
    c ∈ contents t := by
  induction t with
  | nil => exact h
  | file n' s c' rest ih => exact .tail _ (ih h)
  | dir n' sub rest _ ih =>
    unfold Tree.sub at h
    split at h
    · exact List.mem_append_left _ h
    · exact List.mem_append_right _ (ih h)

theorem contents_at {segs : List Str} {t : Tree} {k : Nat} {c : Content}
    (h : t.fileAt segs = some (k, c)) : c ∈ contents t := by
  induction segs generalizing t with
  | nil => cases h
  | cons s ss ih =>
    cases ss with
    | nil => exact contents_file h
    | cons s' ss => exact contents_sub (ih h)

/-- The columns of a parquet file. -/
def columnsOf : Content → Option Schema
  | .parquet _ b _ => some b.schema
  | _ => none

theorem oneSchema_of {t : Tree} {schema : Schema}
    (h : ∀ s ∈ (contents t).filterMap columnsOf, s = schema) : OneSchema t schema := by
  rintro path b ⟨k, k', footer, hb⟩
  exact h _ (List.mem_filterMap.2 ⟨_, contents_at hb, rfl⟩)

/-- The two descriptions of the columns of a parquet file are the same. -/
def ownTypes : Content → Bool
  | .parquet _ b footer => decide (b.schema = footer)
  | _ => true

theorem ownTypes_of {t : Tree} (h : (contents t).all ownTypes = true) : OwnTypes t := by
  intro path k k' b footer hb
  have := List.all_eq_true.1 h _ (contents_at hb)
  simpa [ownTypes] using this

end Demo

open Demo in
/-- The theorems apply to a table with a delta commit: the reported schemas, and the batch that is read. -/
example : Timeline.load env [] wideTree = .ok morTable.timeline ∧
    (∀ n ∈ timelineNames wideTree, Spec.NormalName n) ∧
    OneSchema wideTree mSchema ∧ OwnTypes wideTree ∧ morTable.avroSchema wideTree = .ok wideAvro ∧
    morTable.schema wideTree = .ok mSchema ∧ morTable.partitionSchema wideTree = .ok [] ∧
    morTable.dfSchema wideTree = .ok mSchema ∧
    (morTable.readSnapshot env arrow codec (mergeEnv arrow) wideTree [] []).2 = .ok [wideOut] := by
  refine ⟨by decide +kernel, by decide, oneSchema_of (by decide), ownTypes_of (by decide), by decide +kernel, by decide +kernel,
    by decide +kernel, by decide +kernel, by decide +kernel⟩

open Demo in
/-- **C64 as stated is false** of a table whose columns changed.  The latest commit recorded an Avro schema
with a new column, and its log block holds a row with a value in that column.  `get_schema` reports the
columns of the base file, without the new one, and reading the table returns the row without its
value. -/
theorem C64_false : ∃ (E : Env) (A : Arrow) (C : Codec) (M : MergeEnv A) (t : Tree) (tb : Table)
    (avro : Str) (schema : Schema) (w : WBlock) (s : FileSlice) (b out : Batch) (r : List Cell) (v : Str),
    TreeWF t ∧ Timeline.load E [] t = .ok tb.timeline ∧ tb.avroSchema t = .ok avro ∧
    (∃ l r, avro = l ++ c!"note" ++ r) ∧ tb.schema t = .ok schema ∧
    (tb.fileSlices E A t [] []).2 = .ok [s] ∧ List.Forall₂ (LogAt C t) (s.logFiles.map s.logPath) [[w]] ∧
    Decodes C w [b] ∧ r ∈ b.rows ∧ cellOf b.schema c!"note" r = some (.str v) ∧
    (∀ f ∈ schema, f.name ≠ c!"note") ∧
    (tb.readSnapshot E A C M t [] []).2 = .ok [out] ∧ r.take 4 ∈ out.rows ∧
    (∀ f ∈ out.schema, f.name ≠ c!"note") ∧ ∀ r ∈ out.rows, some (.str v) ∉ r := by
  refine ⟨env, arrow, codecWide, mergeEnv arrow, wideTree, morTable, wideAvro, mSchema, w5,
    morSlice, ⟨wideSchema, [wideRow]⟩, wideOut, wideRow, c!"new", by decide, by decide +kernel,
    by decide +kernel, ⟨c!"{\"type\":\"record\",\"name\":\"r\",\"fields\":[{\"name\":\"name\",\"type\":\"string\"},{\"name\":\"ts\",\"type\":\"long\"},{\"name\":\"", c!"\",\"type\":\"string\"}]}", rfl⟩,
    by decide +kernel, by decide +kernel, .cons ⟨1, _, rfl, rfl⟩ .nil, rfl, by simp, rfl, by decide,
    by decide +kernel, by decide, by decide, by decide⟩

namespace Demo

/-- A base file whose writer embedded an Arrow schema: names are read as large strings. -/
def large : Batch :=
  ⟨[⟨c!"_hoodie_commit_time", .utf8, false⟩, ⟨c!"name", .other c!"LargeUtf8", true⟩],
    [[some (.str t2), some (.opq c!"ann")]]⟩

def largeTree : Tree :=
  .dir c!".hoodie" (.file c!"20240101000000000.commit" 1 .junk
    (.file c!"20240102000000000.commit" 1 incDoc .nil))
  (.file incBase 1 (.parquet 1 large [⟨c!"_hoodie_commit_time", .utf8, false⟩, ⟨c!"name", .utf8, true⟩]) .nil)

end Demo

open Demo in
/-- **C64 as stated is false** of files with an embedded Arrow schema: `get_schema` does not look at it, reads
do, so that the batch that is read does not have the reported types. -/
theorem C64_embedded_false : ∃ (E : Env) (A : Arrow) (C : Codec) (M : MergeEnv A) (t : Tree) (tb : Table)
    (schema : Schema) (out : Batch), TreeWF t ∧ Timeline.load E [] t = .ok tb.timeline ∧
    tb.schema t = .ok schema ∧ (tb.readSnapshot E A C M t [] []).2 = .ok [out] ∧ OneSchema t out.schema ∧
    out.rows ≠ [] ∧ out.schema.map (·.name) = schema.map (·.name) ∧
    out.schema.map (·.dtype) ≠ schema.map (·.dtype) := by
  refine ⟨env, arrow, codec, mergeEnv arrow, largeTree, incTable,
    [⟨c!"_hoodie_commit_time", .utf8, false⟩, ⟨c!"name", .utf8, true⟩], large, by decide, by decide +kernel,
    by decide +kernel, by decide +kernel, oneSchema_of (by decide), by decide, by decide, by decide⟩

end Hudi
