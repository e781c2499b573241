import Verif.Lemmas.Answers
import Verif.Props.TableReads

/-! # C49: queries on healthy tables have an answer -/

namespace Hudi
open Spec

/-- **C49, when exactly.**  A query for the file slices as of `ts` through a fresh handle succeeds
exactly when: `ts` is a readable time; the filters are well formed; and the table is `Answerable` for
them. -/
theorem C49_answered_exactly (E : Env) (A : Arrow) (o : Opts) (t0 t : Tree) (tb : Table)
    (hload : Timeline.load E o t0 = .ok tb.timeline) (hwf0 : ∀ n ∈ timelineNames t0, Spec.NormalName n)
    (hwf : TreeWF t) (hnames : ∀ schema, PartitionColumns tb t schema → FieldNames schema)
    (ts tz : Str) (htz : timezoneOf tb.timeline.opts = .ok tz) (filters : List (Str × Str × Str)) :
    (∃ ss, (tb.fileSlicesAsOf E A t ts filters []).2 = .ok ss) ↔
      ∃ T fs schema hive url, Bound E.ltz tz (some ts) (some T) ∧ fromStrTuples filters = .ok fs ∧
        Answerable A tb t ts T fs schema hive url := by
  unfold Table.fileSlicesAsOf
  simp only [Query.bind_lift_snd, fileSlicesInternal_ok]
  have hview : ∀ T fs schema hive url excl p, Bound E.ltz tz (some ts) (some T) →
      PartitionColumns tb t schema → PathStyle tb.opts hive url →
      tb.timeline.replacedAsOf E t ts = .ok excl → Pruner.new A fs schema tb.opts = .ok p →
      ((∃ ss, (viewSlicesAsOf A tb.opts t ts p excl []).2 = .ok ss) ↔
        (Partitioned tb.opts → ∀ v, hmGet c!"hoodie.read.listing.parallelism" tb.opts = some v →
          parseUsize v ≠ some 0) ∧
        (∀ x, PartitionOf tb.opts t x → (Partitioned tb.opts → Kept A schema hive url fs x) →
          Listable (filesOf t x)) ∧
        ∀ x b, PartitionOf tb.opts t x → Kept A schema hive url fs x → CurrentBase t ts x b →
          ¬ ReplacedBy tb.timeline t T x b.fileId → ParquetIn t x b.fileName) := by
    intro T fs schema hive url excl p hT hcol hstyle hex hp
    rw [view_answers hwf]
    simp only [kept_iff hp hstyle (hnames schema hcol), replaced_iff hload hwf0 htz hT hex]
  constructor
  · rintro ⟨ss, fs, hfs, excl, schema, p, h1, h2, h3, h4⟩
    have hT : ∃ T, Bound E.ltz tz (some ts) (some T) := by
      unfold Timeline.replacedAsOf at h1
      obtain ⟨s, hs, _⟩ := Res.bind_eq_ok.1 h1
      obtain ⟨_, _, tz', htz', _, hb⟩ := completedActionsInRange_ok hs
      rw [htz] at htz'; cases htz'
      cases hst : s.stop with
      | none => rw [hst] at hb; exact hb.elim
      | some d => rw [hst] at hb; exact ⟨_, hb⟩
    obtain ⟨T, hT⟩ := hT
    have hcol := (partitionSchema_ok hload hwf0).1 h2
    obtain ⟨⟨hive, url, hstyle⟩, happ⟩ := pruner_ok.1 ⟨p, h3⟩
    obtain ⟨h5, h6, h7⟩ := (hview T fs schema hive url excl p hT hcol hstyle h1 h3).1 ⟨ss, h4⟩
    refine ⟨T, fs, schema, hive, url, hT, hfs, ?_, hcol, hstyle, happ, h5, h6, h7⟩
    intro i hi ha hle
    by_contra hc
    obtain ⟨e, he⟩ := (C21_replaced_file_groups E o t0 t tb.timeline hload hwf0 ts tz T htz hT).2
      ⟨i, ⟨hi, ha, hle⟩, hc⟩
    rw [h1] at he; cases he
  · rintro ⟨T, fs, schema, hive, url, hT, hfs, ha⟩
    obtain ⟨excl, hex, _⟩ := (C21_replaced_file_groups E o t0 t tb.timeline hload hwf0 ts tz T htz hT).1
      (fun i hi => ha.replaced i hi.1 hi.2.1 hi.2.2)
    obtain ⟨p, hp⟩ := pruner_ok.2 ⟨⟨hive, url, ha.style⟩, ha.filters⟩
    obtain ⟨ss, hss⟩ := (hview T fs schema hive url excl p hT ha.columns ha.style hex hp).2
      ⟨ha.parallelism, ha.listable, ha.bases⟩
    exact ⟨ss, fs, hfs, excl, schema, p, hex, (partitionSchema_ok hload hwf0).2 ha.columns, hp, hss⟩

/-- **C49 (partial).**  On a healthy table whose latest completed instant wrote at least one file (so
that the partition columns are known), every query for file slices with a readable timestamp and
filters on partition columns succeeds.  What is missing: tables whose latest instant wrote nothing
(`C49_false`). -/
theorem C49_healthy_table_answers_partial (E : Env) (A : Arrow) (o : Opts) (t0 t : Tree) (tb : Table)
    (hload : Timeline.load E o t0 = .ok tb.timeline) (hwf0 : ∀ n ∈ timelineNames t0, Spec.NormalName n)
    (hwf : TreeWF t) (hh : Healthy tb t) (schema : Schema) (hcol : PartitionColumns tb t schema)
    (hnames : FieldNames schema) (ts tz : Str) (T : Int)
    (htz : timezoneOf tb.timeline.opts = .ok tz) (hT : Bound E.ltz tz (some ts) (some T))
    (filters : List (Str × Str × Str)) (fs : List Filter) (hfs : fromStrTuples filters = .ok fs)
    (happ : ∀ f ∈ fs, Applicable A schema f) :
    ∃ ss, (tb.fileSlicesAsOf E A t ts filters []).2 = .ok ss := by
  obtain ⟨hive, url, hstyle⟩ := hh.style
  refine (C49_answered_exactly E A o t0 t tb hload hwf0 hwf ?_ ts tz htz filters).2
    ⟨T, fs, schema, hive, url, hT, hfs, ?_, hcol, hstyle, happ, fun _ => hh.parallelism,
      fun x hx _ => hh.listable x hx, fun x b hx _ hb _ => hh.bases x b hx hb.1⟩
  · intro s hs
    have h1 := (partitionSchema_ok hload hwf0).2 hs
    have h2 := (partitionSchema_ok hload hwf0).2 hcol
    rw [h1] at h2; cases h2
    exact hnames
  · intro i hi ha _
    obtain ⟨md, h1, _, h3⟩ := hh.docs i hi
    exact ⟨md, h1, h3 ha⟩

/-- **C49, the latest snapshot (partial).**  Missing: as in `C49_healthy_table_answers_partial`. -/
theorem C49_healthy_latest_partial (E : Env) (A : Arrow) (o : Opts) (t0 t : Tree) (tb : Table)
    (hload : Timeline.load E o t0 = .ok tb.timeline) (hwf0 : ∀ n ∈ timelineNames t0, Spec.NormalName n)
    (hwf : TreeWF t) (hh : Healthy tb t)
    (hcol : tb.timeline.completed ≠ [] → ∃ schema, PartitionColumns tb t schema ∧ FieldNames schema) :
    ∃ ss, (tb.fileSlices E A t [] []).2 = .ok ss := by
  unfold Table.fileSlices Timeline.latestTimestamp
  cases hl : tb.timeline.completed.getLast? with
  | none => exact ⟨[], rfl⟩
  | some i =>
    have hmem := List.mem_of_getLast? hl
    obtain ⟨schema, h1, h2⟩ := hcol (fun h => by rw [h] at hmem; cases hmem)
    obtain ⟨tz, htz, _, ⟨f, hf, hp⟩, _⟩ := C05_loaded_timeline E o t0 tb.timeline hload
    obtain ⟨n, _, h'⟩ := List.mem_filterMap.1 (hp.mem_iff.1 hmem)
    obtain ⟨ts, a, dt, _, _, _, hparse, rfl⟩ := (hf n _).1 h'
    have htl : tb.timeline.opts = o := by
      unfold Timeline.load at hload
      obtain ⟨_, _, hload⟩ := Res.bind_eq_ok.1 hload
      obtain ⟨_, _, hload⟩ := Res.bind_eq_ok.1 hload
      have := Res.ok.inj hload
      exact (congrArg Timeline.opts this).symm
    obtain ⟨ss, hss⟩ := C49_healthy_table_answers_partial E A o t0 t tb hload hwf0 hwf hh schema h1 h2 ts tz
      dt.epochMillis (by rw [htl]; exact htz) ⟨dt, hparse, rfl⟩ [] [] rfl (by simp)
    exact ⟨ss, hss⟩

/-- A slice in the answer to a query has a readable base file. -/
theorem slice_has_base {E : Env} {A : Arrow} {tb : Table} {t : Tree} (hwf : TreeWF t) {ts : Str}
    {fs : List Filter} {ss : List FileSlice}
    (h : (tb.fileSlicesInternal E A t ts fs []).2 = .ok ss) {s : FileSlice} (hs : s ∈ ss) :
    ∃ b, ParquetAt t s.basePath b := by
  obtain ⟨excl, schema, p, _, _, _, h4⟩ := fileSlicesInternal_ok.1 h
  obtain ⟨m, r, hm, hr, rfl⟩ := viewSlicesAsOf_ok.1 h4
  obtain ⟨hn, _, _⟩ := listRelevant_ok hwf hm
  have hext : hmExtend [] m = m := hmOfList_eq hn
  rw [hext] at hr
  obtain ⟨l, hl, hsl⟩ := List.mem_flatten.1 hs
  obtain ⟨g, hg, hgl⟩ := (Res.mapL_mem hr l).1 hl
  obtain ⟨_, k, s0, hlast, hload⟩ := (mem_pickGroup hgl s).1 hsl
  obtain ⟨x, gs, hpart, hi, hgs, hgm⟩ := (mem_included hwf hm g).1 hg
  obtain ⟨_, hsp, _⟩ := listFileGroups_spec (hwf.at (pathSegs x)).files_nodup hgs
  obtain ⟨hpp, hsorted, hget⟩ := hsp g hgm
  obtain ⟨e1, _, _⟩ := (mapLastLe_eq_some hsorted).1 hlast
  obtain ⟨b, a1, _, _, rfl⟩ := (hget k s0).1 ((mapGet_eq_some hsorted).2 e1)
  obtain ⟨size, bs, batch, hf⟩ := (loadMetadata_iff hwf (s := ⟨b, _, x⟩) a1).1 ⟨s, hload⟩
  obtain ⟨q1, _, mm, q3, _⟩ := loadMetadata_ok hload
  have hbp : s.basePath = pathPush x b.fileName := by
    unfold FileSlice.basePath FileSlice.relativePathFor
    rw [q1, q3]; rfl
  refine ⟨batch, size, bs, ?_⟩
  rw [hbp, pathSegs_pathPush (baseIn_normal hwf a1).1, fileAt_append]
  exact hf

/-- **C49, reading.**  Whenever the file slices as of `ts` can be listed and none of them has log files
(a copy-on-write table), the snapshot as of `ts` can be read: one batch per slice, with all the rows of
its base file. -/
theorem C49_copy_on_write_reads (E : Env) (A : Arrow) (C : Codec) (M : MergeEnv A) (tb : Table) (t : Tree)
    (hwf : TreeWF t) (hp : PlainStorage tb) (hstart : startOf tb.opts = none) (ts : Str)
    (filters : List (Str × Str × Str)) (ss : List FileSlice)
    (hss : (tb.fileSlicesAsOf E A t ts filters []).2 = .ok ss) (hlog : ∀ s ∈ ss, s.logFiles = []) :
    ∃ outs, (tb.readSnapshotAsOf E A C M t ts filters []).2 = .ok outs ∧
      List.Forall₂ (fun s out => ParquetAt t s.basePath out) ss outs := by
  unfold Table.fileSlicesAsOf at hss
  obtain ⟨fs, hfs, h2⟩ := Query.bind_lift_snd.1 hss
  have hget := hmGet_readerOpts hp [(Cfg.fileGroupEndTimestamp.key, ts)]
    (by intro e he; rw [List.mem_singleton.1 he]; rfl)
  generalize ho : tb.readerOpts [(Cfg.fileGroupEndTimestamp.key, ts)] = ro at hget
  have hs' : startOf ro = none := by
    unfold startOf; rw [hget]
    simp only [List.reverse_singleton, hmGet]
    exact hstart
  obtain ⟨outs, h3, h4⟩ := mapL_forall₂ (f := readFileSlice C A M E.ltz ro t)
    (R := fun s out => ParquetAt t s.basePath out) (xs := ss) (fun s hs => by
      obtain ⟨b, hb⟩ := slice_has_base hwf h2 hs
      refine ⟨b, ?_, hb⟩
      unfold readFileSlice FileSlice.hasLogFile
      rw [hlog s hs]
      exact C33_all_rows A ro t s.basePath b hb (.inl hs'))
  refine ⟨outs, ?_, h4⟩
  unfold Table.readSnapshotAsOf Table.readSnapshotInternal
  rw [Query.bind_lift_snd]
  refine ⟨fs, hfs, ?_⟩
  rw [Query.bind_snd]
  refine ⟨ss, h2, ?_⟩
  rw [ho]
  exact h3

/-- **C49 (partial), reading merge-on-read tables.**  On a healthy table whose latest completed instant
wrote at least one file, a snapshot can be read if, moreover, the log files in it are readable and the
table says how versions are merged.  Missing: as in `C49_healthy_table_answers_partial`. -/
theorem C49_snapshot_reads_partial (E : Env) (A : Arrow) (C : Codec) (M : MergeEnv A) (o : Opts)
    (t0 t : Tree) (tb : Table)
    (hload : Timeline.load E o t0 = .ok tb.timeline) (hwf0 : ∀ n ∈ timelineNames t0, Spec.NormalName n)
    (hwf : TreeWF t) (hh : Healthy tb t) (schema : Schema) (hcol : PartitionColumns tb t schema)
    (hnames : FieldNames schema) (ts tz pre : Str) (d : DateTime)
    (htz : timezoneOf tb.timeline.opts = .ok tz) (htz' : timezoneOf tb.opts = .ok tz)
    (hd : parseDatetime E.ltz ts tz = .ok d)
    (filters : List (Str × Str × Str)) (fs : List Filter) (hfs : fromStrTuples filters = .ok fs)
    (happ : ∀ f ∈ fs, Applicable A schema f)
    (hp : PlainStorage tb) (hm : MergesBy tb.opts pre) (hstart : startOf tb.opts = none)
    (content : FileSlice → Batch × List (List WBlock))
    (hc : ∀ s : FileSlice, SliceFiles C E.ltz tz t ⟨tz, none, some ts, false, true⟩ s (content s).1
      (content s).2 ∧ MergeColumns (content s).1.schema pre ∨
      ∀ ss, (tb.fileSlicesAsOf E A t ts filters []).2 = .ok ss → s ∉ ss) :
    ∃ outs, (tb.readSnapshotAsOf E A C M t ts filters []).2 = .ok outs := by
  obtain ⟨ss, hss⟩ := C49_healthy_table_answers_partial E A o t0 t tb hload hwf0 hwf hh schema hcol hnames ts
    tz d.epochMillis htz ⟨d, hd, rfl⟩ filters fs hfs happ
  obtain ⟨outs, h1, _⟩ := C40_read_snapshot_as_of_partial E A C M tb t ts tz pre filters [] ss hp hm hstart
    htz' ⟨d, hd⟩ hss content (fun s hs => by
      rcases hc s with h | h
      · exact h
      · exact absurd hs (h ss hss))
  exact ⟨outs, h1⟩

/-- **C49, without writes.**  When the document of the latest completed instant records no write, no
query for file slices with any filters, at any time and through any handle, has an answer. -/
theorem C49_no_writes_no_answer (E : Env) (A : Arrow) (o : Opts) (t0 t : Tree) (tb : Table)
    (hload : Timeline.load E o t0 = .ok tb.timeline) (hwf0 : ∀ n ∈ timelineNames t0, Spec.NormalName n)
    (i : Instant) (hi : tb.timeline.completed.getLast? = some i) (md : List (Str × Json))
    (hmd : docOf t i = some md) (hw : jGet c!"partitionToWriteStats" md = some (.obj []))
    (ts : Str) (filters : List (Str × Str × Str)) (c : Cache) (ss : List FileSlice) :
    (tb.fileSlicesAsOf E A t ts filters c).2 ≠ .ok ss ∧ (tb.fileSlices E A t filters c).2 ≠ .ok ss := by
  have hno : ∀ ts fs, (tb.fileSlicesInternal E A t ts fs c).2 ≠ .ok ss := by
    intro ts fs h
    obtain ⟨_, schema, _, _, h2, _⟩ := fileSlicesInternal_ok.1 h
    obtain ⟨i', md', path, b, a1, a2, ⟨_, _, _, _, _, a3, _⟩, _⟩ := (partitionSchema_ok hload hwf0).1 h2
    rw [hi] at a1; cases a1
    rw [hmd] at a2; cases a2
    rw [hw] at a3
    simp at a3
  constructor
  · intro h
    unfold Table.fileSlicesAsOf at h
    obtain ⟨fs, _, h2⟩ := Query.bind_lift_snd.1 h
    exact hno _ _ h2
  · intro h
    unfold Table.fileSlices Timeline.latestTimestamp at h
    rw [hi] at h
    simp only [Option.map_some] at h
    obtain ⟨fs, _, h2⟩ := Query.bind_lift_snd.1 h
    exact hno _ _ h2

namespace Demo

/-- The table of `regionTree` after the partition `us` was deleted: the replacecommit writes nothing
and replaces the one file group of the partition. -/
def deletedHoodie : Tree :=
  .file c!"20240103153000000.commit" 1 (commitDoc c!"eu" c!"f1" c!"f1_0-1-2_20240103153000000.parquet")
  (.file c!"20240104153000000.commit" 1 (commitDoc c!"us" c!"f2" c!"f2_0-1-3_20240104153000000.parquet")
  (.file c!"20240105153000000.replacecommit" 1 (.json (.obj [(c!"operationType", .str c!"delete_partition"),
      (c!"partitionToReplaceFileIds", .obj [(c!"us", .arr [.str c!"f2"])]),
      (c!"partitionToWriteStats", .obj [])])) .nil))

def deletedTree : Tree := .dir c!".hoodie" deletedHoodie (.dir c!"eu" regionEu (.dir c!"us" regionUs .nil))

def deletedTable : Table := ⟨regionOpts, [], ⟨[], [⟨c!"20240103153000000", .commit, .completed, 1704295800000⟩,
    ⟨c!"20240104153000000", .commit, .completed, 1704382200000⟩,
    ⟨c!"20240105153000000", .replaceCommit, .completed, 1704468600000⟩]⟩⟩

end Demo

/-- A parquet file, decidably. -/
def isParquet (e : Option (Nat × Content)) : Bool :=
  match e with
  | some (_, .parquet _ _ _) => true
  | _ => false

theorem parquetIn_of {t : Tree} {x n : Str} (h : isParquet ((t.at (pathSegs x)).file? n) = true) :
    ParquetIn t x n := by
  unfold ParquetIn
  cases hf : (t.at (pathSegs x)).file? n with
  | none => rw [hf] at h; cases h
  | some e =>
    obtain ⟨size, c⟩ := e
    rw [hf] at h
    cases c with
    | parquet k b => exact ⟨_, _, _, _, rfl⟩
    | _ => cases h

theorem Demo.regionOpts_parallelism :
    ∀ v, hmGet c!"hoodie.read.listing.parallelism" Demo.regionOpts = some v → parseUsize v ≠ some 0 := by
  intro v hv; cases hv

/-- The part of `Healthy` that does not concern the timeline. -/
theorem Demo.region_files {t : Tree} (hp : ∀ x, PartitionOf Demo.regionOpts t x ↔ x ∈ [c!"eu", c!"us"])
    (he : t.at [c!"eu"] = Demo.regionEu) (hu : t.at [c!"us"] = Demo.regionUs) :
    (∀ x, PartitionOf Demo.regionOpts t x → Listable (filesOf t x)) ∧
    (∀ x b, PartitionOf Demo.regionOpts t x → BaseIn (filesOf t x) b → ParquetIn t x b.fileName) := by
  have h1 : ∀ x ∈ [c!"eu", c!"us"], ∃ u, t.at (pathSegs x) = u ∧ (u = Demo.regionEu ∨ u = Demo.regionUs) := by
    intro x hx
    simp only [List.mem_cons, List.not_mem_nil, or_false] at hx
    rcases hx with rfl | rfl
    · exact ⟨_, he, .inl rfl⟩
    · exact ⟨_, hu, .inr rfl⟩
  constructor
  · intro x hx
    obtain ⟨u, h2, h3⟩ := h1 x ((hp x).1 hx)
    unfold filesOf
    rw [h2]
    rcases h3 with rfl | rfl
    · exact (listFileGroups_ok_iff Demo.regionOpts Demo.regionEu [] (by decide)).1 ⟨_, rfl⟩
    · exact (listFileGroups_ok_iff Demo.regionOpts Demo.regionUs [] (by decide)).1 ⟨_, rfl⟩
  · intro x b hx hb
    obtain ⟨u, h2, h3⟩ := h1 x ((hp x).1 hx)
    apply parquetIn_of
    unfold filesOf at hb
    rw [h2] at hb ⊢
    rw [← mem_basesOf] at hb
    rcases h3 with rfl | rfl
    · revert b; decide
    · revert b; decide

theorem Demo.commit_readable {p f file : Str} {b : BaseFile} (hb : BaseFile.fromStr file = .ok b)
    (hn : pathFileName (p ++ c!"/" ++ file) = some file) :
    ∃ md, Demo.commitDoc p f file = .json (.obj md) ∧ ReadableDoc md := by
  refine ⟨_, rfl, _, rfl, ?_⟩
  intro e he
  rw [List.mem_singleton.1 he]
  refine ⟨_, rfl, ?_⟩
  intro s hs
  rw [List.mem_singleton.1 hs]
  exact ⟨_, f, rfl, rfl, _, file, b, rfl, pathFileName_iff.1 hn, hb⟩

theorem Demo.region_healthy : Healthy Demo.regionTable Demo.regionTree := by
  obtain ⟨h1, h2⟩ := Demo.region_files (t := Demo.regionTree)
    (partitionOf_mem (by decide) rfl) rfl rfl
  refine ⟨?_, h1, h2, ⟨false, false, rfl, rfl⟩, Demo.regionOpts_parallelism⟩
  intro i hi
  simp only [Demo.regionTable, Demo.regionTimeline, List.mem_cons, List.not_mem_nil, or_false] at hi
  rcases hi with rfl | rfl
  · obtain ⟨md, h3, h4⟩ := Demo.commit_readable (p := c!"eu") (f := c!"f1")
      (file := c!"f1_0-1-2_20240103153000000.parquet") rfl rfl
    cases h3
    exact ⟨_, rfl, h4, fun h => by cases h⟩
  · obtain ⟨md, h3, h4⟩ := Demo.commit_readable (p := c!"us") (f := c!"f2")
      (file := c!"f2_0-1-3_20240104153000000.parquet") rfl rfl
    cases h3
    exact ⟨_, rfl, h4, fun h => by cases h⟩

theorem Demo.deleted_healthy : Healthy Demo.deletedTable Demo.deletedTree := by
  obtain ⟨h1, h2⟩ := Demo.region_files (t := Demo.deletedTree)
    (partitionOf_mem (by decide) rfl) rfl rfl
  refine ⟨?_, h1, h2, ⟨false, false, rfl, rfl⟩, Demo.regionOpts_parallelism⟩
  intro i hi
  simp only [Demo.deletedTable, List.mem_cons, List.not_mem_nil, or_false] at hi
  rcases hi with rfl | rfl | rfl
  · obtain ⟨md, h3, h4⟩ := Demo.commit_readable (p := c!"eu") (f := c!"f1")
      (file := c!"f1_0-1-2_20240103153000000.parquet") rfl rfl
    cases h3
    exact ⟨_, rfl, h4, fun h => by cases h⟩
  · obtain ⟨md, h3, h4⟩ := Demo.commit_readable (p := c!"us") (f := c!"f2")
      (file := c!"f2_0-1-3_20240104153000000.parquet") rfl rfl
    cases h3
    exact ⟨_, rfl, h4, fun h => by cases h⟩
  · refine ⟨_, rfl, ⟨[], rfl, by simp⟩, fun _ => ⟨_, rfl, ?_⟩⟩
    intro e he
    rw [List.mem_singleton.1 he]
    refine ⟨_, rfl, ?_⟩
    intro x hx
    rw [List.mem_singleton.1 hx]
    exact ⟨_, rfl⟩

/-- The hypotheses of C49 are met by the table with two partitions. -/
example : Healthy Demo.regionTable Demo.regionTree ∧
    PartitionColumns Demo.regionTable Demo.regionTree [⟨c!"region", .utf8, true⟩] ∧
    (∀ f ∈ [(⟨c!"region", .eq, c!"us"⟩ : Filter)], Applicable Demo.arrow [⟨c!"region", .utf8, true⟩] f) ∧
    fromStrTuples [(c!"region", c!"=", c!"us")] = .ok [⟨c!"region", .eq, c!"us"⟩] ∧
    PlainStorage Demo.regionTable ∧ startOf Demo.regionOpts = none ∧
    ∃ ss, (Demo.regionTable.fileSlicesAsOf Demo.env Demo.arrow Demo.regionTree c!"20240103153000000" [] []).2
      = .ok ss ∧ (∀ s ∈ ss, s.logFiles = []) ∧ ss.length = 2 := by
  refine ⟨Demo.region_healthy, ?_, ?_, rfl, ⟨by simp [HmNodup, Demo.regionTable], by simp [Demo.regionTable]⟩, rfl, _, rfl, by decide, rfl⟩
  · exact (partitionSchema_ok (o := []) (t0 := Demo.regionTree) (E := Demo.env) rfl (by decide)).1 rfl
  · intro f hf
    rw [List.mem_singleton.1 hf]
    exact ⟨_, _, rfl, .utf8 _⟩

/-- **C49 is false.**  After the deletion of a partition (a replacecommit that writes no file, whose
metadata is well formed), the table is healthy, but its file slices cannot be listed and its records
cannot be read, neither now nor as of an earlier commit; before the deletion, both were possible. -/
theorem C49_false : ∃ (E : Env) (A : Arrow) (C : Codec) (M : MergeEnv A) (o : Opts) (tb : Table) (t : Tree)
    (earlier : Str), TreeWF t ∧ Timeline.load E o t = .ok tb.timeline ∧ Healthy tb t ∧
    earlier ∈ tb.timeline.completed.map Instant.timestamp ∧
    (tb.fileSlices E A t [] []).2 = .err .commitMetadata ∧
    (tb.fileSlicesAsOf E A t earlier [] []).2 = .err .commitMetadata ∧
    (tb.readSnapshot E A C M t [] []).2 = .err .commitMetadata :=
  ⟨Demo.env, Demo.arrow, Demo.codec, Demo.mergeEnv _, [], Demo.deletedTable, Demo.deletedTree,
    c!"20240104153000000", by decide, rfl, Demo.deleted_healthy, by decide, rfl, rfl, rfl⟩

/-- The hypotheses of `C49_no_writes_no_answer` are met by that table. -/
example : ∃ i md, Demo.deletedTable.timeline.completed.getLast? = some i ∧
    docOf Demo.deletedTree i = some md ∧ jGet c!"partitionToWriteStats" md = some (.obj []) :=
  ⟨_, _, rfl, rfl, rfl⟩

end Hudi
