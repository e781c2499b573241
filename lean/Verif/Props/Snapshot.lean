import Verif.Lemmas.Cached
import Verif.Props.Partitions
import Verif.Props.Listing

/-! # C24-C28: partition discovery and snapshots -/

namespace Hudi
open Spec

/-- **C24.**  Partition discovery always succeeds (it terminates on every directory tree), finds no
partition twice, and finds exactly: the root alone if the table is not partitioned; otherwise the leaf
directories that are not below a top-level metadata directory and are not pruned. -/
theorem C24_partitions_are_the_leaf_directories (A : Arrow) (o : Opts) (t : Tree) (p : Pruner)
    (hwf : TreeWF t) :
    ∃ paths, relevantPartitions A o t p = .ok paths ∧ paths.Nodup ∧
      ∀ x, x ∈ paths ↔ PartitionOf o t x ∧ (Partitioned o → p.shouldInclude A x = true) :=
  relevantPartitions_spec A o t p hwf

namespace Demo

def deepTree : Tree :=
  .dir c!".hoodie" (.dir c!"metadata" (.dir c!"files" .nil .nil) .nil)
  (.dir c!"2024" (.dir c!"01" .nil (.file c!"x" 1 .junk (.dir c!"02" (.dir c!"a" .nil .nil) .nil)))
  (.dir c!"_delta_log" .nil
  (.dir c!"2025" .nil .nil)))

end Demo

/-- The partitions of a tree with directories at several depths. -/
example : TreeWF Demo.deepTree ∧ Partitioned Demo.pOpts ∧
    relevantPartitions Demo.arrow Demo.pOpts Demo.deepTree Pruner.empty =
      .ok [c!"2024/01", c!"2024/02/a", c!"2025"] := ⟨by decide, by decide, rfl⟩

theorem pathStyle_of {A : Arrow} {fs : List Filter} {schema : Schema} {o : Opts} {p : Pruner}
    (hp : Pruner.new A fs schema o = .ok p) {hive url : Bool} (hs : PathStyle o hive url) :
    p.hiveStyle = hive ∧ p.urlEncoded = url := by
  obtain ⟨h1, h2⟩ := C29_style_of_the_table A fs schema o p hp
  rw [hs.1] at h1
  rw [hs.2] at h2
  have key : ∀ a b : Bool, some (if a then c!"true" else c!"false") =
      some (if b then c!"true" else c!"false") → b = a := by decide
  exact ⟨key _ _ h1, key _ _ h2⟩

theorem kept_iff {A : Arrow} {fs : List Filter} {schema : Schema} {o : Opts} {p : Pruner}
    (hp : Pruner.new A fs schema o = .ok p) {hive url : Bool} (hs : PathStyle o hive url)
    (hn : FieldNames schema) (path : Str) :
    p.shouldInclude A path = true ↔ Kept A schema hive url fs path := by
  obtain ⟨rfl, rfl⟩ := pathStyle_of hp hs
  have := C29_pruning_is_exact A fs schema o p path hn.1 hp (fun _ => hn.2)
  unfold Kept
  rw [← this]
  simp

theorem replaced_iff {E : Env} {o : Opts} {t0 t : Tree} {tl : Timeline}
    (hload : Timeline.load E o t0 = .ok tl) (hwf : ∀ n ∈ timelineNames t0, Spec.NormalName n)
    {ts tz : Str} {T : Int} (htz : timezoneOf tl.opts = .ok tz)
    (hT : Bound E.ltz tz (some ts) (some T)) {excl : List FileGroup}
    (h : tl.replacedAsOf E t ts = .ok excl) (p f : Str) :
    (∃ g ∈ excl, groupId g = (p, f)) ↔ ReplacedBy tl t T p f := by
  obtain ⟨h1, h2⟩ := C21_replaced_file_groups E o t0 t tl hload hwf ts tz T htz hT
  by_cases hc : ∀ i, ReplacesUpTo tl T i → ∃ md, docOf t i = some md ∧ ReadableReplaced md
  · obtain ⟨gs, h3, _, h4⟩ := h1 hc
    rw [h] at h3; cases h3
    rw [h4]
    constructor
    · rintro ⟨i, ⟨a, b, c⟩, d⟩; exact ⟨i, a, b, c, d⟩
    · rintro ⟨i, a, b, c, d⟩; exact ⟨i, ⟨a, b, c⟩, d⟩
  · obtain ⟨i, hi⟩ := Classical.not_forall.1 hc
    obtain ⟨hi, hn⟩ := Classical.not_imp.1 hi
    obtain ⟨e, he⟩ := h2 ⟨i, hi, hn⟩
    rw [h] at he; cases he

theorem snapshot_internal {E : Env} {A : Arrow} {o : Opts} {t0 t : Tree} {tb : Table}
    (hload : Timeline.load E o t0 = .ok tb.timeline) (hwf0 : ∀ n ∈ timelineNames t0, Spec.NormalName n)
    (hwf : TreeWF t) (hone : ∀ x, PartitionOf tb.opts t x → OneExtension (filesOf t x))
    {ts tz : Str} {T : Int} (htz : timezoneOf tb.timeline.opts = .ok tz)
    (hT : Bound E.ltz tz (some ts) (some T)) {fs : List Filter} {schema : Schema}
    (hschema : tb.partitionSchema t = .ok schema) (hnames : FieldNames schema) {hive url : Bool}
    (hstyle : PathStyle tb.opts hive url) {ss : List FileSlice}
    (hq : (tb.fileSlicesInternal E A t ts fs []).2 = .ok ss) :
    SnapshotOf t (fun x => PartitionOf tb.opts t x ∧ Kept A schema hive url fs x)
      (ReplacedBy tb.timeline t T) ts ss := by
  obtain ⟨excl, schema', p, h1, h2, h3, h4⟩ := fileSlicesInternal_ok.1 hq
  rw [hschema] at h2; cases h2
  have := view_snapshot hwf hone h4
  have hparts : (fun x => PartitionOf tb.opts t x ∧ Kept A schema hive url fs x) =
      (fun x => PartitionOf tb.opts t x ∧ p.shouldInclude A x = true) := by
    funext x
    rw [kept_iff h3 hstyle hnames]
  have hrepl : ReplacedBy tb.timeline t T = (fun x f => ∃ g ∈ excl, groupId g = (x, f)) := by
    funext x f
    rw [replaced_iff hload hwf0 htz hT h1]
  rw [hparts, hrepl]
  exact this

/-- **C25.**  The file slices returned as of `ts` through a fresh handle are exactly the snapshot:
for each file group that has a base file, created at or before `ts`, in a partition that passes the
filters, and that is not replaced as of that time, its latest slice created at or before `ts`, with
exactly the log files written against it; nothing else and nothing twice. -/
theorem C25_snapshot_as_of (E : Env) (A : Arrow) (o : Opts) (t0 t : Tree) (tb : Table)
    (hload : Timeline.load E o t0 = .ok tb.timeline) (hwf0 : ∀ n ∈ timelineNames t0, Spec.NormalName n)
    (hwf : TreeWF t) (hone : ∀ x, PartitionOf tb.opts t x → OneExtension (filesOf t x))
    (ts tz : Str) (T : Int) (htz : timezoneOf tb.timeline.opts = .ok tz)
    (hT : Bound E.ltz tz (some ts) (some T)) (filters : List (Str × Str × Str)) (fs : List Filter)
    (hfs : fromStrTuples filters = .ok fs) (schema : Schema)
    (hschema : tb.partitionSchema t = .ok schema) (hnames : FieldNames schema) (hive url : Bool)
    (hstyle : PathStyle tb.opts hive url) (ss : List FileSlice)
    (hq : (tb.fileSlicesAsOf E A t ts filters []).2 = .ok ss) :
    SnapshotOf t (fun x => PartitionOf tb.opts t x ∧ Kept A schema hive url fs x)
      (ReplacedBy tb.timeline t T) ts ss := by
  unfold Table.fileSlicesAsOf at hq
  obtain ⟨fs', h1, h2⟩ := Query.bind_lift_snd.1 hq
  rw [hfs] at h1; cases h1
  exact snapshot_internal hload hwf0 hwf hone htz hT hschema hnames hstyle h2

/-- **C25, latest snapshot.**  Without a timestamp the snapshot is the one as of the latest completed
instant; a table without completed instants has no slices. -/
theorem C25_latest_snapshot (E : Env) (A : Arrow) (o : Opts) (t0 t : Tree) (tb : Table)
    (hload : Timeline.load E o t0 = .ok tb.timeline) (hwf0 : ∀ n ∈ timelineNames t0, Spec.NormalName n)
    (hwf : TreeWF t) (hone : ∀ x, PartitionOf tb.opts t x → OneExtension (filesOf t x))
    (tz : Str) (htz : timezoneOf tb.timeline.opts = .ok tz)
    (filters : List (Str × Str × Str)) (fs : List Filter)
    (hfs : fromStrTuples filters = .ok fs) (schema : Schema)
    (hschema : tb.partitionSchema t = .ok schema) (hnames : FieldNames schema) (hive url : Bool)
    (hstyle : PathStyle tb.opts hive url) (ss : List FileSlice)
    (hq : (tb.fileSlices E A t filters []).2 = .ok ss) :
    (tb.timeline.completed = [] ∧ ss = []) ∨
    ∃ i, tb.timeline.completed.getLast? = some i ∧
      ∀ T, Bound E.ltz tz (some i.timestamp) (some T) →
        SnapshotOf t (fun x => PartitionOf tb.opts t x ∧ Kept A schema hive url fs x)
          (ReplacedBy tb.timeline t T) i.timestamp ss := by
  unfold Table.fileSlices Timeline.latestTimestamp at hq
  cases hl : tb.timeline.completed.getLast? with
  | none =>
    left
    rw [hl] at hq
    cases hq
    exact ⟨List.getLast?_eq_none_iff.1 hl, rfl⟩
  | some i =>
    right
    rw [hl] at hq
    simp only [Option.map_some] at hq
    obtain ⟨fs', h1, h2⟩ := Query.bind_lift_snd.1 hq
    rw [hfs] at h1; cases h1
    exact ⟨i, rfl, fun T hT => snapshot_internal hload hwf0 hwf hone htz hT hschema hnames hstyle h2⟩

/-- **C26 (partial).**  After any sequence of queries through a table handle, each made against
whatever the storage held at the time, a query as of `ts` answers as a fresh handle does, up to order,
provided every partition in which one of the earlier queries found a base file up to `ts` still exists.
What is missing: such partitions that were removed from the storage in between (`C26_false`). -/
theorem C26_earlier_queries_do_not_matter_partial (E : Env) (A : Arrow) (tb : Table)
    (hist : List Tree) (c : Cache) (hc : CacheAfter E A tb hist c) (hwfs : ∀ t ∈ hist, TreeWF t)
    (t : Tree) (hwf : TreeWF t) (ts : Str) (hkeep : StillThere tb.opts hist t ts)
    (filters : List (Str × Str × Str)) :
    (∀ ss, (tb.fileSlicesAsOf E A t ts filters []).2 = .ok ss →
      ∃ ss', (tb.fileSlicesAsOf E A t ts filters c).2 = .ok ss' ∧ ss.Perm ss') ∧
    (∀ ss', (tb.fileSlicesAsOf E A t ts filters c).2 = .ok ss' →
      ∃ ss, (tb.fileSlicesAsOf E A t ts filters []).2 = .ok ss ∧ ss.Perm ss') := by
  obtain ⟨hn, _⟩ := cacheAfter_keys hc hwfs
  have hk := (sourced_queries hc hwfs).noStale hkeep
  have hn0 : HmNodup ([] : Cache) := by simp [HmNodup]
  unfold Table.fileSlicesAsOf
  constructor
  · intro ss h
    obtain ⟨fs, h1, h2⟩ := Query.bind_lift_snd.1 h
    obtain ⟨ss', h3, h4⟩ := internal_cache_harmless hwf hn0 hn noStale_nil hk h2
    exact ⟨ss', Query.bind_lift_snd.2 ⟨fs, h1, h3⟩, h4⟩
  · intro ss h
    obtain ⟨fs, h1, h2⟩ := Query.bind_lift_snd.1 h
    obtain ⟨ss', h3, h4⟩ := internal_cache_harmless hwf hn hn0 hk noStale_nil h2
    exact ⟨ss', Query.bind_lift_snd.2 ⟨fs, h1, h3⟩, h4.symm⟩

/-- **C26 (partial), latest snapshot.**  Missing: as in `C26_earlier_queries_do_not_matter_partial`. -/
theorem C26_latest_query_partial (E : Env) (A : Arrow) (tb : Table)
    (hist : List Tree) (c : Cache) (hc : CacheAfter E A tb hist c) (hwfs : ∀ t ∈ hist, TreeWF t)
    (t : Tree) (hwf : TreeWF t)
    (hkeep : ∀ i, tb.timeline.completed.getLast? = some i → StillThere tb.opts hist t i.timestamp)
    (filters : List (Str × Str × Str)) :
    (∀ ss, (tb.fileSlices E A t filters []).2 = .ok ss →
      ∃ ss', (tb.fileSlices E A t filters c).2 = .ok ss' ∧ ss.Perm ss') ∧
    (∀ ss', (tb.fileSlices E A t filters c).2 = .ok ss' →
      ∃ ss, (tb.fileSlices E A t filters []).2 = .ok ss ∧ ss.Perm ss') := by
  unfold Table.fileSlices Timeline.latestTimestamp
  cases hl : tb.timeline.completed.getLast? with
  | none =>
    constructor
    · intro ss h; cases h; exact ⟨[], rfl, .refl _⟩
    · intro ss h; cases h; exact ⟨[], rfl, .refl _⟩
  | some i =>
    exact C26_earlier_queries_do_not_matter_partial E A tb hist c hc hwfs t hwf i.timestamp (hkeep i hl) filters

namespace Demo

/-- A base file with two columns. -/
def parquetFile : Content :=
  .parquet 1 ⟨[⟨c!"id", .int true 32, true⟩, ⟨c!"region", .utf8, true⟩],
    [[some (.int 1), some (.str c!"eu")]]⟩

/-- The metadata of a commit that wrote one file. -/
def commitDoc (partition fileId file : Str) : Content :=
  .json (.obj [(c!"partitionToWriteStats", .obj [(partition, .arr [.obj [(c!"fileId", .str fileId),
    (c!"path", .str (partition ++ c!"/" ++ file))]])])])

def regionOpts : Opts := [(c!"hoodie.datasource.write.hive_style_partitioning", c!"false"),
    (c!"hoodie.datasource.write.partitionpath.urlencode", c!"false"),
    (c!"hoodie.table.partition.fields", c!"region")]

/-- A table with two commits: the first wrote a file group in each of two partitions, the second a new
version of one of them. -/
def regionHoodie : Tree :=
  .file c!"20240103153000000.commit" 1 (commitDoc c!"eu" c!"f1" c!"f1_0-1-2_20240103153000000.parquet")
  (.file c!"20240104153000000.commit" 1 (commitDoc c!"us" c!"f2" c!"f2_0-1-3_20240104153000000.parquet")
    .nil)

def regionUs : Tree :=
  .file c!"f2_0-1-2_20240103153000000.parquet" 1 parquetFile
  (.file c!"f2_0-1-3_20240104153000000.parquet" 1 parquetFile
  (.file c!".f2_20240104153000000.log.1_0-1-3" 1 .junk .nil))

def regionEu : Tree := .file c!"f1_0-1-2_20240103153000000.parquet" 1 parquetFile .nil

def regionTree : Tree := .dir c!".hoodie" regionHoodie (.dir c!"eu" regionEu (.dir c!"us" regionUs .nil))

def regionTimeline : Timeline := ⟨[], [⟨c!"20240103153000000", .commit, .completed, 1704295800000⟩,
    ⟨c!"20240104153000000", .commit, .completed, 1704382200000⟩]⟩

def regionTable : Table := ⟨regionOpts, [], regionTimeline⟩

/-- The same table after the partition `eu` was removed. -/
def regionTree' : Tree := .dir c!".hoodie" regionHoodie (.dir c!"us" regionUs .nil)

end Demo

/-- The hypotheses of C25 are met by a table with two partitions; the latest snapshot holds the new
version of the second file group with its log file, the snapshot as of the first commit the old
version, and a filter selects one partition. -/
example : Timeline.load Demo.env [] Demo.regionTree = .ok Demo.regionTimeline ∧
    TreeWF Demo.regionTree ∧
    Demo.regionTable.partitionSchema Demo.regionTree = .ok [⟨c!"region", .utf8, true⟩] ∧
    PathStyle Demo.regionOpts false false ∧
    (∃ ss, (Demo.regionTable.fileSlices Demo.env Demo.arrow Demo.regionTree [] []).2 = .ok ss ∧
      ss.map (fun s => (s.partitionPath, s.baseFile.fileId, s.baseFile.writeToken, s.logFiles.length)) =
        [(c!"eu", c!"f1", c!"0-1-2", 0), (c!"us", c!"f2", c!"0-1-3", 1)]) ∧
    (∃ ss, (Demo.regionTable.fileSlicesAsOf Demo.env Demo.arrow Demo.regionTree c!"20240103153000000"
        [(c!"region", c!"=", c!"us")] []).2 = .ok ss ∧
      ss.map (fun s => (s.partitionPath, s.baseFile.fileId, s.baseFile.writeToken, s.logFiles.length)) =
        [(c!"us", c!"f2", c!"0-1-2", 0)]) :=
  ⟨rfl, by decide, rfl, ⟨rfl, rfl⟩, ⟨_, rfl, by decide⟩, ⟨_, rfl, by decide⟩⟩

example : timezoneOf Demo.regionTimeline.opts = .ok c!"utc" ∧
    Bound Demo.env.ltz c!"utc" (some c!"20240103153000000") (some 1704295800000) := by
  refine ⟨rfl, ?_⟩
  simp only [Bound]
  exact ⟨_, rfl, rfl⟩

example : FieldNames [⟨c!"region", .utf8, true⟩] := by unfold FieldNames; decide

/-- **C26 is false.**  After a first query, the partition `eu` is removed from the storage.  A fresh
handle then answers with the one remaining slice; the handle that made the first query still returns
the slice of the removed partition. -/
theorem C26_false : ∃ (E : Env) (A : Arrow) (tb : Table) (t t' : Tree) (c : Cache),
    TreeWF t ∧ TreeWF t' ∧ CacheAfter E A tb [t] c ∧
    (∃ ss, (tb.fileSlices E A t' [] []).2 = .ok ss ∧ ∀ s ∈ ss, s.partitionPath ≠ c!"eu") ∧
    (∃ ss, (tb.fileSlices E A t' [] c).2 = .ok ss ∧ ∃ s ∈ ss, s.partitionPath = c!"eu") :=
  ⟨Demo.env, Demo.arrow, Demo.regionTable, Demo.regionTree, Demo.regionTree', _, by decide, by decide,
    .query _ (.latest []) .opened, ⟨_, rfl, by decide⟩, ⟨_, rfl, by decide⟩⟩

/-! ## C27: uncommitted data -/

namespace Demo

/-- `regionUs` with the base file of a write at 15:31 that was never committed. -/
def crashedUs : Tree := .file c!"f3_0-9-9_20240103153100000.parquet" 1 parquetFile regionUs

def crashedTree : Tree :=
  .dir c!".hoodie" regionHoodie (.dir c!"eu" regionEu (.dir c!"us" crashedUs .nil))

end Demo

/-- **C27 is false.**  The base file left by a write that never completed (no completed instant has its
timestamp) is returned in the snapshot once a later instant has completed. -/
theorem C27_false : ∃ (E : Env) (A : Arrow) (o : Opts) (tb : Table) (t : Tree) (ss : List FileSlice),
    TreeWF t ∧ Timeline.load E o t = .ok tb.timeline ∧
    (tb.fileSlices E A t [] []).2 = .ok ss ∧
    ∃ s ∈ ss, ∀ i ∈ tb.timeline.completed, i.timestamp ≠ s.baseFile.commitTimestamp :=
  ⟨Demo.env, Demo.arrow, [], Demo.regionTable, Demo.crashedTree, _, by decide, rfl, rfl, by decide⟩

/-- **C27 (partial).**  The latest snapshot shows no base file later than the latest completed
instant, so nothing of a write that started after it and is in flight or crashed.  What is missing:
files of uncommitted writes with earlier timestamps (`C27_false`). -/
theorem C27_nothing_after_the_latest_commit_partial (E : Env) (A : Arrow) (t : Tree) (tb : Table)
    (hwf : TreeWF t) (hone : ∀ x, PartitionOf tb.opts t x → OneExtension (filesOf t x))
    (filters : List (Str × Str × Str)) (ss : List FileSlice)
    (hq : (tb.fileSlices E A t filters []).2 = .ok ss) (s : FileSlice) (hs : s ∈ ss) :
    ∃ i, tb.timeline.completed.getLast? = some i ∧
      (compare s.baseFile.commitTimestamp i.timestamp).isLE := by
  unfold Table.fileSlices Timeline.latestTimestamp at hq
  cases hl : tb.timeline.completed.getLast? with
  | none => rw [hl] at hq; cases hq; cases hs
  | some i =>
    rw [hl] at hq
    simp only [Option.map_some] at hq
    obtain ⟨fs, _, h2⟩ := Query.bind_lift_snd.1 hq
    obtain ⟨excl, schema, p, _, _, _, h6⟩ := fileSlicesInternal_ok.1 h2
    exact ⟨i, rfl, (view_snapshot hwf hone h6).notLater s hs⟩

/-- **C27 (partial), as of a timestamp.**  If every base file on the storage up to `ts` was written by
an instant that is completed (failed writes were cleaned up), so was every slice returned.  Missing: as in
`C27_nothing_after_the_latest_commit_partial`. -/
theorem C27_only_committed_if_cleaned_partial (E : Env) (A : Arrow) (t : Tree) (tb : Table)
    (hwf : TreeWF t) (hone : ∀ x, PartitionOf tb.opts t x → OneExtension (filesOf t x)) (ts : Str)
    (hclean : ∀ x b, PartitionOf tb.opts t x → BaseIn (filesOf t x) b →
      (compare b.commitTimestamp ts).isLE →
      ∃ i ∈ tb.timeline.completed, i.timestamp = b.commitTimestamp)
    (filters : List (Str × Str × Str)) (ss : List FileSlice)
    (hq : (tb.fileSlicesAsOf E A t ts filters []).2 = .ok ss) (s : FileSlice) (hs : s ∈ ss) :
    ∃ i ∈ tb.timeline.completed, i.timestamp = s.baseFile.commitTimestamp ∧
      (compare i.timestamp ts).isLE := by
  obtain ⟨fs, _, h2⟩ := Query.bind_lift_snd.1 hq
  obtain ⟨excl, schema, p, _, _, _, h6⟩ := fileSlicesInternal_ok.1 h2
  have hsnap := view_snapshot hwf hone h6
  obtain ⟨hp, _, b, m, hb, heq⟩ := hsnap.sound s hs
  have hle := hsnap.notLater s hs
  have hts : s.baseFile.commitTimestamp = b.commitTimestamp := by rw [heq]
  rw [hts] at hle ⊢
  obtain ⟨i, hi, he⟩ := hclean _ b hp.1 hb hle
  exact ⟨i, hi, he, by rw [he]; exact hle⟩

/-! ## C28: time travel -/

theorem baseIn_of_files {F F' : List (Str × Nat)} (h : ∀ f ∈ F, f ∈ F') {b : BaseFile}
    (hb : BaseIn F b) : BaseIn F' b := by
  obtain ⟨n, k, h1, h2⟩ := hb
  exact ⟨n, k, h _ h1, h2⟩

theorem logIn_of_files {F F' : List (Str × Nat)} (h : ∀ f ∈ F, f ∈ F') {l : LogFile}
    (hl : LogIn F l) : LogIn F' l := by
  obtain ⟨n, k, h1, h2⟩ := hl
  exact ⟨n, k, h _ h1, h2⟩

theorem str_le_antisymm {a b : Str} (h1 : (compare a b).isLE) (h2 : (compare b a).isLE) : a = b :=
  Std.LawfulEqCmp.eq_of_compare (Std.OrientedCmp.isLE_antisymm h1 h2)

/-- **C28 (partial).**  The snapshots as of `ts` before and after any later activity that only adds
later base files, later instants, log files and partitions hold the same file groups with the same
base files; a slice's log files are kept, and any it gained is a new file.  What is missing: that the
records read from the new log files are later than `ts` (the read filters their blocks by time, see
C36 and C40), and that a query keeps succeeding. -/
theorem C28_time_travel_partial (E : Env) (A : Arrow) (o : Opts) (t0 t0' t t' : Tree) (tb tb' : Table)
    (hload : Timeline.load E o t0 = .ok tb.timeline) (hwf0 : ∀ n ∈ timelineNames t0, Spec.NormalName n)
    (hload' : Timeline.load E o t0' = .ok tb'.timeline) (hwf0' : ∀ n ∈ timelineNames t0', Spec.NormalName n)
    (hopts : tb'.opts = tb.opts) (hwf : TreeWF t) (hwf' : TreeWF t')
    (hone : ∀ x, PartitionOf tb.opts t x → OneExtension (filesOf t x))
    (hone' : ∀ x, PartitionOf tb.opts t' x → OneExtension (filesOf t' x))
    (ts tz : Str) (T : Int) (htz : timezoneOf tb.timeline.opts = .ok tz)
    (htz' : timezoneOf tb'.timeline.opts = .ok tz)
    (hT : Bound E.ltz tz (some ts) (some T))
    (hlater : OnlyLater tb.opts ts T tb.timeline tb'.timeline t t') (schema : Schema)
    (hschema : tb.partitionSchema t = .ok schema) (hschema' : tb'.partitionSchema t' = .ok schema)
    (filters : List (Str × Str × Str)) (ss ss' : List FileSlice)
    (hq : (tb.fileSlicesAsOf E A t ts filters []).2 = .ok ss)
    (hq' : (tb'.fileSlicesAsOf E A t' ts filters []).2 = .ok ss') :
    (∀ s ∈ ss, ∃ s' ∈ ss', SameOrGrown t t' s s') ∧ (∀ s' ∈ ss', ∃ s ∈ ss, SameOrGrown t t' s s') := by
  obtain ⟨fs, hfs, h2⟩ := Query.bind_lift_snd.1 hq
  obtain ⟨fs', hfs', h2'⟩ := Query.bind_lift_snd.1 hq'
  rw [hfs] at hfs'; cases hfs'
  obtain ⟨excl, sc, p, h3, h4, h5, h6⟩ := fileSlicesInternal_ok.1 h2
  obtain ⟨excl', sc', p', h3', h4', h5', h6'⟩ := fileSlicesInternal_ok.1 h2'
  rw [hschema] at h4; cases h4
  rw [hschema'] at h4'; cases h4'
  rw [hopts] at h5' h6'
  rw [h5] at h5'; cases h5'
  have hS := view_snapshot hwf hone h6
  have hS' := view_snapshot hwf' hone' h6'
  have hrep : ∀ x f, (∃ g ∈ excl, groupId g = (x, f)) ↔ ∃ g ∈ excl', groupId g = (x, f) := by
    intro x f
    rw [replaced_iff hload hwf0 htz hT h3, replaced_iff hload' hwf0' htz' hT h3']
    constructor
    · rintro ⟨i, hi, ha, hle, md, hd, hr⟩
      obtain ⟨hi', hd'⟩ := hlater.instants i hi
      exact ⟨i, hi', ha, hle, md, by rw [hd', hd], hr⟩
    · rintro ⟨i, hi, ha, hle, md, hd, hr⟩
      have hi' := hlater.newInstants i hi hle
      exact ⟨i, hi', ha, hle, md, by rw [← (hlater.instants i hi').2, hd], hr⟩
  -- slices of one file group in the two snapshots
  have key : ∀ s ∈ ss, ∀ s' ∈ ss', s.partitionPath = s'.partitionPath →
      s.baseFile.fileId = s'.baseFile.fileId → SameOrGrown t t' s s' := by
    intro s hs s' hs' hpath hfid
    obtain ⟨⟨hp, hi⟩, _, b, m, hb, heq⟩ := hS.sound s hs
    obtain ⟨⟨hp', hi'⟩, _, b', m', hb', heq'⟩ := hS'.sound s' hs'
    rw [← hpath] at hp' hb'
    have hfiles := hlater.files _ hp
    have hbin : BaseIn (filesOf t' s.partitionPath) b := baseIn_of_files hfiles hb
    have eb : s.baseFile.commitTimestamp = b.commitTimestamp := by rw [heq]
    have eb' : s'.baseFile.commitTimestamp = b'.commitTimestamp := by rw [heq']
    have ef : s.baseFile.fileId = b.fileId := by rw [heq]
    have ef' : s'.baseFile.fileId = b'.fileId := by rw [heq']
    have hle := hS.notLater s hs
    have hle' := hS'.notLater s' hs'
    have hlat := hS.latest s hs
    have hlat' := hS'.latest s' hs'
    rw [← hpath] at hlat'
    rw [eb] at hle hlat
    rw [eb'] at hle' hlat'
    obtain ⟨_, hbt⟩ := hlater.newBases _ b' hp' hb' hle'
    have hts : b.commitTimestamp = b'.commitTimestamp :=
      str_le_antisymm (hlat' b hbin (by rw [← ef, hfid]) hle)
        (hlat b' hbt (by rw [← ef', hfid]) hle')
    have hlist := view_listable hwf' h6' s.partitionPath hp' hi
    have : b = b' := hlist.unique b b' hbin hb' (by rw [← ef, hfid, ef']) hts
    subst this
    refine ⟨hpath, ⟨b, m, m', hb, hbin, heq, heq'⟩, ?_, ?_⟩
    · intro l hl
      obtain ⟨l1, l2, l3⟩ := (hS.logs s hs l).1 hl
      rw [hS'.logs s' hs' l, ← hpath, ← hfid, eb', ← eb]
      exact ⟨logIn_of_files hfiles l1, l2, l3⟩
    · intro l hl
      by_cases hn : LogIn (filesOf t s.partitionPath) l
      · left
        obtain ⟨l1, l2, l3⟩ := (hS'.logs s' hs' l).1 hl
        rw [hS.logs s hs l, hfid, eb, ← eb']
        exact ⟨hn, l2, l3⟩
      · exact .inr hn
  constructor
  · intro s hs
    obtain ⟨⟨hp, hi⟩, hnr, b, m, hb, heq⟩ := hS.sound s hs
    have ef : s.baseFile.fileId = b.fileId := by rw [heq]
    have hle := hS.notLater s hs
    rw [show s.baseFile.commitTimestamp = b.commitTimestamp by rw [heq]] at hle
    obtain ⟨s', hs', e1, e2⟩ := hS'.complete s.partitionPath ⟨hlater.partitions _ hp, hi⟩ b
      (baseIn_of_files (hlater.files _ hp) hb) hle (by rw [← hrep, ← ef]; exact hnr)
    exact ⟨s', hs', key s hs s' hs' e1.symm (by rw [e2, ef])⟩
  · intro s' hs'
    obtain ⟨⟨hp', hi⟩, hnr, b, m, hb, heq⟩ := hS'.sound s' hs'
    have ef : s'.baseFile.fileId = b.fileId := by rw [heq]
    have hle := hS'.notLater s' hs'
    rw [show s'.baseFile.commitTimestamp = b.commitTimestamp by rw [heq]] at hle
    obtain ⟨hp, hbt⟩ := hlater.newBases _ b hp' hb hle
    obtain ⟨s, hs, e1, e2⟩ := hS.complete s'.partitionPath ⟨hp, hi⟩ b hbt hle
      (by rw [hrep, ← ef]; exact hnr)
    exact ⟨s, hs, key s hs s' hs' e1 (by rw [e2, ef])⟩

namespace Demo

/-- The table of `regionTree` before its second commit. -/
def regionTree0 : Tree :=
  .dir c!".hoodie" (.file c!"20240103153000000.commit" 1
    (commitDoc c!"eu" c!"f1" c!"f1_0-1-2_20240103153000000.parquet") .nil)
  (.dir c!"eu" regionEu
  (.dir c!"us" (.file c!"f2_0-1-2_20240103153000000.parquet" 1 parquetFile .nil) .nil))

def regionTable0 : Table :=
  ⟨regionOpts, [], ⟨[], [⟨c!"20240103153000000", .commit, .completed, 1704295800000⟩]⟩⟩

end Demo

theorem partitionOf_mem {o : Opts} {t : Tree} {paths : List Str} (hwf : TreeWF t)
    (h : relevantPartitions Demo.arrow o t Pruner.empty = .ok paths) (x : Str) :
    PartitionOf o t x ↔ x ∈ paths := by
  obtain ⟨paths', h1, _, h2⟩ := relevantPartitions_spec Demo.arrow o t Pruner.empty hwf
  rw [h] at h1; cases h1
  rw [h2]
  exact ⟨fun hx => ⟨hx, fun _ => include_of_isEmpty rfl x⟩, fun hx => hx.1⟩

/-- The hypotheses of C28 are met by the table before and after its second commit, for the snapshot as
of the first. -/
example : OnlyLater Demo.regionOpts c!"20240103153000000" 1704295800000 Demo.regionTable0.timeline
    Demo.regionTable.timeline Demo.regionTree0 Demo.regionTree ∧
    (∀ x, PartitionOf Demo.regionOpts Demo.regionTree x → OneExtension (filesOf Demo.regionTree x)) := by
  have hp : ∀ x, PartitionOf Demo.regionOpts Demo.regionTree0 x ↔ x ∈ [c!"eu", c!"us"] :=
    partitionOf_mem (by decide) rfl
  have hp' : ∀ x, PartitionOf Demo.regionOpts Demo.regionTree x ↔ x ∈ [c!"eu", c!"us"] :=
    partitionOf_mem (by decide) rfl
  refine ⟨⟨?_, ?_, ?_, ?_, ?_⟩, ?_⟩
  · intro x; rw [hp, hp']; exact id
  · intro x; rw [hp]; revert x; decide
  · intro x b; rw [hp, hp', ← mem_basesOf, ← mem_basesOf]
    intro hx
    revert b
    revert x
    decide
  · intro i hi
    obtain rfl : i = ⟨c!"20240103153000000", .commit, .completed, 1704295800000⟩ := by
      simpa [Demo.regionTable0] using hi
    exact ⟨by decide, rfl⟩
  · decide
  · intro x; rw [hp']
    intro hx
    refine oneExtension_of ?_
    revert x
    decide

example : Timeline.load Demo.env [] Demo.regionTree0 = .ok Demo.regionTable0.timeline ∧
    Demo.regionTable0.partitionSchema Demo.regionTree0 = .ok [⟨c!"region", .utf8, true⟩] ∧
    ∃ ss ss', (Demo.regionTable0.fileSlicesAsOf Demo.env Demo.arrow Demo.regionTree0
        c!"20240103153000000" [] []).2 = .ok ss ∧
      (Demo.regionTable.fileSlicesAsOf Demo.env Demo.arrow Demo.regionTree
        c!"20240103153000000" [] []).2 = .ok ss' ∧ ss.length = 2 ∧ ss'.length = 2 :=
  ⟨rfl, rfl, _, _, rfl, rfl, rfl, rfl⟩

/-- `regionTree0` while a write was adding the partition `jp`. -/
def Demo.regionTreeJp : Tree :=
  .dir c!".hoodie" (.file c!"20240103153000000.commit" 1
    (commitDoc c!"eu" c!"f1" c!"f1_0-1-2_20240103153000000.parquet") .nil)
  (.dir c!"eu" regionEu
  (.dir c!"jp" (.file c!"f4_0-1-2_20240103160000000.parquet" 1 parquetFile .nil)
  (.dir c!"us" (.file c!"f2_0-1-2_20240103153000000.parquet" 1 parquetFile .nil) .nil)))

/-- The hypotheses of C26 are met by a handle that was opened before the second commit was made and was used
while the partition `jp` of a write was there, which has disappeared since. -/
example : ∃ c : Cache, c.map Prod.fst = [c!"eu", c!"us", c!"jp"] ∧
    CacheAfter Demo.env Demo.arrow Demo.regionTable0 [Demo.regionTreeJp, Demo.regionTree0] c ∧
    (∀ t' ∈ [Demo.regionTreeJp, Demo.regionTree0], TreeWF t') ∧
    StillThere Demo.regionOpts [Demo.regionTreeJp, Demo.regionTree0] Demo.regionTree c!"20240103153000000" ∧
    ¬ PartitionOf Demo.regionOpts Demo.regionTree c!"jp" := by
  have hp : ∀ x, PartitionOf Demo.regionOpts Demo.regionTree x ↔ x ∈ [c!"eu", c!"us"] :=
    partitionOf_mem (by decide) rfl
  have hj : ∀ x, PartitionOf Demo.regionOpts Demo.regionTreeJp x ↔ x ∈ [c!"eu", c!"jp", c!"us"] :=
    partitionOf_mem (by decide) rfl
  refine ⟨_, ?_, .query _ (.latest []) (.query _ (.asOf c!"20240103153000000" []) .opened), by decide, ?_, ?_⟩
  · decide +kernel
  · intro t' ht'
    rcases List.mem_cons.1 ht' with rfl | ht'
    · intro x hx b
      rw [hj] at hx
      rw [hp, ← mem_basesOf]
      revert b
      revert x
      decide
    · obtain rfl : t' = Demo.regionTree0 := by simpa using ht'
      intro x hx _ _ _
      rw [partitionOf_mem (paths := [c!"eu", c!"us"]) (by decide) rfl] at hx
      exact (hp x).2 hx
  · rw [hp]; decide

end Hudi
