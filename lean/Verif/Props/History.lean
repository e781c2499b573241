import Verif.Lemmas.Stored

/-!
# Properties: snapshots and commit histories

The queries are compared with the simple model of a table in `Verif/Spec/History.lean`.
-/

namespace Hudi
open Spec

/-- **C50 (partial).**  For every history of commits that write base files (inserts, updates,
compactions), append to log files, and replace file groups, and every storage that holds what they
wrote: the file slices returned as of `ts` are exactly the file groups of the table as of `ts`, each
once, with the base file and the log files of its version.  A log file's name does not say when it was
written, so log files appended to later show too (`shownAt`); missing: without those
(`C50_false`). -/
theorem C50_slices_as_of_partial (E : Env) (A : Arrow) (o : Opts) (t : Tree) (tb : Table)
    (hload : Timeline.load E o t = .ok tb.timeline) (hwf : TreeWF t) (hmono : MonotoneTz E.ltz)
    (tz : Str) (htz : timezoneOf tb.timeline.opts = .ok tz) (h : History) (n : Nat) (hw : h.WF n)
    (hst : Stores E.ltz tz tb.opts t h) (ts : Str) (T : Int) (hts : WriterTimestamp ts ∧ ts.length = n)
    (hT : Bound E.ltz tz (some ts) (some T)) (filters : List (Str × Str × Str)) (fs : List Filter)
    (hfs : fromStrTuples filters = .ok fs) (schema : Schema)
    (hschema : tb.partitionSchema t = .ok schema) (hnames : FieldNames schema) (hive url : Bool)
    (hstyle : PathStyle tb.opts hive url) (ss : List FileSlice)
    (hq : (tb.fileSlicesAsOf E A t ts filters []).2 = .ok ss) :
    ShowsTable (shownAt h ts) (Kept A schema hive url fs) ss :=
  snapshot_history hload htz hmono hw hst hts hT
    (C25_snapshot_as_of E A o t t tb hload (timelineNames_normal hwf) hwf
      (fun _ hx => stored_oneExtension hwf hw hst hx) ts tz T htz hT filters fs hfs schema hschema hnames
      hive url hstyle ss hq)

/-- **C50 for tables without log files.**  If no commit appends to a log file (copy-on-write tables),
the file slices as of any time are exactly the table as of that time. -/
theorem C50_copy_on_write (E : Env) (A : Arrow) (o : Opts) (t : Tree) (tb : Table)
    (hload : Timeline.load E o t = .ok tb.timeline) (hwf : TreeWF t) (hmono : MonotoneTz E.ltz)
    (tz : Str) (htz : timezoneOf tb.timeline.opts = .ok tz) (h : History) (n : Nat) (hw : h.WF n)
    (hst : Stores E.ltz tz tb.opts t h) (ts : Str) (T : Int) (hts : WriterTimestamp ts ∧ ts.length = n)
    (hT : Bound E.ltz tz (some ts) (some T)) (filters : List (Str × Str × Str)) (fs : List Filter)
    (hfs : fromStrTuples filters = .ok fs) (schema : Schema)
    (hschema : tb.partitionSchema t = .ok schema) (hnames : FieldNames schema) (hive url : Bool)
    (hstyle : PathStyle tb.opts hive url)
    (hlater : ∀ c ∈ h, compare ts c.ts = .lt → ∀ k ls, (k, Change.append ls) ∉ c.changes)
    (ss : List FileSlice) (hq : (tb.fileSlicesAsOf E A t ts filters []).2 = .ok ss) :
    ShowsTable (tableAt h ts) (Kept A schema hive url fs) ss := by
  have := C50_slices_as_of_partial E A o t tb hload hwf hmono tz htz h n hw hst ts T hts hT filters fs hfs
    schema hschema hnames hive url hstyle ss hq
  have he : shownAt h ts = tableAt h ts := by
    funext k
    unfold shownAt
    have hnil : appendsUntilWrite (h.filter (fun c => (compare c.ts ts).isGT)) k = [] := by
      rw [List.eq_nil_iff_forall_not_mem]
      intro l hl
      obtain ⟨a, c, b, ls, h1, _, h3, _⟩ := mem_appends.1 hl
      have hc : c ∈ h.filter (fun c => (compare c.ts ts).isGT) := by rw [h1]; simp
      obtain ⟨hc1, hc2⟩ := List.mem_filter.1 hc
      refine hlater c hc1 ?_ k ls (changeOf_mem h3)
      rw [Std.OrientedCmp.eq_swap (cmp := (compare : Str → Str → Ordering))]
      revert hc2
      cases compare c.ts ts <;> simp
    rw [hnil]
    cases tableAt h ts k <;> simp
  rw [← he]
  exact this

/-- **C50, the latest snapshot.**  Without a timestamp the file slices are exactly the table after the
whole history, log files included. -/
theorem C50_latest_slices (E : Env) (A : Arrow) (o : Opts) (t : Tree) (tb : Table)
    (hload : Timeline.load E o t = .ok tb.timeline) (hwf : TreeWF t) (hmono : MonotoneTz E.ltz)
    (tz : Str) (htz : timezoneOf tb.timeline.opts = .ok tz) (h : History) (n : Nat) (hw : h.WF n)
    (hst : Stores E.ltz tz tb.opts t h) (filters : List (Str × Str × Str)) (fs : List Filter)
    (hfs : fromStrTuples filters = .ok fs) (schema : Schema)
    (hschema : tb.partitionSchema t = .ok schema) (hnames : FieldNames schema) (hive url : Bool)
    (hstyle : PathStyle tb.opts hive url) (ss : List FileSlice)
    (hq : (tb.fileSlices E A t filters []).2 = .ok ss) :
    ShowsTable (versionAfter h) (Kept A schema hive url fs) ss := by
  obtain ⟨h1, h2, h3⟩ := stored_timeline hload htz hw hst
  rcases C25_latest_snapshot E A o t t tb hload (timelineNames_normal hwf) hwf
      (fun _ hx => stored_oneExtension hwf hw hst hx) tz htz filters fs hfs schema hschema hnames
      hive url hstyle ss hq with ⟨hnil, rfl⟩ | ⟨i, hi, hsnap⟩
  · have hh : h = [] := by
      rw [List.eq_nil_iff_forall_not_mem]
      intro c hc
      obtain ⟨d, _, hm⟩ := h2 c hc
      rw [hnil] at hm; cases hm
    subst hh
    exact ⟨.nil, by simp [versionAfter], by simp⟩
  · obtain ⟨c0, hc0, d0, hd0, rfl⟩ := h1 i (List.mem_of_getLast? hi)
    have hT : Bound E.ltz tz (some c0.ts) (some d0.epochMillis) := ⟨d0, hd0, rfl⟩
    have hall : ∀ c ∈ h, (compare c.ts c0.ts).isLE = true := by
      intro c hc
      obtain ⟨d, hd, hm⟩ := h2 c hc
      obtain ⟨q1, q2⟩ := hw.times c hc
      obtain ⟨r1, r2⟩ := hw.times c0 hc0
      rw [C04_same_width_partial E.ltz hmono tz _ _ _ _ q1 r1 (by rw [q2, r2]) hd hd0, Int.isLE_compare]
      obtain ⟨ys, hys⟩ := List.getLast?_eq_some_iff.1 hi
      rw [hys] at hm h3
      rcases List.mem_append.1 hm with hm | hm
      · exact (List.pairwise_append.1 h3).2.2 _ hm _ (List.mem_singleton_self _)
      · have := congrArg Instant.epochMillis (List.mem_singleton.1 hm)
        exact Int.le_of_eq this
    have := snapshot_history hload htz hmono hw hst (hw.times c0 hc0) hT (hsnap _ hT)
    have he : shownAt h c0.ts = versionAfter h := by
      funext k
      unfold shownAt tableAt
      have e1 : h.filter (fun c => (compare c.ts c0.ts).isLE) = h := List.filter_eq_self.2 hall
      have e2 : h.filter (fun c => (compare c.ts c0.ts).isGT) = [] := by
        rw [List.filter_eq_nil_iff]
        intro c hc
        have := hall c hc
        revert this
        cases compare c.ts c0.ts <;> simp
      rw [e1, e2]
      cases versionAfter h k <;> simp [appendsUntilWrite]
    rw [← he]
    exact this

/-- **C50, with an answer (partial).**  If moreover the metadata of the replacecommits is readable, the
latest commit wrote a file from which the partition columns are known, the base files are parquet
files and the options say how partition paths are written, then there is an answer.  Missing: as in
`C50_slices_as_of_partial`. -/
theorem C50_answered_partial (E : Env) (A : Arrow) (o : Opts) (t : Tree) (tb : Table)
    (hload : Timeline.load E o t = .ok tb.timeline) (hwf : TreeWF t) (hmono : MonotoneTz E.ltz)
    (tz : Str) (htz : timezoneOf tb.timeline.opts = .ok tz) (h : History) (n : Nat) (hw : h.WF n)
    (hst : Stores E.ltz tz tb.opts t h) (ts : Str) (T : Int) (hts : WriterTimestamp ts ∧ ts.length = n)
    (hT : Bound E.ltz tz (some ts) (some T)) (filters : List (Str × Str × Str)) (fs : List Filter)
    (hfs : fromStrTuples filters = .ok fs) (schema : Schema) (hcol : PartitionColumns tb t schema)
    (hnames : FieldNames schema) (happ : ∀ f ∈ fs, Applicable A schema f) (hive url : Bool)
    (hstyle : PathStyle tb.opts hive url)
    (hpar : ∀ v, hmGet c!"hoodie.read.listing.parallelism" tb.opts = some v → parseUsize v ≠ some 0)
    (hdocs : ∀ i ∈ tb.timeline.completed, i.action = .replaceCommit →
      ∃ md, docOf t i = some md ∧ ReadableReplaced md)
    (hbase : ∀ c ∈ h, ∀ x f token, ((x, f), Change.write token) ∈ c.changes →
      ParquetIn t x (baseName f token c.ts)) :
    ∃ ss, (tb.fileSlicesAsOf E A t ts filters []).2 = .ok ss ∧
      ShowsTable (shownAt h ts) (Kept A schema hive url fs) ss := by
  have hwf0 := timelineNames_normal hwf
  have hschema := (partitionSchema_ok hload hwf0).2 hcol
  obtain ⟨ss, hss⟩ := (C49_answered_exactly E A o t t tb hload hwf0 hwf (fun s hs => by
      have := (partitionSchema_ok hload hwf0).2 hs
      rw [hschema] at this; cases this
      exact hnames) ts tz htz filters).2
    ⟨T, fs, schema, hive, url, hT, hfs, fun i hi ha _ => hdocs i hi ha, hcol, hstyle, happ, fun _ => hpar,
      fun x hx _ => stored_listable hwf hw hst hx, fun x b hx _ hb _ => by
        obtain ⟨c, hc, hch, hct, hext, _⟩ := stored_base hw hst hx hb.1
        have := hbase c hc x b.fileId b.writeToken (changeOf_mem hch)
        have he : b.fileName = baseName b.fileId b.writeToken c.ts := by
          unfold BaseFile.fileName baseName; rw [hext, hct]; simp
        rw [he]; exact this⟩
  exact ⟨ss, hss, C50_slices_as_of_partial E A o t tb hload hwf hmono tz htz h n hw hst ts T hts hT filters fs hfs
    schema hschema hnames hive url hstyle ss hss⟩

/-! ## A history -/

/-- The names that the history puts into partitions. -/
def recordedNames (before : History) : History → List (Str × Str)
  | [] => []
  | c :: h => c.changes.flatMap (fun e => match e.2 with
      | .write token => [(e.1.1, baseName e.1.2 token c.ts)]
      | .append ls => match versionAfter before e.1 with
        | some v => ls.map (fun l => (e.1.1, logName e.1.2 v.base l.1 l.2))
        | none => []
      | .replace => []) ++ recordedNames (before ++ [c]) h

theorem mem_recordedNames {h before : History} {x n : Str} :
    (x, n) ∈ recordedNames before h ↔ ∃ h1 c h2 f, h = h1 ++ c :: h2 ∧
      ((∃ token, ((x, f), Change.write token) ∈ c.changes ∧ n = baseName f token c.ts) ∨
       (∃ ls l v, ((x, f), Change.append ls) ∈ c.changes ∧ l ∈ ls ∧
          versionAfter (before ++ h1) (x, f) = some v ∧ n = logName f v.base l.1 l.2)) := by
  induction h generalizing before with
  | nil => simp [recordedNames]
  | cons c h ih =>
    simp only [recordedNames, List.mem_append, ih]
    constructor
    · rintro (hm | ⟨h1, d, h2, f, rfl, hr⟩)
      · obtain ⟨⟨⟨y, f⟩, ch⟩, he, hm⟩ := List.mem_flatMap.1 hm
        refine ⟨[], c, h, f, rfl, ?_⟩
        cases ch with
        | write tok =>
          obtain ⟨rfl, rfl⟩ := Prod.mk.inj (List.mem_singleton.1 hm)
          exact .inl ⟨tok, he, rfl⟩
        | replace => cases hm
        | append ls =>
          simp only at hm
          cases hv : versionAfter before (y, f) with
          | none => rw [hv] at hm; cases hm
          | some v =>
            rw [hv] at hm
            obtain ⟨l, hl, hm⟩ := List.mem_map.1 hm
            obtain ⟨rfl, rfl⟩ := Prod.mk.inj hm
            exact .inr ⟨ls, l, v, he, hl, by simpa using hv, rfl⟩
      · exact ⟨c :: h1, d, h2, f, rfl, by simpa using hr⟩
    · rintro ⟨h1, d, h2, f, he, hr⟩
      cases h1 with
      | nil =>
        cases he
        left
        refine List.mem_flatMap.2 ?_
        rcases hr with ⟨tok, hm, rfl⟩ | ⟨ls, l, v, hm, hl, hv, rfl⟩
        · exact ⟨_, hm, by simp⟩
        · refine ⟨_, hm, ?_⟩
          rw [List.append_nil] at hv
          simp only [hv, List.mem_map]
          exact ⟨l, hl, rfl⟩
      | cons c' h1 =>
        cases he
        exact .inr ⟨h1, d, h2, f, rfl, by simpa using hr⟩

theorem recorded_iff {h : History} {x n : Str} : Recorded h x n ↔ (x, n) ∈ recordedNames [] h := by
  rw [mem_recordedNames]; rfl

namespace Demo

/-- An insert of two file groups; a delta commit to one of them; its compaction; a replacecommit that
replaces the other one by a new one; another delta commit. -/
def history : History :=
  [⟨c!"20240101000000000", .commit, [((c!"eu", c!"f1"), .write c!"0-1-1"), ((c!"us", c!"f2"), .write c!"0-1-2")]⟩,
   ⟨c!"20240102000000000", .deltaCommit, [((c!"us", c!"f2"), .append [(c!"1", c!"0-2-1")])]⟩,
   ⟨c!"20240103000000000", .commit, [((c!"us", c!"f2"), .write c!"0-3-1")]⟩,
   ⟨c!"20240104000000000", .replaceCommit, [((c!"eu", c!"f1"), .replace), ((c!"eu", c!"f3"), .write c!"0-4-1")]⟩,
   ⟨c!"20240105000000000", .deltaCommit, [((c!"us", c!"f2"), .append [(c!"1", c!"0-5-1"), (c!"2", c!"0-5-1")])]⟩]

def historyHoodie : Tree :=
  .file c!"hoodie.properties" 1 .junk
  (.file c!"20240101000000000.commit" 1 .junk
  (.file c!"20240102000000000.deltacommit" 1 .junk
  (.file c!"20240103000000000.commit" 1 .junk
  (.file c!"20240104000000000.replacecommit" 1 (.json (.obj [(c!"partitionToReplaceFileIds",
    .obj [(c!"eu", .arr [.str c!"f1"])])]))
  (.file c!"20240105000000000.deltacommit" 1 (.json (.obj [(c!"partitionToWriteStats",
    .obj [(c!"us", .arr [.obj [(c!"fileId", .str c!"f2"), (c!"path", .str c!"us/.f2_20240103000000000.log.1_0-5-1"),
      (c!"baseFile", .str c!"f2_0-3-1_20240103000000000.parquet"),
      (c!"logFiles", .arr [.str c!".f2_20240103000000000.log.1_0-5-1",
        .str c!".f2_20240103000000000.log.2_0-5-1"])]])])]))
  (.file c!"20240105120000000.commit.requested" 1 .junk
  (.file c!"20240105120000000.inflight" 1 .junk .nil)))))))

def historyEu : Tree :=
  .file c!".hoodie_partition_metadata" 1 .junk
  (.file c!"f1_0-1-1_20240101000000000.parquet" 1 parquetFile
  (.file c!"f3_0-4-1_20240104000000000.parquet" 1 parquetFile .nil))

def historyUs : Tree :=
  .file c!".f2_20240101000000000.log.1_0-2-1" 1 .junk
  (.file c!".f2_20240103000000000.log.1_0-5-1" 1 .junk
  (.file c!".f2_20240103000000000.log.2_0-5-1" 1 .junk
  (.file c!"f2_0-1-2_20240101000000000.parquet" 1 parquetFile
  (.file c!"f2_0-3-1_20240103000000000.parquet" 1 parquetFile .nil))))

def historyTree : Tree :=
  .dir c!".hoodie" historyHoodie (.dir c!"eu" historyEu (.dir c!"us" historyUs .nil))

def historyTable : Table := ⟨regionOpts, [], ⟨[], [⟨c!"20240101000000000", .commit, .completed, 1704067200000⟩,
  ⟨c!"20240102000000000", .deltaCommit, .completed, 1704153600000⟩,
  ⟨c!"20240103000000000", .commit, .completed, 1704240000000⟩,
  ⟨c!"20240104000000000", .replaceCommit, .completed, 1704326400000⟩,
  ⟨c!"20240105000000000", .deltaCommit, .completed, 1704412800000⟩]⟩⟩

end Demo

theorem Demo.history_wf : Demo.history.WF 17 where
  ordered := by decide
  times := by decide
  once := by decide
  replaces := by
    intro c hc k hk
    have : ∀ c ∈ Demo.history, ∀ e ∈ c.changes, e.2 = .replace → c.action = .replaceCommit := by decide
    exact this c hc _ hk rfl
  gone := by
    have : Demo.history.Pairwise (fun c c' => ∀ e ∈ c.changes, e.2 = .replace →
      e.1 ∉ c'.changes.map Prod.fst) := by decide
    refine this.imp ?_
    intro c c' h k hk ch hch
    exact h _ hk rfl (List.mem_map.2 ⟨_, hch, rfl⟩)
  ids := by decide
  tokens := by
    intro c hc k token hk
    have : ∀ c ∈ Demo.history, ∀ e ∈ c.changes, 
        (match e.2 with | .write token => decide (NamePart token) | _ => true) = true := by decide
    exact of_decide_eq_true (this c hc _ hk)
  logs := by
    intro c hc k ls hk
    have : ∀ c ∈ Demo.history, ∀ e ∈ c.changes,
        (match e.2 with | .append ls => decide (∀ l ∈ ls, NamePart l.1 ∧ NamePart l.2) | _ => true) = true := by
      decide
    exact of_decide_eq_true (this c hc _ hk)

theorem completedFile_iff {ltz : LocalTz} {tz name : Str} :
    (∃ i, CompletedFile ltz tz [.commit, .deltaCommit, .replaceCommit] name i) ↔
      ((loadSelector tz [.commit, .deltaCommit, .replaceCommit]).tryCreateInstant ltz name).toOption.isSome
        = true := by
  rw [Option.isSome_iff_exists]
  refine exists_congr fun i => ?_
  rw [← loadSelector_tryCreate (by decide)]
  cases (loadSelector tz [.commit, .deltaCommit, .replaceCommit]).tryCreateInstant ltz name <;>
    simp [Res.toOption]

theorem Demo.history_partitions (x : Str) :
    PartitionOf Demo.regionOpts Demo.historyTree x ↔ x ∈ [c!"eu", c!"us"] :=
  partitionOf_mem (by decide) rfl x

/-- A name that is not a data file's. -/
def ignoredB (name : Str) : Bool :=
  c!".hoodie_partition_metadata".isPrefixOf name || c!".crc".isSuffixOf name

theorem ignoredB_iff {name : Str} : ignoredB name = true ↔ Ignored name := by
  unfold ignoredB Ignored
  rw [Bool.or_eq_true, List.isPrefixOf_iff_prefix, List.isSuffixOf_iff_suffix]
  refine or_congr ⟨fun ⟨r, h⟩ => ⟨r, h.symm⟩, fun ⟨r, h⟩ => ⟨r, h.symm⟩⟩
    ⟨fun ⟨r, h⟩ => ⟨r, h.symm⟩, fun ⟨r, h⟩ => ⟨r, h.symm⟩⟩

theorem Demo.history_stored : Stores Demo.env.ltz c!"utc" Demo.regionOpts Demo.historyTree Demo.history where
  timeline := by
    intro name
    rw [completedFile_iff]
    constructor
    · rintro ⟨⟨m, hm, rfl⟩, h⟩
      have : ∀ m ∈ listFiles Demo.historyTree c!".hoodie",
          ((loadSelector c!"utc" [.commit, .deltaCommit, .replaceCommit]).tryCreateInstant Demo.env.ltz
            m.name).toOption.isSome = true →
          ∃ c ∈ Demo.history, m.name = c.ts ++ c!"." ++ suffix c.action .completed := by decide
      exact this m hm h
    · rintro ⟨c, hc, rfl⟩
      revert c
      decide
  replaced := by
    intro c hc ha
    have : ∀ c ∈ Demo.history, c.action = .replaceCommit →
        c = ⟨c!"20240104000000000", .replaceCommit,
          [((c!"eu", c!"f1"), .replace), ((c!"eu", c!"f3"), .write c!"0-4-1")]⟩ := by decide
    rw [this c hc ha]
    refine ⟨_, _, rfl, ?_⟩
    intro x f
    constructor
    · rintro ⟨parts, ids, h1, h2, h3⟩
      cases h1
      cases List.mem_singleton.1 h2
      cases List.mem_singleton.1 h3
      decide
    · intro h
      have h' : (x, f) = (c!"eu", c!"f1") := by
        simpa using h
      cases h'
      exact ⟨_, _, rfl, List.mem_singleton_self _, List.mem_singleton_self _⟩
  partitions := by
    intro c hc e he
    rw [Demo.history_partitions]
    revert c e
    decide
  files := by
    intro x hx name
    rw [Demo.history_partitions] at hx
    rw [recorded_iff]
    have h1 : ∀ x ∈ [c!"eu", c!"us"], ∀ e ∈ filesOf Demo.historyTree x, ignoredB e.1 = true ∨
        (x, e.1) ∈ recordedNames [] Demo.history := by decide
    have h2 : ∀ x ∈ [c!"eu", c!"us"], ∀ e ∈ recordedNames [] Demo.history, e.1 = x →
        e.2 ∈ (filesOf Demo.historyTree x).map Prod.fst ∧ ignoredB e.2 = false := by decide
    constructor
    · rintro ⟨size, hm, hni⟩
      rcases h1 x hx _ hm with h | h
      · exact absurd (ignoredB_iff.1 h) hni
      · exact h
    · intro hm
      obtain ⟨k1, k2⟩ := h2 x hx _ hm rfl
      obtain ⟨⟨m, size⟩, k3, k4⟩ := List.mem_map.1 k1
      simp only at k4
      subst k4
      exact ⟨size, k3, fun hi => by rw [ignoredB_iff.2 hi] at k2; cases k2⟩

/-- The hypotheses of C50 are met by that history; the table after it, and as of the insert. -/
example : Timeline.load Demo.env [] Demo.historyTree = .ok Demo.historyTable.timeline ∧
    TreeWF Demo.historyTree ∧ Demo.history.WF 17 ∧
    Stores Demo.env.ltz c!"utc" Demo.historyTable.opts Demo.historyTree Demo.history ∧
    Demo.historyTable.partitionSchema Demo.historyTree = .ok [⟨c!"region", .utf8, true⟩] ∧
    PathStyle Demo.regionOpts false false ∧
    versionAfter Demo.history (c!"eu", c!"f1") = none ∧
    versionAfter Demo.history (c!"us", c!"f2") = some ⟨c!"20240103000000000", c!"0-3-1",
      [(c!"1", c!"0-5-1"), (c!"2", c!"0-5-1")]⟩ ∧
    tableAt Demo.history c!"20240101000000000" (c!"us", c!"f2") =
      some ⟨c!"20240101000000000", c!"0-1-2", []⟩ ∧
    (∃ ss, (Demo.historyTable.fileSlices Demo.env Demo.arrow Demo.historyTree [] []).2 = .ok ss ∧
      ss.map (fun s => (s.partitionPath, s.baseFile.fileId, s.baseFile.writeToken, s.logFiles.length)) =
        [(c!"eu", c!"f3", c!"0-4-1", 0), (c!"us", c!"f2", c!"0-3-1", 2)]) :=
  ⟨rfl, by decide, Demo.history_wf, Demo.history_stored, rfl, ⟨rfl, rfl⟩, by decide, by decide, by decide,
    _, rfl, by decide⟩

/-- **C50 is false.**  The file slice as of the insert has a log file that was written by a later
delta commit: in the table as of that time the file group has no log files. -/
theorem C50_false : ∃ (E : Env) (A : Arrow) (o : Opts) (t : Tree) (tb : Table) (h : History) (ts : Str)
    (ss : List FileSlice), Timeline.load E o t = .ok tb.timeline ∧ TreeWF t ∧ h.WF 17 ∧
    Stores E.ltz c!"utc" tb.opts t h ∧ (∃ c ∈ h, c.ts = ts) ∧
    (tb.fileSlicesAsOf E A t ts [] []).2 = .ok ss ∧
    ∃ s ∈ ss, ∃ v, tableAt h ts (sliceKey s) = some v ∧ v.logs = [] ∧ s.logFiles ≠ [] :=
  ⟨Demo.env, Demo.arrow, [], Demo.historyTree, Demo.historyTable, Demo.history, c!"20240101000000000", _,
    rfl, by decide, Demo.history_wf, Demo.history_stored, by decide, rfl, by decide⟩

end Hudi
