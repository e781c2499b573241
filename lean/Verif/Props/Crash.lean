import Verif.Props.Faults
import Verif.Lemmas.Crash
import Verif.Lemmas.Answers
import Verif.Props.Slices
import Verif.Props.Commits
import Verif.Props.Instants

/-! # C77: what makes a call crash -/

namespace Hudi
open Spec

/-! ## Reading file slices -/

theorem filter_np (A : Arrow) (f : Filter) (s : Schema) : SFilter.ofFilter A f s ≠ .panic := by
  unfold SFilter.ofFilter castValue
  exact bind_ne_panic ofOption_ne_panic (fun _ => bind_ne_panic ofOption_ne_panic (by simp))

theorem ofTuple_np (f : Str × Str × Str) : Filter.ofTuple f ≠ .panic := by
  unfold Filter.ofTuple
  exact bind_ne_panic ofOption_ne_panic (by simp)

theorem fromStrTuples_np (fs : List (Str × Str × Str)) : fromStrTuples fs ≠ .panic :=
  mapL_ne_panic (fun f _ => ofTuple_np f)

theorem commitTimeFilter_np (A : Arrow) (op ts : Str) : commitTimeFilter A op ts ≠ .panic :=
  bind_ne_panic (ofTuple_np _) (fun _ => filter_np _ _ _)

theorem populates_ok (o : Opts) : ∃ b, Cfg.populatesMetaFields.getOrDefault o = .ok (.boolean b) := by
  unfold Cfg.getOrDefault Cfg.get
  cases hmGet Cfg.populatesMetaFields.key o with
  | none => exact ⟨_, rfl⟩
  | some v =>
    simp only [Cfg.parseRaw]
    cases parseBool v with
    | none => exact ⟨_, rfl⟩
    | some b => exact ⟨_, rfl⟩

theorem readOptimized_ok (o : Opts) : ∃ b, Cfg.useReadOptimizedMode.getOrDefault o = .ok (.boolean b) := by
  unfold Cfg.getOrDefault Cfg.get
  cases hmGet Cfg.useReadOptimizedMode.key o with
  | none => exact ⟨_, rfl⟩
  | some v =>
    simp only [Cfg.parseRaw]
    cases parseBool v with
    | none => exact ⟨_, rfl⟩
    | some b => exact ⟨_, rfl⟩

theorem baseFileFilters_np (A : Arrow) (o : Opts) : baseFileFilters A o ≠ .panic := by
  unfold baseFileFilters
  obtain ⟨b, hb⟩ := populates_ok o
  rw [hb]
  simp only [Res.ok_bind, CfgVal.toBool]
  split
  · simp
  · rw [start_eq]
    simp only [Res.ok_bind]
    split
    · simp
    · refine bind_ne_panic (commitTimeFilter_np _ _ _) (fun f1 => ?_)
      rw [end_eq]
      simp only [Res.ok_bind]
      split
      · simp
      · exact bind_ne_panic (commitTimeFilter_np _ _ _) (by simp)

theorem columnMask_np (A : Arrow) (b : Batch) (f : SFilter) : columnMask A b f ≠ .panic := by
  unfold columnMask
  split
  · simp
  · split
    · simp
    · refine mapL_ne_panic (fun c _ => ?_)
      cases c with
      | none => simp
      | some v =>
        unfold SFilter.apply
        simp only
        split <;> simp

theorem getParquetData_np (t : Tree) (p : Str) : getParquetData t p ≠ .panic := by
  unfold getParquetData getFile
  refine bind_ne_panic ofOption_ne_panic (fun r => ?_)
  split <;> simp

theorem readBaseFile_np (A : Arrow) (o : Opts) (t : Tree) (p : Str) : readBaseFile A o t p ≠ .panic := by
  unfold readBaseFile
  refine bind_ne_panic (fun h => getParquetData_np t p (mapErr_panic.1 h)) (fun b => ?_)
  refine bind_ne_panic (baseFileFilters_np A o) (fun fs => ?_)
  cases fs with
  | none => simp
  | some fs =>
    refine bind_ne_panic ?_ (by simp)
    exact foldL_ne_panic (fun m f => bind_ne_panic (columnMask_np A b f) (by simp)) _ _

/-- The schema of what is read from a base file is that of the base file. -/
theorem readBaseFile_base {A : Arrow} {o : Opts} {t : Tree} {p : Str} {b : Batch} (h : readBaseFile A o t p = .ok b) :
    ∃ size byteSize b0 footer, t.fileAt (pathSegs p) = some (size, .parquet byteSize b0 footer) ∧
      b.schema = b0.schema := by
  unfold readBaseFile at h
  obtain ⟨b0, h1, h⟩ := Res.bind_eq_ok.1 h
  have h1 := mapErr_eq_ok.1 h1
  unfold getParquetData getFile at h1
  obtain ⟨⟨size, c⟩, h2, h1⟩ := Res.bind_eq_ok.1 h1
  have h2 := Res.ofOption_eq_ok.1 h2
  obtain ⟨fs, _, h⟩ := Res.bind_eq_ok.1 h
  cases c with
  | parquet byteSize b1 footer =>
    cases h1
    refine ⟨size, byteSize, b0, footer, h2, ?_⟩
    cases fs with
    | none => cases h; rfl
    | some fs =>
      obtain ⟨m, _, h⟩ := Res.bind_eq_ok.1 h
      cases h; rfl
  | bytes _ => cases h1
  | json _ => cases h1
  | text _ => cases h1
  | junk => cases h1

theorem logScanRange_range (o : Opts) : ∃ r, logScanRange o = .ok r ∧ r.start = startOf o ∧ r.stop = endOf o := by
  obtain ⟨tz, htz⟩ := timezoneOf_ok o
  exact ⟨_, logScanRange_eq htz, rfl, rfl⟩

theorem readLogFile_cases {C : Codec} {ltz : LocalTz} {o : Opts} {t : Tree} {r : InstantRange} {p : Str} :
    (readLogFile C ltz o t r p = .panic → (∃ x, (r.start = some x ∨ r.stop = some x) ∧ ¬ Cuttable x) ∨
      ∃ size c, t.fileAt (pathSegs p) = some (size, c) ∧ LogCrash C (C.bytesOf c)) ∧
    ∀ blks, readLogFile C ltz o t r p = .ok blks →
      ∃ size c, t.fileAt (pathSegs p) = some (size, c) ∧ ∀ k ∈ blks, ∀ y ∈ k.batches, BatchIn C (C.bytesOf c) y := by
  unfold readLogFile getFile
  obtain ⟨tz, htz⟩ := timezoneOf_ok o
  rw [htz]
  constructor
  · intro h
    rcases bind_eq_panic.1 h with h | ⟨⟨size, c⟩, h1, h⟩
    · exact absurd h ofOption_ne_panic
    have h1 := Res.ofOption_eq_ok.1 h1
    simp only [Res.ok_bind] at h
    rcases (readLoop_cases (pre := []) rfl).1 h with h | h
    · exact .inr ⟨size, c, h1, h⟩
    · exact .inl h
  · intro blks h
    obtain ⟨⟨size, c⟩, h1, h⟩ := Res.bind_eq_ok.1 h
    have h1 := Res.ofOption_eq_ok.1 h1
    simp only [Res.ok_bind] at h
    exact ⟨size, c, h1, (readLoop_cases (pre := []) rfl).2 blks h⟩

theorem target_np (b : LogBlock) : b.targetInstantTime ≠ .panic := by
  unfold LogBlock.targetInstantTime
  split
  · simp
  · exact ofOption_ne_panic

theorem mapL_mem_ok {α β : Type} {f : α → Res β} {xs : List α} {ys : List β} (h : Res.mapL f xs = .ok ys) (y : β)
    (hy : y ∈ ys) : ∃ x ∈ xs, f x = .ok y := by
  have h := Res.mapL_ok_iff.1 h
  have : Res.ok y ∈ xs.map f := by rw [h]; exact List.mem_map.2 ⟨y, hy, rfl⟩
  exact List.mem_map.1 this

theorem scanLogs_cases {C : Codec} {ltz : LocalTz} {o : Opts} {t : Tree} {r : InstantRange} {ps : List Str} :
    (scanLogs C ltz o t r ps = .panic → (∃ x, (r.start = some x ∨ r.stop = some x) ∧ ¬ Cuttable x) ∨
      ∃ p ∈ ps, ∃ size c, t.fileAt (pathSegs p) = some (size, c) ∧ LogCrash C (C.bytesOf c)) ∧
    ∀ bss, scanLogs C ltz o t r ps = .ok bss → ∀ y ∈ bss.flatten,
      ∃ p ∈ ps, ∃ size c, t.fileAt (pathSegs p) = some (size, c) ∧ BatchIn C (C.bytesOf c) y := by
  unfold scanLogs
  constructor
  · intro h
    rcases bind_eq_panic.1 h with h | ⟨files, _, h⟩
    · obtain ⟨p, hp, h⟩ := mapL_panic h
      unfold scanFile at h
      rcases bind_eq_panic.1 h with h | ⟨blks, _, h⟩
      · exact (readLogFile_cases.1 h).imp_right (fun h => ⟨p, hp, h⟩)
      rcases bind_eq_panic.1 h with h | ⟨_, _, h⟩
      · obtain ⟨b, _, h⟩ := mapL_panic h
        exact absurd h (target_np b)
      · cases h
    rcases bind_eq_panic.1 h with h | ⟨_, _, h⟩
    · obtain ⟨b, _, h⟩ := mapL_panic h
      unfold survivingBatches LogBlock.instantTime at h
      rcases bind_eq_panic.1 h with h | ⟨_, _, h⟩
      · exact absurd h ofOption_ne_panic
      · cases h
    · cases h
  · intro bss h y hy
    obtain ⟨files, h1, h⟩ := Res.bind_eq_ok.1 h
    obtain ⟨kept, h2, h⟩ := Res.bind_eq_ok.1 h
    cases h
    obtain ⟨bs, hbs, hy⟩ := List.mem_flatten.1 hy
    obtain ⟨x, hx, hxb⟩ := List.mem_filterMap.1 hbs
    obtain ⟨blk, hblk, h3⟩ := mapL_mem_ok h2 x hx
    cases hxb
    unfold survivingBatches at h3
    obtain ⟨i, _, h3⟩ := Res.bind_eq_ok.1 h3
    simp only [Res.pure_eq, Res.ok.injEq] at h3
    split at h3
    · cases h3
    · cases h3
      obtain ⟨f, hf, hb⟩ := List.mem_flatMap.1 hblk
      obtain ⟨p, hp, h4⟩ := mapL_mem_ok h1 f hf
      unfold scanFile at h4
      obtain ⟨blks, h5, h4⟩ := Res.bind_eq_ok.1 h4
      obtain ⟨_, _, h4⟩ := Res.bind_eq_ok.1 h4
      cases h4
      obtain ⟨size, c, h6, h7⟩ := readLogFile_cases.2 blks h5
      exact ⟨p, hp, size, c, h6, h7 _ hb y hy⟩

theorem concat_crash {s : Schema} {bs : List Batch} (h : concatBatches s bs = .panic) :
    ∃ b ∈ bs, b.schema.length < s.length := by
  unfold concatBatches at h
  rcases bind_eq_panic.1 h with h | ⟨_, _, h⟩
  · obtain ⟨i, hi, h⟩ := mapL_panic h
    unfold concatColumn at h
    split at h
    · rename_i hb
      obtain ⟨b, hb, hl⟩ := List.any_eq_true.1 hb
      exact ⟨b, hb, Nat.lt_of_le_of_lt (of_decide_eq_true hl) (List.mem_range.1 hi)⟩
    · split at h <;> cases h
  · split at h
    · cases h
    · simp only at h
      split at h <;> cases h

theorem mergeLatest_np (A : Arrow) (M : MergeEnv A) (o : Opts) (b : Batch) : mergeLatest A M o b ≠ .panic := by
  unfold mergeLatest
  split
  · simp
  · refine bind_ne_panic ?_ (fun _ => bind_ne_panic ?_ (fun _ => bind_ne_panic ?_ (fun _ => bind_ne_panic ?_ (by simp))))
    · unfold precombineFieldOf Cfg.get
      cases hmGet Cfg.precombineField.key o with
      | none => simp
      | some v => simp [Cfg.parseRaw, CfgVal.toStr]
    · exact bind_ne_panic ofOption_ne_panic (by simp)
    · exact bind_ne_panic ofOption_ne_panic (by simp)
    · unfold Batch.getStringArray
      refine bind_ne_panic ofOption_ne_panic (fun _ => ?_)
      split <;> simp

theorem mergeStrategy_np (o : Opts) : mergeStrategyOf o ≠ .panic := by
  unfold mergeStrategyOf
  have hs : ∃ s, Cfg.recordMergeStrategy.getOrDefault o = .ok (.string s) := by
    unfold Cfg.getOrDefault Cfg.get
    cases hmGet Cfg.recordMergeStrategy.key o with
    | none => simp only; split <;> first | exact ⟨_, rfl⟩ | (split <;> exact ⟨_, rfl⟩)
    | some v =>
      simp only [Cfg.parseRaw]
      cases hp : MergeStrategy.fromStr v with
      | ok m => exact ⟨_, rfl⟩
      | error e => simp only [Except.map]; split <;> first | exact ⟨_, rfl⟩ | (split <;> exact ⟨_, rfl⟩)
  obtain ⟨s, hs⟩ := hs
  rw [hs]
  simp only [Res.ok_bind, CfgVal.toStr]
  split <;> simp

theorem merge_crash {A : Arrow} {M : MergeEnv A} {o : Opts} {s : Schema} {bs : List Batch}
    (h : mergeRecordBatches A M o s bs = .panic) : ∃ b ∈ bs, b.schema.length < s.length := by
  unfold mergeRecordBatches at h
  split at h
  · cases h
  · rcases bind_eq_panic.1 h with h | ⟨st, _, h⟩
    · exact absurd h (mergeStrategy_np o)
    cases st with
    | appendOnly => exact concat_crash h
    | overwriteWithLatest =>
      rcases bind_eq_panic.1 h with h | ⟨b, _, h⟩
      · exact concat_crash h
      · exact absurd h (mergeLatest_np A M o b)

theorem readFileSlice_crash {C : Codec} {A : Arrow} {M : MergeEnv A} {ltz : LocalTz} {o : Opts} {t : Tree}
    {s : FileSlice} (h : readFileSlice C A M ltz o t s = .panic) :
    (∃ x, (startOf o = some x ∨ endOf o = some x) ∧ ¬ Cuttable x) ∨ SliceCrash C t s := by
  unfold readFileSlice at h
  split at h
  · exact absurd h (readBaseFile_np _ _ _ _)
  obtain ⟨ro, hro⟩ := readOptimized_ok o
  rw [hro] at h
  simp only [Res.ok_bind, CfgVal.toBool] at h
  split at h
  · exact absurd h (readBaseFile_np _ _ _ _)
  unfold readMerged at h
  rcases bind_eq_panic.1 h with h | ⟨base, hb, h⟩
  · exact absurd h (readBaseFile_np _ _ _ _)
  obtain ⟨size', byteSize, b0, footer, hb0, hsch⟩ := readBaseFile_base hb
  obtain ⟨r, hr, hstart, hstop⟩ := logScanRange_range o
  rw [hr] at h
  simp only [Res.ok_bind] at h
  rw [← hstart, ← hstop]
  rcases bind_eq_panic.1 h with h | ⟨logs, hl, h⟩
  · rcases scanLogs_cases.1 h with h | ⟨p, hp, size, c, h1, h2⟩
    · exact .inl h
    · obtain ⟨l, hl, rfl⟩ := List.mem_map.1 hp
      exact .inr (.log l size c hl h1 h2)
  · obtain ⟨y, hy, hlen⟩ := merge_crash h
    rcases List.mem_cons.1 hy with rfl | hy
    · exact absurd hlen (Nat.lt_irrefl _)
    · obtain ⟨p, hp, size, c, h1, h2⟩ := scanLogs_cases.2 logs hl y hy
      obtain ⟨l, hl, rfl⟩ := List.mem_map.1 hp
      exact .inr (.columns l size c size' byteSize b0 footer y hl h1 hb0 h2 (hsch ▸ hlen))

/-! ## Looking up file slices -/

theorem instantMetadata_np (t : Tree) (i : Instant) : instantMetadata t i ≠ .panic := by
  unfold instantMetadata getFile
  refine bind_ne_panic ofOption_ne_panic (fun r => ?_)
  split <;> simp

theorem latestMetadata_np (tl : Timeline) (t : Tree) : tl.latestMetadata t ≠ .panic := by
  unfold Timeline.latestMetadata
  split
  · exact instantMetadata_np _ _
  · simp

theorem getParquetSchema_np (t : Tree) (p : Str) : getParquetSchema t p ≠ .panic := by
  unfold getParquetSchema getFile
  refine bind_ne_panic ofOption_ne_panic (fun r => ?_)
  split <;> simp

theorem schema_np (tb : Table) (t : Tree) : tb.schema t ≠ .panic := by
  unfold Table.schema Timeline.latestSchema
  refine bind_ne_panic (latestMetadata_np _ _) (fun md => ?_)
  unfold schemaOfCommit
  refine bind_ne_panic ofOption_ne_panic (fun e => ?_)
  obtain ⟨p, st⟩ := e
  simp only
  split
  · split
    · exact getParquetSchema_np _ _
    · exact bind_ne_panic ofOption_ne_panic (fun _ => getParquetSchema_np _ _)
  · simp

theorem avroSchema_np (tb : Table) (t : Tree) : tb.avroSchema t ≠ .panic := by
  unfold Table.avroSchema Timeline.latestAvroSchema
  exact bind_ne_panic (latestMetadata_np _ _) (fun md => ofOption_ne_panic)

theorem partitionSchema_np (tb : Table) (t : Tree) : tb.partitionSchema t ≠ .panic := by
  unfold Table.partitionSchema
  rw [partitionFieldsOf_eq]
  simp only [Res.ok_bind]
  exact bind_ne_panic (schema_np _ _) (by simp)

theorem selector_crash {ltz : LocalTz} {as : List Action} {o : Opts} {a b : Option Str}
    (h : completedActionsInRange ltz as o a b = .panic) : ∃ x, (a = some x ∨ b = some x) ∧ ¬ Cuttable x := by
  unfold completedActionsInRange at h
  obtain ⟨tz, htz⟩ := timezoneOf_ok o
  rw [htz] at h
  simp only [Res.ok_bind] at h
  rcases bind_eq_panic.1 h with h | ⟨_, _, h⟩
  · obtain ⟨x, hx, hc⟩ := parseOpt_crash h
    exact ⟨x, .inl hx, hc⟩
  rcases bind_eq_panic.1 h with h | ⟨_, _, h⟩
  · obtain ⟨x, hx, hc⟩ := parseOpt_crash h
    exact ⟨x, .inr hx, hc⟩
  · cases h

theorem replacedAsOf_crash {E : Env} {tl : Timeline} {t : Tree} {ts : Str} (h : tl.replacedAsOf E t ts = .panic) :
    ¬ Cuttable ts := by
  unfold Timeline.replacedAsOf at h
  rcases bind_eq_panic.1 h with h | ⟨s, _, h⟩
  · obtain ⟨x, hx, hc⟩ := selector_crash h
    rcases hx with hx | hx <;> cases hx
    exact hc
  · exact absurd h (foldL_ne_panic (fun acc i => bind_ne_panic (instantMetadata_np t i)
      (fun md => bind_ne_panic (buildReplaced_ne_panic md) (by simp))) _ _)

theorem pruner_crash {A : Arrow} {fs : List Filter} {s : Schema} {o : Opts} (h : Pruner.new A fs s o = .panic) :
    ¬ ∃ hive url, PathStyle o hive url := by
  rintro ⟨hive, url, h1, h2⟩
  unfold Pruner.new at h
  rcases bind_eq_panic.1 h with h | ⟨gs, _, h⟩
  · exact absurd h (mapL_ne_panic (fun f _ => filter_np A f s))
  have hpb : ∀ b : Bool, parseBool (if b then c!"true" else c!"false") = some b := by decide
  have e1 : Cfg.isHiveStylePartitioning.getOrDefault o = .ok (.boolean hive) := by
    unfold Cfg.getOrDefault Cfg.get
    rw [show Cfg.isHiveStylePartitioning.key = c!"hoodie.datasource.write.hive_style_partitioning" from rfl, h1]
    simp only [Cfg.parseRaw, hpb]
  have e2 : Cfg.isPartitionPathUrlencoded.getOrDefault o = .ok (.boolean url) := by
    unfold Cfg.getOrDefault Cfg.get
    rw [show Cfg.isPartitionPathUrlencoded.key = c!"hoodie.datasource.write.partitionpath.urlencode" from rfl, h2]
    simp only [Cfg.parseRaw, hpb]
  rw [e1, e2] at h
  cases h

theorem listRelevant_np {A : Arrow} {o : Opts} {t : Tree} {p : Pruner} (hwf : TreeWF t)
    (hpar : ∀ v, hmGet c!"hoodie.read.listing.parallelism" o = some v → parseUsize v ≠ some 0) :
    listRelevant A o t p ≠ .panic := by
  unfold listRelevant
  rw [isTablePartitioned_eq]
  simp only [Res.ok_bind]
  split
  · exact bind_ne_panic (listFileGroups_ne_panic _ _ _) (by simp)
  · obtain ⟨paths, hp, _⟩ := relevantPartitions_spec A o t p hwf
    obtain ⟨n, hn, hz⟩ := parallelism_ok o
    rw [hp, hn]
    simp only [Res.ok_bind]
    rw [if_neg (hz.2 hpar)]
    refine bind_ne_panic (mapL_ne_panic (fun x _ => ?_)) (by simp)
    unfold listWithPath
    exact bind_ne_panic (listFileGroups_ne_panic _ _ _) (by simp)

theorem getFileMetadata_np (t : Tree) (p : Str) : getFileMetadata t p ≠ .panic := by
  unfold getFileMetadata getFile
  refine bind_ne_panic ofOption_ne_panic (fun r => ?_)
  obtain ⟨n, c⟩ := r
  cases c with
  | parquet bs b f => exact bind_ne_panic ofOption_ne_panic (by simp)
  | _ => simp

theorem loadMetadata_np (t : Tree) (s : FileSlice) : s.loadMetadata t ≠ .panic := by
  unfold FileSlice.loadMetadata
  split
  · simp
  · exact bind_ne_panic (getFileMetadata_np _ _) (by simp)

theorem collectGroups_np (t : Tree) (ts : Str) (excl gs : List FileGroup) : (collectGroups t ts excl gs).2 ≠ .panic := by
  induction gs with
  | nil => simp [collectGroups]
  | cons g gs ih =>
    have hg : collectGroup t ts excl g ≠ .panic := by
      unfold collectGroup
      split
      · simp
      · split
        · simp
        · exact bind_ne_panic (loadMetadata_np _ _) (by simp)
    unfold collectGroups
    split
    · exact bind_ne_panic ih (by simp)
    · simp
    · rename_i h; exact absurd h hg

theorem collectSlices_np (A : Arrow) (t : Tree) (ts : Str) (p : Pruner) (excl : List FileGroup) (c : Cache) :
    (collectSlices A t ts p excl c).2 ≠ .panic := by
  induction c with
  | nil => simp [collectSlices]
  | cons e c ih =>
    obtain ⟨path, gs⟩ := e
    unfold collectSlices
    split
    · exact ih
    · simp only
      split
      · exact bind_ne_panic ih (by simp)
      · simp
      · rename_i h; exact absurd h (collectGroups_np t ts excl gs)

theorem query_bind_crash {α β : Type} {q : Query α} {f : α → Query β} {c : Cache} (h : ((q >>= f) c).2 = .panic) :
    (q c).2 = .panic ∨ ∃ a c', q c = (c', .ok a) ∧ (f a c').2 = .panic := by
  change (Query.bind q f c).2 = .panic at h
  unfold Query.bind at h
  split at h
  · rename_i c' a e; exact .inr ⟨a, c', e, h⟩
  · cases h
  · rename_i e; rw [e]; exact .inl rfl

theorem slicesInternal_crash {E : Env} {A : Arrow} {tb : Table} {t : Tree} {ts : Str} {fs : List Filter} {c : Cache}
    (hwf : TreeWF t)
    (hpar : ∀ v, hmGet c!"hoodie.read.listing.parallelism" tb.opts = some v → parseUsize v ≠ some 0)
    (h : (tb.fileSlicesInternal E A t ts fs c).2 = .panic) :
    ¬ Cuttable ts ∨ ¬ ∃ hive url, PathStyle tb.opts hive url := by
  unfold Table.fileSlicesInternal at h
  rcases query_bind_crash h with h | ⟨excl, c1, _, h⟩
  · exact .inl (replacedAsOf_crash h)
  rcases query_bind_crash h with h | ⟨s, c2, _, h⟩
  · exact absurd h (partitionSchema_np tb t)
  rcases query_bind_crash h with h | ⟨p, c3, _, h⟩
  · exact .inr (pruner_crash h)
  unfold viewSlicesAsOf loadFileGroups at h
  have hl := listRelevant_np (A := A) (p := p) hwf hpar
  cases hm : listRelevant A tb.opts t p with
  | panic => exact absurd hm hl
  | err e => rw [hm] at h; cases h
  | ok m =>
    rw [hm] at h
    exact absurd h (collectSlices_np _ _ _ _ _ _)

theorem split_np {α : Type} (n : Nat) (l : List α) : splitSlices n l ≠ .panic := by
  unfold splitSlices
  split
  · simp
  · rename_i hl
    unfold chunks
    simp only
    rw [if_neg]
    · simp
    · have : l.length ≠ 0 := by
        intro h
        rw [List.length_eq_zero_iff.1 h] at hl
        simp at hl
      intro hz
      have hpos : 0 < (l.length + max 1 n - 1) / max 1 n := Nat.div_pos (by omega) (by omega)
      omega

theorem fgMerge_np (s gs : List FileGroup) : fgMerge s gs ≠ .panic := by
  refine foldL_ne_panic (fun acc g => ?_) _ _
  unfold fgMergeOne
  split
  · refine bind_ne_panic ?_ (by simp)
    unfold FileGroup.merge
    split
    · simp
    · refine bind_ne_panic (foldL_ne_panic (fun acc e => ?_) _ _) (by simp)
      unfold mergeSliceInto
      split
      · refine bind_ne_panic ?_ (by simp)
        unfold FileSlice.merge
        split <;> simp
      · simp
  · simp

theorem between_crash {E : Env} {tb : Table} {t : Tree} {start stop : Str}
    (h : tb.fileSlicesBetweenInternal E t start stop = .panic) : ¬ Cuttable start ∨ ¬ Cuttable stop := by
  unfold Table.fileSlicesBetweenInternal Timeline.fileGroupsBetween at h
  rcases bind_eq_panic.1 h with h | ⟨_, _, h⟩
  · rcases bind_eq_panic.1 h with h | ⟨s, _, h⟩
    · obtain ⟨x, hx, hc⟩ := selector_crash h
      rcases hx with hx | hx <;> cases hx
      · exact .inl hc
      · exact .inr hc
    rcases bind_eq_panic.1 h with h | ⟨_, _, h⟩
    · refine absurd h (foldL_ne_panic (fun acc i => ?_) _ _)
      unfold betweenStep
      refine bind_ne_panic (instantMetadata_np t i) (fun md => bind_ne_panic (buildFileGroups_ne_panic md)
        (fun gs => bind_ne_panic (fgMerge_np _ _) (fun m => ?_)))
      split
      · exact bind_ne_panic (buildReplaced_ne_panic md) (by simp)
      · simp
    · cases h
  · cases h

/-! ## The calls -/

theorem load_cuttable {E : Env} {o : Opts} {t : Tree} {tl : Timeline} (h : Timeline.load E o t = .ok tl) :
    ∀ i ∈ tl.completed, Cuttable i.timestamp := by
  unfold Timeline.load at h
  obtain ⟨s, _, h⟩ := Res.bind_eq_ok.1 h
  obtain ⟨is, h2, h⟩ := Res.bind_eq_ok.1 h
  cases h
  unfold loadInstants at h2
  obtain ⟨is', h3, h2⟩ := Res.bind_eq_ok.1 h2
  cases h2
  intro i hi
  have hi' : i ∈ is' := (E.sort_perm is').mem_iff.1 hi
  rw [createInstants_ok h3] at hi'
  obtain ⟨n, _, hn⟩ := List.mem_filterMap.1 hi'
  cases hc : s.tryCreateInstant E.ltz n with
  | err e => rw [hc] at hn; cases hn
  | panic => rw [hc] at hn; cases hn
  | ok j =>
    rw [hc] at hn
    cases hn
    obtain ⟨ts, suf, a, st, dt, _, _, _, _, _, hp, _, _, rfl⟩ := Selector.tryCreateInstant_ok.1 hc
    by_contra hcut
    rw [parse_crash.2 hcut] at hp
    cases hp

theorem hmInsert_subset {k v : Str} {m : Opts} {e : Str × Str} (h : e ∈ hmInsert k v m) : e ∈ m ∨ e = (k, v) := by
  induction m with
  | nil => exact .inr (List.mem_singleton.1 h)
  | cons x m ih =>
    obtain ⟨k', v'⟩ := x
    unfold hmInsert at h
    split at h
    · rename_i hk
      subst hk
      rcases List.mem_cons.1 h with h | h
      · exact .inr h
      · exact .inl (List.mem_cons_of_mem _ h)
    · rcases List.mem_cons.1 h with h | h
      · exact .inl (h ▸ List.mem_cons_self)
      · rcases ih h with h | h
        · exact .inl (List.mem_cons_of_mem _ h)
        · exact .inr h

theorem hmExtend_subset {m src : List (Str × Str)} {e : Str × Str} (h : e ∈ hmExtend m src) : e ∈ m ∨ e ∈ src := by
  induction src generalizing m with
  | nil => exact .inl h
  | cons x src ih =>
    rcases ih h with h | h
    · rcases hmInsert_subset h with h | h
      · exact .inl h
      · exact .inr (h ▸ List.mem_cons_self)
    · exact .inr (List.mem_cons_of_mem _ h)

theorem readerOpts_mem {tb : Table} {options : List (Str × Str)} {k x : Str}
    (h : hmGet k (tb.readerOpts options) = some x) : (k, x) ∈ options ++ (tb.opts ++ tb.storageOpts) := by
  unfold Table.readerOpts readerOpts at h
  rw [hmGet_hmExtend, hmGet_reverse_of_nodup (splitHudi_nodup _).1, hmGet_splitHudi_fst] at h
  simp only [List.mem_append]
  cases hs : (if startsWith c!"hoodie." k = true then hmGet k (hmExtend tb.storageOpts options).reverse else none) with
  | none =>
    rw [hs] at h
    exact .inr (.inl (hmGet_mem h))
  | some y =>
    rw [hs] at h
    cases h
    split at hs
    · have hm := List.mem_reverse.1 (hmGet_mem hs)
      rcases hmExtend_subset hm with hm | hm
      · exact .inr (.inr hm)
      · exact .inl hm
    · cases hs

theorem optionTimes_append (a b : List (Str × Str)) : optionTimes (a ++ b) = optionTimes a ++ optionTimes b := by
  unfold optionTimes
  rw [List.filter_append, List.map_append]

theorem reader_time {tb : Table} {options : List (Str × Str)} {x : Str}
    (h : startOf (tb.readerOpts options) = some x ∨ endOf (tb.readerOpts options) = some x) :
    x ∈ optionTimes options ++ optionTimes (tb.opts ++ tb.storageOpts) := by
  rw [← optionTimes_append]
  unfold optionTimes
  rcases h with h | h
  · exact List.mem_map.2 ⟨_, List.mem_filter.2 ⟨readerOpts_mem h, by simp⟩, rfl⟩
  · exact List.mem_map.2 ⟨_, List.mem_filter.2 ⟨readerOpts_mem h, by simp⟩, rfl⟩

theorem answerOf_panic {α : Type} {f : α → Answer} {r : Res α} (h : answerOf f r = .panic) : r = .panic := by
  cases r <;> first | rfl | cases h

theorem read_crash {E : Env} {A : Arrow} {C : Codec} {M : MergeEnv A} {tb : Table} {t : Tree}
    {options : List (Str × Str)} {ss : List FileSlice}
    (h : Res.mapL (readFileSlice C A M E.ltz (tb.readerOpts options) t) ss = .panic) :
    (∃ ts ∈ optionTimes options ++ optionTimes (tb.opts ++ tb.storageOpts), ¬ Cuttable ts) ∨
      ∃ s ∈ ss, SliceCrash C t s := by
  obtain ⟨s, hs, h⟩ := mapL_panic h
  rcases readFileSlice_crash h with ⟨x, hx, hc⟩ | h
  · exact .inl ⟨x, reader_time hx, hc⟩
  · exact .inr ⟨s, hs, h⟩

theorem earliest_cuttable : Cuttable earliestStart := ⟨c!"19700101000000", c!"000", rfl, rfl⟩

theorem optionTimes_end (ts : Str) : optionTimes [(Cfg.fileGroupEndTimestamp.key, ts)] = [ts] := rfl

theorem optionTimes_both (a b : Str) : optionTimes [(Cfg.fileGroupStartTimestamp.key, a),
    (Cfg.fileGroupEndTimestamp.key, b)] = [a, b] := rfl

/-- **C77, partial.**  For every table that was opened (its timeline was loaded from the contents that the storage
had at the time), whatever the storage contains since, whatever the handle has cached and whichever requests to the
storage fail: a call crashes only if it was given, or the options of the table contain, a time too short to be a
timestamp; or it looks up partitions and the options of the table do not say how partition paths are written; or it
reads a file slice with a log file that contains a block with such a time, a schema that the decoder of records
crashes on, bytes that the parquet reader crashes on, or records with fewer columns than the base file.  Everything
else that may be wrong with the contents of the storage or with the arguments is reported as an error, or answered.

Missing: those cases, which do crash (`C77_false`); and the parallelism of listing set to zero, with which listing
never ends. -/
theorem C77_crashes_partial (E : Env) (A : Arrow) (C : Codec) (M : MergeEnv A) (tb : Table) (o : Opts) (t₀ t : Tree)
    (hopen : Timeline.load E o t₀ = .ok tb.timeline) (hwf : TreeWF t)
    (hpar : ∀ v, hmGet c!"hoodie.read.listing.parallelism" tb.opts = some v → parseUsize v ≠ some 0)
    (c : Cache) (F : Faults) (call : TableCall) (h : (call.run E A C M tb t F c).2.2 = .panic) :
    (∃ ts ∈ call.times ++ optionTimes (tb.opts ++ tb.storageOpts), ¬ Cuttable ts) ∨
    (call.looksUpPartitions ∧ ¬ ∃ hive url, PathStyle tb.opts hive url) ∨
    ∃ s, ReadsSlice E A C M tb t c call s ∧ SliceCrash C t s := by
  have hcut := load_cuttable hopen
  have hlast : ∀ ts, tb.timeline.latestTimestamp = some ts → Cuttable ts := by
    intro ts hts
    unfold Timeline.latestTimestamp at hts
    obtain ⟨i, hi, rfl⟩ := Option.map_eq_some_iff.1 hts
    exact hcut i (List.mem_of_getLast? hi)
  have hans : (call.answer E A C M tb t c).2 = .panic := by
    obtain ⟨h1, h2⟩ := C72_failures_are_reported E A C M tb t c call F
    by_cases hf : ∃ k < call.requests E A C M tb t c, F k = true
    · obtain ⟨e, he⟩ := h1 hf
      rw [he] at h
      cases h
    · rw [h2 (fun k hk => Bool.eq_false_iff.2 (fun hk' => hf ⟨k, hk, hk'⟩))] at h
      exact h
  clear h
  cases call with
  | schema => exact absurd (answerOf_panic hans) (schema_np tb t)
  | partitionSchema => exact absurd (answerOf_panic hans) (partitionSchema_np tb t)
  | avroSchema => exact absurd (answerOf_panic hans) (avroSchema_np tb t)
  | readSlice options s =>
    rcases readFileSlice_crash (answerOf_panic hans) with ⟨x, hx, hc⟩ | h
    · exact .inl ⟨x, reader_time hx, hc⟩
    · exact .inr (.inr ⟨s, .slice options s, h⟩)
  | slices fs =>
    have h := answerOf_panic hans
    unfold Table.fileSlices at h
    cases hl : tb.timeline.latestTimestamp with
    | none => rw [hl] at h; cases h
    | some ts =>
      rw [hl] at h
      rcases query_bind_crash h with h | ⟨a, c', _, h⟩
      · exact absurd h (fromStrTuples_np fs)
      rcases slicesInternal_crash hwf hpar h with h | h
      · exact absurd (hlast ts hl) h
      · exact .inr (.inl ⟨trivial, h⟩)
  | slicesAsOf ts fs =>
    have h := answerOf_panic hans
    rcases query_bind_crash h with h | ⟨a, c', _, h⟩
    · exact absurd h (fromStrTuples_np fs)
    rcases slicesInternal_crash hwf hpar h with h | h
    · exact .inl ⟨ts, by simp [TableCall.times], h⟩
    · exact .inr (.inl ⟨trivial, h⟩)
  | splits k fs =>
    have h := answerOf_panic hans
    unfold Table.fileSlicesSplits at h
    cases hl : tb.timeline.latestTimestamp with
    | none => rw [hl] at h; cases h
    | some ts =>
      rw [hl] at h
      rcases query_bind_crash h with h | ⟨a, c', _, h⟩
      · exact absurd h (fromStrTuples_np fs)
      rcases query_bind_crash h with h | ⟨a, c', _, h⟩
      · rcases slicesInternal_crash hwf hpar h with h | h
        · exact absurd (hlast ts hl) h
        · exact .inr (.inl ⟨trivial, h⟩)
      · exact absurd h (split_np _ _)
  | splitsAsOf k ts fs =>
    have h := answerOf_panic hans
    rcases query_bind_crash h with h | ⟨a, c', _, h⟩
    · exact absurd h (fromStrTuples_np fs)
    rcases query_bind_crash h with h | ⟨a, c', _, h⟩
    · rcases slicesInternal_crash hwf hpar h with h | h
      · exact .inl ⟨ts, by simp [TableCall.times], h⟩
      · exact .inr (.inl ⟨trivial, h⟩)
    · exact absurd h (split_np _ _)
  | slicesBetween start stop =>
    have h := answerOf_panic hans
    unfold Table.fileSlicesBetween at h
    cases hl : stop.or tb.timeline.latestTimestamp with
    | none => rw [hl] at h; cases h
    | some e =>
      rw [hl] at h
      rcases between_crash h with h | h
      · cases start with
        | none => exact absurd earliest_cuttable h
        | some s => exact .inl ⟨s, by simp [TableCall.times], h⟩
      · cases stop with
        | none => exact absurd (hlast e hl) h
        | some e' =>
          rw [Option.some_or] at hl
          cases hl
          exact .inl ⟨e, by simp [TableCall.times], h⟩
  | snapshot fs =>
    have h := answerOf_panic hans
    unfold Table.readSnapshot at h
    cases hl : tb.timeline.latestTimestamp with
    | none => rw [hl] at h; cases h
    | some ts =>
      rw [hl] at h
      rcases query_bind_crash h with h | ⟨gs, c', hgs, h⟩
      · exact absurd h (fromStrTuples_np fs)
      rcases query_bind_crash h with h | ⟨ss, c'', hss, h⟩
      · rcases slicesInternal_crash hwf hpar h with h | h
        · exact absurd (hlast ts hl) h
        · exact .inr (.inl ⟨trivial, h⟩)
      rcases read_crash h with ⟨x, hx, hc⟩ | ⟨s, hs, hc⟩
      · rw [optionTimes_end] at hx
        rcases List.mem_append.1 hx with hx | hx
        · cases List.mem_singleton.1 hx
          exact absurd (hlast ts hl) hc
        · exact .inl ⟨x, List.mem_append_right _ hx, hc⟩
      · refine .inr (.inr ⟨s, .snapshot fs ss s ?_ hs, hc⟩)
        simp only [TableCall.answer, Table.fileSlices, hl]
        change answerOf _ (Query.bind _ _ _).2 = _
        unfold Query.bind
        rw [hgs]
        simp only
        rw [hss]
        rfl
  | snapshotAsOf ts fs =>
    have h := answerOf_panic hans
    rcases query_bind_crash h with h | ⟨gs, c', hgs, h⟩
    · exact absurd h (fromStrTuples_np fs)
    rcases query_bind_crash h with h | ⟨ss, c'', hss, h⟩
    · rcases slicesInternal_crash hwf hpar h with h | h
      · exact .inl ⟨ts, by simp [TableCall.times], h⟩
      · exact .inr (.inl ⟨trivial, h⟩)
    rcases read_crash h with ⟨x, hx, hc⟩ | ⟨s, hs, hc⟩
    · exact .inl ⟨x, hx, hc⟩
    · refine .inr (.inr ⟨s, .snapshotAsOf ts fs ss s ?_ hs, hc⟩)
      simp only [TableCall.answer, Table.fileSlicesAsOf]
      change answerOf _ (Query.bind _ _ _).2 = _
      unfold Query.bind
      rw [hgs]
      simp only
      rw [hss]
      rfl
  | incremental start stop =>
    have h := answerOf_panic hans
    unfold Table.readIncremental at h
    cases hl : stop.or tb.timeline.latestTimestamp with
    | none => rw [hl] at h; cases h
    | some e =>
      rw [hl] at h
      have hstop : ¬ Cuttable e → e ∈ TableCall.times (.incremental start stop) := by
        intro he
        cases stop with
        | none => exact absurd (hlast e hl) he
        | some e' => cases hl; simp [TableCall.times]
      rcases bind_eq_panic.1 h with h | ⟨ss, hss, h⟩
      · rcases between_crash h with h | h
        · exact .inl ⟨start, by simp [TableCall.times], h⟩
        · exact .inl ⟨e, List.mem_append_left _ (hstop h), h⟩
      rcases read_crash h with ⟨x, hx, hc⟩ | ⟨s, hs, hc⟩
      · rw [optionTimes_both] at hx
        rcases List.mem_append.1 hx with hx | hx
        · simp only [List.mem_cons, List.not_mem_nil, or_false] at hx
          rcases hx with rfl | rfl
          · exact .inl ⟨x, by simp [TableCall.times], hc⟩
          · exact .inl ⟨x, List.mem_append_left _ (hstop hc), hc⟩
        · exact .inl ⟨x, List.mem_append_right _ hx, hc⟩
      · refine .inr (.inr ⟨s, .incremental start stop ss s ?_ hs, hc⟩)
        simp only [TableCall.answer, Table.fileSlicesBetween, hl, Option.getD_some]
        rw [hss]
        rfl

end Hudi
