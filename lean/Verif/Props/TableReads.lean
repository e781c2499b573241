import Verif.Props.Slices
import Verif.Props.Snapshot
import Verif.Lemmas.Config

/-! # C40, C51: reading the records of a table -/

namespace Hudi
open Spec

/-- The options of a reader made by a table: those given, over those of the table. -/
theorem hmGet_readerOpts {tb : Table} (hp : PlainStorage tb) (options : List (Str × Str))
    (hh : ∀ e ∈ options, startsWith c!"hoodie." e.1 = true) (k : Str) :
    hmGet k (tb.readerOpts options) = (hmGet k options.reverse).or (hmGet k tb.opts) := by
  unfold Table.readerOpts readerOpts
  rw [hmGet_hmExtend, hmGet_reverse_of_nodup (splitHudi_nodup _).1, hmGet_splitHudi_fst,
    hmGet_reverse_of_nodup (hmExtend_nodup hp.1), hmGet_hmExtend]
  by_cases hk : startsWith c!"hoodie." k = true
  · have : hmGet k tb.storageOpts = none := by
      rw [hmGet_eq_none]
      intro h
      obtain ⟨e, he, rfl⟩ := List.mem_map.1 h
      rw [hp.2 e he] at hk; cases hk
    simp [hk, this]
  · have : hmGet k options.reverse = none := by
      rw [hmGet_eq_none]
      intro h
      obtain ⟨e, he, rfl⟩ := List.mem_map.1 h
      exact hk (hh e (List.mem_reverse.1 he))
    simp [hk, this]

/-- Options that agree on a key of the configuration give the same values. -/
theorem timezoneOf_congr {o o' : Opts}
    (h : hmGet c!"hoodie.table.timeline.timezone" o = hmGet c!"hoodie.table.timeline.timezone" o') :
    timezoneOf o = timezoneOf o' := by
  unfold timezoneOf Cfg.getOrDefault Cfg.get
  rw [show Cfg.timelineTimezone.key = c!"hoodie.table.timeline.timezone" from rfl, h]

theorem overwrites_congr {o o' : Opts}
    (h1 : hmGet c!"hoodie.table.record.merge.strategy" o = hmGet c!"hoodie.table.record.merge.strategy" o')
    (h2 : hmGet c!"hoodie.populate.meta.fields" o = hmGet c!"hoodie.populate.meta.fields" o')
    (h3 : hmGet c!"hoodie.table.precombine.field" o = hmGet c!"hoodie.table.precombine.field" o') :
    OverwritesWithLatest o ↔ OverwritesWithLatest o' := by
  unfold OverwritesWithLatest
  rw [h1, h2, h3]

/-- Reading one slice. -/
theorem readFileSlice_rows {C : Codec} {A : Arrow} (M : MergeEnv A) {ltz : LocalTz} {o : Opts} {t : Tree}
    {s : FileSlice} {b : Batch} {tz pre : Str} {wss : List (List WBlock)} (hm : MergesBy o pre)
    (htz : timezoneOf o = .ok tz) (hr : RangeParses ltz (rangeOf o tz))
    (h : SliceFiles C ltz tz t (rangeOf o tz) s b wss) (hcol : MergeColumns b.schema pre)
    (htime : startOf o ≠ none → MetaFields o → HasCommitTime b.schema) :
    ∃ rows out, readFileSlice C A M ltz o t s = .ok out ∧ BaseRows o b rows ∧
      SliceRows C A ltz tz pre (rangeOf o tz) s b rows wss out := by
  by_cases hl : s.logFiles = []
  · obtain ⟨rows, h1, h2⟩ := readBaseFile_eq (A := A) (o := o) h.base h.baseWf htime
    refine ⟨rows, ⟨b.schema, rows⟩, ?_, h2, rfl, fun _ => rfl, fun h => absurd hl h⟩
    unfold readFileSlice FileSlice.hasLogFile
    rw [if_pos (by simp [hl]), h1]
  · obtain ⟨rows, bss, h1, h2, h3⟩ := readMerged_eq (M := M) hl hm.notReadOptimized h.base h.baseWf htime
      htz hr h.logs
    have hsub := baseRows_sub h2
    obtain ⟨rows', h4, h5⟩ := C38_latest_version_of_every_record_partial A M o b.schema
      (⟨b.schema, rows⟩ :: bss.flatten)
      (fun x hx => by
        rcases List.mem_cons.1 hx with rfl | hx
        · exact ⟨fun r hr => h.baseWf r (hsub r hr), rfl⟩
        · exact fit_all h.fit h3 x hx) hm.strategy pre hm.field hcol
    exact ⟨rows, ⟨b.schema, rows'⟩, by rw [h1, h4], h2, rfl, fun h => absurd h hl, fun _ => ⟨_, ⟨bss, h3, rfl⟩, h5⟩⟩

theorem mapL_forall₂ {α β : Type} {f : α → Res β} {R : α → β → Prop} {xs : List α}
    (h : ∀ x ∈ xs, ∃ y, f x = .ok y ∧ R x y) : ∃ ys, Res.mapL f xs = .ok ys ∧ List.Forall₂ R xs ys := by
  induction xs with
  | nil => exact ⟨[], rfl, .nil⟩
  | cons x xs ih =>
    obtain ⟨y, h1, h2⟩ := h x (by simp)
    obtain ⟨ys, h3, h4⟩ := ih (fun x hx => h x (by simp [hx]))
    exact ⟨y :: ys, Res.mapL_cons_ok.2 ⟨y, ys, h1, h3, rfl⟩, .cons h2 h4⟩

theorem Query.bind_snd {α β : Type} {x : Query α} {f : α → Query β} {c : Cache} {b : β} :
    ((x >>= f) c).2 = .ok b ↔ ∃ a, (x c).2 = .ok a ∧ (f a (x c).1).2 = .ok b := by
  show (Query.bind x f c).2 = _ ↔ _
  unfold Query.bind
  rcases h : x c with ⟨c', r⟩
  cases r <;> simp

theorem readSnapshotInternal_rows {E : Env} {A : Arrow} {C : Codec} (M : MergeEnv A) {tb : Table}
    {t : Tree} {ts tz pre : Str} {fs : List Filter} {c : Cache} {ss : List FileSlice}
    (hp : PlainStorage tb) (hm : MergesBy tb.opts pre) (hstart : startOf tb.opts = none)
    (htz : timezoneOf tb.opts = .ok tz) (hts : ∃ d, parseDatetime E.ltz ts tz = .ok d)
    (hss : (tb.fileSlicesInternal E A t ts fs c).2 = .ok ss)
    (content : FileSlice → Batch × List (List WBlock))
    (h : ∀ s ∈ ss, SliceFiles C E.ltz tz t ⟨tz, none, some ts, false, true⟩ s (content s).1 (content s).2 ∧
      MergeColumns (content s).1.schema pre) :
    ∃ outs, (tb.readSnapshotInternal E A C M t ts fs c).2 = .ok outs ∧
      List.Forall₂ (fun s out => SliceRows C A E.ltz tz pre ⟨tz, none, some ts, false, true⟩ s
        (content s).1 (content s).1.rows (content s).2 out) ss outs := by
  have hget := hmGet_readerOpts hp [(Cfg.fileGroupEndTimestamp.key, ts)]
    (by intro e he; rw [List.mem_singleton.1 he]; rfl)
  generalize ho : tb.readerOpts [(Cfg.fileGroupEndTimestamp.key, ts)] = o at hget
  have hother : ∀ k, k ≠ c!"hoodie.read.file_group.end_timestamp" → hmGet k o = hmGet k tb.opts := by
    intro k hk
    rw [hget]
    simp only [List.reverse_singleton, hmGet]
    rw [if_neg (by rw [show Cfg.fileGroupEndTimestamp.key =
      c!"hoodie.read.file_group.end_timestamp" from rfl]; exact hk)]
    rfl
  have hs' : startOf o = none := by
    unfold startOf; rw [hother _ (by decide)]; exact hstart
  have he' : endOf o = some ts := by
    unfold endOf; rw [hget]; rfl
  have hm' : MergesBy o pre := ⟨(overwrites_congr (hother _ (by decide)) (hother _ (by decide))
      (hother _ (by decide))).2 hm.strategy, by rw [hother _ (by decide)]; exact hm.field,
    by unfold ReadOptimized; rw [hother _ (by decide)]; exact hm.notReadOptimized⟩
  have htz' : timezoneOf o = .ok tz := by rw [timezoneOf_congr (hother _ (by decide)), htz]
  have hrange : rangeOf o tz = ⟨tz, none, some ts, false, true⟩ := by
    unfold rangeOf; rw [hs', he']
  obtain ⟨outs, h1, h2⟩ := mapL_forall₂ (f := readFileSlice C A M E.ltz o t)
    (R := fun s out => SliceRows C A E.ltz tz pre ⟨tz, none, some ts, false, true⟩ s
        (content s).1 (content s).1.rows (content s).2 out) (xs := ss) (fun s hs => by
      obtain ⟨h3, h4⟩ := h s hs
      obtain ⟨rows, out, h5, h6, h7⟩ := readFileSlice_rows (o := o) M hm' htz'
        (by rw [hrange]; exact ⟨by simp, by simpa using hts⟩) (by rw [hrange]; exact h3) h4
        (fun h => absurd hs' h)
      rw [hrange] at h7
      unfold BaseRows at h6
      rw [hs'] at h6
      simp only at h6
      rw [h6] at h7
      exact ⟨out, h5, h7⟩)
  refine ⟨outs, ?_, h2⟩
  unfold Table.readSnapshotInternal
  rw [Query.bind_snd]
  refine ⟨ss, hss, ?_⟩
  rw [ho]
  exact h1

/-- **C40, the table as of `ts` (partial).**  For a table that overwrites with the latest version:
whenever the file slices of the snapshot can be listed and their files are readable, reading the
snapshot as of `ts` succeeds with one batch per slice, in order: the rows of the base file, merged, if
the slice has log files, with the records of the log blocks at or before `ts` that are not rolled back.
Missing: as for `C40_latest_versions_partial`. -/
theorem C40_read_snapshot_as_of_partial (E : Env) (A : Arrow) (C : Codec) (M : MergeEnv A) (tb : Table)
    (t : Tree) (ts tz pre : Str) (filters : List (Str × Str × Str)) (c : Cache) (ss : List FileSlice)
    (hp : PlainStorage tb) (hm : MergesBy tb.opts pre) (hstart : startOf tb.opts = none)
    (htz : timezoneOf tb.opts = .ok tz) (hts : ∃ d, parseDatetime E.ltz ts tz = .ok d)
    (hss : (tb.fileSlicesAsOf E A t ts filters c).2 = .ok ss)
    (content : FileSlice → Batch × List (List WBlock))
    (h : ∀ s ∈ ss, SliceFiles C E.ltz tz t ⟨tz, none, some ts, false, true⟩ s (content s).1 (content s).2 ∧
      MergeColumns (content s).1.schema pre) :
    ∃ outs, (tb.readSnapshotAsOf E A C M t ts filters c).2 = .ok outs ∧
      List.Forall₂ (fun s out => SliceRows C A E.ltz tz pre ⟨tz, none, some ts, false, true⟩ s
        (content s).1 (content s).1.rows (content s).2 out) ss outs := by
  unfold Table.fileSlicesAsOf at hss
  obtain ⟨fs, h1, h2⟩ := Query.bind_lift_snd.1 hss
  obtain ⟨outs, h3, h4⟩ := readSnapshotInternal_rows M hp hm hstart htz hts h2 content h
  refine ⟨outs, ?_, h4⟩
  unfold Table.readSnapshotAsOf
  exact Query.bind_lift_snd.2 ⟨fs, h1, h3⟩

/-- **C40, the latest snapshot (partial).**  As above with `ts` the timestamp of the latest completed
instant.  Missing: as in `C40_latest_versions_partial`. -/
theorem C40_read_snapshot_partial (E : Env) (A : Arrow) (C : Codec) (M : MergeEnv A) (tb : Table)
    (t : Tree) (tz pre : Str) (filters : List (Str × Str × Str)) (c : Cache) (ss : List FileSlice)
    (last : Instant) (hlast : tb.timeline.completed.getLast? = some last)
    (hp : PlainStorage tb) (hm : MergesBy tb.opts pre) (hstart : startOf tb.opts = none)
    (htz : timezoneOf tb.opts = .ok tz) (hts : ∃ d, parseDatetime E.ltz last.timestamp tz = .ok d)
    (hss : (tb.fileSlices E A t filters c).2 = .ok ss)
    (content : FileSlice → Batch × List (List WBlock))
    (h : ∀ s ∈ ss, SliceFiles C E.ltz tz t ⟨tz, none, some last.timestamp, false, true⟩ s (content s).1
        (content s).2 ∧ MergeColumns (content s).1.schema pre) :
    ∃ outs, (tb.readSnapshot E A C M t filters c).2 = .ok outs ∧
      List.Forall₂ (fun s out => SliceRows C A E.ltz tz pre ⟨tz, none, some last.timestamp, false, true⟩ s
        (content s).1 (content s).1.rows (content s).2 out) ss outs := by
  have hl : tb.timeline.latestTimestamp = some last.timestamp := by
    unfold Timeline.latestTimestamp; rw [hlast]; rfl
  unfold Table.fileSlices at hss
  unfold Table.readSnapshot
  rw [hl] at hss ⊢
  simp only at hss ⊢
  obtain ⟨fs, h1, h2⟩ := Query.bind_lift_snd.1 hss
  obtain ⟨outs, h3, h4⟩ := readSnapshotInternal_rows M hp hm hstart htz hts h2 content h
  exact ⟨outs, Query.bind_lift_snd.2 ⟨fs, h1, h3⟩, h4⟩

/-- **C40.**  A table without completed instants has no records. -/
theorem C40_empty_table (E : Env) (A : Arrow) (C : Codec) (M : MergeEnv A) (tb : Table)
    (t : Tree) (filters : List (Str × Str × Str)) (c : Cache) (h : tb.timeline.completed = []) :
    (tb.readSnapshot E A C M t filters c).2 = .ok [] := by
  unfold Table.readSnapshot Timeline.latestTimestamp
  rw [h]; rfl

/-! ## C51: incremental reads -/

/-- **C51 (partial).**  For a table with meta fields that overwrites with the latest version: whenever
the file slices between `start` and `stop` can be listed and their files are readable, an incremental
read succeeds with one batch per slice, in order: the rows of its base file committed after `start` and
not after `stop`, merged, if the slice has log files, with the records of the log blocks in that range
that are not rolled back.  Missing: as for `C33_false` (base file rows are selected by text) and
`C40_latest_versions_partial`. -/
theorem C51_incremental_rows_partial (E : Env) (A : Arrow) (C : Codec) (M : MergeEnv A) (tb : Table)
    (t : Tree) (start stop tz pre : Str) (ss : List FileSlice)
    (hp : PlainStorage tb) (hm : MergesBy tb.opts pre) (hmeta : MetaFields tb.opts)
    (htz : timezoneOf tb.opts = .ok tz) (hts : ∃ d, parseDatetime E.ltz start tz = .ok d)
    (hte : ∃ d, parseDatetime E.ltz stop tz = .ok d)
    (hss : tb.fileSlicesBetween E t (some start) (some stop) = .ok ss)
    (content : FileSlice → Batch × List (List WBlock))
    (h : ∀ s ∈ ss, SliceFiles C E.ltz tz t ⟨tz, some start, some stop, false, true⟩ s (content s).1
        (content s).2 ∧ MergeColumns (content s).1.schema pre ∧ HasCommitTime (content s).1.schema) :
    ∃ outs, tb.readIncremental E A C M t start (some stop) = .ok outs ∧
      List.Forall₂ (fun s out => ∃ keep : List Cell → Bool,
        (∀ r ∈ (content s).1.rows, keep r = true ↔
          CommittedIn (content s).1.schema start (some stop) r) ∧
        SliceRows C A E.ltz tz pre ⟨tz, some start, some stop, false, true⟩ s
          (content s).1 ((content s).1.rows.filter keep) (content s).2 out) ss outs := by
  have hget := hmGet_readerOpts hp [(Cfg.fileGroupStartTimestamp.key, start),
    (Cfg.fileGroupEndTimestamp.key, stop)] (by
      intro e he
      simp only [List.mem_cons, List.not_mem_nil, or_false] at he
      rcases he with rfl | rfl <;> rfl)
  generalize ho : tb.readerOpts [(Cfg.fileGroupStartTimestamp.key, start),
    (Cfg.fileGroupEndTimestamp.key, stop)] = o at hget
  have hother : ∀ k, k ≠ c!"hoodie.read.file_group.end_timestamp" →
      k ≠ c!"hoodie.read.file_group.start_timestamp" → hmGet k o = hmGet k tb.opts := by
    intro k hk hk'
    rw [hget]
    simp only [List.reverse_cons, List.reverse_nil, List.nil_append, List.cons_append, hmGet]
    rw [if_neg (by rw [show Cfg.fileGroupEndTimestamp.key =
      c!"hoodie.read.file_group.end_timestamp" from rfl]; exact hk),
      if_neg (by rw [show Cfg.fileGroupStartTimestamp.key =
      c!"hoodie.read.file_group.start_timestamp" from rfl]; exact hk')]
    rfl
  have hs' : startOf o = some start := by
    unfold startOf; rw [hget]; rfl
  have he' : endOf o = some stop := by
    unfold endOf; rw [hget]; rfl
  have hm' : MergesBy o pre := ⟨(overwrites_congr (hother _ (by decide) (by decide))
      (hother _ (by decide) (by decide)) (hother _ (by decide) (by decide))).2 hm.strategy,
    by rw [hother _ (by decide) (by decide)]; exact hm.field,
    by unfold ReadOptimized; rw [hother _ (by decide) (by decide)]; exact hm.notReadOptimized⟩
  have hmeta' : MetaFields o := by
    unfold MetaFields; rw [hother _ (by decide) (by decide)]; exact hmeta
  have htz' : timezoneOf o = .ok tz := by
    rw [timezoneOf_congr (hother _ (by decide) (by decide)), htz]
  have hrange : rangeOf o tz = ⟨tz, some start, some stop, false, true⟩ := by
    unfold rangeOf; rw [hs', he']
  have hss' : tb.fileSlicesBetweenInternal E t start stop = .ok ss := hss
  rw [show tb.readIncremental E A C M t start (some stop) = (do
    let ss ← tb.fileSlicesBetweenInternal E t start stop
    Res.mapL (readFileSlice C A M E.ltz (tb.readerOpts [(Cfg.fileGroupStartTimestamp.key, start),
      (Cfg.fileGroupEndTimestamp.key, stop)]) t) ss) from rfl, hss']
  simp only [Res.ok_bind, ho]
  refine mapL_forall₂ (fun s hs => ?_)
  obtain ⟨h3, h4, h8⟩ := h s hs
  obtain ⟨rows, out, h5, h6, h7⟩ := readFileSlice_rows (o := o) M hm' htz'
    (by rw [hrange]; exact ⟨by simpa using hts, by simpa using hte⟩) (by rw [hrange]; exact h3) h4
    (fun _ _ => h8)
  rw [hrange] at h7
  unfold BaseRows at h6
  rw [hs'] at h6
  obtain ⟨keep, rfl, h9⟩ := h6.1 hmeta'
  rw [he'] at h9
  exact ⟨out, h5, keep, h9, h7⟩

/-- **C51, open end.**  Without an end, the timestamp of the latest completed instant is the end; a table
without completed instants yields nothing. -/
theorem C51_open_end (E : Env) (A : Arrow) (C : Codec) (M : MergeEnv A) (tb : Table) (t : Tree)
    (start : Str) :
    (tb.timeline.completed = [] ∧ tb.readIncremental E A C M t start none = .ok []) ∨
    ∃ last, tb.timeline.completed.getLast? = some last ∧
      tb.readIncremental E A C M t start none =
        tb.readIncremental E A C M t start (some last.timestamp) := by
  unfold Table.readIncremental Timeline.latestTimestamp
  cases hl : tb.timeline.completed.getLast? with
  | none => exact .inl ⟨List.getLast?_eq_none_iff.1 hl, rfl⟩
  | some i => exact .inr ⟨i, rfl, rfl⟩

end Hudi
