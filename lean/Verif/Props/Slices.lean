import Verif.Props.Reader

/-! # C40: reading a file slice -/

namespace Hudi
open Spec

/-- The range of a read, from its options. -/
def rangeOf (o : Opts) (tz : Str) : InstantRange := ⟨tz, startOf o, endOf o, false, true⟩

theorem logScanRange_eq {o : Opts} {tz : Str} (htz : timezoneOf o = .ok tz) :
    logScanRange o = .ok (rangeOf o tz) := by
  unfold logScanRange
  rw [htz]
  simp only [Res.ok_bind, start_eq, end_eq]
  rfl

/-- A scan of readable log files, each read from a store of its own, returns the batches of the surviving
blocks. -/
theorem scan_surviving_with {C : Codec} {ltz : LocalTz} {o : Opts} {f : Str → Tree} {tz : Str} {r : InstantRange}
    {paths : List Str} {wss : List (List WBlock)} (htz : timezoneOf o = .ok tz)
    (hr : RangeParses ltz r) (hat : List.Forall₂ (fun p ws => LogAt C (f p) p ws) paths wss)
    (hwf : ∀ w ∈ wss.flatten, w.WF) (hdec : ∀ w ∈ wss.flatten, ∃ bs, Decodes C w bs)
    (htimes : ∀ w ∈ wss.flatten, ∃ i d, WrittenBy w i ∧ parseDatetime ltz i tz = .ok d)
    (htargets : ∀ w ∈ wss.flatten, IsRollback w → ∃ i, RollsBack w i) :
    ∃ files kept, Res.mapL (fun p => scanFile C ltz o (f p) r p) paths = .ok files ∧
      Res.mapL (survivingBatches (files.flatMap Prod.snd)) (files.flatMap Prod.fst) = .ok kept ∧
      List.Forall₂ (Decodes C) (surviving ltz tz r wss.flatten) (kept.filterMap id) := by
  classical
  exact scan_with C ltz o f tz r
    (fun w => decide (BlockIn ltz tz r w)) (fun w => decide (Survives ltz tz r wss.flatten w)) paths wss
    htz hat hr hwf hdec
    (fun w hw => by
      obtain ⟨i, d, h1, h2⟩ := htimes w hw
      refine ⟨i, d, h1, h2, ?_⟩
      rw [decide_eq_true_eq]
      constructor
      · rintro ⟨i', d', h3, h4, h5⟩
        unfold WrittenBy at h1 h3
        rw [h1] at h3; cases h3
        rw [h2] at h4; cases h4
        exact h5
      · exact fun h5 => ⟨i, d, h1, h2, h5⟩)
    (fun w hw hr => by
      obtain ⟨i, h3⟩ := htargets w hw hr
      exact ⟨i, h3.2⟩)
    (fun w hw => by
      simp only [decide_eq_true_eq]
      unfold Survives RolledBack
      constructor
      · rintro ⟨h3, h4⟩
        refine ⟨h3, ?_⟩
        rintro ⟨i, h5, w', h6, h7⟩
        obtain ⟨h8, h9⟩ := List.mem_filter.1 h6
        exact h4 ⟨w', h8, of_decide_eq_true h9, i, h7, h5⟩
      · rintro ⟨h3, h4⟩
        refine ⟨h3, ?_⟩
        rintro ⟨w', h5, h6, i, h7, h8⟩
        exact h4 ⟨i, h8, w', List.mem_filter.2 ⟨h5, decide_eq_true h6⟩, h7⟩)

/-- A scan of readable log files returns the batches of the surviving blocks. -/
theorem scan_surviving {C : Codec} {ltz : LocalTz} {o : Opts} {t : Tree} {tz : Str} {r : InstantRange}
    {paths : List Str} {wss : List (List WBlock)} (htz : timezoneOf o = .ok tz)
    (hr : RangeParses ltz r) (h : ReadableLogs C ltz tz t paths wss) :
    ∃ bss, scanLogs C ltz o t r paths = .ok bss ∧
      List.Forall₂ (Decodes C) (surviving ltz tz r wss.flatten) bss := by
  obtain ⟨files, kept, h1, h2, h3⟩ := scan_surviving_with (f := fun _ => t) htz hr h.at_ h.wf h.decodes h.times
    h.targets
  refine ⟨kept.filterMap id, ?_, h3⟩
  unfold scanLogs
  rw [show Res.mapL (scanFile C ltz o t r) paths = .ok files from h1]
  simp only [Res.ok_bind, h2, Res.pure_eq]

/-- What a read of a slice with log files merges. -/
theorem readMerged_eq {C : Codec} {A : Arrow} {M : MergeEnv A} {ltz : LocalTz} {o : Opts} {t : Tree}
    {s : FileSlice} {b : Batch} {tz : Str} {wss : List (List WBlock)}
    (hlog : s.logFiles ≠ []) (hro : ¬ ReadOptimized o)
    (hat : ParquetAt t s.basePath b) (hwf : b.WF)
    (hcol : startOf o ≠ none → MetaFields o → HasCommitTime b.schema)
    (htz : timezoneOf o = .ok tz) (hr : RangeParses ltz (rangeOf o tz))
    (h : ReadableLogs C ltz tz t (s.logFiles.map s.logPath) wss) :
    ∃ rows bss, readFileSlice C A M ltz o t s =
        mergeRecordBatches A M o b.schema (⟨b.schema, rows⟩ :: bss.flatten) ∧
      BaseRows o b rows ∧
      List.Forall₂ (Decodes C) (surviving ltz tz (rangeOf o tz) wss.flatten) bss := by
  obtain ⟨rows, h1, h2⟩ := readBaseFile_eq (A := A) (o := o) hat hwf hcol
  obtain ⟨bss, h3, h4⟩ := scan_surviving (o := o) htz hr h
  refine ⟨rows, bss, ?_, h2, h4⟩
  unfold readFileSlice FileSlice.hasLogFile
  rw [if_neg (by simpa using hlog)]
  obtain ⟨v, hv1, hv2⟩ := Res.bind_eq_ok.1 (readOptimized_eq o)
  simp only [hv1, hv2, Res.ok_bind, hro, decide_false, Bool.false_eq_true, if_false]
  unfold readMerged
  rw [h1, logScanRange_eq htz]
  simp only [Res.ok_bind, h3]

theorem baseRows_sub {o : Opts} {b : Batch} {rows : List (List Cell)} (h : BaseRows o b rows) :
    ∀ r ∈ rows, r ∈ b.rows := by
  unfold BaseRows at h
  intro r hr
  cases hs : startOf o with
  | none => rw [hs] at h; simp only at h; rwa [h] at hr
  | some st =>
    rw [hs] at h
    by_cases hm : MetaFields o
    · obtain ⟨keep, rfl, _⟩ := h.1 hm
      exact (List.mem_filter.1 hr).1
    · rwa [h.2 hm] at hr

theorem fit_all {C : Codec} {schema : Schema} {ws : List WBlock} {bss : List (List Batch)}
    (hfit : BatchesFit C schema ws) (h : List.Forall₂ (Decodes C) ws bss) :
    ∀ b ∈ bss.flatten, b.WF ∧ b.schema = schema := by
  intro b hb
  obtain ⟨bs, h1, h2⟩ := List.mem_flatten.1 hb
  obtain ⟨w, h3, h4⟩ : ∃ w ∈ ws, Decodes C w bs := by
    clear hb hfit
    induction h with
    | nil => cases h1
    | @cons w bs' ws bss h3 h4 ih =>
      rcases List.mem_cons.1 h1 with rfl | h1
      · exact ⟨w, by simp, h3⟩
      · obtain ⟨w', h5, h6⟩ := ih h1
        exact ⟨w', by simp [h5], h6⟩
  exact hfit w h3 bs h4 b h2

/-- **C40, base files only.**  A slice without log files, or read in read-optimized mode, yields
exactly the rows of its base file. -/
theorem C40_base_file_only (C : Codec) (A : Arrow) (M : MergeEnv A) (ltz : LocalTz) (o : Opts) (t : Tree)
    (s : FileSlice) (b : Batch) (hat : ParquetAt t s.basePath b) (hstart : startOf o = none)
    (h : s.logFiles = [] ∨ ReadOptimized o) : readFileSlice C A M ltz o t s = .ok b := by
  have hb := C33_all_rows A o t s.basePath b hat (.inl hstart)
  unfold readFileSlice FileSlice.hasLogFile
  by_cases hl : s.logFiles = []
  · rw [if_pos (by simp [hl]), hb]
  · rw [if_neg (by simpa using hl)]
    obtain ⟨v, hv1, hv2⟩ := Res.bind_eq_ok.1 (readOptimized_eq o)
    have hro := h.resolve_left hl
    simp only [hv1, hv2, Res.ok_bind, hro, decide_true, if_true, hb]

/-- **C40 (partial).**  Reading a slice with log files as of `ts`, for a table that overwrites with the
latest version, yields exactly the latest version of each record among the rows of the base file and
the records of the log blocks at or before `ts` that are not rolled back.  Missing: log records whose
schema differs from the base file's, which are merged by column position (`C38_false`), and delete
blocks, which are errors (`C34_false`). -/
theorem C40_latest_versions_partial (C : Codec) (A : Arrow) (M : MergeEnv A) (ltz : LocalTz) (o : Opts)
    (t : Tree) (s : FileSlice) (b : Batch) (tz ts pre : Str) (wss : List (List WBlock))
    (hlog : s.logFiles ≠ []) (hro : ¬ ReadOptimized o) (hstart : startOf o = none)
    (hend : endOf o = some ts) (htz : timezoneOf o = .ok tz)
    (hts : ∃ d, parseDatetime ltz ts tz = .ok d)
    (hat : ParquetAt t s.basePath b) (hwf : b.WF)
    (h : ReadableLogs C ltz tz t (s.logFiles.map s.logPath) wss)
    (hfit : BatchesFit C b.schema (surviving ltz tz ⟨tz, none, some ts, false, true⟩ wss.flatten))
    (hs : OverwritesWithLatest o)
    (hpre : hmGet c!"hoodie.table.precombine.field" o = some pre) (hcol : MergeColumns b.schema pre) :
    ∃ logRows rows, readFileSlice C A M ltz o t s = .ok ⟨b.schema, rows⟩ ∧
      RecordsOf C (surviving ltz tz ⟨tz, none, some ts, false, true⟩ wss.flatten) logRows ∧
      LatestVersions A b.schema pre (b.rows ++ logRows) rows := by
  have hrange : rangeOf o tz = ⟨tz, none, some ts, false, true⟩ := by
    unfold rangeOf; rw [hstart, hend]
  obtain ⟨rows, bss, h1, h2, h3⟩ := readMerged_eq (M := M) hlog hro hat hwf (fun h => absurd hstart h) htz
    (by rw [hrange]; exact ⟨by simp, by simpa using hts⟩) h
  rw [hrange] at h3
  have h2 : rows = b.rows := by unfold BaseRows at h2; rw [hstart] at h2; exact h2
  subst h2
  obtain ⟨rows, h4, h5⟩ := C38_latest_version_of_every_record_partial A M o b.schema
    (⟨b.schema, b.rows⟩ :: bss.flatten)
    (fun x hx => by
      rcases List.mem_cons.1 hx with rfl | hx
      · exact ⟨hwf, rfl⟩
      · exact fit_all hfit h3 x hx) hs pre hpre hcol
  exact ⟨_, rows, by rw [h1, h4], ⟨bss, h3, rfl⟩, h5⟩

/-- **C40, append-only (partial).**  For an append-only table, the rows of the base file followed by the
log records.  Missing: as in `C40_latest_versions_partial`. -/
theorem C40_append_only_partial (C : Codec) (A : Arrow) (M : MergeEnv A) (ltz : LocalTz) (o : Opts)
    (t : Tree) (s : FileSlice) (b : Batch) (tz ts : Str) (wss : List (List WBlock))
    (hlog : s.logFiles ≠ []) (hro : ¬ ReadOptimized o) (hstart : startOf o = none)
    (hend : endOf o = some ts) (htz : timezoneOf o = .ok tz)
    (hts : ∃ d, parseDatetime ltz ts tz = .ok d)
    (hat : ParquetAt t s.basePath b) (hwf : b.WF)
    (h : ReadableLogs C ltz tz t (s.logFiles.map s.logPath) wss)
    (hfit : BatchesFit C b.schema (surviving ltz tz ⟨tz, none, some ts, false, true⟩ wss.flatten))
    (hs : ¬ OverwritesWithLatest o) :
    ∃ logRows, readFileSlice C A M ltz o t s = .ok ⟨b.schema, b.rows ++ logRows⟩ ∧
      RecordsOf C (surviving ltz tz ⟨tz, none, some ts, false, true⟩ wss.flatten) logRows := by
  have hrange : rangeOf o tz = ⟨tz, none, some ts, false, true⟩ := by
    unfold rangeOf; rw [hstart, hend]
  obtain ⟨rows, bss, h1, h2, h3⟩ := readMerged_eq (M := M) hlog hro hat hwf (fun h => absurd hstart h) htz
    (by rw [hrange]; exact ⟨by simp, by simpa using hts⟩) h
  rw [hrange] at h3
  have h2 : rows = b.rows := by unfold BaseRows at h2; rw [hstart] at h2; exact h2
  subst h2
  have h4 := C38_append_only A M o b.schema (⟨b.schema, b.rows⟩ :: bss.flatten)
    (fun x hx => by
      rcases List.mem_cons.1 hx with rfl | hx
      · exact ⟨hwf, rfl⟩
      · exact fit_all hfit h3 x hx) hs
  exact ⟨_, by rw [h1, h4]; simp, ⟨bss, h3, rfl⟩⟩

end Hudi
