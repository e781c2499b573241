import Verif.Props.Racing
import Verif.Props.ChangesDemo

/-! # C68: incremental reads while writers are working -/

namespace Hudi
open Spec

theorem instantMetadata_both {E : Env} {o : Opts} {t0 t u : Tree} {tl : Timeline}
    (hload : Timeline.load E o t0 = .ok tl) (hwf : ∀ n ∈ timelineNames t0, Spec.NormalName n)
    {i : Instant} (hi : i ∈ tl.completed) (hd : docOf u i = docOf t i) {acc : List FileGroup × List FileGroup}
    {r : List FileGroup × List FileGroup} (h : betweenStep t acc i = .ok r) : betweenStep u acc i = .ok r := by
  unfold betweenStep at h ⊢
  obtain ⟨md, h1, h2⟩ := Res.bind_eq_ok.1 h
  rw [instantMetadata_same hload hwf hi hd h1]
  exact h2

theorem fileGroupsBetweenR_same {E : Env} {o : Opts} {t0 t : Tree} {tl : Timeline} {R : Race}
    (hload : Timeline.load E o t0 = .ok tl) (hwf : ∀ n ∈ timelineNames t0, Spec.NormalName n)
    (hd : ∀ i ∈ tl.completed, docOf (R.replaced i) i = docOf t i) {start stop : Option Str} {gs : List FileGroup}
    (h : tl.fileGroupsBetween E t start stop = .ok gs) : tl.fileGroupsBetweenR E R start stop = .ok gs := by
  unfold Timeline.fileGroupsBetween at h
  unfold Timeline.fileGroupsBetweenR
  obtain ⟨s, h1, h2⟩ := Res.bind_eq_ok.1 h
  obtain ⟨r, h3, h4⟩ := Res.bind_eq_ok.1 h2
  rw [h1]
  simp only [Res.ok_bind]
  have hsub := select_sub s tl.completed
  have : Res.foldL (betweenStepR R) ([], []) (s.select tl.completed) = .ok r := by
    clear h1 h2 h4 h
    revert h3
    generalize s.select tl.completed = is at hsub
    generalize (([], []) : List FileGroup × List FileGroup) = acc
    intro h3
    induction is generalizing acc with
    | nil => exact h3
    | cons i is ih =>
      rw [Res.foldL_cons] at h3 ⊢
      obtain ⟨acc', h5, h6⟩ := Res.bind_eq_ok.1 h3
      have hi := hsub i (by simp)
      rw [show betweenStepR R acc i = .ok acc' from instantMetadata_both hload hwf hi (hd i hi) h5]
      exact ih (fun i hi => hsub i (by simp [hi])) _ h6
  rw [this]
  exact h4

/-- A block later than the end of the range is not in it. -/
theorem later_not_blockIn {ltz : LocalTz} {tz ts : Str} {start : Option Str} {w : WBlock}
    (h : WrittenAfter ltz tz ts w) : ¬ BlockIn ltz tz ⟨tz, start, some ts, false, true⟩ w := by
  obtain ⟨i, d, e, h1, h2, h3, h4⟩ := h
  rintro ⟨i', d', k1, k2, k3⟩
  unfold WrittenBy at h1 k1
  rw [h1] at k1; cases k1
  rw [h2] at k2; cases k2
  obtain ⟨e', m1, m2⟩ := k3.2 ts rfl
  rw [show (⟨tz, start, some ts, false, true⟩ : InstantRange).timezone = tz from rfl, h3] at m1
  cases m1
  unfold Before at h4
  rcases m2 with m2 | ⟨_, m2⟩
  · unfold Before at m2; omega
  · subst m2; omega

theorem readBaseFile_parquet {A : Arrow} {o : Opts} {t u : Tree} {path : Str} {b out : Batch}
    (h : ParquetAt t path b) (h' : ParquetAt u path b) (hr : readBaseFile A o t path = .ok out) :
    readBaseFile A o u path = .ok out := by
  obtain ⟨sz, bs, _, h⟩ := h
  obtain ⟨sz', bs', _, h'⟩ := h'
  unfold readBaseFile getParquetData getFile at hr ⊢
  rw [h] at hr
  rw [h']
  exact hr

theorem readBaseFile_found {A : Arrow} {o : Opts} {t : Tree} {path : Str} {out : Batch}
    (hr : readBaseFile A o t path = .ok out) : ∃ b, ParquetAt t path b := by
  unfold readBaseFile getParquetData getFile at hr
  cases hf : t.fileAt (pathSegs path) with
  | none => rw [hf] at hr; cases hr
  | some e =>
    obtain ⟨size, c⟩ := e
    rw [hf] at hr
    cases c with
    | parquet bs b footer => exact ⟨b, size, bs, footer, hf⟩
    | json _ => cases hr
    | text _ => cases hr
    | bytes _ => cases hr
    | junk => cases hr

/-- One slice, whose files are read at different moments. -/
theorem readFileSliceR_same {C : Codec} {A : Arrow} {M : MergeEnv A} {ltz : LocalTz} {o : Opts} {R : Race} {t : Tree}
    {s : FileSlice} {tz stop : Str} {out : Batch} (htz : timezoneOf o = .ok tz)
    (hr : RangeParses ltz (rangeOf o tz)) (hstop : endOf o = some stop)
    (hb : ∀ b, ParquetAt t s.basePath b → ParquetAt (R.data s.basePath) s.basePath b)
    (hl : ¬ ReadOptimized o → ∀ l ∈ s.logFiles, ∃ ws more, LogAt C t (s.logPath l) ws ∧
      LogAt C (R.data (s.logPath l)) (s.logPath l) (ws ++ more) ∧ (∀ w ∈ ws, GoodBlock C ltz tz w) ∧
      ∀ w ∈ more, GoodBlock C ltz tz w ∧ WrittenAfter ltz tz stop w)
    (h : readFileSlice C A M ltz o t s = .ok out) : readFileSliceR C A M ltz o R s = .ok out := by
  have hbase : ∀ out, readBaseFile A o t s.basePath = .ok out → readBaseFileR A o R s.basePath = .ok out := by
    intro out hout
    obtain ⟨b, h1⟩ := readBaseFile_found hout
    exact readBaseFile_parquet h1 (hb b h1) hout
  unfold readFileSlice at h
  unfold readFileSliceR
  split
  · rename_i hn
    rw [if_pos hn] at h
    exact hbase _ h
  rename_i hn
  rw [if_neg hn] at h
  obtain ⟨v, hv1, hv2⟩ := Res.bind_eq_ok.1 (readOptimized_eq o)
  simp only [hv1, hv2, Res.ok_bind] at h ⊢
  by_cases hro : ReadOptimized o
  · simp only [hro, decide_true, if_true] at h ⊢
    exact hbase _ h
  simp only [hro, decide_false, Bool.false_eq_true, if_false] at h ⊢
  have hl := hl hro
  unfold readMerged at h
  unfold readMergedR
  obtain ⟨b, h1, h2⟩ := Res.bind_eq_ok.1 h
  rw [hbase _ h1]
  simp only [Res.ok_bind]
  rw [logScanRange_eq htz] at h2 ⊢
  simp only [Res.ok_bind] at h2 ⊢
  have hlists : ∃ wss wss', List.Forall₂ (LogAt C t) (s.logFiles.map s.logPath) wss ∧
      List.Forall₂ (fun p ws => LogAt C (R.data p) p ws) (s.logFiles.map s.logPath) wss' ∧
      (∀ w ∈ wss.flatten, GoodBlock C ltz tz w) ∧ (∀ w ∈ wss'.flatten, GoodBlock C ltz tz w) ∧
      ∀ [DecidablePred (BlockIn ltz tz (rangeOf o tz))],
        wss'.flatten.filter (fun w => decide (BlockIn ltz tz (rangeOf o tz) w)) =
        wss.flatten.filter (fun w => decide (BlockIn ltz tz (rangeOf o tz) w)) := by
    generalize s.logFiles = ls at hl
    induction ls with
    | nil => exact ⟨[], [], .nil, .nil, by simp, by simp, rfl⟩
    | cons l ls ih =>
      obtain ⟨wss, wss', a1, a2, a3, a4, a5⟩ := ih (fun l hl' => hl l (by simp [hl']))
      obtain ⟨ws, more, b1, b2, b3, b4⟩ := hl l (by simp)
      refine ⟨ws :: wss, (ws ++ more) :: wss', .cons b1 a1, .cons b2 a2, ?_, ?_, ?_⟩
      · intro w hw
        rw [List.flatten_cons, List.mem_append] at hw
        exact hw.elim (b3 w) (a3 w)
      · intro w hw
        rw [List.flatten_cons, List.mem_append, List.mem_append] at hw
        exact hw.elim (fun hw => hw.elim (b3 w) (fun hw => (b4 w hw).1)) (a4 w)
      · intro _
        have : more.filter (fun w => decide (BlockIn ltz tz (rangeOf o tz) w)) = [] := by
          rw [List.filter_eq_nil_iff]
          intro w hw
          rw [decide_eq_true_eq]
          unfold rangeOf
          rw [hstop]
          exact later_not_blockIn (b4 w hw).2
        rw [List.flatten_cons, List.flatten_cons, List.filter_append, List.filter_append, List.filter_append, this,
          a5, List.append_nil]
  obtain ⟨wss, wss', a1, a2, a3, a4, a5⟩ := hlists
  obtain ⟨bss, c1, c2⟩ := scan_surviving (o := o) htz hr (t := t) (paths := s.logFiles.map s.logPath) (wss := wss)
    ⟨a1, fun w hw => (a3 w hw).wf, fun w hw => (a3 w hw).decodes, fun w hw => (a3 w hw).time,
      fun w hw => (a3 w hw).target⟩
  obtain ⟨files, kept, d1, d2, d3⟩ := scan_surviving_with (o := o) (f := R.data) htz hr a2
    (fun w hw => (a4 w hw).wf) (fun w hw => (a4 w hw).decodes) (fun w hw => (a4 w hw).time)
    (fun w hw => (a4 w hw).target)
  rw [surviving_congr a5] at d3
  have hbss : kept.filterMap id = bss :=
    forall₂_det (R := Decodes C) (fun w b b' h h' => decodes_det h h') d3 c2
  have hscan : scanLogsR C ltz o R (rangeOf o tz) (s.logFiles.map s.logPath) = .ok bss := by
    unfold scanLogsR
    rw [show Res.mapL (scanFileR C ltz o R (rangeOf o tz)) (s.logFiles.map s.logPath) = .ok files from d1]
    simp only [Res.ok_bind, d2, Res.pure_eq, hbss]
  rw [c1] at h2
  rw [hscan]
  exact h2

/-- **C68 (partial).**  A read of the changes between `start` and `stop`, or the latest completed commit, whose
every request to the storage is answered by whatever the storage holds at that moment, while writers add what is
later than the end of the range, and cleaners delete files other than those of the file slices read, returns exactly the batches it returns when nobody writes.  Missing: blocks
that writers append for instants within the range (`C68_false`), and blocks of which only a part has been
written (`C67_false`). -/
theorem C68_changes_isolated_partial (E : Env) (A : Arrow) (C : Codec) (M : MergeEnv A) (o : Opts)
    (t0 t : Tree) (tb : Table) (R : Race) (start last tz : Str) (stop : Option Str)
    (hload : Timeline.load E o t0 = .ok tb.timeline) (hwf0 : ∀ n ∈ timelineNames t0, Spec.NormalName n)
    (hp : PlainStorage tb) (htz : timezoneOf tb.opts = .ok tz)
    (hlast : stop.or tb.timeline.latestTimestamp = some last)
    (hts : ∃ d, parseDatetime E.ltz start tz = .ok d) (hte : ∃ d, parseDatetime E.ltz last tz = .ok d)
    (ss : List FileSlice) (hss : tb.fileSlicesBetween E t (some start) stop = .ok ss)
    (hR : AllSeen (MeanwhileAfter C E.ltz tz tb.opts last tb.timeline t ss) R)
    (hlogs : GoodLogs C E.ltz tz tb.opts t ss) (outs : List Batch)
    (h : tb.readIncremental E A C M t start stop = .ok outs) :
    tb.readIncrementalR E A C M R start stop = .ok outs := by
  unfold Table.fileSlicesBetween at hss
  unfold Table.readIncremental at h
  unfold Table.readIncrementalR
  rw [hlast] at h hss ⊢
  simp only [Option.getD_some] at h hss ⊢
  rw [hss] at h
  simp only [Res.ok_bind] at h
  have hss' : tb.fileSlicesBetweenInternalR E R start last = .ok ss := by
    unfold Table.fileSlicesBetweenInternal at hss
    unfold Table.fileSlicesBetweenInternalR
    obtain ⟨gs, h1, h2⟩ := Res.bind_eq_ok.1 hss
    rw [fileGroupsBetweenR_same hload hwf0 (fun i hi => (hR.replaced i).docs i hi) h1]
    exact h2
  rw [hss']
  simp only [Res.ok_bind]
  have hget := hmGet_readerOpts hp [(Cfg.fileGroupStartTimestamp.key, start),
    (Cfg.fileGroupEndTimestamp.key, last)] (by
      intro e he
      simp only [List.mem_cons, List.not_mem_nil, or_false] at he
      rcases he with rfl | rfl <;> rfl)
  generalize ho : tb.readerOpts [(Cfg.fileGroupStartTimestamp.key, start),
    (Cfg.fileGroupEndTimestamp.key, last)] = ro at hget h
  have hother : ∀ k, k ≠ c!"hoodie.read.file_group.end_timestamp" →
      k ≠ c!"hoodie.read.file_group.start_timestamp" → hmGet k ro = hmGet k tb.opts := by
    intro k hk hk'
    rw [hget]
    simp only [List.reverse_cons, List.reverse_nil, List.nil_append, List.cons_append, hmGet]
    rw [if_neg (by rw [show Cfg.fileGroupEndTimestamp.key =
      c!"hoodie.read.file_group.end_timestamp" from rfl]; exact hk),
      if_neg (by rw [show Cfg.fileGroupStartTimestamp.key =
      c!"hoodie.read.file_group.start_timestamp" from rfl]; exact hk')]
    rfl
  have hs' : startOf ro = some start := by
    unfold startOf; rw [hget]; rfl
  have he' : endOf ro = some last := by
    unfold endOf; rw [hget]; rfl
  have hrdo : ReadOptimized ro ↔ ReadOptimized tb.opts := by
    unfold ReadOptimized; rw [hother _ (by decide) (by decide)]
  have htz' : timezoneOf ro = .ok tz := by
    rw [timezoneOf_congr (hother _ (by decide) (by decide)), htz]
  have hrange : rangeOf ro tz = ⟨tz, some start, some last, false, true⟩ := by
    unfold rangeOf; rw [hs', he']
  have hdata : ∀ s ∈ ss, ∀ b, ParquetAt t s.basePath b → ParquetAt (R.data s.basePath) s.basePath b :=
    fun s hs => (hR.data s.basePath).parquet s hs
  have happ := fun hro s hs l hl ws => (hR.data (s.logPath l)).appended hro s hs l hl ws
  have key : ∀ s ∈ ss, ∀ out, readFileSlice C A M E.ltz ro t s = .ok out →
      readFileSliceR C A M E.ltz ro R s = .ok out := by
    intro s hs out hout
    refine readFileSliceR_same htz' (by rw [hrange]; exact ⟨by simpa using hts, by simpa using hte⟩) he'
      (hdata s hs) ?_ hout
    intro hrd l hl
    have hrd0 : ¬ ReadOptimized tb.opts := fun h => hrd (hrdo.2 h)
    obtain ⟨ws, h1, h2⟩ := hlogs hrd0 s hs l hl
    obtain ⟨more, h3, h4⟩ := happ hrd0 s hs l hl _ h1 h2
    exact ⟨ws, more, h1, h3, h2, h4⟩
  clear hss hss' hlogs hR hdata happ
  induction ss generalizing outs with
  | nil => exact h
  | cons s ss ih =>
    obtain ⟨out, outs1, h1, h2, rfl⟩ := Res.mapL_cons_ok.1 h
    exact Res.mapL_cons_ok.2 ⟨_, _, key s (by simp) _ h1,
      ih _ h2 (fun s hs => key s (by simp [hs])), rfl⟩

/-- **C68, without writers.**  A read of changes whose requests are all answered by the same store is the read of
the other properties. -/
theorem C68_nobody_writes (E : Env) (A : Arrow) (C : Codec) (M : MergeEnv A) (tb : Table) (t : Tree) (start : Str)
    (stop : Option Str) :
    tb.readIncrementalR E A C M (Race.still t) start stop = tb.readIncremental E A C M t start stop := rfl

end Hudi
