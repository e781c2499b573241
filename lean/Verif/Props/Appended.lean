import Verif.Lemmas.Appended

/-! # C76: tables that keep every record appended -/

namespace Hudi
open Spec

open Classical in
/-- The records of a file group's log files in a range are those that the commits of the range appended, and
those of writes that neither completed nor were rolled back in the range. -/
theorem EndsWith.appended {C : Codec} {ltz : LocalTz} {tz stop : Str} {h : History} {n : Nat} (hw : h.WF n)
    {k : GroupKey} {h1 h2 h3 : History} {c0 : HCommit} {token : Str}
    (he : EndsWith h stop k h1 h2 h3 c0 token) {held : Str → List WBlock} {cols : Columns} {t : Tree}
    {W : Written} (hr : AppendsEvolving C ltz tz cols t h W held) {r : InstantRange} {q : HCommit → Bool}
    {LF : List (Str × Str)} (hnd : LF.Nodup)
    (hLF : ∀ e, e ∈ LF ↔ ∃ c, AppendsTo h k c0.ts e c ∧ q c = true)
    (hin : ∀ w c, BlockOf h held k c0.ts w → c ∈ h → WrittenBy w c.ts →
      (BlockIn ltz tz r w ↔ q c = true ∧ (compare c.ts stop).isLE = true))
    {logRows : List (List Cell)}
    (hl : RecordsOf C (surviving ltz tz r (LF.flatMap (fun l => held (logPathOf k c0.ts l)))) logRows) :
    logRows.Perm ((h2.filter (fun c => (c.changeOf k).isSome && q c)).flatMap
      (fun c => W.appended c.ts k) ++
      ((LF.flatMap (fun l => held (logPathOf k c0.ts l))).filter (fun w => decide (BlockIn ltz tz r w ∧
        (∀ l c, AppendsTo h k c0.ts l c → ¬ WrittenBy w c.ts) ∧
        ∀ w' i, w' ∈ LF.flatMap (fun l => held (logPathOf k c0.ts l)) → RollsBack w' i → BlockIn ltz tz r w' →
          ¬ WrittenBy w i))).flatMap (recordsIn C)) := by
  have hblock : ∀ w ∈ LF.flatMap (fun l => held (logPathOf k c0.ts l)), BlockOf h held k c0.ts w := by
    intro w hw
    obtain ⟨l, hl, hw⟩ := List.mem_flatMap.1 hw
    obtain ⟨c, hc, _⟩ := (hLF l).1 hl
    exact ⟨l, c, hc, hw⟩
  have hmem : ∀ c ∈ h2, c ∈ h := by intro c hc; rw [he.split]; simp [hc]
  have key := surviving_appended (C := C) (ltz := ltz) (tz := tz) (r := r) (W := W) (k := k)
    (held := fun l => held (logPathOf k c0.ts l)) (cs := h2.filter (fun c => (c.changeOf k).isSome && q c))
    hnd ?_ ?_ ?_ hl
  · refine key.trans (List.Perm.append_left _ (List.Perm.of_eq ?_))
    congr 1
    unfold surviving
    rw [List.filter_filter]
    refine List.filter_congr fun w hw' => ?_
    rw [Bool.eq_iff_iff, Bool.and_eq_true, decide_eq_true_iff, decide_eq_true_iff, decide_eq_true_iff]
    have hb := hblock w hw'
    constructor
    · rintro ⟨hno, hbi, hnr⟩
      refine ⟨hbi, ?_, fun w' i g1 g2 g3 g4 => hnr ⟨w', g1, g3, i, g2, g4⟩⟩
      intro l c hap hwr
      have hc : c ∈ h := by
        obtain ⟨a, b, _, _, e, _⟩ := hap
        rw [e]; simp
      obtain ⟨hq, hle⟩ := (hin w c hb hc hwr).1 hbi
      obtain ⟨hm, ls, hch, _⟩ := (he.appends hw hle).1 hap
      exact hno ⟨c, List.mem_filter.2 ⟨hm, by rw [hch, hq]; rfl⟩, hwr⟩
    · rintro ⟨hbi, hnc, hnr⟩
      refine ⟨?_, hbi, fun ⟨w', g1, g3, i, g2, g4⟩ => hnr w' i g1 g2 g3 g4⟩
      rintro ⟨c, hc, hwr⟩
      obtain ⟨hc2, hc⟩ := List.mem_filter.1 hc
      obtain ⟨hsome, hq⟩ := (Bool.and_eq_true _ _).mp hc
      obtain ⟨l, hl', hwl⟩ := List.mem_flatMap.1 hw'
      obtain ⟨c', hc', _⟩ := (hLF l).1 hl'
      exact hnc l c (hr.only k c0.ts l c' hc' w hwl c (hmem c hc2) hwr) hwr
  · have ho := hw.ordered
    rw [he.split] at ho
    have := (List.pairwise_cons.1 (List.pairwise_append.1 ho).2.1).2
    exact (List.pairwise_append.1 this).1.sublist List.filter_sublist
  · intro c hc
    obtain ⟨hc2, hc⟩ := List.mem_filter.1 hc
    obtain ⟨hsome, hq⟩ := (Bool.and_eq_true _ _).mp hc
    have hle := he.early c (by simp [hc2])
    rcases he.quiet c hc2 with hno | ⟨ls, hch⟩
    · rw [hno] at hsome; cases hsome
    obtain ⟨a, b, hab⟩ := List.append_of_mem hc2
    obtain ⟨r1, r2⟩ := hr.rows (h1 ++ c0 :: a) c (b ++ h3) (by rw [he.split, hab]; simp) k ls
      (changeOf_mem hch) ⟨c0.ts, token, appendsUntilWrite a k⟩
      (versionAfter_some.2 ⟨h1, c0, a, rfl, he.write, rfl, fun d hd => he.quiet d (by rw [hab]; simp [hd]), rfl⟩)
    refine ⟨ls, r1, ?_, ?_, r2⟩
    · intro l hl
      exact (hLF l).2 ⟨c, (he.appends hw hle).2 ⟨hc2, ls, hch, hl⟩, hq⟩
    · intro l hl w hw' hwr
      obtain ⟨c', hc', _⟩ := (hLF l).1 hl
      obtain ⟨_, ls', hch', hm⟩ := (he.appends hw hle).1 (hr.only k c0.ts l c' hc' w hw' c (hmem c hc2) hwr)
      rw [hch] at hch'
      cases hch'
      exact hm
  · intro c hc w hw' hwr
    obtain ⟨hc2, hc⟩ := List.mem_filter.1 hc
    obtain ⟨hsome, hq⟩ := (Bool.and_eq_true _ _).mp hc
    have hle := he.early c (by simp [hc2])
    refine ⟨(hin w c (hblock w hw') (hmem c hc2) hwr).2 ⟨hq, hle⟩, ?_⟩
    rintro ⟨w', hw'', _, i, hrb, hwr'⟩
    unfold WrittenBy at hwr hwr'
    rw [hwr] at hwr'
    exact hr.rollbacks k c0.ts w' i (hblock w' hw'') hrb c (hmem c hc2) (Option.some.inj hwr')

theorem recordsAt_eq {W : Written} {h : History} {stop : Str} {k : GroupKey} {h1 h2 h3 : History}
    {c0 : HCommit} {token : Str} (he : EndsWith h stop k h1 h2 h3 c0 token) :
    recordsAt W h stop k = W.base c0.ts k ++
      (h2.filter (fun c => (c.changeOf k).isSome)).flatMap (fun c => W.appended c.ts k) := by
  unfold recordsAt
  rw [he.upTo]
  have e : h1 ++ c0 :: h2 = (h1 ++ [c0]) ++ h2 := by simp
  rw [e, recordsAfter_quiet he.quiet]
  have e1 : recordsAfter W (h1 ++ [c0]) k = W.base c0.ts k := by
    unfold recordsAfter
    rw [List.foldl_append]
    simp [he.write]
  rw [e1]
  congr 1
  clear e e1 he
  induction h2 with
  | nil => rfl
  | cons c h2 ih =>
    rw [List.flatMap_cons, List.filter_cons, ih]
    cases c.changeOf k <;> simp

theorem SliceOf.ends {h : History} {n : Nat} (hw : h.WF n) {ts : Str} {k : GroupKey} {s : FileSlice} {h1 h2 h3 : History}
    {c0 : HCommit} {token : Str} (hs : SliceOf h ts k s h1 h2 h3 c0 token) :
    EndsWith h ts k h1 h2 h3 c0 token := by
  refine ⟨hs.split, hs.upTo, hs.write, hs.quiet, ?_, hs.late⟩
  intro c hc
  rw [← hs.upTo] at hc
  exact (List.mem_filter.1 hc).2

theorem appends_files {C : Codec} {ltz : LocalTz} {tz stop : Str} {h : History}
    {k : GroupKey} {s : FileSlice} {h1 h2 h3 : History} {c0 : HCommit} {token : Str}
    (he : EndsWith h stop k h1 h2 h3 c0 token) (hbase : s.basePath = basePathOf k token c0.ts)
    (hpaths : ∀ l ∈ s.logFiles, s.logPath l = logPathOf k c0.ts (l.version, l.writeToken))
    (hnamed : ∀ l ∈ s.logFiles, ∃ c, AppendsTo h k c0.ts (l.version, l.writeToken) c)
    {held : Str → List WBlock} {cols : Columns} {t : Tree} {W : Written}
    (hr : AppendsEvolving C ltz tz cols t h W held) (r : InstantRange) :
    SliceFiles C ltz tz t r s ⟨cols c0.ts k, W.base c0.ts k⟩ (s.logFiles.map (fun l => held (s.logPath l))) := by
  have hc0 : c0 ∈ h := by rw [he.split]; simp
  obtain ⟨b1, b2⟩ := hr.bases c0 hc0 k token (changeOf_mem he.write)
  refine ⟨by rw [hbase]; exact b1, b2, good_logs (fun l hl => ?_), ?_⟩
  · obtain ⟨c, g1⟩ := hnamed l hl
    rw [hpaths l hl]
    exact ⟨hr.logs k c0.ts _ c g1, fun w hw => (hr.blocks k c0.ts w ⟨_, c, g1, hw⟩).1⟩
  · intro w hw
    obtain ⟨ws, hws, hw⟩ := List.mem_flatten.1 (List.mem_filter.1 hw).1
    obtain ⟨l, hl, rfl⟩ := List.mem_map.1 hws
    obtain ⟨c, g1⟩ := hnamed l hl
    rw [hpaths l hl] at hw
    exact (hr.blocks k c0.ts w ⟨_, c, g1, hw⟩).2 w (by simp)

/-- The blocks of a slice, by its log files' names. -/
theorem slice_blocks {s : FileSlice} {k : GroupKey} {base : Str} {held : Str → List WBlock}
    (hpaths : ∀ l ∈ s.logFiles, s.logPath l = logPathOf k base (l.version, l.writeToken)) :
    (s.logFiles.map (fun l => held (s.logPath l))).flatten =
      (s.logFiles.map (fun l => (l.version, l.writeToken))).flatMap (fun l => held (logPathOf k base l)) := by
  rw [List.flatMap_map, List.flatMap_def]
  congr 1
  exact List.map_congr_left fun l hl => by rw [hpaths l hl]

theorem pendingBlock_iff {ltz : LocalTz} {tz ts : Str} {h : History} {held : Str → List WBlock} {k : GroupKey}
    {base : Str} {ws : List WBlock} (hb : ∀ w, w ∈ ws ↔ BlockOf h held k base w) {w : WBlock}
    (hw : BlockOf h held k base w) :
    PendingBlock ltz tz ts h held k base w ↔ BlockIn ltz tz ⟨tz, none, some ts, false, true⟩ w ∧
      (∀ l c, AppendsTo h k base l c → ¬ WrittenBy w c.ts) ∧
      ∀ w' i, w' ∈ ws → RollsBack w' i → BlockIn ltz tz ⟨tz, none, some ts, false, true⟩ w' →
        ¬ WrittenBy w i := by
  constructor
  · intro p
    exact ⟨blockIn_upTo.2 p.upTo, p.notCompleted,
      fun w' i h1 h2 h3 => p.notRolledBack w' i ((hb w').1 h1) h2 (blockIn_upTo.1 h3)⟩
  · rintro ⟨p1, p2, p3⟩
    exact ⟨hw, blockIn_upTo.1 p1, p2, fun w' i h1 h2 h3 => p3 w' i ((hb w').2 h1) h2 (blockIn_upTo.2 h3)⟩

theorem pendingInSpan_iff {ltz : LocalTz} {tz start stop : Str} {h : History} {held : Str → List WBlock}
    {k : GroupKey} {base : Str} {ws : List WBlock} (hb : ∀ w, w ∈ ws ↔ SpanBlock h start stop held k base w)
    {w : WBlock} (hw : SpanBlock h start stop held k base w) :
    PendingInSpan ltz tz start stop h held k base w ↔
      BlockIn ltz tz ⟨tz, some start, some stop, false, true⟩ w ∧
      (∀ l c, AppendsTo h k base l c → ¬ WrittenBy w c.ts) ∧
      ∀ w' i, w' ∈ ws → RollsBack w' i → BlockIn ltz tz ⟨tz, some start, some stop, false, true⟩ w' →
        ¬ WrittenBy w i := by
  constructor
  · intro p
    exact ⟨blockIn_span.2 p.inSpan, p.notCompleted,
      fun w' i h1 h2 h3 => p.notRolledBack w' i ((hb w').1 h1) h2 (blockIn_span.1 h3)⟩
  · rintro ⟨p1, p2, p3⟩
    exact ⟨hw, blockIn_span.1 p1, p2, fun w' i h1 h2 h3 => p3 w' i ((hb w').2 h1) h2 (blockIn_span.2 h3)⟩

/-- Storage with one set of columns is storage whose columns never change. -/
theorem Spec.StoresAppends.evolving {C : Codec} {ltz : LocalTz} {tz : Str} {schema : Schema} {t : Tree}
    {h : History} {W : Written} {held : Str → List WBlock} (hr : StoresAppends C ltz tz schema t h W held) :
    AppendsEvolving C ltz tz (fun _ _ => schema) t h W held :=
  ⟨hr.bases, hr.logs, hr.blocks, hr.rollbacks, hr.rows, hr.only⟩

/-- Reading the snapshot as of `ts` of a table that keeps every record, whatever the columns of the files. -/
theorem evolving_every_as_of {E : Env} {A : Arrow} {C : Codec} (M : MergeEnv A) {o : Opts} {t : Tree}
    {tb : Table} {tz : Str} {h : History} {n : Nat} {filters : List (Str × Str × Str)}
    {fs : List Filter} {pcols : Schema} {hive url : Bool} (hmono : MonotoneTz E.ltz)
    (hsec : WholeSecondsTz E.ltz) (hl : ListableTable E A o t tb tz h n filters fs pcols hive url)
    (hm : AppendingReader tb tz) {cols : Columns} {W : Written}
    {held : Str → List WBlock} (hr : AppendsEvolving C E.ltz tz cols t h W held)
    {ts : Str} (hts : WriterTimestamp ts ∧ ts.length = n) (hd : ∃ d, parseDatetime E.ltz ts tz = .ok d) :
    ∃ outs, (tb.readSnapshotAsOf E A C M t ts filters []).2 = .ok outs ∧
      ReadsEveryEvolving cols (tableAt h ts) (Kept A pcols hive url fs) (recordsAt W h ts)
        (PendingRecords C E.ltz tz ts h held) outs := by
  classical
  obtain ⟨d, hd⟩ := hd
  have hw := hl.history
  obtain ⟨ss, hss, hsh⟩ := C50_answered_partial E A o t tb hl.load hl.tree hmono tz hl.zone h n hl.history
    hl.stores ts d.epochMillis hts ⟨d, hd, rfl⟩ filters fs hl.parsed pcols hl.columns hl.names hl.applicable
    hive url hl.style hl.parallelism hl.docs (fun c hc x f token hm =>
      parquetIn_of_at hl.history hc hm (hr.bases c hc _ _ hm).1)
  unfold Table.fileSlicesAsOf at hss
  obtain ⟨fs', hf, hss⟩ := Query.bind_lift_snd.1 hss
  obtain ⟨excl, sc, p, _, _, _, hview⟩ := fileSlicesInternal_ok.1 hss
  have hsort := view_sorted hl.tree hview
  have hget := hmGet_readerOpts hm.plain [(Cfg.fileGroupEndTimestamp.key, ts)]
    (by intro e he; rw [List.mem_singleton.1 he]; rfl)
  generalize ho : tb.readerOpts [(Cfg.fileGroupEndTimestamp.key, ts)] = ro at hget
  have hother : ∀ k, k ≠ c!"hoodie.read.file_group.end_timestamp" → hmGet k ro = hmGet k tb.opts := by
    intro k hk
    rw [hget]
    simp only [List.reverse_singleton, hmGet]
    rw [if_neg (by rw [show Cfg.fileGroupEndTimestamp.key =
      c!"hoodie.read.file_group.end_timestamp" from rfl]; exact hk)]
    rfl
  have hs' : startOf ro = none := by
    unfold startOf; rw [hother _ (by decide)]; exact hm.noStart
  have he' : endOf ro = some ts := by
    unfold endOf; rw [hget]; rfl
  have hk' : ¬ OverwritesWithLatest ro := by
    rw [overwrites_congr (hother _ (by decide)) (hother _ (by decide)) (hother _ (by decide))]
    exact hm.keeps
  have hro' : ¬ ReadOptimized ro := by
    unfold ReadOptimized; rw [hother _ (by decide)]; exact hm.notReadOptimized
  have htz' : timezoneOf ro = .ok tz := by rw [timezoneOf_congr (hother _ (by decide)), hm.zone]
  have hrange : rangeOf ro tz = ⟨tz, none, some ts, false, true⟩ := by
    unfold rangeOf; rw [hs', he']
  have hsl : ∀ s ∈ ss, ∃ out, readFileSlice C A M E.ltz ro t s = .ok out ∧
      ∃ v more, tableAt h ts (sliceKey s) = some v ∧ out.schema = cols v.base (sliceKey s) ∧
        PendingRecords C E.ltz tz ts h held (sliceKey s) more ∧
        out.rows.Perm (recordsAt W h ts (sliceKey s) ++ more) := by
    intro s hs
    have hne := ((hsh.groups (sliceKey s)).1 ⟨s, hs, rfl⟩).2
    obtain ⟨v, hv⟩ := Option.ne_none_iff_exists'.1 hne
    have hver := hsh.versions s hs v hv
    obtain ⟨h1, h2, h3, c0, token, hso⟩ := slice_of_version hw rfl hv hver
    have hends := hso.ends hw
    obtain ⟨rows, logRows, r1, r2, r3⟩ := readFileSlice_every (A := A) M (s := s)
      (held := fun l => held (s.logPath l)) hk' hro' htz'
      (by rw [hrange]; exact ⟨by simp, by simpa using ⟨d, hd⟩⟩)
      (appends_files hends hso.base hso.paths (fun l hl => (hso.named _).1 ⟨l, hl, rfl⟩) hr _)
      (fun h => absurd hs' h)
    obtain ⟨v', hv', hvb⟩ : ∃ v', tableAt h ts (sliceKey s) = some v' ∧ v'.base = c0.ts := by
      have htab : tableAt h ts (sliceKey s) = some ⟨c0.ts, token, appendsUntilWrite h2 (sliceKey s)⟩ := by
        unfold tableAt
        rw [hends.upTo]
        exact versionAfter_some.2 ⟨h1, c0, h2, rfl, hends.write, rfl, hends.quiet, rfl⟩
      exact ⟨_, htab, rfl⟩
    unfold BaseRows at r2
    rw [hs'] at r2
    simp only at r2
    subst r2
    rw [hrange, slice_blocks hso.paths] at r3
    have hb : ∀ w, w ∈ (s.logFiles.map (fun l => (l.version, l.writeToken))).flatMap
        (fun l => held (logPathOf (sliceKey s) c0.ts l)) ↔ BlockOf h held (sliceKey s) c0.ts w := by
      intro w; rw [← slice_blocks hso.paths]; exact hso.block
    have hnd := nodup_named hver (hsort s hs)
    have hLF : ∀ e, e ∈ s.logFiles.map (fun l => (l.version, l.writeToken)) ↔
        ∃ c, AppendsTo h (sliceKey s) c0.ts e c := by
      intro e
      rw [List.mem_map, hso.named]
    generalize s.logFiles.map (fun l => (l.version, l.writeToken)) = LF at hnd hLF hb r3
    have key := hends.appended hw hr (r := ⟨tz, none, some ts, false, true⟩) (q := fun _ => true)
      hnd (by simpa using hLF) (by
        intro w c hb hc hwr
        obtain ⟨q1, q2⟩ := hw.times c hc
        rw [blockIn_upTo, writtenUpTo_iff hmono hsec q1 hts.1 (by rw [q2, hts.2]) hd
          (hr.blocks _ c0.ts w hb).1.time hwr]
        simp) r3
    refine ⟨_, r1, v', _, hv', by rw [hvb], ⟨v', LF, hv', hnd, by rw [hvb]; exact hLF, recordsOf_of ?_⟩, ?_⟩
    · intro w hw'
      rw [hvb] at hw'
      exact (hr.blocks _ c0.ts w ((hb w).1 (List.mem_filter.1 hw').1)).1.decodes
    rw [recordsAt_eq hends, List.append_assoc]
    refine List.Perm.append_left _ ?_
    rw [hvb]
    simp only [Bool.and_true] at key
    refine key.trans (List.Perm.append_left _ (List.Perm.of_eq ?_))
    congr 1
    exact List.filter_congr (fun w hw' => decide_eq_decide.2 (pendingBlock_iff hb ((hb w).1 hw')).symm)
  obtain ⟨outs, o1, o2⟩ := mapL_forall₂ hsl
  refine ⟨outs, Query.bind_lift_snd.2 ⟨fs', hf, ?_⟩, ss.map sliceKey, hsh.distinct, ?_, ?_⟩
  · unfold Table.readSnapshotInternal
    rw [Query.bind_snd]
    refine ⟨ss, hss, ?_⟩
    rw [ho]
    exact o1
  · intro k
    rw [List.mem_map, hsh.groups k]
    unfold shownAt
    simp
  · rw [List.forall₂_map_left_iff]
    exact o2

/-- **C76, while writes are in flight.**  For every table without a merge strategy that overwrites, every
history of commits that write base files, append records to log files and replace file groups, every storage
that holds what they wrote, and every `ts`: reading the snapshot as of `ts` succeeds and returns, for each
file group of the table as of `ts` in the partitions that the filters keep, every record that the commits up
to `ts` wrote to it, each exactly as often as it was written, and besides only the records of pending blocks:
those of writes that neither completed nor were rolled back by `ts`, each as often as they hold it. -/
theorem C76_every_record_and_pending (E : Env) (A : Arrow) (C : Codec) (M : MergeEnv A) (o : Opts) (t : Tree)
    (tb : Table) (tz : Str) (h : History) (n : Nat) (filters : List (Str × Str × Str))
    (fs : List Filter) (cols : Schema) (hive url : Bool) (hmono : MonotoneTz E.ltz)
    (hsec : WholeSecondsTz E.ltz) (hl : ListableTable E A o t tb tz h n filters fs cols hive url)
    (hm : AppendingReader tb tz) (schema : Schema) (W : Written)
    (held : Str → List WBlock) (hr : StoresAppends C E.ltz tz schema t h W held)
    (ts : Str) (hts : WriterTimestamp ts ∧ ts.length = n) (hd : ∃ d, parseDatetime E.ltz ts tz = .ok d) :
    ∃ outs, (tb.readSnapshotAsOf E A C M t ts filters []).2 = .ok outs ∧
      ReadsEveryAnd schema (tableAt h ts) (Kept A cols hive url fs) (recordsAt W h ts)
        (PendingRecords C E.ltz tz ts h held) outs := by
  obtain ⟨outs, h1, ks, h2, h3, h4⟩ := evolving_every_as_of (A := A) M hmono hsec hl hm hr.evolving hts hd
  exact ⟨outs, h1, ks, h2, h3, h4.imp fun _ _ ⟨_, more, _, q1, q2, q3⟩ => ⟨q1, more, q2, q3⟩⟩

theorem readsEvery_of {schema : Schema} {table : GroupKey → Option Version} {parts : Str → Prop}
    {records : GroupKey → List (List Cell)} {pending : GroupKey → List (List Cell) → Prop} {outs : List Batch}
    (hno : ∀ k more, pending k more → more = [])
    (h : ReadsEveryAnd schema table parts records pending outs) : ReadsEvery schema table parts records outs := by
  obtain ⟨ks, h1, h2, h3⟩ := h
  refine ⟨ks, h1, h2, h3.imp ?_⟩
  rintro k out ⟨q1, more, q2, q3⟩
  rw [hno k more q2, List.append_nil] at q3
  exact ⟨q1, q3⟩

theorem no_pending_records {C : Codec} {ltz : LocalTz} {tz ts : Str} {h : History} {held : Str → List WBlock}
    (hp : NoPendingBlocks ltz tz ts h held) {k : GroupKey} {rows : List (List Cell)}
    (hr : PendingRecords C ltz tz ts h held k rows) : rows = [] := by
  classical
  obtain ⟨v, LF, hv, _, _, hrec⟩ := hr
  refine List.eq_nil_iff_forall_not_mem.2 fun r hr => ?_
  obtain ⟨w, hw, bs, hdec, hrow⟩ := (mem_recordsOf hrec).1 hr
  exact no_pending_row hp ⟨v, w, bs, hv, of_decide_eq_true (List.mem_filter.1 hw).2, hdec, hrow⟩

/-- **C76 (partial).**  For every table without a merge strategy that overwrites, every history of commits
that write base files, append records to log files and replace file groups, every storage that holds what
they wrote, and every `ts`: reading the snapshot as of `ts` succeeds and returns, for each file group of the
table as of `ts` in the partitions that the filters keep, every record that the commits up to `ts` wrote to
it, each exactly as often as it was written.  Records need no keys.  Missing: log blocks of writes that
neither completed nor were rolled back by `ts`, and what `ListableTable` and `StoresAppends` exclude. -/
theorem C76_every_record_as_of_partial (E : Env) (A : Arrow) (C : Codec) (M : MergeEnv A) (o : Opts) (t : Tree)
    (tb : Table) (tz : Str) (h : History) (n : Nat) (filters : List (Str × Str × Str))
    (fs : List Filter) (cols : Schema) (hive url : Bool) (hmono : MonotoneTz E.ltz)
    (hsec : WholeSecondsTz E.ltz) (hl : ListableTable E A o t tb tz h n filters fs cols hive url)
    (hm : AppendingReader tb tz) (schema : Schema) (W : Written)
    (held : Str → List WBlock) (hr : StoresAppends C E.ltz tz schema t h W held)
    (ts : Str) (hts : WriterTimestamp ts ∧ ts.length = n) (hd : ∃ d, parseDatetime E.ltz ts tz = .ok d)
    (hpend : NoPendingBlocks E.ltz tz ts h held) :
    ∃ outs, (tb.readSnapshotAsOf E A C M t ts filters []).2 = .ok outs ∧
      ReadsEvery schema (tableAt h ts) (Kept A cols hive url fs) (recordsAt W h ts) outs := by
  obtain ⟨outs, h1, h2⟩ := C76_every_record_and_pending E A C M o t tb tz h n filters fs cols hive url hmono hsec hl hm
    schema W held hr ts hts hd
  exact ⟨outs, h1, readsEvery_of (fun _ _ => no_pending_records hpend) h2⟩

/-- **C76, the latest snapshot while writes are in flight.** -/
theorem C76_latest_and_pending (E : Env) (A : Arrow) (C : Codec) (M : MergeEnv A) (o : Opts) (t : Tree)
    (tb : Table) (tz : Str) (h : History) (n : Nat) (filters : List (Str × Str × Str))
    (fs : List Filter) (cols : Schema) (hive url : Bool) (hmono : MonotoneTz E.ltz)
    (hsec : WholeSecondsTz E.ltz) (hl : ListableTable E A o t tb tz h n filters fs cols hive url)
    (hm : AppendingReader tb tz) (schema : Schema) (W : Written)
    (held : Str → List WBlock) (hr : StoresAppends C E.ltz tz schema t h W held) :
    ∃ outs c, (tb.readSnapshot E A C M t filters []).2 = .ok outs ∧ h.getLast? = some c ∧
      ReadsEveryAnd schema (versionAfter h) (Kept A cols hive url fs) (recordsAfter W h)
        (PendingRecords C E.ltz tz c.ts h held) outs := by
  obtain ⟨c0, d0, hc0, hlast, hi, hd0, he⟩ := hl.latest hmono
  obtain ⟨outs, h4, h5⟩ := C76_every_record_and_pending E A C M o t tb tz h n filters fs cols hive url hmono hsec
    hl hm schema W held hr c0.ts (hl.history.times c0 hc0) ⟨d0, hd0⟩
  refine ⟨outs, c0, ?_, hlast, ?_⟩
  · unfold Table.readSnapshot
    rw [hi]
    exact h4
  · have e1 : tableAt h c0.ts = versionAfter h := by
      funext k; unfold tableAt; rw [he]
    have e2 : recordsAt W h c0.ts = recordsAfter W h := by
      funext k; unfold recordsAt; rw [he]
    rw [e1, e2] at h5
    exact h5

/-- **C76, the latest snapshot (partial).**  Missing: as in `C76_every_record_as_of_partial`. -/
theorem C76_every_record_partial (E : Env) (A : Arrow) (C : Codec) (M : MergeEnv A) (o : Opts) (t : Tree)
    (tb : Table) (tz : Str) (h : History) (n : Nat) (filters : List (Str × Str × Str))
    (fs : List Filter) (cols : Schema) (hive url : Bool) (hmono : MonotoneTz E.ltz)
    (hsec : WholeSecondsTz E.ltz) (hl : ListableTable E A o t tb tz h n filters fs cols hive url)
    (hm : AppendingReader tb tz) (schema : Schema) (W : Written)
    (held : Str → List WBlock) (hr : StoresAppends C E.ltz tz schema t h W held)
    (hpend : ∀ c, h.getLast? = some c → NoPendingBlocks E.ltz tz c.ts h held) :
    ∃ outs, (tb.readSnapshot E A C M t filters []).2 = .ok outs ∧
      ReadsEvery schema (versionAfter h) (Kept A cols hive url fs) (recordsAfter W h) outs := by
  obtain ⟨outs, c, h1, h2, h3⟩ := C76_latest_and_pending E A C M o t tb tz h n filters fs cols hive url hmono hsec
    hl hm schema W held hr
  exact ⟨outs, h1, readsEvery_of (fun _ _ => no_pending_records (hpend c h2)) h3⟩

open Classical in
/-- The records committed in the span, among those appended. -/
theorem committed_appended {schema : Schema} {W : Written}
    {k : GroupKey} {start stop : Str} {cs : List HCommit}
    (hdt : ∀ c ∈ cs, ∀ ls, (k, Change.append ls) ∈ c.changes → ∀ r ∈ W.appended c.ts k,
      commitTimeOf schema r = some c.ts)
    (hcs : ∀ c ∈ cs, Quiet k c ∧ (compare c.ts stop).isLE = true) :
    ((cs.filter (fun c => (c.changeOf k).isSome)).flatMap (fun c => W.appended c.ts k)).filter
      (fun r => decide (CommittedIn schema start (some stop) r)) =
    (cs.filter (fun c => (c.changeOf k).isSome && decide (InSpan start stop c))).flatMap
      (fun c => W.appended c.ts k) := by
  induction cs with
  | nil => rfl
  | cons c cs ih =>
    have ih := ih (fun c hc => hdt c (by simp [hc])) (fun c hc => hcs c (by simp [hc]))
    obtain ⟨hq, hle⟩ := hcs c (by simp)
    rw [List.filter_cons, List.filter_cons]
    rcases hq with hno | ⟨ls, hch⟩
    · simpa [hno] using ih
    · simp only [hch, Option.isSome_some, if_true, Bool.true_and, List.flatMap_cons, List.filter_append, ih]
      by_cases hin : InSpan start stop c
      · rw [if_pos (decide_eq_true hin), List.flatMap_cons]
        congr 1
        rw [List.filter_eq_self]
        intro r hr
        exact decide_eq_true ⟨c.ts, hdt c (by simp) ls (changeOf_mem hch) r hr, hin.1,
          by intro e he; cases he; exact hin.2⟩
      · rw [if_neg (by simpa using hin)]
        have : (W.appended c.ts k).filter
            (fun r => decide (CommittedIn schema start (some stop) r)) = [] := by
          rw [List.filter_eq_nil_iff]
          intro r hr hcm
          obtain ⟨ci, h1, h2, _⟩ := of_decide_eq_true hcm
          rw [hdt c (by simp) ls (changeOf_mem hch) r hr] at h1
          cases h1
          exact hin ⟨h2, hle⟩
        rw [this, List.nil_append]

/-- Reading the changes between two times of a table that keeps every record, whatever the columns of the
files. -/
theorem every_change_read {E : Env} (A : Arrow) {C : Codec} (M : MergeEnv A) {o : Opts}
    {t0 t : Tree} {tb : Table} {tz : Str} {h : History} {n : Nat} (hmono : MonotoneTz E.ltz)
    (hsec : WholeSecondsTz E.ltz) (hload : Timeline.load E o t0 = .ok tb.timeline)
    (hzone : timezoneOf tb.timeline.opts = .ok tz) (hw : h.WF n) (hknow : Knows E.ltz tz t0 t h)
    (hdocs : StoresDocs t h) (hm : AppendingReader tb tz) (hmeta : MetaFields tb.opts)
    {cols : Columns} (hct : EveryFile h cols HasCommitTime) {W : Written}
    {held : Str → List WBlock} (hr : AppendsEvolving C E.ltz tz cols t h W held)
    (hdt : DatedRowsEvolving cols h W) {start stop : Str} (hs : WriterTimestamp start ∧ start.length = n)
    (he : WriterTimestamp stop ∧ stop.length = n) (hps : ∃ d, parseDatetime E.ltz start tz = .ok d)
    (hpe : ∃ d, parseDatetime E.ltz stop tz = .ok d) :
    ∃ outs, tb.readIncremental E A C M t start (some stop) = .ok outs ∧
      ReadsEveryChangeEvolving cols start stop h W (PendingChanges C E.ltz tz start stop h held) outs := by
  classical
  obtain ⟨ss, hss, hsh⟩ := changed_slices hmono hload hzone hw hknow hdocs hs he hps hpe
  obtain ⟨ds, hds⟩ := hps
  obtain ⟨de, hde⟩ := hpe
  have hsort := between_named hss
  have hget := hmGet_readerOpts hm.plain [(Cfg.fileGroupStartTimestamp.key, start),
    (Cfg.fileGroupEndTimestamp.key, stop)] (by
      intro e he
      simp only [List.mem_cons, List.not_mem_nil, or_false] at he
      rcases he with rfl | rfl <;> rfl)
  generalize ho : tb.readerOpts [(Cfg.fileGroupStartTimestamp.key, start),
    (Cfg.fileGroupEndTimestamp.key, stop)] = ro at hget
  have hother : ∀ k, k ≠ c!"hoodie.read.file_group.end_timestamp" →
      k ≠ c!"hoodie.read.file_group.start_timestamp" → hmGet k ro = hmGet k tb.opts := by
    intro k hk hk'
    rw [hget]
    simp only [List.reverse_cons, List.reverse_nil, List.nil_append, List.cons_append, hmGet]
    rw [if_neg (by rw [show Cfg.fileGroupEndTimestamp.key =
      c!"hoodie.read.file_group.end_timestamp" from rfl]; exact hk),
      if_neg (by rw [show Cfg.fileGroupStartTimestamp.key =
      c!"hoodie.read.file_group.start_timestamp" from rfl]; exact hk')]
    rfl
  have hs' : startOf ro = some start := by
    unfold startOf; rw [hget]; rfl
  have he' : endOf ro = some stop := by
    unfold endOf; rw [hget]; rfl
  have hk' : ¬ OverwritesWithLatest ro := by
    rw [overwrites_congr (hother _ (by decide) (by decide)) (hother _ (by decide) (by decide))
      (hother _ (by decide) (by decide))]
    exact hm.keeps
  have hro' : ¬ ReadOptimized ro := by
    unfold ReadOptimized; rw [hother _ (by decide) (by decide)]; exact hm.notReadOptimized
  have hmeta' : MetaFields ro := by
    unfold MetaFields; rw [hother _ (by decide) (by decide)]; exact hmeta
  have htz' : timezoneOf ro = .ok tz := by
    rw [timezoneOf_congr (hother _ (by decide) (by decide)), hm.zone]
  have hrange : rangeOf ro tz = ⟨tz, some start, some stop, false, true⟩ := by
    unfold rangeOf; rw [hs', he']
  have hsl : ∀ s ∈ ss, ∃ out, readFileSlice C A M E.ltz ro t s = .ok out ∧
      ∃ v more, tableAt h stop (sliceKey s) = some v ∧ out.schema = cols v.base (sliceKey s) ∧
        PendingChanges C E.ltz tz start stop h held (sliceKey s) more ∧
        out.rows.Perm ((recordsAt W h stop (sliceKey s)).filter
          (fun r => decide (CommittedIn (cols v.base (sliceKey s)) start (some stop) r)) ++ more) := by
    intro s hsm
    have hne := ((hsh.groups (sliceKey s)).1 ⟨s, hsm, rfl⟩).2
    obtain ⟨v, hv⟩ := Option.ne_none_iff_exists'.1 hne
    have hver := hsh.versions s hsm v hv
    obtain ⟨h1, h2, h3, c0, token, hso⟩ := spanSlice_of hw rfl hv hver
    have hends := hso.ends
    obtain ⟨rows, logRows, r1, r2, r3⟩ := readFileSlice_every (A := A) M (s := s)
      (held := fun l => held (s.logPath l)) hk' hro' htz'
      (by rw [hrange]; exact ⟨by simpa using ⟨ds, hds⟩, by simpa using ⟨de, hde⟩⟩)
      (appends_files hends hso.base hso.paths
        (fun l hl => ((hso.named _).1 ⟨l, hl, rfl⟩).imp fun _ h => h.1) hr _)
      (fun _ _ => hct c0 (by rw [hends.split]; simp) _ _ (changeOf_mem hends.write))
    obtain ⟨v', hv', hvb⟩ : ∃ v', tableAt h stop (sliceKey s) = some v' ∧ v'.base = c0.ts := by
      have htab : tableAt h stop (sliceKey s) = some ⟨c0.ts, token, appendsUntilWrite h2 (sliceKey s)⟩ := by
        unfold tableAt
        rw [hends.upTo]
        exact versionAfter_some.2 ⟨h1, c0, h2, rfl, hends.write, rfl, hends.quiet, rfl⟩
      exact ⟨_, htab, rfl⟩
    unfold BaseRows at r2
    rw [hs'] at r2
    obtain ⟨keep, rfl, hk⟩ := r2.1 hmeta'
    rw [he'] at hk
    have hbase : (W.base c0.ts (sliceKey s)).filter keep = (W.base c0.ts (sliceKey s)).filter
        (fun r => decide (CommittedIn (cols c0.ts (sliceKey s)) start (some stop) r)) := by
      refine List.filter_congr fun r hr => ?_
      rw [Bool.eq_iff_iff, hk r hr, decide_eq_true_iff]
    rw [hrange, slice_blocks hso.paths] at r3
    have hb : ∀ w, w ∈ (s.logFiles.map (fun l => (l.version, l.writeToken))).flatMap
        (fun l => held (logPathOf (sliceKey s) c0.ts l)) ↔ SpanBlock h start stop held (sliceKey s) c0.ts w := by
      intro w; rw [← slice_blocks hso.paths]; exact hso.block
    have hnd := nodup_named hver (hsort s hsm).sorted
    have hLF : ∀ e, e ∈ s.logFiles.map (fun l => (l.version, l.writeToken)) ↔
        ∃ c, AppendsTo h (sliceKey s) c0.ts e c ∧ InSpan start stop c := by
      intro e
      rw [List.mem_map, hso.named]
    generalize s.logFiles.map (fun l => (l.version, l.writeToken)) = LF at hnd hLF hb r3
    have key := hends.appended hw hr (r := ⟨tz, some start, some stop, false, true⟩)
      (q := fun c => decide (InSpan start stop c)) hnd (by simpa using hLF) (by
        intro w c hb hc hwr
        obtain ⟨q1, q2⟩ := hw.times c hc
        rw [blockIn_span, writtenIn_iff hmono hsec q1 hs.1 he.1 (by rw [q2, hs.2]) (by rw [q2, he.2]) hds hde
          (hr.blocks _ c0.ts w hb).1.time hwr, decide_eq_true_iff]
        exact ⟨fun h => ⟨h, h.2⟩, fun h => h.1⟩) r3
    refine ⟨_, r1, v', _, hv', by rw [hvb], ⟨v', LF, hv', hnd, by rw [hvb]; exact hLF, recordsOf_of ?_⟩, ?_⟩
    · intro w hw'
      rw [hvb] at hw'
      obtain ⟨l, c, g1, _, g2⟩ := (hb w).1 (List.mem_filter.1 hw').1
      exact (hr.blocks _ c0.ts w ⟨l, c, g1, g2⟩).1.decodes
    show ((W.base c0.ts (sliceKey s)).filter keep ++ logRows).Perm _
    have hdt' : ∀ c ∈ h2, ∀ ls, (sliceKey s, Change.append ls) ∈ c.changes → ∀ r ∈ W.appended c.ts (sliceKey s),
        commitTimeOf (cols c0.ts (sliceKey s)) r = some c.ts := by
      intro c hc ls hch r hrow
      obtain ⟨a, b, rfl⟩ := List.append_of_mem hc
      exact hdt (h1 ++ c0 :: a) c (b ++ h3) (by rw [hends.split]; simp) _ ls hch
        ⟨c0.ts, token, appendsUntilWrite a (sliceKey s)⟩
        (versionAfter_some.2 ⟨h1, c0, a, rfl, hends.write, rfl, fun c hc => hends.quiet c (by simp [hc]), rfl⟩)
        r hrow
    rw [hvb, recordsAt_eq hends, List.filter_append, hbase, committed_appended hdt' (fun c hc =>
      ⟨hends.quiet c hc, hends.early c (by simp [hc])⟩), List.append_assoc]
    refine List.Perm.append_left _ ?_
    refine key.trans (List.Perm.append_left _ (List.Perm.of_eq ?_))
    congr 1
    exact List.filter_congr (fun w hw' => decide_eq_decide.2 (pendingInSpan_iff hb ((hb w).1 hw')).symm)
  obtain ⟨outs, o1, o2⟩ := mapL_forall₂ hsl
  refine ⟨outs, ?_, ss.map sliceKey, hsh.distinct, ?_, ?_⟩
  · have hss' : tb.fileSlicesBetweenInternal E t start stop = .ok ss := hss
    rw [show tb.readIncremental E A C M t start (some stop) = (do
      let ss ← tb.fileSlicesBetweenInternal E t start stop
      Res.mapL (readFileSlice C A M E.ltz (tb.readerOpts [(Cfg.fileGroupStartTimestamp.key, start),
        (Cfg.fileGroupEndTimestamp.key, stop)]) t) ss) from rfl, hss']
    simp only [Res.ok_bind, ho]
    exact o1
  · intro k
    rw [List.mem_map, hsh.groups k, changedAt_ne_none hw]
    simp
  · rw [List.forall₂_map_left_iff]
    refine o2.imp ?_
    rintro s out ⟨v, more, q0, q1, q2, q3⟩
    exact ⟨v, more, q0, q1, q2, by convert q3⟩

theorem evolving_every_change {E : Env} (A : Arrow) {C : Codec} (M : MergeEnv A) {o o' : Opts}
    {t : Tree} {tb : Table} {tz : Str} {h : History} {n : Nat} (hmono : MonotoneTz E.ltz)
    (hsec : WholeSecondsTz E.ltz) (hload : Timeline.load E o t = .ok tb.timeline) (htree : TreeWF t)
    (hzone : timezoneOf tb.timeline.opts = .ok tz) (hw : h.WF n) (hst : Stores E.ltz tz o' t h)
    (hdocs : StoresDocs t h) (hm : AppendingReader tb tz) (hmeta : MetaFields tb.opts)
    {cols : Columns} (hct : EveryFile h cols HasCommitTime) {W : Written}
    {held : Str → List WBlock} (hr : AppendsEvolving C E.ltz tz cols t h W held)
    (hdt : DatedRowsEvolving cols h W) {start stop : Str} (hs : WriterTimestamp start ∧ start.length = n)
    (he : WriterTimestamp stop ∧ stop.length = n) (hps : ∃ d, parseDatetime E.ltz start tz = .ok d)
    (hpe : ∃ d, parseDatetime E.ltz stop tz = .ok d) :
    ∃ outs, tb.readIncremental E A C M t start (some stop) = .ok outs ∧
      ReadsEveryChangeEvolving cols start stop h W (PendingChanges C E.ltz tz start stop h held) outs :=
  every_change_read A M hmono hsec hload hzone hw (knows_stored htree hst) hdocs hm hmeta hct hr hdt hs he hps hpe

/-- **C76, changes while writes are in flight.**  Reading the changes between two times of such a table
succeeds and returns, for each file group that commits of the span changed and that is in the table at its
end, every record that was committed in the span, each exactly as often as it was written, and besides only
the records of pending blocks of the span, each as often as they hold it. -/
theorem C76_every_change_and_pending (E : Env) (A : Arrow) (C : Codec) (M : MergeEnv A) (o o' : Opts)
    (t : Tree) (tb : Table) (tz : Str) (h : History) (n : Nat) (hmono : MonotoneTz E.ltz)
    (hsec : WholeSecondsTz E.ltz) (hload : Timeline.load E o t = .ok tb.timeline) (htree : TreeWF t)
    (hzone : timezoneOf tb.timeline.opts = .ok tz) (hw : h.WF n) (hst : Stores E.ltz tz o' t h)
    (hdocs : StoresDocs t h) (hm : AppendingReader tb tz) (hmeta : MetaFields tb.opts)
    (schema : Schema) (hct : HasCommitTime schema) (W : Written)
    (held : Str → List WBlock) (hr : StoresAppends C E.ltz tz schema t h W held)
    (hdt : DatedRecords schema h W) (start stop : Str) (hs : WriterTimestamp start ∧ start.length = n)
    (he : WriterTimestamp stop ∧ stop.length = n) (hps : ∃ d, parseDatetime E.ltz start tz = .ok d)
    (hpe : ∃ d, parseDatetime E.ltz stop tz = .ok d) :
    ∃ outs, tb.readIncremental E A C M t start (some stop) = .ok outs ∧
      ReadsEveryChangeAnd schema start stop h W (PendingChanges C E.ltz tz start stop h held) outs := by
  obtain ⟨outs, h1, ks, h2, h3, h4⟩ := evolving_every_change A M hmono hsec hload htree hzone hw hst hdocs hm hmeta
    (cols := fun _ _ => schema) (fun _ _ _ _ _ => hct) hr.evolving
    (fun h1 c h2 e k ls hch _ _ r hrow => hdt c (by rw [e]; simp) k ls hch r hrow) hs he hps hpe
  exact ⟨outs, h1, ks, h2, h3, h4.imp fun _ _ ⟨_, more, _, q1, q2, q3⟩ => ⟨q1, more, q2, q3⟩⟩

theorem no_pending_changes_at {C : Codec} {ltz : LocalTz} {tz start stop : Str} {h : History}
    {held : Str → List WBlock} {k : GroupKey} (hp : ∀ r, ¬ PendingChange C ltz tz start stop h held k r)
    {rows : List (List Cell)} (hr : PendingChanges C ltz tz start stop h held k rows) : rows = [] := by
  classical
  obtain ⟨v, LF, hv, _, _, hrec⟩ := hr
  refine List.eq_nil_iff_forall_not_mem.2 fun r hr => ?_
  obtain ⟨w, hw, bs, hdec, hrow⟩ := (mem_recordsOf hrec).1 hr
  exact hp r ⟨v, w, bs, hv, of_decide_eq_true (List.mem_filter.1 hw).2, hdec, hrow⟩

theorem no_pending_changes {C : Codec} {ltz : LocalTz} {tz start stop : Str} {h : History}
    {held : Str → List WBlock} (hp : NoPendingInSpan ltz tz start stop h held) {k : GroupKey}
    {rows : List (List Cell)} (hr : PendingChanges C ltz tz start stop h held k rows) : rows = [] :=
  no_pending_changes_at (fun _ => no_pending_change hp) hr

/-- **C76, changes (partial).**  Reading the changes between two times of such a table succeeds and returns,
for each file group that commits of the span changed and that is in the table at its end, every record that
was committed in the span, each exactly as often as it was written.  Missing: as in `C76_every_record_as_of_partial`. -/
theorem C76_every_change_partial (E : Env) (A : Arrow) (C : Codec) (M : MergeEnv A) (o o' : Opts)
    (t : Tree) (tb : Table) (tz : Str) (h : History) (n : Nat) (hmono : MonotoneTz E.ltz)
    (hsec : WholeSecondsTz E.ltz) (hload : Timeline.load E o t = .ok tb.timeline) (htree : TreeWF t)
    (hzone : timezoneOf tb.timeline.opts = .ok tz) (hw : h.WF n) (hst : Stores E.ltz tz o' t h)
    (hdocs : StoresDocs t h) (hm : AppendingReader tb tz) (hmeta : MetaFields tb.opts)
    (schema : Schema) (hct : HasCommitTime schema) (W : Written)
    (held : Str → List WBlock) (hr : StoresAppends C E.ltz tz schema t h W held)
    (hdt : DatedRecords schema h W) (start stop : Str) (hs : WriterTimestamp start ∧ start.length = n)
    (he : WriterTimestamp stop ∧ stop.length = n) (hps : ∃ d, parseDatetime E.ltz start tz = .ok d)
    (hpe : ∃ d, parseDatetime E.ltz stop tz = .ok d)
    (hpend : NoPendingInSpan E.ltz tz start stop h held) :
    ∃ outs, tb.readIncremental E A C M t start (some stop) = .ok outs ∧
      ReadsEveryChange schema start stop h W outs := by
  obtain ⟨outs, h1, ks, h2, h3, h4⟩ := C76_every_change_and_pending E A C M o o' t tb tz h n hmono hsec hload htree hzone
    hw hst hdocs hm hmeta schema hct W held hr hdt start stop hs he hps hpe
  refine ⟨outs, h1, ks, h2, h3, h4.imp ?_⟩
  rintro k out ⟨q1, more, q2, q3⟩
  rw [no_pending_changes hpend q2, List.append_nil] at q3
  exact ⟨q1, q3⟩

end Hudi
