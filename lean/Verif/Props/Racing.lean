import Verif.Lemmas.Racing
import Verif.Props.TravelDemo
import Mathlib.Tactic.Common

/-! # C65: reads while writers are working -/

namespace Hudi
open Spec

theorem file?_mem {t : Tree} {n : Str} {e : Nat × Content} (h : t.file? n = some e) : (n, e.1) ∈ t.files := by
  induction t with
  | nil => cases h
  | file m s c rest ih =>
    simp only [Tree.file?] at h
    split at h
    · rename_i hm; subst hm; cases h; simp [Tree.files]
    · simp only [Tree.files, List.mem_cons]; exact .inr (ih h)
  | dir m sub rest _ ih => exact ih h

theorem logIn_normal {t : Tree} (h : TreeWF t) {x : Str} {l : LogFile} (hl : LogIn (filesOf t x) l) :
    NormalName l.fileName := by
  obtain ⟨name, size, h1, _, _, h2⟩ := hl
  rw [((C13_log_file_name_regenerated name l _).2 h2).1]
  exact (h.at _).files_normal _ h1

/-- A log file whose name one listing showed is a log file of every store that has it. -/
theorem logIn_moved {t u : Tree} {x : Str} {l : LogFile} (ht : TreeWF t) (hl : LogIn (filesOf t x) l)
    {e : Nat × Content} (he : u.fileAt (pathSegs (pathPush x l.fileName)) = some e) :
    ∃ l', LogIn (filesOf u x) l' ∧ l'.fileName = l.fileName := by
  have hn := logIn_normal ht hl
  rw [pathSegs_pathPush hn, fileAt_append] at he
  have hm := file?_mem he
  obtain ⟨name, size, h1, h2, h3, h4⟩ := hl
  have e1 := ((C13_log_file_name_regenerated name l _).2 h4).1
  have e1 : l.fileName = name := e1
  unfold LogFile.fromMeta at h4
  obtain ⟨⟨fid, ts, ext, ver, tok⟩, h5, _⟩ := Res.bind_eq_ok.1 h4
  have h7 : LogFile.fromMeta (FileMeta.new name e.1) =
      .ok ⟨fid, ts, ext, ver, tok, some (FileMeta.new name e.1)⟩ := by
    unfold LogFile.fromMeta
    rw [show (FileMeta.new name e.1).name = (FileMeta.new name size).name from rfl, h5]
    rfl
  refine ⟨_, ⟨name, e.1, by rw [← e1]; exact hm, h2, h3, h7⟩, ?_⟩
  rw [((C13_log_file_name_regenerated name _ _).2 h7).1, e1]
  rfl

/-- A read limited to base files reads the base file. -/
theorem readFileSliceR_base (C : Codec) (A : Arrow) (M : MergeEnv A) (ltz : LocalTz) (o : Opts) (R : Race)
    (s : FileSlice) (b : Batch) (hat : ParquetAt (R.data s.basePath) s.basePath b) (hstart : startOf o = none)
    (hro : ReadOptimized o) : readFileSliceR C A M ltz o R s = .ok b := by
  have hb : readBaseFileR A o R s.basePath = .ok b := C33_all_rows A o _ s.basePath b hat (.inl hstart)
  unfold readFileSliceR FileSlice.hasLogFile
  split
  · exact hb
  · obtain ⟨v, hv1, hv2⟩ := Res.bind_eq_ok.1 (readOptimized_eq o)
    simp only [hv1, hv2, Res.ok_bind, hro, decide_true, if_true, hb]

/-- The file groups of a read during later writes hold the rows they hold without them. -/
theorem racing_read (E : Env) (A : Arrow) (C : Codec) (M : MergeEnv A) (o : Opts)
    (t0 t : Tree) (tb : Table) (base : Str → Batch) (held : Str → List WBlock) (depth : Nat) (R : Race)
    (hload : Timeline.load E o t0 = .ok tb.timeline) (hwf0 : ∀ n ∈ timelineNames t0, Spec.NormalName n)
    (hwf : TreeWF t) (hone : ∀ x, PartitionOf tb.opts t x → OneExtension (filesOf t x))
    (ts tzr pre : Str) (hp : PlainStorage tb) (hm : PrecombinedBy tb.opts pre) (hstart : startOf tb.opts = none)
    (htzr : timezoneOf tb.opts = .ok tzr) (hts : ∃ d, parseDatetime E.ltz ts tzr = .ok d)
    (hdata : DataFiles C E.ltz tzr pre tb.opts t base held) (hkeys : OneRowPerKey tb.opts t base)
    (hheld : HeldOnly tb.opts t held)
    (hR : AllSeen (Meanwhile C E.ltz tzr tb.opts ts tb.timeline t held) R)
    (fs : List Filter) (ss ss' : List FileSlice)
    (h2 : (tb.fileSlicesInternal E A t ts fs []).2 = .ok ss)
    (h2' : tb.fileSlicesInternalR E A depth R ts fs = .ok ss')
    (hfound : ¬ ReadOptimized tb.opts → ∀ s' ∈ ss', ∀ l ∈ s'.logFiles,
      ∃ e, (R.data (s'.logPath l)).fileAt (pathSegs (s'.logPath l)) = some e) :
    ∃ outs outs', Res.mapL (readFileSlice C A M E.ltz
        (tb.readerOpts [(Cfg.fileGroupEndTimestamp.key, ts)]) t) ss = .ok outs ∧
      Res.mapL (readFileSliceR C A M E.ltz
        (tb.readerOpts [(Cfg.fileGroupEndTimestamp.key, ts)]) R) ss' = .ok outs' ∧
      SameBatches outs outs' := by
  obtain ⟨p1, p2, p3, p4, p5, p6⟩ := racing_pairs hload hwf0 hwf hone hR h2 h2'
  have hget := hmGet_readerOpts hp [(Cfg.fileGroupEndTimestamp.key, ts)]
    (by intro e he; rw [List.mem_singleton.1 he]; rfl)
  generalize ho : tb.readerOpts [(Cfg.fileGroupEndTimestamp.key, ts)] = ro at hget ⊢
  have hother : ∀ k, k ≠ c!"hoodie.read.file_group.end_timestamp" → hmGet k ro = hmGet k tb.opts := by
    intro k hk
    rw [hget]
    simp only [List.reverse_singleton, hmGet]
    rw [if_neg (by rw [show Cfg.fileGroupEndTimestamp.key =
      c!"hoodie.read.file_group.end_timestamp" from rfl]; exact hk)]
    rfl
  have hs' : startOf ro = none := by
    unfold startOf; rw [hother _ (by decide)]; exact hstart
  have he' : endOf ro = some ts := by
    unfold endOf; rw [hget]; rfl
  have hrdo : ReadOptimized ro ↔ ReadOptimized tb.opts := by
    unfold ReadOptimized; rw [hother _ (by decide)]
  have hmo : Merges ro ↔ Merges tb.opts := and_congr (overwrites_congr (hother _ (by decide))
    (hother _ (by decide)) (hother _ (by decide))) (not_congr hrdo)
  have hm' : PrecombinedBy ro pre := fun h => by rw [hother _ (by decide)]; exact hm (hmo.1 h)
  have htzo : timezoneOf ro = .ok tzr := by rw [timezoneOf_congr (hother _ (by decide)), htzr]
  have hrange : rangeOf ro tzr = ⟨tzr, none, some ts, false, true⟩ := by
    unfold rangeOf; rw [hs', he']
  -- one file group
  have one : ∀ s s', s ∈ ss → s' ∈ ss' → SeenGroup E.ltz ts tb.timeline t R tb.opts s s' →
      ∃ out out', readFileSlice C A M E.ltz ro t s = .ok out ∧
        readFileSliceR C A M E.ltz ro R s' = .ok out' ∧
        out'.schema = out.schema ∧ out'.rows.Perm out.rows := by
    intro s s' hs hs1 hg
    have hlp : ∀ l, s'.logPath l = pathPush s.partitionPath l.fileName := by
      intro l; unfold FileSlice.logPath FileSlice.relativePathFor; rw [hg.path]
    obtain ⟨b, m, m', hwant, e1, e2⟩ := hg.base
    have hb := hwant.base
    have ebf : s.baseFile.fileId = b.fileId := by rw [e1]
    have ebt : s.baseFile.commitTimestamp = b.commitTimestamp := by rw [e1]
    have bp : s.basePath = pathPush s.partitionPath b.fileName := by
      unfold FileSlice.basePath FileSlice.relativePathFor; rw [e1]; rfl
    have bp' : s'.basePath = pathPush s.partitionPath b.fileName := by
      unfold FileSlice.basePath FileSlice.relativePathFor; rw [e2, hg.path]; rfl
    obtain ⟨b1, b2, b3⟩ := hdata.bases _ hwant.part b hb
    have hbd := (hR.data s'.basePath).parquet _ b hwant _ b1
    by_cases hrd : ReadOptimized ro
    · refine ⟨_, _, C40_base_file_only C A M E.ltz ro t s _ (by rw [bp]; exact b1) hs' (.inr hrd),
        readFileSliceR_base C A M E.ltz ro R s' _ (by rw [bp'] at hbd ⊢; exact hbd) hs' hrd, rfl, .refl _⟩
    have hrd0 : ¬ ReadOptimized tb.opts := fun h => hrd (hrdo.2 h)
    have hfound := hfound hrd0 s' hs1
    -- what the read found in the log files
    have happ : ∀ l ∈ s'.logFiles, ∃ more,
        LogAt C (R.data (s'.logPath l)) (s'.logPath l) (held (s'.logPath l) ++ more) ∧
        ∀ w ∈ more, GoodBlock C E.ltz tzr w ∧ WrittenAfter E.ltz tzr ts w := by
      intro l hl
      obtain ⟨e, he⟩ := hfound l hl
      obtain ⟨g1, g2, g3⟩ := (hg.logs' l).1 hl
      obtain ⟨l', k1, k2⟩ := logIn_moved (x := s.partitionPath) (hR.files s.partitionPath).wf
        g1 (u := R.data (s'.logPath l)) (by rw [← hlp]; exact he)
      have herase := erase_fields (logIn_erase k1 g1 k2)
      have := (hR.data (s'.logPath l)).appended hrd0 _ b hwant l' k1
        ⟨herase.1.trans (g2.trans ebf), herase.2.trans (g3.trans ebt)⟩
      rw [k2, ← hlp] at this
      exact this
    have hall : ∀ p, ∃ more : List WBlock, ∀ l ∈ s'.logFiles, s'.logPath l = p →
        LogAt C (R.data p) p (held p ++ more) ∧
        ∀ w ∈ more, GoodBlock C E.ltz tzr w ∧ WrittenAfter E.ltz tzr ts w := by
      intro p
      by_cases h : ∃ l ∈ s'.logFiles, s'.logPath l = p
      · obtain ⟨l, hl, rfl⟩ := h
        obtain ⟨more, h1⟩ := happ l hl
        exact ⟨more, fun _ _ _ => h1⟩
      · exact ⟨[], fun l hl e => absurd ⟨l, hl, e⟩ h⟩
    choose more hmore0 using hall
    have hmore := fun l hl => hmore0 (s'.logPath l) l hl rfl
    -- one store with the files as they were read
    have hnb : NormalName b.fileName := (baseIn_normal hwf hb).1
    have hsegs : ∀ p ∈ s'.basePath :: s'.logFiles.map s'.logPath,
        ∃ n, NormalName n ∧ p = pathPush s.partitionPath n ∧ pathSegs p = pathSegs s.partitionPath ++ [n] := by
      intro p hp
      rcases List.mem_cons.1 hp with rfl | hp
      · exact ⟨b.fileName, hnb, bp', by rw [bp', pathSegs_pathPush hnb]⟩
      · obtain ⟨l, hl, rfl⟩ := List.mem_map.1 hp
        have hn := logIn_normal (hR.files s.partitionPath).wf ((hg.logs' l).1 hl).1
        exact ⟨l.fileName, hn, hlp l, by rw [hlp, pathSegs_pathPush hn]⟩
    obtain ⟨u, hu⟩ := gather (f := R.data) (paths := s'.basePath :: s'.logFiles.map s'.logPath)
      (by
        intro p hp
        rcases List.mem_cons.1 hp with rfl | hp
        · obtain ⟨sz, bs, ft, h⟩ := hbd
          rw [← bp'] at h
          exact ⟨_, h⟩
        · obtain ⟨l, hl, rfl⟩ := List.mem_map.1 hp
          exact hfound l hl)
      (by
        intro p hp q hq e
        obtain ⟨n, _, p1, p2⟩ := hsegs p hp
        obtain ⟨k, _, q1, q2⟩ := hsegs q hq
        rw [p2, q2] at e
        have := (List.append_inj' e rfl).2
        rw [p1, q1, List.cons.inj this |>.1])
    have hub := hu s'.basePath (by simp)
    have hul : ∀ l ∈ s'.logFiles, u.fileAt (pathSegs (s'.logPath l)) =
        (R.data (s'.logPath l)).fileAt (pathSegs (s'.logPath l)) :=
      fun l hl => hu _ (List.mem_cons_of_mem _ (List.mem_map_of_mem hl))
    rw [readFileSliceR_eq hub hul]
    have hsv := hg.surviving (ltz := E.ltz) (tz := tzr) (ts := ts) (held := held)
      (held' := fun p => held p ++ more p) (p5 s hs) (p6 s' hs1)
      (fun l hl => ⟨more (s'.logPath l), rfl, fun w hw => ((hmore l hl).2 w hw).2⟩)
      (fun l hl hlo => (hR.files s.partitionPath).logs _ b hwant l hl ⟨hlo.1.trans ebf, hlo.2.trans ebt⟩) hheld
      (fun l => logIn_normal (hR.files s.partitionPath).wf)
    have hfit : BatchesFit C (base (pathPush s.partitionPath b.fileName)).schema
        (surviving E.ltz tzr ⟨tzr, none, some ts, false, true⟩
          (s.logFiles.map (fun l => held (s.logPath l))).flatten) := by
      intro w hw
      obtain ⟨ws, w1, w2⟩ := List.mem_flatten.1 (List.mem_filter.1 hw).1
      obtain ⟨l, hl, rfl⟩ := List.mem_map.1 w1
      obtain ⟨k1, k2, k3⟩ := (hg.logs l).1 hl
      rw [e1] at k2 k3
      exact hdata.fit hrd0 _ hwant.part b hb l k1 k2 k3 w w2
    have files : SliceFiles C E.ltz tzr t (rangeOf ro tzr) s (base (pathPush s.partitionPath b.fileName))
        (s.logFiles.map (fun l => held (s.logPath l))) := by
      refine ⟨by rw [bp]; exact b1, b2, good_logs (fun l hl => ?_), by rw [hrange]; exact hfit⟩
      exact hdata.logs hrd0 _ hwant.part l ((hg.logs l).1 hl).1
    have files' : SliceFiles C E.ltz tzr u (rangeOf ro tzr) s' (base (pathPush s.partitionPath b.fileName))
        (s'.logFiles.map (fun l => (fun p => held p ++ more p) (s'.logPath l))) := by
      refine ⟨?_, b2, good_logs (held := fun p => held p ++ more p) (fun l hl => ?_),
        by rw [hrange, hsv]; exact hfit⟩
      · obtain ⟨sz, bs, ft, h⟩ := hbd
        exact ⟨sz, bs, ft, by rw [hub, ← h, bp']⟩
      obtain ⟨⟨sz, c, a1, a2⟩, a3⟩ := hmore l hl
      refine ⟨⟨sz, c, by rw [hul l hl]; exact a1, a2⟩, fun w hw => ?_⟩
      rcases List.mem_append.1 hw with hw | hw
      · rw [hlp] at hw
        by_cases hx : ∃ l0, LogIn (filesOf t s.partitionPath) l0 ∧ l0.fileName = l.fileName
        · obtain ⟨l0, x1, x2⟩ := hx
          rw [← x2] at hw
          exact (hdata.logs hrd0 _ hwant.part l0 x1).2 w hw
        · rw [hheld _ hwant.part _ (logIn_normal (hR.files s.partitionPath).wf ((hg.logs' l).1 hl).1) (fun l0 h0 e => hx ⟨l0, h0, e⟩)] at hw
          cases hw
      · exact (a3 w hw).1
    obtain ⟨out, out', r1, r2, r3, r4, _⟩ := readFileSlice_same (A := A) M hm' htzo
      (by rw [hrange]; exact ⟨by simp, by simpa using hts⟩) hs' files files' (fun h => b3 (hmo.1 h))
      (fun h => hkeys (hmo.1 h) _ hwant.part b hb)
      (by
        intro h
        cases hl : s.logFiles with
        | nil => rfl
        | cons l ls =>
          exfalso
          obtain ⟨k1, k2, k3⟩ := (hg.logs l).1 (by rw [hl]; simp)
          obtain ⟨l', m1, m2⟩ := (hR.files s.partitionPath).logs _ b hwant l k1 ⟨k2.trans ebf, k3.trans ebt⟩
          have he := logIn_erase m1 k1 m2
          have : l' ∈ s'.logFiles := (hg.logs' l').2 ⟨m1, by rw [← k2]; exact (erase_fields he).1,
            by rw [← k3]; exact (erase_fields he).2⟩
          rw [h] at this
          cases this)
      (by intro h; rw [h]; rfl) (by rw [hrange]; exact hsv)
    exact ⟨out, out', r1, r2, r3, r4⟩
  obtain ⟨ss'', q1, q2⟩ := perm_of_matched (R := fun s s' => s ∈ ss ∧ s' ∈ ss' ∧ SeenGroup E.ltz ts tb.timeline t R tb.opts s s')
    (key := fun s => (s.partitionPath, s.baseFile.fileId))
    (fun s hs => by obtain ⟨s', h, h'⟩ := p1 s hs; exact ⟨s', h, hs, h, h'⟩)
    (fun s hs => by obtain ⟨s', h, h'⟩ := p2 s hs; exact ⟨s', h, h, hs, h'⟩)
    (fun s s' h => h.2.2.key) p3 p4
  have hall : ∃ outs outs'', Res.mapL (readFileSlice C A M E.ltz ro t) ss = .ok outs ∧
      Res.mapL (readFileSliceR C A M E.ltz ro R) ss'' = .ok outs'' ∧
      List.Forall₂ (fun out out' => out'.schema = out.schema ∧ out'.rows.Perm out.rows) outs outs'' := by
    have q3 := q2.imp (fun s s' h => one s s' h.1 h.2.1 h.2.2)
    clear p1 p2 p3 p4 p5 p6 q1 q2 one h2 h2' hfound
    induction q3 with
    | nil => exact ⟨[], [], rfl, rfl, .nil⟩
    | cons a _ ih =>
      obtain ⟨outs, outs'', i1, i2, i3⟩ := ih
      obtain ⟨out, out', j1, j2, j3, j4⟩ := a
      exact ⟨out :: outs, out' :: outs'', Res.mapL_cons_ok.2 ⟨_, _, j1, i1, rfl⟩,
        Res.mapL_cons_ok.2 ⟨_, _, j2, i2, rfl⟩, .cons ⟨j3, j4⟩ i3⟩
  obtain ⟨outs, outs'', r1, r2, r3⟩ := hall
  obtain ⟨outs1, r4, r5⟩ := mapL_perm q1 r2
  exact ⟨outs, outs1, r1, r4, outs'', r5.symm, r3⟩

/-- **C65 (partial).**  A read of the snapshot as of `ts` whose every request to the storage is answered by
whatever the storage holds at that moment, while writers add base files, partitions and log files and append
to log files, all later than `ts`, and cleaners remove what the snapshot does not show, returns, if it returns, the batches the read returns when nobody writes, up to
the order of batches and rows.  Missing: that the read does return (see C67). -/
theorem C65_isolated_partial (E : Env) (A : Arrow) (C : Codec) (M : MergeEnv A) (o : Opts)
    (t0 t : Tree) (tb : Table) (base : Str → Batch) (held : Str → List WBlock) (depth : Nat) (R : Race)
    (hload : Timeline.load E o t0 = .ok tb.timeline) (hwf0 : ∀ n ∈ timelineNames t0, Spec.NormalName n)
    (hwf : TreeWF t) (hone : ∀ x, PartitionOf tb.opts t x → OneExtension (filesOf t x))
    (ts tzr pre : Str) (hp : PlainStorage tb) (hm : PrecombinedBy tb.opts pre) (hstart : startOf tb.opts = none)
    (htzr : timezoneOf tb.opts = .ok tzr) (hts : ∃ d, parseDatetime E.ltz ts tzr = .ok d)
    (hdata : DataFiles C E.ltz tzr pre tb.opts t base held) (hkeys : OneRowPerKey tb.opts t base)
    (hheld : HeldOnly tb.opts t held)
    (hR : AllSeen (Meanwhile C E.ltz tzr tb.opts ts tb.timeline t held) R)
    (filters : List (Str × Str × Str)) (ss : List FileSlice)
    (hq : (tb.fileSlicesAsOf E A t ts filters []).2 = .ok ss) (outs' : List Batch)
    (hq' : tb.readSnapshotAsOfR E A C M depth R ts filters = .ok outs') :
    ∃ outs, (tb.readSnapshotAsOf E A C M t ts filters []).2 = .ok outs ∧
      SameBatches outs outs' := by
  obtain ⟨fs, hfs, h2⟩ := Query.bind_lift_snd.1 hq
  unfold Table.readSnapshotAsOfR at hq'
  rw [hfs] at hq'
  simp only [Res.ok_bind] at hq'
  unfold Table.readSnapshotInternalR at hq'
  obtain ⟨ss', h2', h8⟩ := Res.bind_eq_ok.1 hq'
  have hro : ¬ ReadOptimized tb.opts →
      ¬ ReadOptimized (tb.readerOpts [(Cfg.fileGroupEndTimestamp.key, ts)]) := by
    intro this
    have hget := hmGet_readerOpts hp [(Cfg.fileGroupEndTimestamp.key, ts)]
      (by intro e he; rw [List.mem_singleton.1 he]; rfl)
    unfold ReadOptimized at this ⊢
    rw [hget]
    exact this
  simp only at h8
  obtain ⟨outs, outs1, r1, r4, r5⟩ := racing_read E A C M o t0 t tb base held depth R hload hwf0 hwf hone ts tzr pre
    hp hm hstart htzr hts hdata hkeys hheld hR fs ss ss' h2 h2' (fun hrd s' hs1 => by
      obtain ⟨out0, hout0, _⟩ := Res.mapL_ok_mem h8 s' hs1
      exact readFileSliceR_found (hro hrd) hout0)
  rw [h8] at r4
  cases r4
  refine ⟨outs, ?_, r5⟩
  unfold Table.readSnapshotAsOf
  refine Query.bind_lift_snd.2 ⟨fs, hfs, ?_⟩
  unfold Table.readSnapshotInternal
  rw [Query.bind_snd]
  exact ⟨ss, h2, r1⟩

/-- The read of the latest snapshot is a read as of the latest completed commit, with or without writers. -/
theorem readSnapshotR_eq (E : Env) (A : Arrow) (C : Codec) (M : MergeEnv A) (tb : Table) (depth : Nat) (R : Race)
    (t : Tree) (ts : Str) (h : tb.timeline.latestTimestamp = some ts) (filters : List (Str × Str × Str)) :
    tb.readSnapshotR E A C M depth R filters = tb.readSnapshotAsOfR E A C M depth R ts filters ∧
    tb.readSnapshot E A C M t filters = tb.readSnapshotAsOf E A C M t ts filters ∧
    tb.fileSlices E A t filters = tb.fileSlicesAsOf E A t ts filters := by
  unfold Table.readSnapshotR Table.readSnapshotAsOfR Table.readSnapshot Table.readSnapshotAsOf Table.fileSlices
    Table.fileSlicesAsOf
  rw [h]
  exact ⟨rfl, rfl, rfl⟩

/-- **C65, the latest snapshot (partial).**  The same for a read of the latest snapshot: what is committed after
the handle was opened does not show, not even in part.  Missing: as in `C65_isolated_partial`. -/
theorem C65_latest_isolated_partial (E : Env) (A : Arrow) (C : Codec) (M : MergeEnv A) (o : Opts)
    (t0 t : Tree) (tb : Table) (base : Str → Batch) (held : Str → List WBlock) (depth : Nat) (R : Race)
    (hload : Timeline.load E o t0 = .ok tb.timeline) (hwf0 : ∀ n ∈ timelineNames t0, Spec.NormalName n)
    (hwf : TreeWF t) (hone : ∀ x, PartitionOf tb.opts t x → OneExtension (filesOf t x))
    (ts tzr pre : Str) (hlast : tb.timeline.latestTimestamp = some ts)
    (hp : PlainStorage tb) (hm : PrecombinedBy tb.opts pre) (hstart : startOf tb.opts = none)
    (htzr : timezoneOf tb.opts = .ok tzr) (hts : ∃ d, parseDatetime E.ltz ts tzr = .ok d)
    (hdata : DataFiles C E.ltz tzr pre tb.opts t base held) (hkeys : OneRowPerKey tb.opts t base)
    (hheld : HeldOnly tb.opts t held)
    (hR : AllSeen (Meanwhile C E.ltz tzr tb.opts ts tb.timeline t held) R)
    (filters : List (Str × Str × Str)) (ss : List FileSlice)
    (hq : (tb.fileSlices E A t filters []).2 = .ok ss) (outs' : List Batch)
    (hq' : tb.readSnapshotR E A C M depth R filters = .ok outs') :
    ∃ outs, (tb.readSnapshot E A C M t filters []).2 = .ok outs ∧
      SameBatches outs outs' := by
  obtain ⟨e1, e2, e3⟩ := readSnapshotR_eq E A C M tb depth R t ts hlast filters
  rw [e3] at hq
  rw [e1] at hq'
  rw [e2]
  exact C65_isolated_partial E A C M o t0 t tb base held depth R hload hwf0 hwf hone ts tzr pre hp hm hstart htzr
    hts hdata hkeys hheld hR filters ss hq outs' hq'

/-- **C65, without writers.**  A read whose requests are all answered by the same store is the read of the other
properties. -/
theorem C65_nobody_writes (E : Env) (A : Arrow) (C : Codec) (M : MergeEnv A) (tb : Table) (t : Tree) :
    ∃ depth, ∀ filters,
      (∀ ts, tb.readSnapshotAsOfR E A C M depth (Race.still t) ts filters =
        (tb.readSnapshotAsOf E A C M t ts filters []).2) ∧
      tb.readSnapshotR E A C M depth (Race.still t) filters = (tb.readSnapshot E A C M t filters []).2 := by
  refine ⟨t.height + 1, fun filters => ⟨fun ts => readSnapshotAsOfR_still E A C M tb t ts filters, ?_⟩⟩
  cases h : tb.timeline.latestTimestamp with
  | none => unfold Table.readSnapshotR Table.readSnapshot; rw [h]; rfl
  | some ts =>
    obtain ⟨e1, e2, _⟩ := readSnapshotR_eq E A C M tb (t.height + 1) (Race.still t) t ts h filters
    rw [e1, e2]
    exact readSnapshotAsOfR_still E A C M tb t ts filters

end Hudi
