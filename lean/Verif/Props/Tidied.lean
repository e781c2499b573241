import Verif.Spec.Tidied
import Verif.Props.TimeTravel
import Verif.Props.Answers
import Verif.Props.Records
import Verif.Lemmas.Racing
import Verif.Props.RacingChanges
import Mathlib.Data.List.Perm.Basic

/-! # C79: cleaning and archiving do not change what readers see -/

namespace Hudi
open Spec

/-- Where the slices of a snapshot come from. -/
theorem view_loaded {A : Arrow} {o : Opts} {t : Tree} {ts : Str} {p : Pruner} {excl : List FileGroup}
    {ss : List FileSlice} (h : TreeWF t) (hq : (viewSlicesAsOf A o t ts p excl []).2 = .ok ss) :
    ∀ s ∈ ss, ∃ b, BaseIn (filesOf t s.partitionPath) b ∧
      (⟨b, s.logFiles, s.partitionPath⟩ : FileSlice).loadMetadata t = .ok s := by
  obtain ⟨m, r, hm, hr, rfl⟩ := viewSlicesAsOf_ok.1 hq
  obtain ⟨hn, _, _⟩ := listRelevant_ok h hm
  have hext : hmExtend [] m = m := hmOfList_eq hn
  rw [hext] at hr
  intro s hs
  obtain ⟨l, hl, hs⟩ := List.mem_flatten.1 hs
  obtain ⟨g, hg, hgl⟩ := (Res.mapL_mem hr l).1 hl
  obtain ⟨_, k, s0, hk, hload⟩ := (mem_pickGroup hgl s).1 hs
  obtain ⟨x, gs, _, _, hgs, hgm⟩ := (mem_included h hm g).1 hg
  obtain ⟨_, hsp, _⟩ := listFileGroups_spec ((h.at (pathSegs x)).files_nodup) hgs
  obtain ⟨q1, q2, q3⟩ := hsp g hgm
  obtain ⟨e1, _, _⟩ := (mapLastLe_eq_some q2).1 hk
  obtain ⟨b, hb, _, _, rfl⟩ := (q3 k s0).1 ((mapGet_eq_some q2).2 e1)
  obtain ⟨a1, a2, _⟩ := loadMetadata_ok hload
  refine ⟨b, ?_, ?_⟩
  · rw [a1]; exact hb
  · rw [a1, a2]; exact hload

theorem readFileSlice_congr {C : Codec} {A : Arrow} {M : MergeEnv A} {ltz : LocalTz} {o : Opts} {t u : Tree}
    {s : FileSlice} (hb : t.fileAt (pathSegs s.basePath) = u.fileAt (pathSegs s.basePath))
    (hl : ∀ l ∈ s.logFiles, t.fileAt (pathSegs (s.logPath l)) = u.fileAt (pathSegs (s.logPath l))) :
    readFileSlice C A M ltz o t s = readFileSlice C A M ltz o u s := by
  have e2 : ∀ r, scanLogs C ltz o t r (s.logFiles.map s.logPath) =
      scanLogs C ltz o u r (s.logFiles.map s.logPath) := by
    intro r
    unfold scanLogs
    rw [Res.mapL_congr (g := scanFile C ltz o u r)]
    intro p hp
    obtain ⟨l, hlm, rfl⟩ := List.mem_map.1 hp
    exact scanFile_congr (hl l hlm)
  unfold readFileSlice readMerged
  rw [readBaseFile_congr hb]
  simp only [e2]

theorem Spec.Tidied.base {o : Opts} {ts : Str} {T : Int} {tl tl' : Timeline} {t t' : Tree}
    (h : Tidied o ts T tl tl' t t') {x : Str} (hx : PartitionOf o t' x) {b : BaseFile}
    (hb : BaseIn (filesOf t' x) b) : PartitionOf o t x ∧ BaseIn (filesOf t x) b := by
  obtain ⟨n, s, h1, h2⟩ := hb
  obtain ⟨h3, h4⟩ := h.files x hx _ h1
  exact ⟨h3, n, s, h4, h2⟩

theorem Spec.Tidied.log {o : Opts} {ts : Str} {T : Int} {tl tl' : Timeline} {t t' : Tree}
    (h : Tidied o ts T tl tl' t t') {x : Str} (hx : PartitionOf o t' x) {l : LogFile}
    (hl : LogIn (filesOf t' x) l) : PartitionOf o t x ∧ LogIn (filesOf t x) l := by
  obtain ⟨n, s, h1, h2⟩ := hl
  obtain ⟨h3, h4⟩ := h.files x hx _ h1
  exact ⟨h3, n, s, h4, h2⟩

/-- The answer to a query for file slices after cleaning and archiving. -/
theorem tidied_internal {E : Env} {A : Arrow} {o : Opts} {t0 t0' t t' : Tree} {tb tb' : Table}
    (hload : Timeline.load E o t0 = .ok tb.timeline) (hwf0 : ∀ n ∈ timelineNames t0, Spec.NormalName n)
    (hload' : Timeline.load E o t0' = .ok tb'.timeline) (hwf0' : ∀ n ∈ timelineNames t0', Spec.NormalName n)
    (hopts : tb'.opts = tb.opts) (hwf : TreeWF t) (hwf' : TreeWF t')
    (hone : ∀ x, PartitionOf tb.opts t x → OneExtension (filesOf t x))
    {ts ts' tz : Str} {T T' : Int} (htz : timezoneOf o = .ok tz)
    (hT : Bound E.ltz tz (some ts') (some T')) (hle : (compare ts ts').isLE) (hTT : T ≤ T')
    (htidy : Tidied tb.opts ts T tb.timeline tb'.timeline t t') {fs : List Filter} {ss : List FileSlice}
    (hq : (tb.fileSlicesInternal E A t ts' fs []).2 = .ok ss) :
    ∃ ss', (tb'.fileSlicesInternal E A t' ts' fs []).2 = .ok ss' ∧ ss'.Perm ss ∧
      ∀ s ∈ ss, t'.fileAt (pathSegs s.basePath) = t.fileAt (pathSegs s.basePath) ∧
        ∀ l ∈ s.logFiles, t'.fileAt (pathSegs (s.logPath l)) = t.fileAt (pathSegs (s.logPath l)) := by
  have hopt : ∀ {t1 : Tree} {tl : Timeline}, Timeline.load E o t1 = .ok tl → tl.opts = o := by
    intro t1 tl h
    unfold Timeline.load at h
    obtain ⟨_, _, h⟩ := Res.bind_eq_ok.1 h
    obtain ⟨_, _, h⟩ := Res.bind_eq_ok.1 h
    cases h
    rfl
  have htz1 : timezoneOf tb.timeline.opts = .ok tz := by rw [hopt hload]; exact htz
  have htz1' : timezoneOf tb'.timeline.opts = .ok tz := by rw [hopt hload']; exact htz
  obtain ⟨excl, schema, p, h3, h4, h5, h6⟩ := fileSlicesInternal_ok.1 hq
  have hS := view_snapshot hwf hone h6
  -- the replaced file groups
  have hdocs : ∀ i, ReplacesUpTo tb.timeline T' i → ∃ md, docOf t i = some md ∧ ReadableReplaced md := by
    intro i hi
    by_contra hn
    obtain ⟨e, he⟩ := (C21_replaced_file_groups E o t0 t tb.timeline hload hwf0 ts' tz T' htz1 hT).2 ⟨i, hi, hn⟩
    rw [h3] at he; cases he
  obtain ⟨excl', h3', _, _⟩ := (C21_replaced_file_groups E o t0' t' tb'.timeline hload' hwf0' ts' tz T' htz1' hT).1
    (by
      rintro i ⟨a, b, c⟩
      obtain ⟨a1, a2⟩ := htidy.instants i a
      obtain ⟨md, m1, m2⟩ := hdocs i ⟨a1, b, c⟩
      exact ⟨md, by rw [a2, m1], m2⟩)
  have hr := replaced_iff hload hwf0 htz1 hT h3
  have hr' := replaced_iff hload' hwf0' htz1' hT h3'
  have hrep : ∀ x, PartitionOf tb.opts t' x → ∀ b, BaseIn (filesOf t' x) b →
      ((∃ g ∈ excl, groupId g = (x, b.fileId)) ↔ ∃ g ∈ excl', groupId g = (x, b.fileId)) := by
    intro x hx b hb
    rw [hr, hr']
    constructor
    · rintro ⟨i, hi, ha, hle, md, hd, hrp⟩
      by_cases hi' : i ∈ tb'.timeline.completed
      · exact ⟨i, hi', ha, hle, md, by rw [(htidy.instants i hi').2, hd], hrp⟩
      · exact absurd rfl (htidy.archived i hi hi' ha md hd x _ hrp hx b hb)
    · rintro ⟨i, hi, ha, hle, md, hd, hrp⟩
      obtain ⟨a1, a2⟩ := htidy.instants i hi
      exact ⟨i, a1, ha, hle, md, by rw [← a2, hd], hrp⟩
  -- the partition columns
  have h4' : tb'.partitionSchema t' = .ok schema := by
    obtain ⟨i, md, path, s, c1, c2, c3, c4, c5⟩ := (partitionSchema_ok hload hwf0).1 h4
    refine (partitionSchema_ok hload' hwf0').2 ⟨i, md, path, s, ?_, ?_, c3, htidy.columns i md path s c1 c2 c3 c4, ?_⟩
    · rw [htidy.latest, c1]
    · rw [(htidy.instants i ?_).2, c2]
      exact List.mem_of_getLast? (by rw [htidy.latest, c1])
    · rw [hopts]; exact c5
  -- the base files of the slices stay
  have hstay : ∀ s ∈ ss, ∀ b, BaseIn (filesOf t s.partitionPath) b →
      b.fileId = s.baseFile.fileId → b.commitTimestamp = s.baseFile.commitTimestamp →
      PartitionOf tb.opts t' s.partitionPath ∧ BaseIn (filesOf t' s.partitionPath) b := by
    intro s hs b hb hbf hbt
    obtain ⟨⟨hp, _⟩, hnr, _⟩ := hS.sound s hs
    rcases htidy.cleaned _ b hp hb with h | h | ⟨b', c1, c2, c3, c4, c5⟩
    · exact h
    · exfalso
      refine hnr ((hr _ _).2 ?_)
      obtain ⟨i, d1, d2, d3, d4⟩ := h
      rw [hbf] at d4
      exact ⟨i, d1, d2, by omega, d4⟩
    · exfalso
      have hl := hS.latest s hs b' (htidy.base c1 c2).2 (c3.trans hbf)
        (Std.TransCmp.isLE_trans c5 hle)
      rw [← hbt] at hl
      rw [Std.OrientedCmp.gt_of_lt c4] at hl
      cases hl
  have hlist : ∀ x, PartitionOf tb.opts t x → p.shouldInclude A x = true → Listable (filesOf t x) :=
    fun x hx hi => view_listable hwf h6 x hx hi
  -- the slice of a current base file
  have hcur : ∀ x b, PartitionOf tb.opts t' x → p.shouldInclude A x = true → CurrentBase t' ts' x b →
      ¬ (∃ g ∈ excl', groupId g = (x, b.fileId)) → ∃ s ∈ ss, s.partitionPath = x ∧
        s.baseFile.fileId = b.fileId ∧ s.baseFile.commitTimestamp = b.commitTimestamp := by
    intro x b hx hi hb hn
    obtain ⟨d1, d2, d3⟩ := hb
    obtain ⟨e1, e2⟩ := htidy.base hx d1
    obtain ⟨s, hs, f1, f2⟩ := hS.complete x ⟨e1, hi⟩ b e2 d2 (by rw [hrep x hx b d1]; exact hn)
    refine ⟨s, hs, f1, f2, ?_⟩
    obtain ⟨_, _, b1, m, hb1, heq⟩ := hS.sound s hs
    have g1 : b1.fileId = s.baseFile.fileId := by rw [heq]
    have g2 : b1.commitTimestamp = s.baseFile.commitTimestamp := by rw [heq]
    obtain ⟨_, hb1'⟩ := hstay s hs b1 hb1 g1 g2
    rw [f1] at hb1'
    refine str_le_antisymm ?_ ?_
    · rw [← g2]
      exact d3 b1 hb1' (g1.trans f2) (by rw [g2]; exact hS.notLater s hs)
    · refine hS.latest s hs b (by rw [f1]; exact e2) f2.symm d2
  -- listing succeeds
  have hans : ∃ ss', (viewSlicesAsOf A tb.opts t' ts' p excl' []).2 = .ok ss' := by
    refine (view_answers hwf').2 ⟨((view_answers hwf).1 ⟨ss, h6⟩).1, ?_, ?_⟩
    · intro x hx hi
      by_cases hf : filesOf t' x = []
      · rw [hf]
        exact ⟨fun n s h => by simp at h, fun b b' ⟨_, _, h, _⟩ => by simp at h, fun l ⟨_, _, h, _⟩ => by simp at h⟩
      obtain ⟨f, hfm⟩ := List.exists_mem_of_ne_nil _ hf
      have hxt := (htidy.files x hx f hfm).1
      have hl := ((view_answers hwf).1 ⟨ss, h6⟩).2.1 x hxt hi
      refine ⟨fun n s hm => hl.names n s (htidy.files x hx _ hm).2,
        fun b b' hb hb' => hl.unique b b' (htidy.base hx hb).2 (htidy.base hx hb').2, ?_⟩
      rintro l hlm ⟨b, hb, hbf⟩
      obtain ⟨b', k1, k2, k3⟩ := hl.logs l (htidy.log hx hlm).2 ⟨b, (htidy.base hx hb).2, hbf⟩
      exact ⟨b', (htidy.together x b' l hxt k1 (htidy.log hx hlm).2 k2.symm k3.symm hx).1 hlm, k2, k3⟩
    · intro x b hx hi hb hn
      obtain ⟨s, hs, f1, f2, f3⟩ := hcur x b hx hi hb hn
      obtain ⟨b1, k1, k2⟩ := view_loaded hwf h6 s hs
      obtain ⟨_, hbt⟩ := htidy.base hx hb.1
      have hxt := (hS.sound s hs).1.1
      have : b1 = b := by
        refine (hlist x (by rw [← f1]; exact hxt) hi).unique b1 b (by rw [← f1]; exact k1) hbt ?_ ?_
        · obtain ⟨_, _, m, k4, _⟩ := loadMetadata_ok k2
          rw [← f2, k4]
        · obtain ⟨_, _, m, k4, _⟩ := loadMetadata_ok k2
          rw [← f3, k4]
      subst this
      have hpq := (loadMetadata_iff hwf (s := ⟨b1, s.logFiles, s.partitionPath⟩) k1).1 ⟨s, k2⟩
      have hc := htidy.bases x hx b1 hb.1
      rw [pathSegs_pathPush (baseIn_normal hwf' hb.1).1, fileAt_append, fileAt_append] at hc
      unfold ParquetIn at hpq ⊢
      rw [hc, ← f1]
      exact hpq
  obtain ⟨ss', h6'⟩ := hans
  have hone' : ∀ x, PartitionOf tb.opts t' x → OneExtension (filesOf t' x) := by
    intro x hx l l' hl hl'
    exact hone x (htidy.log hx hl).1 l l' (htidy.log hx hl).2 (htidy.log hx hl').2
  have hS' := view_snapshot hwf' hone' h6'
  have hfiles : ∀ s ∈ ss, t'.fileAt (pathSegs s.basePath) = t.fileAt (pathSegs s.basePath) ∧
        ∀ l ∈ s.logFiles, t'.fileAt (pathSegs (s.logPath l)) = t.fileAt (pathSegs (s.logPath l)) := by
    intro s hs
    obtain ⟨⟨hp, _⟩, _, b, m, hb, heq⟩ := hS.sound s hs
    obtain ⟨k1, k2⟩ := hstay s hs b hb (by rw [heq]) (by rw [heq])
    constructor
    · have := htidy.bases _ k1 b k2
      unfold FileSlice.basePath FileSlice.relativePathFor
      rw [heq]
      exact this
    · intro l hl
      obtain ⟨l1, l2, l3⟩ := (hS.logs s hs l).1 hl
      exact htidy.logs _ k1 l ((htidy.together _ b l hp hb l1 (by rw [l2, heq]) (by rw [l3, heq]) k1).2 k2)
  refine ⟨ss', fileSlicesInternal_ok.2 ⟨excl', schema, p, h3', h4', by rw [hopts]; exact h5, by rw [hopts]; exact h6'⟩,
    ?_, hfiles⟩
  -- slices of the same file group are equal
  have key : ∀ s ∈ ss, ∀ s' ∈ ss', s.partitionPath = s'.partitionPath →
      s.baseFile.fileId = s'.baseFile.fileId → s' = s := by
    intro s hs s' hs' hpath hfid
    obtain ⟨⟨hp, hi⟩, hnr, _⟩ := hS.sound s hs
    obtain ⟨⟨hp', _⟩, hnr', _⟩ := hS'.sound s' hs'
    obtain ⟨b, k1, k2⟩ := view_loaded hwf h6 s hs
    obtain ⟨b', k1', k2'⟩ := view_loaded hwf' h6' s' hs'
    obtain ⟨_, _, m, k3, _⟩ := loadMetadata_ok k2
    obtain ⟨_, _, m', k3', _⟩ := loadMetadata_ok k2'
    have ef : b.fileId = s.baseFile.fileId := by rw [k3]
    have et : b.commitTimestamp = s.baseFile.commitTimestamp := by rw [k3]
    have ef' : b'.fileId = s'.baseFile.fileId := by rw [k3']
    have et' : b'.commitTimestamp = s'.baseFile.commitTimestamp := by rw [k3']
    rw [← hpath] at k1' hp'
    obtain ⟨_, hb⟩ := hstay s hs b k1 ef et
    have hbt := (htidy.base hp' k1').2
    have hts : b.commitTimestamp = b'.commitTimestamp := by
      refine str_le_antisymm ?_ ?_
      · rw [et']
        exact hS'.latest s' hs' b (by rw [← hpath]; exact hb) (by rw [ef, hfid])
          (by rw [et]; exact hS.notLater s hs)
      · rw [et]
        exact hS.latest s hs b' hbt (by rw [ef', hfid]) (by rw [et']; exact hS'.notLater s' hs')
    have : b = b' := (hlist _ hp hi).unique b b' k1 hbt (by rw [ef, hfid, ef']) hts
    subst this
    have hlogs : s'.logFiles = s.logFiles := by
      refine SetSorted.ext (cmp := LogFile.cmp) (view_sorted hwf' h6' s' hs') (view_sorted hwf h6 s hs) ?_
      intro l
      rw [hS.logs s hs l, hS'.logs s' hs' l, ← hpath, ← hfid, ← et', ← et]
      constructor
      · rintro ⟨a1, a2, a3⟩
        exact ⟨(htidy.log hp' a1).2, a2, a3⟩
      · rintro ⟨a1, a2, a3⟩
        exact ⟨(htidy.together _ b l hp k1 a1 (by rw [a2, ef]) a3 hp').2 hb, a2, a3⟩
    rw [hlogs, ← hpath] at k2'
    have hg : (⟨b, s.logFiles, s.partitionPath⟩ : FileSlice).loadMetadata t' =
        (⟨b, s.logFiles, s.partitionPath⟩ : FileSlice).loadMetadata t := by
      unfold FileSlice.loadMetadata getFileMetadata
      rw [getFile_congr (t := t') (u := t) (path := (⟨b, s.logFiles, s.partitionPath⟩ : FileSlice).basePath)
        (htidy.bases _ hp' b hb)]
    rw [hg, k2] at k2'
    cases k2'
    rfl
  refine (List.perm_ext_iff_of_nodup (List.Nodup.of_map _ hS'.distinct) (List.Nodup.of_map _ hS.distinct)).2 ?_
  intro s
  constructor
  · intro hs'
    obtain ⟨⟨hp', hi⟩, hnr, b, m, hb, heq⟩ := hS'.sound s hs'
    have ef : s.baseFile.fileId = b.fileId := by rw [heq]
    have et : s.baseFile.commitTimestamp = b.commitTimestamp := by rw [heq]
    obtain ⟨s1, hs1, f1, f2, _⟩ := hcur s.partitionPath b hp' hi ⟨hb, by rw [← et]; exact hS'.notLater s hs',
      fun b' hb' hf => by rw [← et]; exact hS'.latest s hs' b' hb' (hf.trans ef.symm)⟩ (by rw [← ef]; exact hnr)
    rw [key s1 hs1 s hs' f1 (f2.trans ef.symm)]
    exact hs1
  · intro hs
    obtain ⟨⟨hp, hi⟩, hnr, b, m, hb, heq⟩ := hS.sound s hs
    have ef : s.baseFile.fileId = b.fileId := by rw [heq]
    have et : s.baseFile.commitTimestamp = b.commitTimestamp := by rw [heq]
    obtain ⟨k1, k2⟩ := hstay s hs b hb ef.symm et.symm
    obtain ⟨s', hs', f1, f2⟩ := hS'.complete s.partitionPath ⟨k1, hi⟩ b k2 (by rw [← et]; exact hS.notLater s hs)
      (by rw [← hrep _ k1 b k2, ← ef]; exact hnr)
    rw [← key s hs s' hs' f1.symm (by rw [f2, ef])]
    exact hs'

/-- The rows read after cleaning and archiving. -/
theorem tidied_read {E : Env} {A : Arrow} {C : Codec} {M : MergeEnv A} {o : Opts} {t0 t0' t t' : Tree}
    {tb tb' : Table}
    (hload : Timeline.load E o t0 = .ok tb.timeline) (hwf0 : ∀ n ∈ timelineNames t0, Spec.NormalName n)
    (hload' : Timeline.load E o t0' = .ok tb'.timeline) (hwf0' : ∀ n ∈ timelineNames t0', Spec.NormalName n)
    (hopts : tb'.opts = tb.opts) (hsopts : tb'.storageOpts = tb.storageOpts) (hwf : TreeWF t) (hwf' : TreeWF t')
    (hone : ∀ x, PartitionOf tb.opts t x → OneExtension (filesOf t x))
    {ts ts' tz : Str} {T T' : Int} (htz : timezoneOf o = .ok tz)
    (hT : Bound E.ltz tz (some ts') (some T')) (hle : (compare ts ts').isLE) (hTT : T ≤ T')
    (htidy : Tidied tb.opts ts T tb.timeline tb'.timeline t t') {fs : List Filter} {outs : List Batch}
    (hq : (tb.readSnapshotInternal E A C M t ts' fs []).2 = .ok outs) :
    ∃ outs', (tb'.readSnapshotInternal E A C M t' ts' fs []).2 = .ok outs' ∧ outs'.Perm outs := by
  unfold Table.readSnapshotInternal at hq ⊢
  rw [Query.bind_snd] at hq
  obtain ⟨ss, h1, h2⟩ := hq
  obtain ⟨ss', h3, h4, h5⟩ := tidied_internal hload hwf0 hload' hwf0' hopts hwf hwf' hone htz hT hle hTT htidy h1
  have horeq : tb'.readerOpts [(Cfg.fileGroupEndTimestamp.key, ts')] =
      tb.readerOpts [(Cfg.fileGroupEndTimestamp.key, ts')] := by
    unfold Table.readerOpts; rw [hopts, hsopts]
  have h6 : Res.mapL (readFileSlice C A M E.ltz (tb'.readerOpts [(Cfg.fileGroupEndTimestamp.key, ts')]) t') ss =
      .ok outs := by
    rw [horeq, ← show Res.mapL (readFileSlice C A M E.ltz (tb.readerOpts [(Cfg.fileGroupEndTimestamp.key, ts')]) t)
      ss = .ok outs from h2]
    exact Res.mapL_congr (fun s hs => readFileSlice_congr (h5 s hs).1 (h5 s hs).2)
  obtain ⟨outs', h7, h8⟩ := mapL_perm h4.symm h6
  exact ⟨outs', by rw [Query.bind_snd]; exact ⟨ss', h3, h7⟩, h8.symm⟩

/-- The time of the latest instant. -/
theorem latest_bound {E : Env} {o : Opts} {t0 : Tree} {tl : Timeline} (hload : Timeline.load E o t0 = .ok tl)
    {tz : Str} (htz : timezoneOf o = .ok tz) {i : Instant} (hi : i ∈ tl.completed) :
    Bound E.ltz tz (some i.timestamp) (some i.epochMillis) := by
  obtain ⟨tz', htz', _, ⟨f, hf, hp⟩, _⟩ := C05_loaded_timeline E o t0 tl hload
  rw [htz] at htz'; cases htz'
  obtain ⟨n, _, h'⟩ := List.mem_filterMap.1 (hp.mem_iff.1 hi)
  obtain ⟨ts, a, dt, _, _, _, hparse, rfl⟩ := (hf n _).1 h'
  exact ⟨dt, hparse, rfl⟩

/-- **C79, the file slices (partial).**  After cleaning and archiving, a query for the file slices as of any
time `ts'` from the retained time `ts` on, which had an answer before, has the same answer, up to order.
Missing: cleaning that is only half done, archiving of a replacement before the replaced files are gone
(`C79_false`), and changes read across archived instants (`C79_false_changes`). -/
theorem C79_file_slices_partial (E : Env) (A : Arrow) (o : Opts) (t0 t0' t t' : Tree) (tb tb' : Table)
    (hload : Timeline.load E o t0 = .ok tb.timeline) (hwf0 : ∀ n ∈ timelineNames t0, Spec.NormalName n)
    (hload' : Timeline.load E o t0' = .ok tb'.timeline) (hwf0' : ∀ n ∈ timelineNames t0', Spec.NormalName n)
    (hopts : tb'.opts = tb.opts) (hwf : TreeWF t) (hwf' : TreeWF t')
    (hone : ∀ x, PartitionOf tb.opts t x → OneExtension (filesOf t x))
    (ts ts' tz : Str) (T T' : Int) (htz : timezoneOf o = .ok tz)
    (hT : Bound E.ltz tz (some ts') (some T')) (hle : (compare ts ts').isLE) (hTT : T ≤ T')
    (htidy : Tidied tb.opts ts T tb.timeline tb'.timeline t t') (filters : List (Str × Str × Str))
    (ss : List FileSlice) (hq : (tb.fileSlicesAsOf E A t ts' filters []).2 = .ok ss) :
    ∃ ss', (tb'.fileSlicesAsOf E A t' ts' filters []).2 = .ok ss' ∧ ss'.Perm ss := by
  obtain ⟨fs, hfs, h2⟩ := Query.bind_lift_snd.1 hq
  obtain ⟨ss', h3, h4, _⟩ := tidied_internal hload hwf0 hload' hwf0' hopts hwf hwf' hone htz hT hle hTT htidy h2
  exact ⟨ss', Query.bind_lift_snd.2 ⟨fs, hfs, h3⟩, h4⟩

/-- **C79, the latest file slices (partial).**  So has a query for the latest file slices, when the retained
time is not after the latest instant.  Missing: as in `C79_file_slices_partial`. -/
theorem C79_latest_slices_partial (E : Env) (A : Arrow) (o : Opts) (t0 t0' t t' : Tree) (tb tb' : Table)
    (hload : Timeline.load E o t0 = .ok tb.timeline) (hwf0 : ∀ n ∈ timelineNames t0, Spec.NormalName n)
    (hload' : Timeline.load E o t0' = .ok tb'.timeline) (hwf0' : ∀ n ∈ timelineNames t0', Spec.NormalName n)
    (hopts : tb'.opts = tb.opts) (hwf : TreeWF t) (hwf' : TreeWF t')
    (hone : ∀ x, PartitionOf tb.opts t x → OneExtension (filesOf t x))
    (ts tz : Str) (T : Int) (htz : timezoneOf o = .ok tz)
    (hle : ∀ i, tb.timeline.completed.getLast? = some i → (compare ts i.timestamp).isLE ∧ T ≤ i.epochMillis)
    (htidy : Tidied tb.opts ts T tb.timeline tb'.timeline t t') (filters : List (Str × Str × Str))
    (ss : List FileSlice) (hq : (tb.fileSlices E A t filters []).2 = .ok ss) :
    ∃ ss', (tb'.fileSlices E A t' filters []).2 = .ok ss' ∧ ss'.Perm ss := by
  unfold Table.fileSlices Timeline.latestTimestamp at hq ⊢
  rw [htidy.latest]
  cases hl : tb.timeline.completed.getLast? with
  | none =>
    rw [hl] at hq
    exact ⟨ss, hq, .refl _⟩
  | some i =>
    rw [hl] at hq
    obtain ⟨k1, k2⟩ := hle i hl
    exact C79_file_slices_partial E A o t0 t0' t t' tb tb' hload hwf0 hload' hwf0' hopts hwf hwf' hone ts i.timestamp
      tz T i.epochMillis htz (latest_bound hload htz (List.mem_of_getLast? hl)) k1 k2 htidy filters ss hq

/-- **C79, the rows (partial).**  After cleaning and archiving, reading the snapshot as of any time `ts'` from
the retained time `ts` on returns the batches it returned before, up to order -- whatever the files hold and
however they are merged.  Missing: as in `C79_file_slices_partial`. -/
theorem C79_rows_as_of_partial (E : Env) (A : Arrow) (C : Codec) (M : MergeEnv A) (o : Opts)
    (t0 t0' t t' : Tree) (tb tb' : Table)
    (hload : Timeline.load E o t0 = .ok tb.timeline) (hwf0 : ∀ n ∈ timelineNames t0, Spec.NormalName n)
    (hload' : Timeline.load E o t0' = .ok tb'.timeline) (hwf0' : ∀ n ∈ timelineNames t0', Spec.NormalName n)
    (hopts : tb'.opts = tb.opts) (hsopts : tb'.storageOpts = tb.storageOpts) (hwf : TreeWF t) (hwf' : TreeWF t')
    (hone : ∀ x, PartitionOf tb.opts t x → OneExtension (filesOf t x))
    (ts ts' tz : Str) (T T' : Int) (htz : timezoneOf o = .ok tz)
    (hT : Bound E.ltz tz (some ts') (some T')) (hle : (compare ts ts').isLE) (hTT : T ≤ T')
    (htidy : Tidied tb.opts ts T tb.timeline tb'.timeline t t') (filters : List (Str × Str × Str))
    (outs : List Batch) (hq : (tb.readSnapshotAsOf E A C M t ts' filters []).2 = .ok outs) :
    ∃ outs', (tb'.readSnapshotAsOf E A C M t' ts' filters []).2 = .ok outs' ∧ outs'.Perm outs := by
  obtain ⟨fs, hfs, h2⟩ := Query.bind_lift_snd.1 hq
  obtain ⟨outs', h3, h4⟩ := tidied_read hload hwf0 hload' hwf0' hopts hsopts hwf hwf' hone htz hT hle hTT htidy h2
  exact ⟨outs', Query.bind_lift_snd.2 ⟨fs, hfs, h3⟩, h4⟩

/-- **C79, the latest rows (partial).**  Missing: as in `C79_file_slices_partial`. -/
theorem C79_latest_rows_partial (E : Env) (A : Arrow) (C : Codec) (M : MergeEnv A) (o : Opts)
    (t0 t0' t t' : Tree) (tb tb' : Table)
    (hload : Timeline.load E o t0 = .ok tb.timeline) (hwf0 : ∀ n ∈ timelineNames t0, Spec.NormalName n)
    (hload' : Timeline.load E o t0' = .ok tb'.timeline) (hwf0' : ∀ n ∈ timelineNames t0', Spec.NormalName n)
    (hopts : tb'.opts = tb.opts) (hsopts : tb'.storageOpts = tb.storageOpts) (hwf : TreeWF t) (hwf' : TreeWF t')
    (hone : ∀ x, PartitionOf tb.opts t x → OneExtension (filesOf t x))
    (ts tz : Str) (T : Int) (htz : timezoneOf o = .ok tz)
    (hle : ∀ i, tb.timeline.completed.getLast? = some i → (compare ts i.timestamp).isLE ∧ T ≤ i.epochMillis)
    (htidy : Tidied tb.opts ts T tb.timeline tb'.timeline t t') (filters : List (Str × Str × Str))
    (outs : List Batch) (hq : (tb.readSnapshot E A C M t filters []).2 = .ok outs) :
    ∃ outs', (tb'.readSnapshot E A C M t' filters []).2 = .ok outs' ∧ outs'.Perm outs := by
  unfold Table.readSnapshot Timeline.latestTimestamp at hq ⊢
  rw [htidy.latest]
  cases hl : tb.timeline.completed.getLast? with
  | none =>
    rw [hl] at hq
    exact ⟨outs, hq, .refl _⟩
  | some i =>
    rw [hl] at hq
    obtain ⟨k1, k2⟩ := hle i hl
    exact C79_rows_as_of_partial E A C M o t0 t0' t t' tb tb' hload hwf0 hload' hwf0' hopts hsopts hwf hwf' hone ts
      i.timestamp tz T i.epochMillis htz (latest_bound hload htz (List.mem_of_getLast? hl)) k1 k2 htidy filters outs hq

theorem readsRows_perm {A : Arrow} {schema : Schema} {pre : Str} {table : GroupKey → Option Version}
    {parts : Str → Prop} {rowOf : GroupKey → List Cell → Prop} {outs outs' : List Batch}
    (h : ReadsRows A schema pre table parts rowOf outs) (hp : outs'.Perm outs) :
    ReadsRows A schema pre table parts rowOf outs' := by
  obtain ⟨ks, h1, h2, h3⟩ := h
  obtain ⟨ks', h4, h5⟩ := List.perm_comp_forall₂ hp.symm.symm (List.forall₂_iff_get.2 (by
    refine ⟨h3.length_eq.symm, ?_⟩
    intro i hi hi'
    exact (List.forall₂_iff_get.1 h3).2 i hi' hi) : List.Forall₂ (fun out k => out.schema = schema ∧ ∃ rows,
      (∀ r, r ∈ rows ↔ rowOf k r) ∧ LatestVersions A schema pre rows out.rows) outs ks)
  refine ⟨ks', h5.nodup_iff.2 h1, fun k => (h5.mem_iff).trans (h2 k), h4.flip⟩

/-- **C79, with C59: the records of a cleaned table (partial).**  Let a storage `t` hold everything that a history
of commits wrote, and let `t'` be what cleaning and archiving left of it.  Then reading from `t'` the snapshot as
of any time from the retained one on succeeds and returns, for each file group of the table as of that time, the
latest version of each of its records, as in C59.  Missing: as in `C79_file_slices_partial`. -/
theorem C79_cleaned_records_partial (E : Env) (A : Arrow) (C : Codec) (M : MergeEnv A) (o : Opts) (t t' : Tree)
    (tb tb' : Table) (tz pre : Str) (h : History) (n : Nat) (filters : List (Str × Str × Str))
    (fs : List Filter) (cols : Schema) (hive url : Bool) (hmono : MonotoneTz E.ltz)
    (hsec : WholeSecondsTz E.ltz) (hl : ListableTable E A o t tb tz h n filters fs cols hive url)
    (hm : MergingReader tb tz pre) (schema : Schema) (hcol : MergeColumns schema pre) (W : Written)
    (held : Str → List WBlock) (hr : StoresRecords C E.ltz tz schema t h W held)
    (ts' : Str) (hts : WriterTimestamp ts' ∧ ts'.length = n) (d : DateTime)
    (hd : parseDatetime E.ltz ts' tz = .ok d)
    (hload' : Timeline.load E o t' = .ok tb'.timeline) (hopts : tb'.opts = tb.opts)
    (hsopts : tb'.storageOpts = tb.storageOpts) (hwf' : TreeWF t') (ts : Str) (T : Int)
    (hle : (compare ts ts').isLE) (hTT : T ≤ d.epochMillis)
    (htidy : Tidied tb.opts ts T tb.timeline tb'.timeline t t') :
    ∃ outs, (tb'.readSnapshotAsOf E A C M t' ts' filters []).2 = .ok outs ∧
      ReadsRows A schema pre (tableAt h ts') (Kept A cols hive url fs)
        (fun k r => r ∈ recordsAt W h ts' k ∨ PendingRow C E.ltz tz ts' h held k r) outs := by
  obtain ⟨outs, h1, h2⟩ := C59_records_and_pending E A C M o t tb tz pre h n filters fs cols hive url hmono hsec
    hl hm schema hcol W held hr ts' hts ⟨d, hd⟩
  have hopt : tb.timeline.opts = o := by
    have h := hl.load
    unfold Timeline.load at h
    obtain ⟨_, _, h⟩ := Res.bind_eq_ok.1 h
    obtain ⟨_, _, h⟩ := Res.bind_eq_ok.1 h
    exact (congrArg Timeline.opts (Res.ok.inj h)).symm
  obtain ⟨outs', h3, h4⟩ := C79_rows_as_of_partial E A C M o t t' t t' tb tb' hl.load (timelineNames_normal hl.tree)
    hload' (timelineNames_normal hwf') hopts hsopts hl.tree hwf'
    (fun x hx => stored_oneExtension hl.tree hl.history hl.stores hx) ts ts' tz T d.epochMillis
    (by rw [← hopt]; exact hl.zone) ⟨d, hd, rfl⟩ hle hTT htidy filters outs h1
  exact ⟨outs', h3, readsRows_perm h2 h4⟩

/-- Looking for changed file groups reads the metadata of the instants in the range only. -/
theorem fileGroupsBetween_kept {E : Env} {o : Opts} {t0 t0' t t' : Tree} {tl tl' : Timeline}
    (hload : Timeline.load E o t0 = .ok tl) (hwf0 : ∀ n ∈ timelineNames t0, Spec.NormalName n)
    (hload' : Timeline.load E o t0' = .ok tl')
    {start stop tz : Str} {S T : Int} (htz : timezoneOf o = .ok tz) (hS : Bound E.ltz tz (some start) (some S))
    (hT : Bound E.ltz tz (some stop) (some T))
    (hkept : inRange [.commit, .deltaCommit, .replaceCommit] (some S) (some T) tl'.completed =
      inRange [.commit, .deltaCommit, .replaceCommit] (some S) (some T) tl.completed)
    (hdocs : ∀ i ∈ tl.completed, S < i.epochMillis → i.epochMillis ≤ T → docOf t' i = docOf t i)
    {gs : List FileGroup} (h : tl.fileGroupsBetween E t (some start) (some stop) = .ok gs) :
    tl'.fileGroupsBetween E t' (some start) (some stop) = .ok gs := by
  have hopt : ∀ {t1 : Tree} {tl : Timeline}, Timeline.load E o t1 = .ok tl → tl.opts = o := by
    intro t1 tl h
    unfold Timeline.load at h
    obtain ⟨_, _, h⟩ := Res.bind_eq_ok.1 h
    obtain ⟨_, _, h⟩ := Res.bind_eq_ok.1 h
    cases h
    rfl
  obtain ⟨s, a1, a2⟩ := selection_ok hload (acts := defaultLoadingActions) (by decide) (by rw [hopt hload]; exact htz)
    hS hT
  obtain ⟨s', a1', a2'⟩ := selection_ok hload' (acts := defaultLoadingActions) (by decide)
    (by rw [hopt hload']; exact htz) hS hT
  unfold Timeline.fileGroupsBetween at h ⊢
  rw [a1] at h
  rw [a1']
  simp only [Res.ok_bind] at h ⊢
  rw [a2'] at *
  rw [a2] at h
  rw [show inRange defaultLoadingActions (some S) (some T) tl'.completed =
    inRange defaultLoadingActions (some S) (some T) tl.completed from hkept]
  obtain ⟨r, h3, h4⟩ := Res.bind_eq_ok.1 h
  have hsub : ∀ i ∈ inRange defaultLoadingActions (some S) (some T) tl.completed,
      i ∈ tl.completed ∧ docOf t' i = docOf t i := by
    intro i hi
    unfold inRange at hi
    rw [List.mem_filter] at hi
    simp only [Option.all_some, Bool.and_eq_true, decide_eq_true_eq] at hi
    exact ⟨hi.1, hdocs i hi.1 hi.2.2.1 hi.2.2.2⟩
  have : Res.foldL (betweenStep t') ([], []) (inRange defaultLoadingActions (some S) (some T) tl.completed) =
      .ok r := by
    clear h h4 hkept a2 a2'
    revert h3
    generalize inRange defaultLoadingActions (some S) (some T) tl.completed = is at hsub
    generalize (([], []) : List FileGroup × List FileGroup) = acc
    intro h3
    induction is generalizing acc with
    | nil => exact h3
    | cons i is ih =>
      rw [Res.foldL_cons] at h3 ⊢
      obtain ⟨acc', h5, h6⟩ := Res.bind_eq_ok.1 h3
      obtain ⟨hi, hd⟩ := hsub i (by simp)
      rw [show betweenStep t' acc i = .ok acc' from instantMetadata_both hload hwf0 hi hd h5]
      exact ih (fun i hi => hsub i (by simp [hi])) _ h6
  rw [this]
  exact h4

/-- **C79, changes (partial).**  A read of the changes between `start` and `stop` returns exactly the batches
it returned before, provided no instant in between was archived and the files that the changes were read from
are still there.  Missing: as in `C79_file_slices_partial`. -/
theorem C79_changes_partial (E : Env) (A : Arrow) (C : Codec) (M : MergeEnv A) (o : Opts)
    (t0 t0' t t' : Tree) (tb tb' : Table)
    (hload : Timeline.load E o t0 = .ok tb.timeline) (hwf0 : ∀ n ∈ timelineNames t0, Spec.NormalName n)
    (hload' : Timeline.load E o t0' = .ok tb'.timeline)
    (hopts : tb'.opts = tb.opts) (hsopts : tb'.storageOpts = tb.storageOpts)
    (start stop tz : Str) (S T : Int) (htz : timezoneOf o = .ok tz)
    (hS : Bound E.ltz tz (some start) (some S)) (hT : Bound E.ltz tz (some stop) (some T))
    (hkept : inRange [.commit, .deltaCommit, .replaceCommit] (some S) (some T) tb'.timeline.completed =
      inRange [.commit, .deltaCommit, .replaceCommit] (some S) (some T) tb.timeline.completed)
    (hdocs : ∀ i ∈ tb.timeline.completed, S < i.epochMillis → i.epochMillis ≤ T → docOf t' i = docOf t i)
    (ss : List FileSlice) (hss : tb.fileSlicesBetween E t (some start) (some stop) = .ok ss)
    (hfiles : ∀ s ∈ ss, t'.fileAt (pathSegs s.basePath) = t.fileAt (pathSegs s.basePath) ∧
      ∀ l ∈ s.logFiles, t'.fileAt (pathSegs (s.logPath l)) = t.fileAt (pathSegs (s.logPath l))) :
    tb'.fileSlicesBetween E t' (some start) (some stop) = .ok ss ∧
    tb'.readIncremental E A C M t' start (some stop) = tb.readIncremental E A C M t start (some stop) := by
  have h1 : tb.fileSlicesBetweenInternal E t start stop = .ok ss := hss
  have h2 : tb'.fileSlicesBetweenInternal E t' start stop = .ok ss := by
    unfold Table.fileSlicesBetweenInternal at h1 ⊢
    obtain ⟨gs, g1, g2⟩ := Res.bind_eq_ok.1 h1
    rw [fileGroupsBetween_kept hload hwf0 hload' htz hS hT hkept hdocs g1]
    exact g2
  refine ⟨h2, ?_⟩
  unfold Table.readIncremental
  simp only [Option.some_or, h1, h2, Res.ok_bind]
  rw [show tb'.readerOpts [(Cfg.fileGroupStartTimestamp.key, start), (Cfg.fileGroupEndTimestamp.key, stop)] =
    tb.readerOpts [(Cfg.fileGroupStartTimestamp.key, start), (Cfg.fileGroupEndTimestamp.key, stop)] by
      unfold Table.readerOpts; rw [hopts, hsopts]]
  exact Res.mapL_congr (fun s hs => readFileSlice_congr (hfiles s hs).1 (hfiles s hs).2)

end Hudi
