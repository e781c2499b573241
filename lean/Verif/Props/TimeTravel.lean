import Verif.Spec.TimeTravel
import Verif.Props.TableReads
import Verif.Props.Snapshot
import Verif.Props.FileNames
import Verif.Lemmas.Decode

/-! # C28: the rows of a snapshot do not change -/

namespace Hudi
open Spec

/-! ## Log files of a slice -/

theorem view_sorted {A : Arrow} {o : Opts} {t : Tree} {ts : Str} {p : Pruner} {excl : List FileGroup}
    {ss : List FileSlice} (h : TreeWF t) (hq : (viewSlicesAsOf A o t ts p excl []).2 = .ok ss) :
    ∀ s ∈ ss, SetSorted LogFile.cmp s.logFiles := by
  obtain ⟨m, r, hm, hr, rfl⟩ := viewSlicesAsOf_ok.1 hq
  obtain ⟨hn, _, _⟩ := listRelevant_ok h hm
  have hext : hmExtend [] m = m := hmOfList_eq hn
  rw [hext] at hr
  intro s hs
  obtain ⟨l, hl, hs⟩ := List.mem_flatten.1 hs
  obtain ⟨g, hg, hgl⟩ := (Res.mapL_mem hr l).1 hl
  obtain ⟨_, k, s0, hk, hload⟩ := (mem_pickGroup hgl s).1 hs
  obtain ⟨x, gs, _, _, hgs, hgm⟩ := (mem_included h hm g).1 hg
  have hw := listFileGroups_wf ((h.at (pathSegs x)).files_nodup) hgs g hgm
  obtain ⟨e1, _, _⟩ := (mapLastLe_eq_some hw.sorted).1 hk
  rw [(loadMetadata_ok hload).2.1]
  exact (hw.slice k s0 ((mapGet_eq_some hw.sorted).2 e1)).2

/-- A log file without what the listing says about it. -/
def LogFile.erase (l : LogFile) : LogFile := { l with fileMeta := none }

theorem erase_fileName (l : LogFile) : l.erase.fileName = l.fileName := rfl

theorem erase_fields {l l' : LogFile} (h : l.erase = l'.erase) :
    l.fileId = l'.fileId ∧ l.baseCommitTimestamp = l'.baseCommitTimestamp :=
  ⟨show l.erase.fileId = l'.erase.fileId by rw [h],
    show l.erase.baseCommitTimestamp = l'.erase.baseCommitTimestamp by rw [h]⟩

theorem logIn_erase {F F' : List (Str × Nat)} {l l' : LogFile} (h : LogIn F l) (h' : LogIn F' l')
    (hn : l.fileName = l'.fileName) : l.erase = l'.erase := by
  obtain ⟨n, k, _, _, _, h1⟩ := h
  obtain ⟨n', k', _, _, _, h1'⟩ := h'
  have e := ((C13_log_file_name_regenerated n l _).2 h1).1
  have e' := ((C13_log_file_name_regenerated n' l' _).2 h1').1
  have : n = n' := by rw [show n = (FileMeta.new n k).name from rfl, ← e, hn, e']; rfl
  subst this
  unfold LogFile.fromMeta at h1 h1'
  obtain ⟨⟨f, ts, ex, v, tk⟩, a1, a2⟩ := Res.bind_eq_ok.1 h1
  obtain ⟨q, b1, b2⟩ := Res.bind_eq_ok.1 h1'
  rw [show (FileMeta.new n k').name = (FileMeta.new n k).name from rfl, a1] at b1
  cases b1
  cases a2
  cases b2
  rfl

theorem flatMap_filter {α β : Type} (p : α → Bool) (g : α → List β) (L : List α)
    (h : ∀ x ∈ L, p x = false → g x = []) : (L.filter p).flatMap g = L.flatMap g := by
  induction L with
  | nil => rfl
  | cons x L ih =>
    rw [List.filter_cons, List.flatMap_cons, ← ih (fun y hy => h y (by simp [hy]))]
    cases hp : p x with
    | true => simp [List.flatMap_cons]
    | false => simp [h x (by simp) hp]

/-- Two sorted lists of log files, the second with more names; the others contribute nothing. -/
theorem logs_flatMap {β : Type} {L L' : List LogFile} (g : Str → List β)
    (hs : SetSorted LogFile.cmp L) (hs' : SetSorted LogFile.cmp L')
    (hsub : ∀ l ∈ L, ∃ l' ∈ L', l'.erase = l.erase)
    (hnew : ∀ l' ∈ L', (∀ l ∈ L, l.erase ≠ l'.erase) → g l'.fileName = []) :
    L'.flatMap (fun l => g l.fileName) = L.flatMap (fun l => g l.fileName) := by
  classical
  have he : ∀ M : List LogFile, M.flatMap (fun l => g l.fileName) =
      (M.map LogFile.erase).flatMap (fun l => g l.fileName) := by
    intro M; rw [List.flatMap_map]; rfl
  have hsE : ∀ M : List LogFile, SetSorted LogFile.cmp M → SetSorted LogFile.cmp (M.map LogFile.erase) := by
    intro M hM
    unfold SetSorted at *
    rw [List.pairwise_map]
    exact hM
  rw [he L, he L', ← flatMap_filter (fun l => decide (l ∈ L.map LogFile.erase)) _ (L'.map LogFile.erase)]
  · congr 1
    refine SetSorted.ext (cmp := LogFile.cmp) ((hsE L' hs').filter _) (hsE L hs) ?_
    intro x
    rw [List.mem_filter, decide_eq_true_eq]
    constructor
    · exact fun h => h.2
    · intro h
      refine ⟨?_, h⟩
      obtain ⟨l, hl, rfl⟩ := List.mem_map.1 h
      obtain ⟨l', hl', e⟩ := hsub l hl
      exact List.mem_map.2 ⟨l', hl', e⟩
  · intro x hx hp
    obtain ⟨l', hl', rfl⟩ := List.mem_map.1 hx
    rw [erase_fileName]
    refine hnew l' hl' ?_
    intro l hl e
    exact absurd (List.mem_map.2 ⟨l, hl, e⟩) (of_decide_eq_false hp)

/-! ## Surviving blocks -/

/-- The surviving blocks depend on the blocks in the range only. -/
theorem surviving_congr {ltz : LocalTz} {tz : Str} {r : InstantRange} {ws ws' : List WBlock}
    (h : ∀ [DecidablePred (BlockIn ltz tz r)], ws'.filter (fun w => decide (BlockIn ltz tz r w)) =
      ws.filter (fun w => decide (BlockIn ltz tz r w))) :
    surviving ltz tz r ws' = surviving ltz tz r ws := by
  classical
  have key : ∀ ws : List WBlock, surviving ltz tz r ws =
      (ws.filter (fun w => decide (BlockIn ltz tz r w))).filter (fun w => decide (¬ ∃ w' ∈
        ws.filter (fun w => decide (BlockIn ltz tz r w)), ∃ i, RollsBack w' i ∧ WrittenBy w i)) := by
    intro ws
    unfold surviving
    rw [List.filter_filter]
    refine List.filter_congr ?_
    intro w _
    rw [← Bool.decide_and, decide_eq_decide]
    unfold Survives
    simp only [List.mem_filter, decide_eq_true_eq]
    constructor
    · rintro ⟨h1, h2⟩
      refine ⟨?_, h1⟩
      rintro ⟨w', ⟨h3, h4⟩, h5⟩
      exact h2 ⟨w', h3, h4, h5⟩
    · rintro ⟨h1, h2⟩
      refine ⟨h2, ?_⟩
      rintro ⟨w', h3, h4, h5⟩
      exact h1 ⟨w', ⟨h3, h4⟩, h5⟩
  rw [key, key, h]

/-- A block later than the end of the range is not in it. -/
theorem not_blockIn {ltz : LocalTz} {tz ts : Str} {w : WBlock} (h : WrittenAfter ltz tz ts w) :
    ¬ BlockIn ltz tz ⟨tz, none, some ts, false, true⟩ w := by
  obtain ⟨i, d, e, h1, h2, h3, h4⟩ := h
  rintro ⟨i', d', k1, k2, k3⟩
  unfold WrittenBy at h1 k1
  rw [h1] at k1; cases k1
  rw [h2] at k2; cases k2
  obtain ⟨e', m1, m2⟩ := k3.2 ts rfl
  rw [show (⟨tz, none, some ts, false, true⟩ : InstantRange).timezone = tz from rfl, h3] at m1
  cases m1
  unfold Before at h4
  rcases m2 with m2 | ⟨_, m2⟩
  · unfold Before at m2; omega
  · subst m2; omega

/-! ## One slice -/

/-- Latest versions of rows with distinct keys are these rows. -/
theorem latest_of_distinct {A : Arrow} {schema : Schema} {pre : Str} {rows out : List (List Cell)}
    (hk : (rows.map (keyOf schema)).Nodup) (h : LatestVersions A schema pre rows out) : out.Perm rows := by
  have inj : ∀ a ∈ rows, ∀ b ∈ rows, keyOf schema a = keyOf schema b → a = b :=
    fun a ha b hb e => List.inj_on_of_nodup_map hk ha hb e
  refine (List.perm_ext_iff_of_nodup (List.Nodup.of_map _ h.one) (List.Nodup.of_map _ hk)).2 ?_
  intro r
  constructor
  · exact h.sound r
  · intro hr
    obtain ⟨r', h1, h2⟩ := h.all r hr
    rw [← inj r' (h.sound r' h1) r hr h2]
    exact h1

theorem good_logs {C : Codec} {ltz : LocalTz} {tz : Str} {t : Tree} {s : FileSlice}
    {held : Str → List WBlock}
    (h : ∀ l ∈ s.logFiles, LogAt C t (s.logPath l) (held (s.logPath l)) ∧
      ∀ w ∈ held (s.logPath l), GoodBlock C ltz tz w) :
    ReadableLogs C ltz tz t (s.logFiles.map s.logPath) (s.logFiles.map (fun l => held (s.logPath l))) := by
  have hg : ∀ w ∈ (s.logFiles.map (fun l => held (s.logPath l))).flatten, GoodBlock C ltz tz w := by
    intro w hw
    obtain ⟨ws, h1, h2⟩ := List.mem_flatten.1 hw
    obtain ⟨l, hl, rfl⟩ := List.mem_map.1 h1
    exact (h l hl).2 w h2
  refine ⟨?_, fun w hw => (hg w hw).wf, fun w hw => (hg w hw).decodes, fun w hw => (hg w hw).time,
    fun w hw => (hg w hw).target⟩
  rw [List.forall₂_map_left_iff, List.forall₂_map_right_iff, List.forall₂_same]
  exact fun l hl => (h l hl).1

/-- Two reads of slices with the same base file and the same surviving blocks. -/
theorem readFileSlice_same_merged {C : Codec} {A : Arrow} (M : MergeEnv A) {ltz : LocalTz} {o : Opts} {t t' : Tree}
    {s s' : FileSlice} {b : Batch} {tz pre : Str} {wss wss' : List (List WBlock)} (hm : MergesBy o pre)
    (htz : timezoneOf o = .ok tz) (hr : RangeParses ltz (rangeOf o tz)) (hstart : startOf o = none)
    (h : SliceFiles C ltz tz t (rangeOf o tz) s b wss) (h' : SliceFiles C ltz tz t' (rangeOf o tz) s' b wss')
    (hcol : MergeColumns b.schema pre) (hk : (b.rows.map (keyOf b.schema)).Nodup)
    (hl : s'.logFiles = [] → s.logFiles = []) (hwss : s.logFiles = [] → wss = [])
    (hsame : surviving ltz tz (rangeOf o tz) wss'.flatten = surviving ltz tz (rangeOf o tz) wss.flatten) :
    ∃ out out', readFileSlice C A M ltz o t s = .ok out ∧ readFileSlice C A M ltz o t' s' = .ok out' ∧
      out'.schema = out.schema ∧ out'.rows.Perm out.rows ∧ (s.logFiles ≠ [] → out' = out) := by
  have htime : startOf o ≠ none → MetaFields o → HasCommitTime b.schema := fun h => absurd hstart h
  obtain ⟨rows, out, h1, h2, h3⟩ := readFileSlice_rows (A := A) M hm htz hr h hcol htime
  obtain ⟨rows', out', h1', h2', h3'⟩ := readFileSlice_rows (A := A) M hm htz hr h' hcol htime
  have hb : rows = b.rows := by unfold BaseRows at h2; rw [hstart] at h2; exact h2
  have hb' : rows' = b.rows := by unfold BaseRows at h2'; rw [hstart] at h2'; exact h2'
  subst hb hb'
  by_cases hn : s.logFiles = []
  · refine ⟨out, out', h1, h1', h3'.1.trans h3.1.symm, ?_, fun h => absurd hn h⟩
    rw [h3.2.1 hn]
    by_cases hn' : s'.logFiles = []
    · rw [h3'.2.1 hn']
    · obtain ⟨lr, ⟨bss, k1, k2⟩, k3⟩ := h3'.2.2 hn'
      rw [hsame, hwss hn] at k1
      cases k1
      rw [k2] at k3
      simp only [List.flatten_nil, List.flatMap_nil, List.append_nil] at k3
      exact latest_of_distinct hk k3
  · have hn' : s'.logFiles ≠ [] := fun h => hn (hl h)
    obtain ⟨r1, bss, e1, e2, e3⟩ := readMerged_eq (A := A) (M := M) hn hm.notReadOptimized h.base h.baseWf
      htime htz hr h.logs
    obtain ⟨r1', bss', e1', e2', e3'⟩ := readMerged_eq (A := A) (M := M) hn' hm.notReadOptimized h'.base
      h'.baseWf htime htz hr h'.logs
    have hb : r1 = b.rows := by unfold BaseRows at e2; rw [hstart] at e2; exact e2
    have hb' : r1' = b.rows := by unfold BaseRows at e2'; rw [hstart] at e2'; exact e2'
    rw [hsame] at e3'
    have : bss' = bss := forall₂_det (R := Decodes C) (fun w b b' h h' => decodes_det h h') e3' e3
    rw [hb', this] at e1'
    rw [hb] at e1
    have hout : out' = out := by
      rw [e1'] at h1'
      rw [e1, h1'] at h1
      cases h1
      rfl
    subst hout
    exact ⟨out', out', h1, h1', rfl, .refl _, fun _ => rfl⟩

theorem readFileSlice_same {C : Codec} {A : Arrow} (M : MergeEnv A) {ltz : LocalTz} {o : Opts} {t t' : Tree}
    {s s' : FileSlice} {b : Batch} {tz pre : Str} {wss wss' : List (List WBlock)} (hm : PrecombinedBy o pre)
    (htz : timezoneOf o = .ok tz) (hr : RangeParses ltz (rangeOf o tz)) (hstart : startOf o = none)
    (h : SliceFiles C ltz tz t (rangeOf o tz) s b wss) (h' : SliceFiles C ltz tz t' (rangeOf o tz) s' b wss')
    (hcol : Merges o → MergeColumns b.schema pre) (hk : Merges o → (b.rows.map (keyOf b.schema)).Nodup)
    (hl : s'.logFiles = [] → s.logFiles = []) (hwss : s.logFiles = [] → wss = [])
    (hsame : surviving ltz tz (rangeOf o tz) wss'.flatten = surviving ltz tz (rangeOf o tz) wss.flatten) :
    ∃ out out', readFileSlice C A M ltz o t s = .ok out ∧ readFileSlice C A M ltz o t' s' = .ok out' ∧
      out'.schema = out.schema ∧ out'.rows.Perm out.rows ∧ (s.logFiles ≠ [] → out' = out) := by
  by_cases hM : Merges o
  · exact readFileSlice_same_merged M ⟨hM.1, hm hM, hM.2⟩ htz hr hstart h h' (hcol hM) (hk hM) hl hwss hsame
  by_cases hro : ReadOptimized o
  · exact ⟨b, b, C40_base_file_only C A M ltz o t s b h.base hstart (.inr hro),
      C40_base_file_only C A M ltz o t' s' b h'.base hstart (.inr hro), rfl, .refl _, fun _ => rfl⟩
  have hs : ¬ OverwritesWithLatest o := fun hs => hM ⟨hs, hro⟩
  have htime : startOf o ≠ none → MetaFields o → HasCommitTime b.schema := fun h => absurd hstart h
  -- an append-only read of a slice is its base file followed by its surviving records
  have key : ∀ {t s wss}, SliceFiles C ltz tz t (rangeOf o tz) s b wss → (s.logFiles = [] → wss = []) →
      s.logFiles ≠ [] → ∃ bss, readFileSlice C A M ltz o t s = .ok ⟨b.schema, b.rows ++ bss.flatten.flatMap Batch.rows⟩ ∧
        List.Forall₂ (Decodes C) (surviving ltz tz (rangeOf o tz) wss.flatten) bss := by
    intro t s wss h _ hn
    obtain ⟨r1, bss, e1, e2, e3⟩ := readMerged_eq (A := A) (M := M) hn hro h.base h.baseWf htime htz hr h.logs
    have hb : r1 = b.rows := by unfold BaseRows at e2; rw [hstart] at e2; exact e2
    subst hb
    refine ⟨bss, ?_, e3⟩
    rw [e1, C38_append_only A M o b.schema _ (fun x hx => ?_) hs]
    · simp [List.flatMap_cons]
    · rcases List.mem_cons.1 hx with rfl | hx
      · exact ⟨h.baseWf, rfl⟩
      · exact fit_all h.fit e3 x hx
  by_cases hn : s.logFiles = []
  · refine ⟨b, ?_⟩
    have h0 := C40_base_file_only C A M ltz o t s b h.base hstart (.inl hn)
    by_cases hn' : s'.logFiles = []
    · exact ⟨b, h0, C40_base_file_only C A M ltz o t' s' b h'.base hstart (.inl hn'), rfl, .refl _, fun _ => rfl⟩
    · obtain ⟨bss, k1, k2⟩ := key h' (fun h => absurd h hn') hn'
      rw [hsame, hwss hn] at k2
      cases k2
      exact ⟨_, h0, k1, rfl, by simp, fun h => absurd hn h⟩
  · have hn' : s'.logFiles ≠ [] := fun h => hn (hl h)
    obtain ⟨bss, k1, k2⟩ := key h hwss hn
    obtain ⟨bss', k1', k2'⟩ := key h' (fun h => absurd h hn') hn'
    rw [hsame] at k2'
    have : bss' = bss := forall₂_det (R := Decodes C) (fun w b b' h h' => decodes_det h h') k2' k2
    rw [this] at k1'
    exact ⟨_, _, k1, k1', rfl, .refl _, fun _ => rfl⟩

/-! ## The snapshot -/

/-- The same file group before and after, seen from the snapshot. -/
structure SameGroup (t t' : Tree) (o : Opts) (s s' : FileSlice) : Prop where
  path : s'.partitionPath = s.partitionPath
  part : PartitionOf o t s.partitionPath
  part' : PartitionOf o t' s.partitionPath
  base : ∃ b m m', BaseIn (filesOf t s.partitionPath) b ∧
    s.baseFile = { b with fileMeta := some m } ∧ s'.baseFile = { b with fileMeta := some m' }
  logs : ∀ l, l ∈ s.logFiles ↔ LogIn (filesOf t s.partitionPath) l ∧
    l.fileId = s.baseFile.fileId ∧ l.baseCommitTimestamp = s.baseFile.commitTimestamp
  logs' : ∀ l, l ∈ s'.logFiles ↔ LogIn (filesOf t' s.partitionPath) l ∧
    l.fileId = s.baseFile.fileId ∧ l.baseCommitTimestamp = s.baseFile.commitTimestamp

theorem later_pairs {E : Env} {A : Arrow} {C : Codec} {o : Opts} {t0 t0' t t' : Tree} {tb tb' : Table}
    {held held' : Str → List WBlock}
    (hload : Timeline.load E o t0 = .ok tb.timeline) (hwf0 : ∀ n ∈ timelineNames t0, Spec.NormalName n)
    (hload' : Timeline.load E o t0' = .ok tb'.timeline) (hwf0' : ∀ n ∈ timelineNames t0', Spec.NormalName n)
    (hopts : tb'.opts = tb.opts) (hwf : TreeWF t) (hwf' : TreeWF t')
    (hone : ∀ x, PartitionOf tb.opts t x → OneExtension (filesOf t x))
    (hone' : ∀ x, PartitionOf tb.opts t' x → OneExtension (filesOf t' x))
    {ts tz tzr : Str} {T : Int} (htz : timezoneOf tb.timeline.opts = .ok tz)
    (htz' : timezoneOf tb'.timeline.opts = .ok tz) (hT : Bound E.ltz tz (some ts) (some T))
    (hlater : LaterActivity C E.ltz tzr tb.opts ts T tb.timeline tb'.timeline t t' held held')
    {schema : Schema} (hschema : tb.partitionSchema t = .ok schema)
    (hschema' : tb'.partitionSchema t' = .ok schema) {fs : List Filter} {ss ss' : List FileSlice}
    (hq : (tb.fileSlicesInternal E A t ts fs []).2 = .ok ss)
    (hq' : (tb'.fileSlicesInternal E A t' ts fs []).2 = .ok ss') :
    (∀ s ∈ ss, ∃ s' ∈ ss', SameGroup t t' tb.opts s s') ∧
    (∀ s' ∈ ss', ∃ s ∈ ss, SameGroup t t' tb.opts s s') ∧
    (ss.map (fun s => (s.partitionPath, s.baseFile.fileId))).Nodup ∧
    (ss'.map (fun s => (s.partitionPath, s.baseFile.fileId))).Nodup ∧
    (∀ s ∈ ss, SetSorted LogFile.cmp s.logFiles) ∧ (∀ s ∈ ss', SetSorted LogFile.cmp s.logFiles) := by
  obtain ⟨excl, sc, p, h3, h4, h5, h6⟩ := fileSlicesInternal_ok.1 hq
  obtain ⟨excl', sc', p', h3', h4', h5', h6'⟩ := fileSlicesInternal_ok.1 hq'
  rw [hschema] at h4; cases h4
  rw [hschema'] at h4'; cases h4'
  rw [hopts] at h5' h6'
  rw [h5] at h5'; cases h5'
  have hS := view_snapshot hwf hone h6
  have hS' := view_snapshot hwf' hone' h6'
  have hrep : ∀ x f, (∃ g ∈ excl, groupId g = (x, f)) ↔ ∃ g ∈ excl', groupId g = (x, f) := by
    intro x f
    rw [replaced_iff hload hwf0 htz hT h3, replaced_iff hload' hwf0' htz' hT h3']
    constructor
    · rintro ⟨i, hi, ha, hle, md, hd, hr⟩
      obtain ⟨hi', hd'⟩ := hlater.instants i hi
      exact ⟨i, hi', ha, hle, md, by rw [hd', hd], hr⟩
    · rintro ⟨i, hi, ha, hle, md, hd, hr⟩
      have hi' := hlater.newInstants i hi hle
      exact ⟨i, hi', ha, hle, md, by rw [← (hlater.instants i hi').2, hd], hr⟩
  have key : ∀ s ∈ ss, ∀ s' ∈ ss', s.partitionPath = s'.partitionPath →
      s.baseFile.fileId = s'.baseFile.fileId → SameGroup t t' tb.opts s s' := by
    intro s hs s' hs' hpath hfid
    obtain ⟨⟨hp, hi⟩, _, b, m, hb, heq⟩ := hS.sound s hs
    obtain ⟨⟨hp', hi'⟩, _, b', m', hb', heq'⟩ := hS'.sound s' hs'
    rw [← hpath] at hp' hb'
    have hbin : BaseIn (filesOf t' s.partitionPath) b := (hlater.bases _ hp b hb).1
    have eb : s.baseFile.commitTimestamp = b.commitTimestamp := by rw [heq]
    have eb' : s'.baseFile.commitTimestamp = b'.commitTimestamp := by rw [heq']
    have ef : s.baseFile.fileId = b.fileId := by rw [heq]
    have ef' : s'.baseFile.fileId = b'.fileId := by rw [heq']
    have hle := hS.notLater s hs
    have hle' := hS'.notLater s' hs'
    have hlat := hS.latest s hs
    have hlat' := hS'.latest s' hs'
    rw [← hpath] at hlat'
    rw [eb] at hle hlat
    rw [eb'] at hle' hlat'
    obtain ⟨_, hbt⟩ := hlater.newBases _ b' hp' hb' hle'
    have hts : b.commitTimestamp = b'.commitTimestamp :=
      str_le_antisymm (hlat' b hbin (by rw [← ef, hfid]) hle)
        (hlat b' hbt (by rw [← ef', hfid]) hle')
    have hlist := view_listable hwf' h6' s.partitionPath hp' hi
    have : b = b' := hlist.unique b b' hbin hb' (by rw [← ef, hfid, ef']) hts
    subst this
    refine ⟨hpath.symm, hp, hp', ⟨b, m, m', hb, heq, heq'⟩, hS.logs s hs, ?_⟩
    intro l
    rw [hS'.logs s' hs' l, ← hpath, ← hfid, eb', ← eb]
  refine ⟨?_, ?_, hS.distinct, hS'.distinct, view_sorted hwf h6, view_sorted hwf' h6'⟩
  · intro s hs
    obtain ⟨⟨hp, hi⟩, hnr, b, m, hb, heq⟩ := hS.sound s hs
    have ef : s.baseFile.fileId = b.fileId := by rw [heq]
    have hle := hS.notLater s hs
    rw [show s.baseFile.commitTimestamp = b.commitTimestamp by rw [heq]] at hle
    obtain ⟨s', hs', e1, e2⟩ := hS'.complete s.partitionPath ⟨hlater.partitions _ hp, hi⟩ b
      (hlater.bases _ hp b hb).1 hle (by rw [← hrep, ← ef]; exact hnr)
    exact ⟨s', hs', key s hs s' hs' e1.symm (by rw [e2, ef])⟩
  · intro s' hs'
    obtain ⟨⟨hp', hi⟩, hnr, b, m, hb, heq⟩ := hS'.sound s' hs'
    have ef : s'.baseFile.fileId = b.fileId := by rw [heq]
    have hle := hS'.notLater s' hs'
    rw [show s'.baseFile.commitTimestamp = b.commitTimestamp by rw [heq]] at hle
    obtain ⟨hp, hbt⟩ := hlater.newBases _ b hp' hb hle
    obtain ⟨s, hs, e1, e2⟩ := hS.complete s'.partitionPath ⟨hp, hi⟩ b hbt hle
      (by rw [hrep, ← ef]; exact hnr)
    exact ⟨s, hs, key s hs s' hs' e1 (by rw [e2, ef])⟩

theorem SameGroup.key {t t' : Tree} {o : Opts} {s s' : FileSlice} (h : SameGroup t t' o s s') :
    (s'.partitionPath, s'.baseFile.fileId) = (s.partitionPath, s.baseFile.fileId) := by
  obtain ⟨b, m, m', _, h1, h2⟩ := h.base
  rw [h.path, h1, h2]

/-- The blocks of the log files that are in the range. -/
theorem SameGroup.surviving {C : Codec} {ltz : LocalTz} {tz ts : Str} {o : Opts} {T : Int}
    {tl tl' : Timeline} {t t' : Tree} {held held' : Str → List WBlock}
    {s s' : FileSlice} (h : SameGroup t t' o s s') (hs : SetSorted LogFile.cmp s.logFiles)
    (hs' : SetSorted LogFile.cmp s'.logFiles) (hrd : ¬ ReadOptimized o)
    (hlater : LaterActivity C ltz tz o ts T tl tl' t t' held held') :
    surviving ltz tz ⟨tz, none, some ts, false, true⟩
        (s'.logFiles.map (fun l => held' (s'.logPath l))).flatten =
      Spec.surviving ltz tz ⟨tz, none, some ts, false, true⟩
        (s.logFiles.map (fun l => held (s.logPath l))).flatten := by
  generalize hr : (⟨tz, none, some ts, false, true⟩ : InstantRange) = r
  refine surviving_congr ?_
  intro _
  have hp : ∀ l, s'.logPath l = pathPush s.partitionPath l.fileName := by
    intro l; unfold FileSlice.logPath FileSlice.relativePathFor; rw [h.path]
  have hp0 : ∀ l, s.logPath l = pathPush s.partitionPath l.fileName := fun l => rfl
  have hf : ∀ (L : List LogFile) (f : LogFile → List WBlock) (p : WBlock → Bool),
      ((L.map f).flatten).filter p = L.flatMap (fun l => (f l).filter p) := by
    intro L f p
    induction L with
    | nil => rfl
    | cons x L ih => simp [List.filter_append, ih]
  rw [hf, hf]
  have e1 : s'.logFiles.flatMap (fun l => (held' (s'.logPath l)).filter
        (fun w => decide (BlockIn ltz tz r w))) =
      s'.logFiles.flatMap (fun l => (fun n => (held (pathPush s.partitionPath n)).filter
        (fun w => decide (BlockIn ltz tz r w))) l.fileName) := by
    refine List.flatMap_congr ?_
    intro l hl
    obtain ⟨_, more, m1, m2⟩ := hlater.appended hrd _ h.part' l ((h.logs' l).1 hl).1
    show (held' (s'.logPath l)).filter _ = (held (pathPush s.partitionPath l.fileName)).filter _
    rw [hp, m1, List.filter_append, List.append_right_eq_self, List.filter_eq_nil_iff]
    intro w hw
    rw [decide_eq_true_eq, ← hr]
    exact not_blockIn (m2 w hw).2
  rw [e1, logs_flatMap (fun n => (held (pathPush s.partitionPath n)).filter
    (fun w => decide (BlockIn ltz tz r w))) hs hs']
  · rfl
  · intro l hl
    obtain ⟨k1, k2, k3⟩ := (h.logs l).1 hl
    obtain ⟨l', m1, m2⟩ := hlater.logs _ h.part l k1
    have he := logIn_erase m1 k1 m2
    refine ⟨l', (h.logs' l').2 ⟨m1, ?_, ?_⟩, he⟩
    · rw [← k2]; exact (erase_fields he).1
    · rw [← k3]; exact (erase_fields he).2
  · intro l' hl' hno
    obtain ⟨k1, k2, k3⟩ := (h.logs' l').1 hl'
    have : held (pathPush s.partitionPath l'.fileName) = [] := by
      refine hlater.fresh hrd _ h.part' l' k1 ?_
      intro l0 h0 hn
      have he := logIn_erase h0 k1 hn
      refine hno l0 ((h.logs l0).2 ⟨h0, ?_, ?_⟩) he
      · rw [← k2]; exact (erase_fields he).1
      · rw [← k3]; exact (erase_fields he).2
    simp only [this, List.filter_nil]

theorem perm_of_matched {α κ : Type} {R : α → α → Prop} {key : α → κ} {ss ss' : List α}
    (h1 : ∀ s ∈ ss, ∃ s' ∈ ss', R s s') (h2 : ∀ s' ∈ ss', ∃ s ∈ ss, R s s')
    (hR : ∀ s s', R s s' → key s' = key s) (hn : (ss.map key).Nodup) (hn' : (ss'.map key).Nodup) :
    ∃ ss'', ss''.Perm ss' ∧ List.Forall₂ R ss ss'' := by
  have : ∃ ss'', List.Forall₂ (fun s s' => s' ∈ ss' ∧ R s s') ss ss'' := by
    clear h2 hn
    induction ss with
    | nil => exact ⟨[], .nil⟩
    | cons s ss ih =>
      obtain ⟨ss'', h3⟩ := ih (fun s hs => h1 s (by simp [hs]))
      obtain ⟨s', h4, h5⟩ := h1 s (by simp)
      exact ⟨s' :: ss'', .cons ⟨h4, h5⟩ h3⟩
  obtain ⟨ss'', h3⟩ := this
  have hsub : ∀ x ∈ ss'', x ∈ ss' := by
    intro x hx
    clear h1 h2 hn
    induction h3 with
    | nil => cases hx
    | cons a _ ih =>
      rcases List.mem_cons.1 hx with rfl | hx
      · exact a.1
      · exact ih hx
  have hkey : ss''.map key = ss.map key := by
    clear h1 h2 hn hsub
    induction h3 with
    | nil => rfl
    | cons a _ ih => rw [List.map_cons, List.map_cons, ih, hR _ _ a.2]
  refine ⟨ss'', ?_, h3.imp (fun _ _ h => h.2)⟩
  refine (List.perm_ext_iff_of_nodup (List.Nodup.of_map key (by rw [hkey]; exact hn))
    (List.Nodup.of_map key hn')).2 ?_
  intro x
  refine ⟨hsub x, fun hx => ?_⟩
  obtain ⟨s, hs, hr⟩ := h2 x hx
  have : key x ∈ ss''.map key := by
    rw [hkey, hR _ _ hr]
    exact List.mem_map.2 ⟨s, hs, rfl⟩
  obtain ⟨y, hy, e⟩ := List.mem_map.1 this
  rw [← List.inj_on_of_nodup_map hn' (hsub y hy) hx e]
  exact hy

/-- **C28, the rows (partial).**  Reading the snapshot as of `ts` returns the same rows, up to order, before
and after any later activity: new commits, new base files, partitions and log files, and blocks appended
to existing log files, all later than `ts`.  Missing: that listing the file slices keeps succeeding (`hq'`; see C49), and tables that do
not merge by latest version. -/
theorem C28_rows_unchanged_partial (E : Env) (A : Arrow) (C : Codec) (M : MergeEnv A) (o : Opts)
    (t0 t0' t t' : Tree) (tb tb' : Table) (base : Str → Batch) (held held' : Str → List WBlock)
    (hload : Timeline.load E o t0 = .ok tb.timeline) (hwf0 : ∀ n ∈ timelineNames t0, Spec.NormalName n)
    (hload' : Timeline.load E o t0' = .ok tb'.timeline) (hwf0' : ∀ n ∈ timelineNames t0', Spec.NormalName n)
    (hopts : tb'.opts = tb.opts) (hsopts : tb'.storageOpts = tb.storageOpts)
    (hwf : TreeWF t) (hwf' : TreeWF t')
    (hone : ∀ x, PartitionOf tb.opts t x → OneExtension (filesOf t x))
    (hone' : ∀ x, PartitionOf tb.opts t' x → OneExtension (filesOf t' x))
    (ts tz tzr pre : Str) (T : Int) (htz : timezoneOf tb.timeline.opts = .ok tz)
    (htz' : timezoneOf tb'.timeline.opts = .ok tz) (hT : Bound E.ltz tz (some ts) (some T))
    (hp : PlainStorage tb) (hm : PrecombinedBy tb.opts pre) (hstart : startOf tb.opts = none)
    (htzr : timezoneOf tb.opts = .ok tzr) (hts : ∃ d, parseDatetime E.ltz ts tzr = .ok d)
    (hlater : LaterActivity C E.ltz tzr tb.opts ts T tb.timeline tb'.timeline t t' held held')
    (hdata : DataFiles C E.ltz tzr pre tb.opts t base held) (hkeys : OneRowPerKey tb.opts t base)
    (schema : Schema) (hschema : tb.partitionSchema t = .ok schema)
    (hschema' : tb'.partitionSchema t' = .ok schema) (filters : List (Str × Str × Str))
    (ss ss' : List FileSlice) (hq : (tb.fileSlicesAsOf E A t ts filters []).2 = .ok ss)
    (hq' : (tb'.fileSlicesAsOf E A t' ts filters []).2 = .ok ss') :
    ∃ outs outs', (tb.readSnapshotAsOf E A C M t ts filters []).2 = .ok outs ∧
      (tb'.readSnapshotAsOf E A C M t' ts filters []).2 = .ok outs' ∧
      (outs'.flatMap Batch.rows).Perm (outs.flatMap Batch.rows) ∧
      ∀ out ∈ outs, ∃ out' ∈ outs', out'.schema = out.schema ∧ out'.rows.Perm out.rows := by
  obtain ⟨fs, hfs, h2⟩ := Query.bind_lift_snd.1 hq
  obtain ⟨fs', hfs', h2'⟩ := Query.bind_lift_snd.1 hq'
  rw [hfs] at hfs'; cases hfs'
  obtain ⟨p1, p2, p3, p4, p5, p6⟩ := later_pairs hload hwf0 hload' hwf0' hopts hwf hwf' hone hone' htz htz' hT
    hlater hschema hschema' h2 h2'
  -- the options of the readers
  have hget := hmGet_readerOpts hp [(Cfg.fileGroupEndTimestamp.key, ts)]
    (by intro e he; rw [List.mem_singleton.1 he]; rfl)
  have horeq : tb'.readerOpts [(Cfg.fileGroupEndTimestamp.key, ts)] =
      tb.readerOpts [(Cfg.fileGroupEndTimestamp.key, ts)] := by
    unfold Table.readerOpts; rw [hopts, hsopts]
  generalize ho : tb.readerOpts [(Cfg.fileGroupEndTimestamp.key, ts)] = ro at hget horeq
  have hother : ∀ k, k ≠ c!"hoodie.read.file_group.end_timestamp" → hmGet k ro = hmGet k tb.opts := by
    intro k hk
    rw [hget]
    simp only [List.reverse_singleton, hmGet]
    rw [if_neg (by rw [show Cfg.fileGroupEndTimestamp.key =
      c!"hoodie.read.file_group.end_timestamp" from rfl]; exact hk)]
    rfl
  have hs' : startOf ro = none := by
    unfold startOf; rw [hother _ (by decide)]; exact hstart
  have he' : endOf ro = some ts := by
    unfold endOf; rw [hget]; rfl
  have hrdo : ReadOptimized ro ↔ ReadOptimized tb.opts := by
    unfold ReadOptimized; rw [hother _ (by decide)]
  have hmo : Merges ro ↔ Merges tb.opts := and_congr (overwrites_congr (hother _ (by decide))
    (hother _ (by decide)) (hother _ (by decide))) (not_congr hrdo)
  have hm' : PrecombinedBy ro pre := fun h => by rw [hother _ (by decide)]; exact hm (hmo.1 h)
  have htzo : timezoneOf ro = .ok tzr := by rw [timezoneOf_congr (hother _ (by decide)), htzr]
  have hrange : rangeOf ro tzr = ⟨tzr, none, some ts, false, true⟩ := by
    unfold rangeOf; rw [hs', he']
  -- one file group
  have one : ∀ s s', s ∈ ss → s' ∈ ss' → SameGroup t t' tb.opts s s' →
      ∃ out out', readFileSlice C A M E.ltz ro t s = .ok out ∧
        readFileSlice C A M E.ltz ro t' s' = .ok out' ∧
        out'.schema = out.schema ∧ out'.rows.Perm out.rows := by
    intro s s' hs hs1 hg
    obtain ⟨b, m, m', hb, e1, e2⟩ := hg.base
    have bp : s.basePath = pathPush s.partitionPath b.fileName := by
      unfold FileSlice.basePath FileSlice.relativePathFor; rw [e1]; rfl
    have bp' : s'.basePath = pathPush s.partitionPath b.fileName := by
      unfold FileSlice.basePath FileSlice.relativePathFor; rw [e2, hg.path]; rfl
    obtain ⟨b1, b2, b3⟩ := hdata.bases _ hg.part b hb
    have b1' := (hlater.bases _ hg.part b hb).2 _ b1
    by_cases hrd' : ReadOptimized ro
    · exact ⟨_, _, C40_base_file_only C A M E.ltz ro t s _ (by rw [bp]; exact b1) hs' (.inr hrd'),
        C40_base_file_only C A M E.ltz ro t' s' _ (by rw [bp']; exact b1') hs' (.inr hrd'), rfl, .refl _⟩
    have hrd : ¬ ReadOptimized tb.opts := fun h => hrd' (hrdo.2 h)
    have hsv := hg.surviving (p5 s hs) (p6 s' hs1) hrd hlater
    have hlp : ∀ l, s'.logPath l = pathPush s.partitionPath l.fileName := by
      intro l; unfold FileSlice.logPath FileSlice.relativePathFor; rw [hg.path]
    have hfit : BatchesFit C (base (pathPush s.partitionPath b.fileName)).schema
        (surviving E.ltz tzr ⟨tzr, none, some ts, false, true⟩
          (s.logFiles.map (fun l => held (s.logPath l))).flatten) := by
      intro w hw
      obtain ⟨ws, w1, w2⟩ := List.mem_flatten.1 (List.mem_filter.1 hw).1
      obtain ⟨l, hl, rfl⟩ := List.mem_map.1 w1
      obtain ⟨k1, k2, k3⟩ := (hg.logs l).1 hl
      rw [e1] at k2 k3
      exact hdata.fit hrd _ hg.part b hb l k1 k2 k3 w w2
    have files : SliceFiles C E.ltz tzr t (rangeOf ro tzr) s (base (pathPush s.partitionPath b.fileName))
        (s.logFiles.map (fun l => held (s.logPath l))) := by
      refine ⟨by rw [bp]; exact b1, b2, good_logs (fun l hl => ?_), by rw [hrange]; exact hfit⟩
      exact hdata.logs hrd _ hg.part l ((hg.logs l).1 hl).1
    have files' : SliceFiles C E.ltz tzr t' (rangeOf ro tzr) s' (base (pathPush s.partitionPath b.fileName))
        (s'.logFiles.map (fun l => held' (s'.logPath l))) := by
      refine ⟨by rw [bp']; exact (hlater.bases _ hg.part b hb).2 _ b1, b2, good_logs (fun l hl => ?_),
        by rw [hrange, hsv]; exact hfit⟩
      have hl' := ((hg.logs' l).1 hl).1
      obtain ⟨a1, more, a2, a3⟩ := hlater.appended hrd _ hg.part' l hl'
      rw [hlp]
      refine ⟨a1, fun w hw => ?_⟩
      rw [a2] at hw
      rcases List.mem_append.1 hw with hw | hw
      · by_cases hx : ∃ l0, LogIn (filesOf t s.partitionPath) l0 ∧ l0.fileName = l.fileName
        · obtain ⟨l0, x1, x2⟩ := hx
          rw [← x2] at hw
          exact (hdata.logs hrd _ hg.part l0 x1).2 w hw
        · rw [hlater.fresh hrd _ hg.part' l hl' (fun l0 h0 e => hx ⟨l0, h0, e⟩)] at hw
          cases hw
      · exact (a3 w hw).1
    obtain ⟨out, out', r1, r2, r3, r4, _⟩ := readFileSlice_same (A := A) M hm' htzo
      (by rw [hrange]; exact ⟨by simp, by simpa using hts⟩) hs' files files' (fun h => b3 (hmo.1 h))
      (fun h => hkeys (hmo.1 h) _ hg.part b hb)
      (by
        intro h
        cases hl : s.logFiles with
        | nil => rfl
        | cons l ls =>
          exfalso
          obtain ⟨k1, k2, k3⟩ := (hg.logs l).1 (by rw [hl]; simp)
          obtain ⟨l', m1, m2⟩ := hlater.logs _ hg.part l k1
          have he := logIn_erase m1 k1 m2
          have : l' ∈ s'.logFiles := (hg.logs' l').2 ⟨m1, by rw [← k2]; exact (erase_fields he).1,
            by rw [← k3]; exact (erase_fields he).2⟩
          rw [h] at this
          cases this)
      (by intro h; rw [h]; rfl) (by rw [hrange]; exact hsv)
    exact ⟨out, out', r1, r2, r3, r4⟩
  obtain ⟨ss'', q1, q2⟩ := perm_of_matched (R := fun s s' => s ∈ ss ∧ s' ∈ ss' ∧ SameGroup t t' tb.opts s s')
    (key := fun s => (s.partitionPath, s.baseFile.fileId))
    (fun s hs => by obtain ⟨s', h, h'⟩ := p1 s hs; exact ⟨s', h, hs, h, h'⟩)
    (fun s hs => by obtain ⟨s', h, h'⟩ := p2 s hs; exact ⟨s', h, h, hs, h'⟩)
    (fun s s' h => h.2.2.key) p3 p4
  have hall : ∃ outs outs'', Res.mapL (readFileSlice C A M E.ltz ro t) ss = .ok outs ∧
      Res.mapL (readFileSlice C A M E.ltz ro t') ss'' = .ok outs'' ∧
      List.Forall₂ (fun out out' => out'.schema = out.schema ∧ out'.rows.Perm out.rows) outs outs'' := by
    have q3 := q2.imp (fun s s' h => one s s' h.1 h.2.1 h.2.2)
    clear p1 p2 p3 p4 p5 p6 q1 q2 one hq hq' h2 h2'
    induction q3 with
    | nil => exact ⟨[], [], rfl, rfl, .nil⟩
    | cons a _ ih =>
      obtain ⟨outs, outs'', i1, i2, i3⟩ := ih
      obtain ⟨out, out', j1, j2, j3, j4⟩ := a
      exact ⟨out :: outs, out' :: outs'', Res.mapL_cons_ok.2 ⟨_, _, j1, i1, rfl⟩,
        Res.mapL_cons_ok.2 ⟨_, _, j2, i2, rfl⟩, .cons ⟨j3, j4⟩ i3⟩
  obtain ⟨outs, outs'', r1, r2, r3⟩ := hall
  obtain ⟨outs', r4, r5⟩ := mapL_perm q1 r2
  refine ⟨outs, outs', ?_, ?_, ?_, ?_⟩
  · unfold Table.readSnapshotAsOf
    refine Query.bind_lift_snd.2 ⟨fs, hfs, ?_⟩
    unfold Table.readSnapshotInternal
    rw [Query.bind_snd]
    exact ⟨ss, h2, by rw [ho]; exact r1⟩
  · unfold Table.readSnapshotAsOf
    refine Query.bind_lift_snd.2 ⟨fs, hfs, ?_⟩
    unfold Table.readSnapshotInternal
    rw [Query.bind_snd]
    exact ⟨ss', h2', by rw [horeq]; exact r4⟩
  · refine (r5.flatMap_right Batch.rows).symm.trans ?_
    clear r1 r2 r4 r5 q1 q2
    induction r3 with
    | nil => exact .refl _
    | cons a _ ih => rw [List.flatMap_cons, List.flatMap_cons]; exact a.2.append ih
  · intro out hout
    have : ∃ out' ∈ outs'', out'.schema = out.schema ∧ out'.rows.Perm out.rows := by
      clear r1 r2 r4 r5 q1 q2
      induction r3 with
      | nil => cases hout
      | cons a _ ih =>
        rcases List.mem_cons.1 hout with rfl | hout
        · exact ⟨_, by simp, a⟩
        · obtain ⟨o', h, h'⟩ := ih hout
          exact ⟨o', by simp [h], h'⟩
    obtain ⟨out', h, h'⟩ := this
    exact ⟨out', r5.mem_iff.1 h, h'⟩

end Hudi
