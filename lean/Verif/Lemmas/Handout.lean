import Verif.Lemmas.Files
import Verif.Lemmas.Snapshot
import Verif.Props.FileNames
import Verif.Model.Python

/-! # Lemmas: slices whose files have names that can be read back -/

namespace Hudi
open Spec

/-- The parts of a base file's name are free of separators. -/
structure NamedBase (b : BaseFile) : Prop where
  id : '_' ∉ b.fileId
  token : '_' ∉ b.writeToken
  time : '_' ∉ b.commitTimestamp
  ext : '.' ∉ b.extension

/-- The parts of a log file's name are non-empty and free of separators. -/
structure NamedLog (l : LogFile) : Prop where
  id : '_' ∉ l.fileId
  time : '.' ∉ l.baseCommitTimestamp
  ext : '.' ∉ l.extension
  version : '.' ∉ l.version
  token : '_' ∉ l.writeToken
  id_ne : l.fileId ≠ []
  time_ne : l.baseCommitTimestamp ≠ []
  ext_ne : l.extension ≠ []
  version_ne : l.version ≠ []
  token_ne : l.writeToken ≠ []

theorem namedBase_fromStr {name : Str} {b : BaseFile} (h : BaseFile.fromStr name = .ok b) :
    NamedBase b := by
  obtain ⟨more, _, h2, _, h4⟩ := baseFile_fromStr_ok h
  exact ⟨h4 _ (by simp), h4 _ (by simp), h4 _ (by simp), h2⟩

theorem namedBase_fromMeta {m : FileMeta} {b : BaseFile} (h : BaseFile.fromMeta m = .ok b) :
    NamedBase b := by
  unfold BaseFile.fromMeta at h
  obtain ⟨x, h1, h2⟩ := Res.bind_eq_ok.1 h
  cases h2
  have h3 : BaseFile.fromStr m.name = .ok ⟨x.1, x.2.1, x.2.2.1, x.2.2.2, none⟩ := by
    unfold BaseFile.fromStr
    rw [h1]; rfl
  obtain ⟨a, b, c, d⟩ := namedBase_fromStr h3
  exact ⟨a, b, c, d⟩

theorem namedLog_fromStr {name : Str} {l : LogFile} (h : LogFile.fromStr name = .ok l) :
    NamedLog l := by
  unfold LogFile.fromStr at h
  obtain ⟨⟨fid, ts, ext, ver, tok⟩, h1, h2⟩ := Res.bind_eq_ok.1 h
  cases h2
  obtain ⟨_, a, b, c, d, e, f, g, i, j, k⟩ := logFile_parse_ok h1
  exact ⟨a, b, c, d, e, f, g, i, j, k⟩

theorem namedLog_fromMeta {m : FileMeta} {l : LogFile} (h : LogFile.fromMeta m = .ok l) :
    NamedLog l := by
  unfold LogFile.fromMeta at h
  obtain ⟨⟨fid, ts, ext, ver, tok⟩, h1, h2⟩ := Res.bind_eq_ok.1 h
  cases h2
  obtain ⟨_, a, b, c, d, e, f, g, i, j, k⟩ := logFile_parse_ok h1
  exact ⟨a, b, c, d, e, f, g, i, j, k⟩

theorem NamedBase.parse {b : BaseFile} (h : NamedBase b) :
    BaseFile.fromStr b.fileName = .ok { b with fileMeta := none } :=
  (C12_base_file_recovered_partial b.fileId b.writeToken b.commitTimestamp b.extension
    ⟨[], 0, 0, 0, false⟩ h.id h.token h.time h.ext).1

theorem NamedLog.parse {l : LogFile} (h : NamedLog l) :
    LogFile.fromStr l.fileName = .ok { l with fileMeta := none } :=
  (C13_log_file_recovered l.fileId l.baseCommitTimestamp l.extension l.version l.writeToken
    ⟨[], 0, 0, 0, false⟩ h.id h.time h.ext h.version h.token h.id_ne h.time_ne h.ext_ne
    h.version_ne h.token_ne).1

/-- A slice whose files have names that can be read back, as file groups hold them. -/
structure NamedSlice (s : FileSlice) : Prop where
  base : NamedBase s.baseFile
  logs : ∀ l ∈ s.logFiles, NamedLog l ∧ l.baseCommitTimestamp = s.baseFile.commitTimestamp
  sorted : SetSorted LogFile.cmp s.logFiles

/-- The slice without the metadata of its files. -/
def bareLog (l : LogFile) : LogFile := { l with fileMeta := none }

def bare (s : FileSlice) : FileSlice :=
  { s with baseFile := { s.baseFile with fileMeta := none }, logFiles := s.logFiles.map bareLog }

theorem setInsert_end {x : LogFile} {l : List LogFile} (h : ∀ y ∈ l, LogFile.cmp y x = .lt) :
    setInsert LogFile.cmp x l = l ++ [x] := by
  induction l with
  | nil => rfl
  | cons y l ih =>
    have hy : LogFile.cmp x y = .gt := by
      rw [Std.OrientedCmp.eq_swap (cmp := LogFile.cmp), h y (by simp)]; rfl
    simp only [setInsert, hy, List.cons_append]
    rw [ih (fun z hz => h z (by simp [hz]))]

theorem rebuild_logs {id p ts : Str} {b : BaseFile} {pre : List LogFile} {ls : List LogFile}
    (hl : ∀ l ∈ ls, NamedLog l ∧ l.baseCommitTimestamp = ts)
    (hs : SetSorted LogFile.cmp (pre ++ ls)) :
    Res.foldL FileGroup.addLogFileFromName ⟨id, p, [(ts, ⟨b, pre.map bareLog, p⟩)]⟩
      (ls.map LogFile.fileName) = .ok ⟨id, p, [(ts, ⟨b, (pre ++ ls).map bareLog, p⟩)]⟩ := by
  induction ls generalizing pre with
  | nil => simp [Res.foldL]
  | cons l ls ih =>
    obtain ⟨h1, h2⟩ := hl l (by simp)
    have hlt : ∀ y ∈ pre.map bareLog, LogFile.cmp y (bareLog l) = .lt := by
      intro y hy
      obtain ⟨z, hz, rfl⟩ := List.mem_map.1 hy
      exact (List.pairwise_append.1 hs).2.2 z hz l (by simp)
    have hadd : FileGroup.addLogFileFromName ⟨id, p, [(ts, ⟨b, pre.map bareLog, p⟩)]⟩ l.fileName =
        .ok ⟨id, p, [(ts, ⟨b, (pre ++ [l]).map bareLog, p⟩)]⟩ := by
      have hp : LogFile.fromStr l.fileName = .ok (bareLog l) := h1.parse
      have ht : (bareLog l).baseCommitTimestamp = ts := h2
      unfold FileGroup.addLogFileFromName
      rw [hp]
      simp only [Res.ok_bind]
      unfold FileGroup.addLogFile
      simp [ht, mapGet, mapInsert, setInsert_end hlt]
    simp only [List.map_cons, Res.foldL, hadd, Res.ok_bind]
    rw [ih (fun x hx => hl x (by simp [hx])) (by simpa using hs)]
    simp

theorem rebuild_eq {s : FileSlice} (h : NamedSlice s) : (PySlice.ofSlice s).rebuild = .ok (bare s) := by
  unfold PySlice.rebuild PySlice.ofSlice
  simp only
  have hadd : (FileGroup.new s.baseFile.fileId s.partitionPath).addBaseFileFromName s.baseFile.fileName =
      .ok ⟨s.baseFile.fileId, s.partitionPath, [(s.baseFile.commitTimestamp,
        ⟨{ s.baseFile with fileMeta := none }, ([] : List LogFile).map bareLog, s.partitionPath⟩)]⟩ := by
    unfold FileGroup.addBaseFileFromName
    rw [h.base.parse]
    rfl
  rw [hadd]
  simp only [Res.ok_bind]
  rw [rebuild_logs h.logs (by simpa using h.sorted)]
  rfl

theorem read_bare (C : Codec) (A : Arrow) (M : MergeEnv A) (ltz : LocalTz) (o : Opts) (t : Tree)
    (s : FileSlice) : readFileSlice C A M ltz o t (bare s) = readFileSlice C A M ltz o t s := by
  have h1 : (bare s).basePath = s.basePath := rfl
  have h2 : (bare s).hasLogFile = s.hasLogFile := by
    unfold FileSlice.hasLogFile bare
    cases s.logFiles <;> rfl
  have h3 : (bare s).logFiles.map (bare s).logPath = s.logFiles.map s.logPath := by
    unfold bare
    simp only [List.map_map]
    rfl
  unfold readFileSlice readMerged
  rw [h1, h2, h3]

/-! ## Every slice of a reachable file group is named -/

/-- A file group all of whose slices are named. -/
structure NamedGroup (g : FileGroup) : Prop where
  wf : GroupWF g
  named : ∀ ts s, mapGet ts g.slices = some s → NamedBase s.baseFile ∧ ∀ l ∈ s.logFiles, NamedLog l

theorem NamedGroup.slice {g : FileGroup} (h : NamedGroup g) {ts : Str} {s : FileSlice}
    (hs : mapGet ts g.slices = some s) : NamedSlice s := by
  obtain ⟨h1, h2⟩ := h.named ts s hs
  obtain ⟨⟨h3, _, h4⟩, h5⟩ := h.wf.slice ts s hs
  exact ⟨h1, fun l hl => ⟨h2 l hl, by rw [h4 l hl, h3]⟩, h5⟩

theorem NamedGroup.new (fid p : Str) : NamedGroup (FileGroup.new fid p) :=
  ⟨⟨.nil, by intro ts s hs; cases hs⟩, by intro ts s hs; cases hs⟩

theorem NamedGroup.addBase {g g' : FileGroup} {b : BaseFile} (h : NamedGroup g) (hb : NamedBase b)
    (ha : g.addBaseFile b = .ok g') : NamedGroup g' := by
  refine ⟨h.wf.addBase ha, ?_⟩
  unfold FileGroup.addBaseFile at ha
  split at ha
  · cases ha
  · cases ha
    intro ts s hs
    rw [mapGet_insert] at hs
    split at hs
    · cases hs; exact ⟨hb, by intro l hl; cases hl⟩
    · exact h.named ts s hs

theorem NamedGroup.addLog {g g' : FileGroup} {l : LogFile} (h : NamedGroup g) (hl : NamedLog l)
    (ha : g.addLogFile l = .ok g') : NamedGroup g' := by
  refine ⟨h.wf.addLog ha, ?_⟩
  unfold FileGroup.addLogFile at ha
  split at ha
  · rename_i s₀ hn
    cases ha
    intro ts s hs
    rw [mapGet_insert] at hs
    split at hs
    · cases hs
      obtain ⟨h1, h2⟩ := h.named _ _ hn
      refine ⟨h1, fun l' hl' => ?_⟩
      rcases setInsert_sub l _ l' hl' with rfl | hl'
      · exact hl
      · exact h2 l' hl'
    · exact h.named ts s hs
  · cases ha

theorem NamedGroup.addBases {g g' : FileGroup} {bs : List BaseFile} (h : NamedGroup g)
    (hb : ∀ b ∈ bs, NamedBase b) (ha : g.addBaseFiles bs = .ok g') : NamedGroup g' := by
  unfold FileGroup.addBaseFiles at ha
  induction bs generalizing g with
  | nil => cases ha; exact h
  | cons b bs ih =>
    obtain ⟨g1, h1, h2⟩ := Res.bind_eq_ok.1 ha
    exact ih (h.addBase (hb b (by simp)) h1) (fun x hx => hb x (by simp [hx])) h2

theorem NamedGroup.addLogs {g g' : FileGroup} {ls : List LogFile} (h : NamedGroup g)
    (hl : ∀ l ∈ ls, NamedLog l) (ha : g.addLogFiles ls = .ok g') : NamedGroup g' := by
  unfold FileGroup.addLogFiles at ha
  induction ls generalizing g with
  | nil => cases ha; exact h
  | cons l ls ih =>
    obtain ⟨g1, h1, h2⟩ := Res.bind_eq_ok.1 ha
    exact ih (h.addLog (hl l (by simp)) h1) (fun x hx => hl x (by simp [hx])) h2

theorem NamedGroup.merge {g o r : FileGroup} (h : NamedGroup g) (ho : NamedGroup o)
    (hm : g.merge o = .ok r) : NamedGroup r := by
  have key : ∀ (es m m' : List (Str × FileSlice)),
      (∀ e ∈ es, NamedBase e.2.baseFile ∧ ∀ l ∈ e.2.logFiles, NamedLog l) →
      (∀ ts s, mapGet ts m = some s → NamedBase s.baseFile ∧ ∀ l ∈ s.logFiles, NamedLog l) →
      Res.foldL mergeSliceInto m es = .ok m' →
      (∀ ts s, mapGet ts m' = some s → NamedBase s.baseFile ∧ ∀ l ∈ s.logFiles, NamedLog l) := by
    intro es
    induction es with
    | nil => intro m m' _ h2 h3; cases h3; exact h2
    | cons e es ih =>
      intro m m' h1 h2 h3
      obtain ⟨m1, h4, h5⟩ := Res.bind_eq_ok.1 h3
      refine ih m1 m' (fun x hx => h1 x (by simp [hx])) ?_ h5
      unfold mergeSliceInto at h4
      split at h4
      · rename_i ex hex
        obtain ⟨r, h6, h7⟩ := Res.bind_eq_ok.1 h4
        cases h7
        obtain ⟨_, _, rfl⟩ := FileSlice.merge_ok h6
        intro ts s hs
        rw [mapGet_insert] at hs
        split at hs
        · cases hs
          obtain ⟨a, b⟩ := h2 _ _ hex
          refine ⟨a, fun l hl => ?_⟩
          rcases setExtend_sub _ _ l hl with hl | hl
          · exact b l hl
          · exact (h1 e (by simp)).2 l hl
        · exact h2 ts s hs
      · cases h4
        intro ts s hs
        rw [mapGet_insert] at hs
        split at hs
        · cases hs; exact h1 e (by simp)
        · exact h2 ts s hs
  have hafter : ∀ (es m m' : List (Str × FileSlice)), Res.foldL mergeSliceInto m es = .ok m' →
      mergeLeftover m es = m' := by
    intro es
    induction es with
    | nil => intro m m' h; cases h; rfl
    | cons e es ih =>
      intro m m' h
      obtain ⟨m1, h1, h2⟩ := Res.bind_eq_ok.1 h
      unfold mergeLeftover
      rw [h1]
      exact ih m1 m' h2
  unfold FileGroup.merge at hm
  split at hm
  · cases hm
  · rename_i hsame
    obtain ⟨m', h1, h2⟩ := Res.bind_eq_ok.1 hm
    cases h2
    refine ⟨?_, key _ _ _ (fun e he => ho.named e.1 e.2 ((mapGet_eq_some ho.wf.sorted).2 he)) h.named h1⟩
    have := h.wf.afterMerge ho.wf
    unfold FileGroup.afterMerge at this
    rw [if_neg hsame, hafter _ _ _ h1] at this
    exact this

theorem foldL_inv {α β : Type} {f : β → α → Res β} {P : β → Prop} {xs : List α}
    (hf : ∀ b a b', a ∈ xs → P b → f b a = .ok b' → P b') {b b' : β} (hb : P b)
    (h : Res.foldL f b xs = .ok b') : P b' := by
  induction xs generalizing b with
  | nil => cases h; exact hb
  | cons x xs ih =>
    obtain ⟨b1, h1, h2⟩ := Res.bind_eq_ok.1 h
    exact ih (fun b a b' ha => hf b a b' (by simp [ha])) (hf b x b1 (by simp) hb h1) h2

/-- The listing collects named files only. -/
theorem listStep_named {format : Str} {acc acc' : Listed} {m : FileMeta}
    (h : (∀ k bs, hmGet k acc.bases = some bs → ∀ b ∈ bs, NamedBase b) ∧
      ∀ k ls, hmGet k acc.logs = some ls → ∀ l ∈ ls, NamedLog l)
    (hs : listStep format acc m = .ok acc') :
    (∀ k bs, hmGet k acc'.bases = some bs → ∀ b ∈ bs, NamedBase b) ∧
      ∀ k ls, hmGet k acc'.logs = some ls → ∀ l ∈ ls, NamedLog l := by
  unfold listStep at hs
  split at hs
  · cases hs; exact h
  · split at hs
    · obtain ⟨b, h1, h2⟩ := Res.bind_eq_ok.1 hs
      cases h2
      refine ⟨fun k bs hk x hx => ?_, h.2⟩
      simp only [hmGet_hmPush] at hk
      split at hk
      · cases hk
        rcases List.mem_append.1 hx with hx | hx
        · cases hg : hmGet k acc.bases with
          | none => rw [hg] at hx; cases hx
          | some bs => rw [hg] at hx; exact h.1 _ bs hg x hx
        · rw [List.mem_singleton.1 hx]; exact namedBase_fromMeta h1
      · exact h.1 k bs hk x hx
    · split at hs
      · rename_i l h1
        cases hs
        refine ⟨h.1, fun k ls hk x hx => ?_⟩
        simp only [hmGet_hmPush] at hk
        split at hk
        · cases hk
          rcases List.mem_append.1 hx with hx | hx
          · cases hg : hmGet k acc.logs with
            | none => rw [hg] at hx; cases hx
            | some ls => rw [hg] at hx; exact h.2 _ ls hg x hx
          · rw [List.mem_singleton.1 hx]; exact namedLog_fromMeta h1
        · exact h.2 k ls hk x hx
      · cases hs; exact h
      · cases hs

theorem listFileGroups_named {o : Opts} {t : Tree} {x : Str} {gs : List FileGroup}
    (h : listFileGroups o t x = .ok gs) : ∀ g ∈ gs, NamedGroup g := by
  unfold listFileGroups at h
  obtain ⟨format, _, h⟩ := Res.bind_eq_ok.1 h
  obtain ⟨acc, h1, h⟩ := Res.bind_eq_ok.1 h
  have hinv := foldL_inv (P := fun acc : Listed => HmNodup acc.bases ∧
      ((∀ k bs, hmGet k acc.bases = some bs → ∀ b ∈ bs, NamedBase b) ∧
        ∀ k ls, hmGet k acc.logs = some ls → ∀ l ∈ ls, NamedLog l))
    (fun b a b' _ hb hs => ⟨?_, listStep_named hb.2 hs⟩)
    ⟨by simp [HmNodup], (by intro k bs hk; cases hk), (by intro k ls hk; cases hk)⟩ h1
  · intro g hg
    obtain ⟨⟨k, bs⟩, he, h2⟩ := (Res.mapL_mem h g).1 hg
    unfold listGroup at h2
    obtain ⟨g1, h3, h4⟩ := Res.bind_eq_ok.1 h2
    refine NamedGroup.addLogs (NamedGroup.addBases (.new _ _) ?_ h3) ?_ h4
    · exact hinv.2.1 k bs ((hmGet_eq_some hinv.1).2 he)
    · intro l hl
      simp only at hl
      cases hg : hmGet k acc.logs with
      | none => rw [hg] at hl; cases hl
      | some ls => rw [hg] at hl; exact hinv.2.2 k ls hg l hl
  · have hb := hb.1
    unfold listStep at hs
    split at hs
    · cases hs; exact hb
    · split at hs
      · obtain ⟨x, _, h2⟩ := Res.bind_eq_ok.1 hs
        cases h2
        exact hmPush_nodup hb
      · split at hs
        · cases hs; exact hb
        · cases hs; exact hb
        · cases hs

/-- All file groups of a cache are named. -/
def NamedCache (c : Cache) : Prop := ∀ x gs, (x, gs) ∈ c → ∀ g ∈ gs, NamedGroup g

theorem NamedSlice.load {t : Tree} {s0 s : FileSlice} (h : NamedSlice s0)
    (hl : s0.loadMetadata t = .ok s) : NamedSlice s := by
  obtain ⟨_, h2, m, h3, _⟩ := loadMetadata_ok hl
  refine ⟨?_, ?_, ?_⟩
  · rw [h3]; exact ⟨h.base.id, h.base.token, h.base.time, h.base.ext⟩
  · rw [h2, h3]; exact h.logs
  · rw [h2]; exact h.sorted

theorem collectGroup_named {t : Tree} {ts : Str} {excl : List FileGroup} {g g' : FileGroup}
    {s : Option FileSlice} (h : NamedGroup g) (hc : collectGroup t ts excl g = .ok (g', s)) :
    NamedGroup g' ∧ ∀ x, s = some x → NamedSlice x := by
  unfold collectGroup at hc
  split at hc
  · cases hc; exact ⟨h, by intro x hx; cases hx⟩
  · split at hc
    · cases hc; exact ⟨h, by intro x hx; cases hx⟩
    · rename_i k s0 hm
      obtain ⟨s', h1, h2⟩ := Res.bind_eq_ok.1 hc
      cases h2
      have hmem : mapGet k g.slices = some s0 :=
        (mapGet_eq_some h.wf.sorted).2 ((mapLastLe_eq_some h.wf.sorted).1 hm).1
      have hn := (h.slice hmem).load h1
      obtain ⟨e1, e2, m, e3, _⟩ := loadMetadata_ok h1
      refine ⟨⟨⟨mapInsert_sorted h.wf.sorted, ?_⟩, ?_⟩, fun x hx => by cases hx; exact hn⟩
      · intro ts' s'' hs
        rw [mapGet_insert] at hs
        split at hs
        · rename_i heq
          cases hs
          subst heq
          obtain ⟨⟨a, b, c⟩, d⟩ := h.wf.slice _ _ hmem
          refine ⟨⟨by rw [e3]; exact a, by rw [e1]; exact b, by rw [e2]; exact c⟩, by rw [e2]; exact d⟩
        · obtain ⟨⟨a, b, c⟩, d⟩ := h.wf.slice _ _ hs
          exact ⟨⟨a, b, c⟩, d⟩
      · intro ts' s'' hs
        rw [mapGet_insert] at hs
        split at hs
        · cases hs; exact ⟨hn.base, fun l hl => (hn.logs l hl).1⟩
        · exact h.named ts' s'' hs

theorem collectGroups_named {t : Tree} {ts : Str} {excl : List FileGroup} {gs : List FileGroup}
    (h : ∀ g ∈ gs, NamedGroup g) : (∀ g ∈ (collectGroups t ts excl gs).1, NamedGroup g) ∧
      ∀ ss, (collectGroups t ts excl gs).2 = .ok ss → ∀ s ∈ ss, NamedSlice s := by
  induction gs with
  | nil => exact ⟨by simp [collectGroups], by intro ss hs; cases hs; simp⟩
  | cons g gs ih =>
    obtain ⟨ih1, ih2⟩ := ih (fun x hx => h x (by simp [hx]))
    unfold collectGroups
    split
    · rename_i g' s hg
      obtain ⟨h1, h2⟩ := collectGroup_named (h g (by simp)) hg
      refine ⟨?_, ?_⟩
      · simp only [List.mem_cons]
        rintro x (rfl | hx)
        · exact h1
        · exact ih1 x hx
      · intro ss hss x hx
        obtain ⟨r, h3, h4⟩ := Res.bind_eq_ok.1 hss
        cases h4
        rcases List.mem_append.1 hx with hx | hx
        · cases s with
          | none => cases hx
          | some y => rw [List.mem_singleton.1 hx]; exact h2 y rfl
        · exact ih2 r h3 x hx
    · exact ⟨h, by intro ss hs; cases hs⟩
    · exact ⟨h, by intro ss hs; cases hs⟩

theorem collectSlices_named {A : Arrow} {t : Tree} {ts : Str} {p : Pruner} {excl : List FileGroup}
    {c : Cache} (h : NamedCache c) : NamedCache (collectSlices A t ts p excl c).1 ∧
      ∀ ss, (collectSlices A t ts p excl c).2 = .ok ss → ∀ s ∈ ss, NamedSlice s := by
  induction c with
  | nil => exact ⟨h, by intro ss hs; cases hs; simp⟩
  | cons e c ih =>
    obtain ⟨path, gs⟩ := e
    have hrest : NamedCache c := fun x gs hx => h x gs (by simp [hx])
    obtain ⟨ih1, ih2⟩ := ih hrest
    have hgs := h path gs (by simp)
    have hcons : ∀ (gs' : List FileGroup) (c' : Cache), (∀ g ∈ gs', NamedGroup g) → NamedCache c' →
        NamedCache ((path, gs') :: c') := by
      intro gs' c' h1 h2 x l hx
      rcases List.mem_cons.1 hx with hx | hx
      · cases hx; exact h1
      · exact h2 x l hx
    obtain ⟨g1, g2⟩ := collectGroups_named (t := t) (ts := ts) (excl := excl) hgs
    unfold collectSlices
    split
    · exact ⟨hcons _ _ hgs ih1, ih2⟩
    · simp only
      split
      · rename_i l hl
        refine ⟨hcons _ _ g1 ih1, ?_⟩
        intro ss hss x hx
        obtain ⟨r, h3, h4⟩ := Res.bind_eq_ok.1 hss
        cases h4
        rcases List.mem_append.1 hx with hx | hx
        · exact g2 l hl x hx
        · exact ih2 r h3 x hx
      · exact ⟨hcons _ _ g1 hrest, by intro ss hs; cases hs⟩
      · exact ⟨hcons _ _ g1 hrest, by intro ss hs; cases hs⟩

theorem hmInsert_mem {κ ν : Type} [DecidableEq κ] {k : κ} {v : ν} {m : List (κ × ν)} {e : κ × ν}
    (h : e ∈ hmInsert k v m) : e = (k, v) ∨ e ∈ m := by
  induction m with
  | nil => exact Or.inl (List.mem_singleton.1 h)
  | cons a m ih =>
    simp only [hmInsert] at h
    split at h
    · rename_i hk
      rcases List.mem_cons.1 h with h | h
      · exact Or.inl (by rw [h, hk])
      · exact Or.inr (by simp [h])
    · rcases List.mem_cons.1 h with h | h
      · exact Or.inr (by simp [h])
      · rcases ih h with h | h
        · exact Or.inl h
        · exact Or.inr (by simp [h])

theorem hmExtend_named {c m : Cache} (hc : NamedCache c) (hm : NamedCache m) :
    NamedCache (hmExtend c m) := by
  unfold hmExtend
  induction m generalizing c with
  | nil => exact hc
  | cons e m ih =>
    refine ih ?_ (fun x gs hx => hm x gs (by simp [hx]))
    intro x gs hx
    rcases hmInsert_mem hx with hx | hx
    · cases hx; exact hm e.1 e.2 (by simp)
    · exact hc x gs hx

theorem listRelevant_named {A : Arrow} {o : Opts} {t : Tree} {p : Pruner} {m : Cache}
    (h : listRelevant A o t p = .ok m) : NamedCache m := by
  unfold listRelevant at h
  rw [isTablePartitioned_eq] at h
  simp only [Res.ok_bind] at h
  split at h
  · obtain ⟨gs, h1, h2⟩ := Res.bind_eq_ok.1 h
    cases h2
    intro x l hx
    cases List.mem_singleton.1 hx
    exact listFileGroups_named h1
  · obtain ⟨paths, _, h⟩ := Res.bind_eq_ok.1 h
    obtain ⟨par, _, h⟩ := Res.bind_eq_ok.1 h
    split at h
    · cases h
    · obtain ⟨es, h1, h2⟩ := Res.bind_eq_ok.1 h
      cases h2
      refine hmExtend_named (by intro x gs hx; cases hx) ?_
      intro x l hx
      obtain ⟨y, _, hy⟩ := (Res.mapL_mem h1 _).1 hx
      obtain ⟨gs, e1, e2⟩ := listWithPath_ok.1 hy
      cases e2
      exact listFileGroups_named e1

theorem view_named {A : Arrow} {o : Opts} {t : Tree} {ts : Str} {p : Pruner}
    {excl : List FileGroup} {c : Cache} (h : NamedCache c) :
    NamedCache (viewSlicesAsOf A o t ts p excl c).1 ∧
      ∀ ss, (viewSlicesAsOf A o t ts p excl c).2 = .ok ss → ∀ s ∈ ss, NamedSlice s := by
  unfold viewSlicesAsOf loadFileGroups
  cases hm : listRelevant A o t p with
  | ok m => exact collectSlices_named (hmExtend_named h (listRelevant_named hm))
  | err e => exact ⟨h, by intro ss hs; cases hs⟩
  | panic => exact ⟨h, by intro ss hs; cases hs⟩

/-- What every step of the file system view preserves, every query preserves. -/
theorem cacheAfter_of_view {E : Env} {A : Arrow} {tb : Table} {t : Tree} {P : Cache → Prop}
    (hP : ∀ ts p excl c, P c → P (viewSlicesAsOf A tb.opts t ts p excl c).1) (q : SliceQuery)
    {c : Cache} (hc : P c) : P (q.cacheAfter E A tb t c) := by
  have hint : ∀ ts fs, P (tb.fileSlicesInternal E A t ts fs c).1 := by
    intro ts fs
    unfold Table.fileSlicesInternal
    rcases Query.bind_lift_fst (tb.timeline.replacedAsOf E t ts) _ c with h1 | ⟨a, _, h1⟩
    · rw [h1]; exact hc
    rw [h1]
    rcases Query.bind_lift_fst (tb.partitionSchema t) _ c with h2 | ⟨b, _, h2⟩
    · rw [h2]; exact hc
    rw [h2]
    rcases Query.bind_lift_fst (Pruner.new A fs b tb.opts) _ c with h3 | ⟨d, _, h3⟩
    · rw [h3]; exact hc
    rw [h3]
    exact hP _ _ _ _ hc
  have hsplit : ∀ n ts fs, (tb.fileSlicesSplitsInternal E A t n ts fs c).1 =
      (tb.fileSlicesInternal E A t ts fs c).1 := by
    intro n ts fs
    exact bind_lift_cache (tb.fileSlicesInternal E A t ts fs) (fun l => splitSlices n l) c
  cases q with
  | latest fs =>
    unfold SliceQuery.cacheAfter
    simp only
    unfold Table.fileSlices
    cases tb.timeline.latestTimestamp with
    | none => exact hc
    | some ts =>
      simp only
      rcases Query.bind_lift_fst (fromStrTuples fs) _ c with h1 | ⟨a, _, h1⟩
      · rw [h1]; exact hc
      · rw [h1]; exact hint _ _
  | asOf ts fs =>
    unfold SliceQuery.cacheAfter
    simp only
    unfold Table.fileSlicesAsOf
    rcases Query.bind_lift_fst (fromStrTuples fs) _ c with h1 | ⟨a, _, h1⟩
    · rw [h1]; exact hc
    · rw [h1]; exact hint _ _
  | splits n fs =>
    unfold SliceQuery.cacheAfter
    simp only
    unfold Table.fileSlicesSplits
    cases tb.timeline.latestTimestamp with
    | none => exact hc
    | some ts =>
      simp only
      rcases Query.bind_lift_fst (fromStrTuples fs) _ c with h1 | ⟨a, _, h1⟩
      · rw [h1]; exact hc
      · rw [h1, hsplit]; exact hint _ _
  | splitsAsOf n ts fs =>
    unfold SliceQuery.cacheAfter
    simp only
    unfold Table.fileSlicesSplitsAsOf
    rcases Query.bind_lift_fst (fromStrTuples fs) _ c with h1 | ⟨a, _, h1⟩
    · rw [h1]; exact hc
    · rw [h1, hsplit]; exact hint _ _

theorem cacheAfter_named {E : Env} {A : Arrow} {tb : Table} {hist : List Tree} {c : Cache}
    (h : CacheAfter E A tb hist c) : NamedCache c := by
  induction h with
  | opened => intro x gs hx; cases hx
  | query t q _ ih =>
    exact cacheAfter_of_view (P := NamedCache) (fun ts p excl c hc => (view_named hc).1) q ih

theorem internal_named {E : Env} {A : Arrow} {tb : Table} {t : Tree} {ts : Str} {fs : List Filter}
    {c : Cache} (h : NamedCache c) {ss : List FileSlice}
    (hq : (tb.fileSlicesInternal E A t ts fs c).2 = .ok ss) : ∀ s ∈ ss, NamedSlice s := by
  obtain ⟨excl, schema, p, _, _, _, h4⟩ := fileSlicesInternal_ok.1 hq
  exact (view_named h).2 ss h4

/-! ## Slices from commit metadata -/

theorem fileGroupOfStat_named {p : Str} {j : Json} {g : FileGroup}
    (h : fileGroupOfStat p j = .ok g) : NamedGroup g := by
  unfold fileGroupOfStat at h
  obtain ⟨fid, _, h⟩ := Res.bind_eq_ok.1 h
  have hbase : ∀ {g0 g1 : FileGroup} {name : Str}, NamedGroup g0 →
      g0.addBaseFileFromName name = .ok g1 → NamedGroup g1 := by
    intro g0 g1 name h0 h1
    obtain ⟨b, h2, h3⟩ := Res.bind_eq_ok.1 h1
    exact h0.addBase (namedBase_fromStr h2) h3
  simp only at h
  split at h
  · obtain ⟨name, _, h⟩ := Res.bind_eq_ok.1 h
    obtain ⟨g1, h1, h⟩ := Res.bind_eq_ok.1 h
    have hg1 := hbase (.new _ _) h1
    split at h
    · obtain ⟨ls, _, h⟩ := Res.bind_eq_ok.1 h
      refine foldL_inv (P := NamedGroup) (fun g a g' _ hg hs => ?_) hg1 h
      obtain ⟨n, _, hs⟩ := Res.bind_eq_ok.1 hs
      obtain ⟨l, h2, h3⟩ := Res.bind_eq_ok.1 hs
      exact hg.addLog (namedLog_fromStr h2) h3
    · cases h
  · obtain ⟨path, _, h⟩ := Res.bind_eq_ok.1 h
    obtain ⟨name, _, h⟩ := Res.bind_eq_ok.1 h
    exact hbase (.new _ _) h

theorem fgInsert_named {g : FileGroup} {s : List FileGroup} (hg : NamedGroup g)
    (hs : ∀ x ∈ s, NamedGroup x) : ∀ x ∈ fgInsert g s, NamedGroup x := by
  unfold fgInsert
  split
  · exact hs
  · intro x hx
    rcases List.mem_append.1 hx with hx | hx
    · exact hs x hx
    · rw [List.mem_singleton.1 hx]; exact hg

theorem buildFileGroups_named {md : List (Str × Json)} {gs : List FileGroup}
    (h : buildFileGroups md = .ok gs) : ∀ g ∈ gs, NamedGroup g := by
  unfold buildFileGroups at h
  obtain ⟨parts, _, h⟩ := Res.bind_eq_ok.1 h
  refine foldL_inv (P := fun gs => ∀ g ∈ gs, NamedGroup g) (fun s e s' _ hs hx => ?_) (by simp) h
  obtain ⟨stats, _, hx⟩ := Res.bind_eq_ok.1 hx
  unfold addStats at hx
  refine foldL_inv (P := fun gs => ∀ g ∈ gs, NamedGroup g) (fun s j s' _ hs hx => ?_) hs hx
  obtain ⟨g, h1, h2⟩ := Res.bind_eq_ok.1 hx
  cases h2
  exact fgInsert_named (fileGroupOfStat_named h1) hs

theorem fgMerge_named {s gs r : List FileGroup} (hs : ∀ g ∈ s, NamedGroup g)
    (hgs : ∀ g ∈ gs, NamedGroup g) (h : fgMerge s gs = .ok r) : ∀ g ∈ r, NamedGroup g := by
  unfold fgMerge at h
  refine foldL_inv (P := fun gs => ∀ g ∈ gs, NamedGroup g) (fun s g s' hg hs hx => ?_) hs h
  unfold fgMergeOne at hx
  split at hx
  · rename_i ex hex
    obtain ⟨m, h1, h2⟩ := Res.bind_eq_ok.1 hx
    cases h2
    refine fgInsert_named ((hs ex (List.mem_of_find?_eq_some hex)).merge (hgs g hg) h1) ?_
    intro x hx
    exact hs x (List.mem_filter.1 hx).1
  · cases hx
    intro x hx
    rcases List.mem_append.1 hx with hx | hx
    · exact hs x hx
    · rw [List.mem_singleton.1 hx]; exact hgs g hg

theorem between_named {E : Env} {tb : Table} {t : Tree} {start stop : Option Str}
    {ss : List FileSlice} (h : tb.fileSlicesBetween E t start stop = .ok ss) :
    ∀ s ∈ ss, NamedSlice s := by
  unfold Table.fileSlicesBetween at h
  split at h
  · cases h; simp
  · rename_i stop' _
    unfold Table.fileSlicesBetweenInternal at h
    obtain ⟨gs, h1, h2⟩ := Res.bind_eq_ok.1 h
    cases h2
    unfold Timeline.fileGroupsBetween at h1
    obtain ⟨sel, _, h1⟩ := Res.bind_eq_ok.1 h1
    obtain ⟨r, h3, h4⟩ := Res.bind_eq_ok.1 h1
    cases h4
    have hr : ∀ g ∈ r.1, NamedGroup g := by
      refine foldL_inv (P := fun r : List FileGroup × List FileGroup => ∀ g ∈ r.1, NamedGroup g)
        (fun b i b' _ hb hx => ?_) (by simp) h3
      unfold betweenStep at hx
      obtain ⟨md, _, hx⟩ := Res.bind_eq_ok.1 hx
      obtain ⟨gs, e1, hx⟩ := Res.bind_eq_ok.1 hx
      obtain ⟨m, e2, hx⟩ := Res.bind_eq_ok.1 hx
      have hm := fgMerge_named hb (buildFileGroups_named e1) e2
      split at hx
      · obtain ⟨rs, _, hx⟩ := Res.bind_eq_ok.1 hx
        cases hx; exact hm
      · cases hx; exact hm
    intro s hs
    obtain ⟨g, hg, hsl⟩ := List.mem_filterMap.1 hs
    have hng := hr g (List.mem_filter.1 hg).1
    unfold FileGroup.sliceAsOf at hsl
    obtain ⟨e, he, rfl⟩ := Option.map_eq_some_iff.1 hsl
    exact hng.slice ((mapGet_eq_some hng.wf.sorted).2 ((mapLastLe_eq_some hng.wf.sorted).1 he).1)

end Hudi
