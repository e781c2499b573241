import Verif.Lemmas.Files
import Verif.Lemmas.Order

/-! # C14 – C18: file slices and file groups -/

namespace Hudi

open Spec

/-! ## Examples used below -/

namespace Demo

/-- A base file written at 15:30. -/
def baseA : BaseFile := ⟨c!"f1-0", c!"0-1-2", c!"20240103153000000", c!"parquet", none⟩

/-- A base file written at 15:31. -/
def baseB : BaseFile := ⟨c!"f1-0", c!"0-3-4", c!"20240103153100000", c!"parquet", none⟩

/-- A log file of `baseA` with the given version. -/
def logA (v : Str) : LogFile := ⟨c!"f1-0", c!"20240103153000000", c!"log", v, c!"0-5-6", none⟩

/-- A file group with two slices, the first of which has three log files. -/
def groupA : FileGroup :=
  GroupOp.run (FileGroup.new c!"f1-0" c!"p1")
    [.addBase baseB, .addBase baseA, .addLog (logA c!"2"), .addLog (logA c!"1"),
      .addLog (logA c!"10")]

/-- Another part of the same file group. -/
def groupB : FileGroup :=
  GroupOp.run (FileGroup.new c!"f1-0" c!"p1") [.addBase baseA, .addLog (logA c!"3")]

end Demo

theorem run_built {g : FileGroup} (hg : Built g) {ops : List GroupOp}
    (h : ∀ o, GroupOp.merge o ∈ ops → Built o) : Built (GroupOp.run g ops) := by
  induction ops generalizing g with
  | nil => exact hg
  | cons op ops ih =>
    refine ih ?_ (fun o ho => h o (by simp [ho]))
    cases op with
    | addBase b => exact .addBase b hg
    | addLog l => exact .addLog l hg
    | merge o => exact .merge hg (h o (by simp))

theorem Demo.groupA_built : Built Demo.groupA := run_built (.new _ _) (by simp)

theorem Demo.groupB_built : Built Demo.groupB := run_built (.new _ _) (by simp)

/-! ## C14: reading order of log files -/

/-- **C14 is false**: in a slice with log versions 1, 2 and 10, the log with version 10 is visited
before the one with version 2. -/
theorem C14_false : ∃ g s, Built g ∧ sliceAt g c!"20240103153000000" = some s ∧
    s.logFiles.map LogFile.version = [c!"1", c!"10", c!"2"] :=
  ⟨Demo.groupA, _, Demo.groupA_built, rfl, by decide⟩

/-- **C14, partial.**  Whatever operations built the group and in whatever order, the log files of a
slice are visited in strictly increasing textual order of (version, write token); hence for version
numbers written with the same number of digits, in increasing numeric order.  Missing: version
numbers with different numbers of digits, for which the claim is false (`C14_false`). -/
theorem C14_log_files_in_version_order_partial (g : FileGroup) (hg : Built g) (ts : Str)
    (s : FileSlice) (hs : sliceAt g ts = some s) :
    s.logFiles.Pairwise LogBefore ∧
    s.logFiles.Pairwise (fun a b => a.version.all isDigit = true → b.version.all isDigit = true →
      a.version.length = b.version.length → natOfDigits a.version ≤ natOfDigits b.version) := by
  rw [sliceAt_eq] at hs
  obtain ⟨⟨h1, h2, h3⟩, h4⟩ := (built_wf hg).slice ts s hs
  have key : s.logFiles.Pairwise LogBefore := by
    refine List.Pairwise.imp_of_mem (fun {a b} ha hb hab => ?_) h4
    unfold LogFile.cmp at hab
    rw [h3 a ha, h3 b hb, Std.ReflCmp.compare_self (cmp := compare)] at hab
    simp only [Ordering.eq_then, Ordering.then_eq_lt, strCmp] at hab
    exact hab
  refine ⟨key, key.imp (fun {a b} hab da db hl => ?_)⟩
  rcases hab with h | ⟨h, _⟩
  · rw [compare_digits hl da db] at h
    exact Nat.le_of_lt (Nat.compare_eq_lt.1 h)
  · rw [h]; exact Nat.le_refl _

example : ∃ s, Built Demo.groupA ∧ sliceAt Demo.groupA c!"20240103153000000" = some s ∧
    s.logFiles.length = 3 := ⟨_, Demo.groupA_built, rfl, by decide⟩

/-! ## C15: no log file is dropped -/

theorem fileName_of_cmp_eq {a b : LogFile} (h : LogFile.cmp a b = .eq) (hf : a.fileId = b.fileId)
    (he : a.extension = b.extension) : a.fileName = b.fileName := by
  obtain ⟨h1, h2, h3⟩ := LogFile.cmp_eq_iff.1 h
  simp [LogFile.fileName, h1, h2, h3, hf, he]

/-- **C15.**  When log files of one file group (same file id and extension) are added and each has
the slice it was written against, the addition succeeds; afterwards every slice has the same base
file, and its log files are, by name, those it had before plus exactly the added ones written
against it.  No slice appears or disappears. -/
theorem C15_no_log_file_dropped (g : FileGroup) (hg : Built g) (fileId ext : Str)
    (hu : UniformLogs fileId ext g) (ls : List LogFile)
    (hls : ∀ l ∈ ls, l.fileId = fileId ∧ l.extension = ext)
    (hbase : ∀ l ∈ ls, ∃ s, sliceAt g l.baseCommitTimestamp = some s) :
    ∃ g', g.addLogFiles ls = .ok g' ∧ ∀ ts,
      (sliceAt g ts = none ∧ sliceAt g' ts = none) ∨
      ∃ s s', sliceAt g ts = some s ∧ sliceAt g' ts = some s' ∧ s'.baseFile = s.baseFile ∧
        s'.partitionPath = s.partitionPath ∧
        ∀ name, name ∈ s'.logFiles.map LogFile.fileName ↔
          name ∈ s.logFiles.map LogFile.fileName ∨
          ∃ l ∈ ls, l.baseCommitTimestamp = ts ∧ l.fileName = name := by
  have hw := built_wf hg
  obtain ⟨g', h1, _, _, _, h5⟩ := addLogFiles_ok (g := g) (ls := ls) (by
    intro l hl
    obtain ⟨s, hs⟩ := hbase l hl
    rw [sliceAt_eq] at hs; simp [hs]) hw.sorted
  refine ⟨g', h1, fun ts => ?_⟩
  simp only [sliceAt_eq, h5]
  cases hs : mapGet ts g.slices with
  | none => exact .inl ⟨rfl, rfl⟩
  | some s =>
    refine .inr ⟨s, _, rfl, rfl, rfl, rfl, fun name => ?_⟩
    obtain ⟨_, h4⟩ := hw.slice ts s hs
    have hus := hu ts s (by rw [sliceAt_eq]; exact hs)
    constructor
    · intro h
      obtain ⟨l, hl, rfl⟩ := List.mem_map.1 h
      rcases setExtend_sub _ _ l hl with hl | hl
      · exact .inl (List.mem_map_of_mem hl)
      · simp only [List.mem_filter, decide_eq_true_eq] at hl
        exact .inr ⟨l, hl.1, hl.2, rfl⟩
    · intro h
      have key : ∀ l, (l ∈ s.logFiles ∨ l ∈ ls.filter (fun l => l.baseCommitTimestamp = ts)) →
          l.fileName ∈ (setExtend LogFile.cmp s.logFiles
            (ls.filter (fun l => l.baseCommitTimestamp = ts))).map LogFile.fileName := by
        intro l hl
        have huni : ∀ l, (l ∈ s.logFiles ∨ l ∈ ls.filter (fun l => l.baseCommitTimestamp = ts)) →
            l.fileId = fileId ∧ l.extension = ext := by
          rintro l (h | h)
          · exact hus l h
          · exact hls l (List.mem_filter.1 h).1
        obtain ⟨z, hz, he⟩ := setExtend_covers (cmp := LogFile.cmp) _ _ l hl
        have hz' := huni z (setExtend_sub _ _ z hz)
        have hl' := huni l hl
        rw [fileName_of_cmp_eq he (hl'.1.trans hz'.1.symm) (hl'.2.trans hz'.2.symm)]
        exact List.mem_map_of_mem hz
      rcases h with h | ⟨l, hl, ht, rfl⟩
      · obtain ⟨l, hl, rfl⟩ := List.mem_map.1 h
        exact key l (.inl hl)
      · exact key l (.inr (List.mem_filter.2 ⟨hl, by simpa using ht⟩))

theorem Demo.groupA_uniform : UniformLogs c!"f1-0" c!"log" Demo.groupA := by
  intro ts s hs
  rw [sliceAt_eq] at hs
  have hm := mapGet_eq_some_mem hs
  have : ∀ e ∈ Demo.groupA.slices, ∀ l ∈ e.2.logFiles, l.fileId = c!"f1-0" ∧ l.extension = c!"log" := by
    decide
  exact this _ hm

theorem Demo.groupB_uniform : UniformLogs c!"f1-0" c!"log" Demo.groupB := by
  intro ts s hs
  rw [sliceAt_eq] at hs
  have hm := mapGet_eq_some_mem hs
  have : ∀ e ∈ Demo.groupB.slices, ∀ l ∈ e.2.logFiles, l.fileId = c!"f1-0" ∧ l.extension = c!"log" := by
    decide
  exact this _ hm

example : ∃ g', Demo.groupA.addLogFiles [Demo.logA c!"3", Demo.logA c!"4"] = .ok g' :=
  (C15_no_log_file_dropped Demo.groupA Demo.groupA_built c!"f1-0" c!"log" Demo.groupA_uniform
    [Demo.logA c!"3", Demo.logA c!"4"] (by decide) (by
      intro l hl
      simp only [List.mem_cons, List.not_mem_nil, or_false] at hl
      rcases hl with rfl | rfl <;> exact ⟨_, rfl⟩)).imp (fun _ h => h.1)

/-- **C15, idempotence.**  Adding again log files whose (base commit, version, write token) the group
already holds changes nothing: in particular any log file that was added before. -/
theorem C15_adding_again_changes_nothing (g : FileGroup) (hg : Built g) (ls : List LogFile)
    (hls : ∀ l ∈ ls, ∃ s, sliceAt g l.baseCommitTimestamp = some s ∧
      ∃ l' ∈ s.logFiles, l'.version = l.version ∧ l'.writeToken = l.writeToken) :
    g.addLogFiles ls = .ok g := by
  have hw := built_wf hg
  obtain ⟨g', h1, h2, h3, h4, h5⟩ := addLogFiles_ok (g := g) (ls := ls) (by
    intro l hl
    obtain ⟨s, hs, _⟩ := hls l hl
    rw [sliceAt_eq] at hs; simp [hs]) hw.sorted
  have : g'.slices = g.slices := by
    refine h4.ext hw.sorted (fun ts => ?_)
    rw [h5]
    cases hs : mapGet ts g.slices with
    | none => rfl
    | some s =>
      obtain ⟨⟨_, _, hb⟩, h6⟩ := hw.slice ts s hs
      rw [Option.map_some, setExtend_of_covered h6]
      intro l hl
      simp only [List.mem_filter, decide_eq_true_eq] at hl
      obtain ⟨s', hs', l', hl', e1, e2⟩ := hls l hl.1
      rw [sliceAt_eq, hl.2, hs] at hs'
      cases hs'
      exact ⟨l', hl', LogFile.cmp_eq_iff.2 ⟨by rw [hb l' hl', hl.2], e1.symm, e2.symm⟩⟩
  rw [h1]
  cases g; cases g'; simp_all

example : Demo.groupA.addLogFiles [Demo.logA c!"1", Demo.logA c!"10"] = .ok Demo.groupA :=
  C15_adding_again_changes_nothing Demo.groupA Demo.groupA_built _ (by
    intro l hl
    simp only [List.mem_cons, List.not_mem_nil, or_false] at hl
    rcases hl with rfl | rfl
    · exact ⟨_, rfl, Demo.logA c!"1", by decide, rfl, rfl⟩
    · exact ⟨_, rfl, Demo.logA c!"10", by decide, rfl, rfl⟩)

/-- **C15, order.**  Adding log files with pairwise different names (same file id and extension) in
any order gives the same result: the same group, or an error in both cases. -/
theorem C15_order_of_adding_irrelevant (g : FileGroup) (hg : Built g) (fileId ext : Str)
    (ls ls' : List LogFile) (hp : ls.Perm ls')
    (hls : ∀ l ∈ ls, l.fileId = fileId ∧ l.extension = ext)
    (hne : (ls.map LogFile.fileName).Nodup) :
    g.addLogFiles ls = g.addLogFiles ls' := by
  have hw := built_wf hg
  by_cases hb : ∀ l ∈ ls, mapGet l.baseCommitTimestamp g.slices ≠ none
  · obtain ⟨g1, h1, h2, h3, h4, h5⟩ := addLogFiles_ok hb hw.sorted
    obtain ⟨g2, k1, k2, k3, k4, k5⟩ := addLogFiles_ok (g := g) (ls := ls')
      (fun l hl => hb l (hp.mem_iff.2 hl)) hw.sorted
    have hpw : ls.Pairwise (fun a b => LogFile.cmp a b ≠ .eq) := by
      have := List.pairwise_map.1 hne
      refine List.Pairwise.imp_of_mem (fun {a b} ha hb hab hc => hab ?_) this
      have ha := hls a ha
      have hb := hls b hb
      exact fileName_of_cmp_eq hc (ha.1.trans hb.1.symm) (ha.2.trans hb.2.symm)
    have : g1.slices = g2.slices := by
      refine h4.ext k4 (fun ts => ?_)
      rw [h5, k5]
      cases hs : mapGet ts g.slices with
      | none => rfl
      | some s =>
        obtain ⟨_, h6⟩ := hw.slice ts s hs
        simp only [Option.map_some]
        rw [setExtend_perm h6 (hpw.filter _) (hp.filter _)]
    rw [h1, k1]
    cases g1; cases g2; simp_all
  · have : ∃ l ∈ ls, mapGet l.baseCommitTimestamp g.slices = none := by
      simpa using hb
    rw [addLogFiles_err this, addLogFiles_err]
    obtain ⟨l, hl, h⟩ := this
    exact ⟨l, hp.mem_iff.1 hl, h⟩

example : Demo.groupA.addLogFiles [Demo.logA c!"3", Demo.logA c!"4"] =
    Demo.groupA.addLogFiles [Demo.logA c!"4", Demo.logA c!"3"] :=
  C15_order_of_adding_irrelevant Demo.groupA Demo.groupA_built c!"f1-0" c!"log" _ _
    (List.Perm.swap _ _ _) (by decide) (by decide)

/-! ## C16: as-of lookup -/

/-- **C16.**  The slice as of `T` is the one filed under the greatest timestamp not after `T`. -/
theorem C16_as_of_is_closest (g : FileGroup) (hg : Built g) (T : Str) (s : FileSlice) :
    g.sliceAsOf T = some s ↔ ∃ ts, sliceAt g ts = some s ∧ (compare ts T).isLE ∧
      ∀ ts' s', sliceAt g ts' = some s' → (compare ts' T).isLE → (compare ts' ts).isLE := by
  have hw := built_wf hg
  unfold FileGroup.sliceAsOf
  simp only [Option.map_eq_some_iff, Prod.exists, sliceAt_eq, mapLastLe_eq_some hw.sorted,
    mapGet_eq_some hw.sorted]
  constructor
  · rintro ⟨ts, s', ⟨h1, h2, h3⟩, rfl⟩
    exact ⟨ts, h1, h2, fun ts' s'' h => h3 (ts', s'') h⟩
  · rintro ⟨ts, h1, h2, h3⟩
    exact ⟨ts, s, ⟨h1, h2, fun e he => h3 e.1 e.2 he⟩, rfl⟩

/-- **C16.**  There is no slice as of `T` exactly when every slice is later than `T`. -/
theorem C16_none_iff_all_later (g : FileGroup) (hg : Built g) (T : Str) :
    g.sliceAsOf T = none ↔ ∀ ts s, sliceAt g ts = some s → compare ts T = .gt := by
  have hw := built_wf hg
  unfold FileGroup.sliceAsOf
  simp only [Option.map_eq_none_iff, sliceAt_eq, mapLastLe_eq_none, mapGet_eq_some hw.sorted]
  exact ⟨fun h ts s hs => h (ts, s) hs, fun h e he => h e.1 e.2 he⟩

/-- **C16.**  The slice returned is not later than asked for, and a later `T` never yields an earlier
slice. -/
theorem C16_monotone (g : FileGroup) (hg : Built g) (T T' : Str) (hT : (compare T T').isLE)
    (s : FileSlice) (hs : g.sliceAsOf T = some s) :
    (compare s.baseFile.commitTimestamp T).isLE ∧
    ∃ s', g.sliceAsOf T' = some s' ∧
      (compare s.baseFile.commitTimestamp s'.baseFile.commitTimestamp).isLE := by
  have hw := built_wf hg
  obtain ⟨ts, h1, h2, h3⟩ := (C16_as_of_is_closest g hg T s).1 hs
  have hts : s.baseFile.commitTimestamp = ts := ((hw.slice ts s (by rw [← sliceAt_eq]; exact h1)).1).created
  refine ⟨by rw [hts]; exact h2, ?_⟩
  cases h : g.sliceAsOf T' with
  | none =>
    have := (C16_none_iff_all_later g hg T').1 h ts s h1
    have h4 := Std.TransCmp.isLE_trans h2 hT
    rw [this] at h4; cases h4
  | some s' =>
    obtain ⟨ts', k1, k2, k3⟩ := (C16_as_of_is_closest g hg T' s').1 h
    have hts' : s'.baseFile.commitTimestamp = ts' :=
      ((hw.slice ts' s' (by rw [← sliceAt_eq]; exact k1)).1).created
    exact ⟨s', rfl, by rw [hts, hts']; exact k3 ts s h1 (Std.TransCmp.isLE_trans h2 hT)⟩

example : ∃ s, Demo.groupA.sliceAsOf c!"20240103153030000" = some s ∧ s.baseFile = Demo.baseA :=
  ⟨_, rfl, by decide⟩
example : Demo.groupA.sliceAsOf c!"20240103152959999" = none := by decide

/-! ## C17: well-formedness under every sequence of operations -/

/-- **C17.**  In every file group built by additions and merges (successful or not), each slice is
filed under the creation timestamp of its base file, lies in the group's partition, and holds only
log files written against that base. -/
theorem C17_slices_well_formed (g : FileGroup) (hg : Built g) (ts : Str) (s : FileSlice)
    (hs : sliceAt g ts = some s) : SliceWF g ts s :=
  ((built_wf hg).slice ts s (by rw [← sliceAt_eq]; exact hs)).1

example : ∃ s, sliceAt Demo.groupA c!"20240103153100000" = some s ∧ Built Demo.groupA :=
  ⟨_, rfl, Demo.groupA_built⟩

theorem apply_keeps (g : FileGroup) (op : GroupOp) (ts : Str) (s : FileSlice)
    (hs : mapGet ts g.slices = some s) : ∃ s', mapGet ts (op.apply g).slices = some s' ∧ Extends s s' := by
  cases op with
  | addBase b =>
    show ∃ s', mapGet ts (afterAdd g (g.addBaseFile b)).slices = some s' ∧ _
    unfold FileGroup.addBaseFile
    cases hb : mapGet b.commitTimestamp g.slices with
    | some _ => exact ⟨s, hs, .refl s⟩
    | none =>
      refine ⟨s, ?_, .refl s⟩
      show mapGet ts (mapInsert _ _ _) = _
      rw [mapGet_insert]
      split
      · rename_i heq; rw [heq, hb] at hs; cases hs
      · exact hs
  | addLog l =>
    show ∃ s', mapGet ts (afterAdd g (g.addLogFile l)).slices = some s' ∧ _
    unfold FileGroup.addLogFile
    cases hb : mapGet l.baseCommitTimestamp g.slices with
    | none => exact ⟨s, hs, .refl s⟩
    | some s0 =>
      show ∃ s', mapGet ts (mapInsert _ _ _) = some s' ∧ _
      rw [mapGet_insert]
      split
      · rename_i heq
        rw [heq, hb] at hs; cases hs
        exact ⟨_, rfl, rfl, rfl, sub_setInsert _ _⟩
      · exact ⟨s, hs, .refl s⟩
  | merge o =>
    show ∃ s', mapGet ts (g.afterMerge o).slices = some s' ∧ _
    unfold FileGroup.afterMerge
    split
    · exact ⟨s, hs, .refl s⟩
    · exact mergeLeftover_keeps hs

/-- **C17.**  Whatever sequence of operations is attempted, a slice once present keeps its base file
and its partition, and loses no log file. -/
theorem C17_slices_never_lost (g : FileGroup) (ops : List GroupOp) (ts : Str) (s : FileSlice)
    (hs : sliceAt g ts = some s) :
    ∃ s', sliceAt (GroupOp.run g ops) ts = some s' ∧ s'.baseFile = s.baseFile ∧
      s'.partitionPath = s.partitionPath ∧ ∀ l ∈ s.logFiles, l ∈ s'.logFiles := by
  rw [sliceAt_eq] at hs
  simp only [sliceAt_eq]
  induction ops generalizing g s with
  | nil => exact ⟨s, hs, rfl, rfl, fun _ h => h⟩
  | cons op ops ih =>
    obtain ⟨s1, h1, h2⟩ := apply_keeps g op ts s hs
    obtain ⟨s2, h3, h4, h5, h6⟩ := ih (op.apply g) s1 h1
    exact ⟨s2, h3, h4.trans h2.1, h5.trans h2.2.1, fun l hl => h6 l (h2.2.2 l hl)⟩

example : ∃ s, sliceAt Demo.groupA c!"20240103153100000" = some s ∧
    ∃ s', sliceAt (GroupOp.run Demo.groupA [.addBase Demo.baseA, .merge Demo.groupB])
      c!"20240103153100000" = some s' ∧ s'.baseFile = s.baseFile :=
  ⟨_, rfl, _, rfl, by decide⟩

/-- **C17.**  A base file is accepted exactly when the group has no slice for its commit timestamp;
the result has that one slice more and is otherwise unchanged. -/
theorem C17_base_file_addition (g : FileGroup) (b : BaseFile) :
    (∀ s, sliceAt g b.commitTimestamp = some s → g.addBaseFile b = .err .fileGroup) ∧
    (sliceAt g b.commitTimestamp = none → ∃ g', g.addBaseFile b = .ok g' ∧ g'.fileId = g.fileId ∧
      g'.partitionPath = g.partitionPath ∧
      ∀ ts, sliceAt g' ts = if ts = b.commitTimestamp then some ⟨b, [], g.partitionPath⟩
        else sliceAt g ts) := by
  simp only [sliceAt_eq]
  constructor
  · intro s hs; simp [FileGroup.addBaseFile, hs]
  · intro hs
    refine ⟨{ g with slices := mapInsert b.commitTimestamp (FileSlice.new b g.partitionPath) g.slices },
      by simp only [FileGroup.addBaseFile, hs], rfl, rfl, fun ts => ?_⟩
    rw [mapGet_insert]; rfl

/-- **C17.**  A log file is accepted exactly when the group has the slice it was written against; the
result differs only in the log files of that slice. -/
theorem C17_log_file_addition (g : FileGroup) (l : LogFile) :
    (sliceAt g l.baseCommitTimestamp = none → g.addLogFile l = .err .fileGroup) ∧
    (∀ s, sliceAt g l.baseCommitTimestamp = some s → ∃ g' s', g.addLogFile l = .ok g' ∧
      g'.fileId = g.fileId ∧ g'.partitionPath = g.partitionPath ∧
      sliceAt g' l.baseCommitTimestamp = some s' ∧ s'.baseFile = s.baseFile ∧
      s'.partitionPath = s.partitionPath ∧
      (∀ x ∈ s'.logFiles, x = l ∨ x ∈ s.logFiles) ∧ (∀ x ∈ s.logFiles, x ∈ s'.logFiles) ∧
      ∀ ts, ts ≠ l.baseCommitTimestamp → sliceAt g' ts = sliceAt g ts) := by
  simp only [sliceAt_eq]
  constructor
  · intro hs; simp [FileGroup.addLogFile, hs]
  · intro s hs
    refine ⟨{ g with
        slices := mapInsert l.baseCommitTimestamp
          { s with logFiles := setInsert LogFile.cmp l s.logFiles } g.slices },
      { s with logFiles := setInsert LogFile.cmp l s.logFiles },
      by simp only [FileGroup.addLogFile, hs], rfl, rfl,
      by rw [mapGet_insert, if_pos rfl], rfl, rfl, setInsert_sub _ _, sub_setInsert _ _,
      fun ts hne => ?_⟩
    rw [mapGet_insert, if_neg hne]

/-! ## C18: merging -/

/-- **C18.**  Merging two file groups succeeds exactly when they have the same file id and partition
and agree, for every common timestamp, on the name of the base file; otherwise it is an error. -/
theorem C18_merge_succeeds_iff (g o : FileGroup) (hg : Built g) (ho : Built o) :
    ((∃ r, g.merge o = .ok r) ↔ g.fileId = o.fileId ∧ g.partitionPath = o.partitionPath ∧
      ∀ ts s t, sliceAt g ts = some s → sliceAt o ts = some t →
        s.baseFile.fileName = t.baseFile.fileName) ∧
    ((¬ ∃ r, g.merge o = .ok r) → g.merge o = .err .fileGroup) := by
  have hwg := built_wf hg
  have hwo := built_wf ho
  have hiff : (g.fileId = o.fileId ∧ g.partitionPath = o.partitionPath ∧
      ∀ ts s t, sliceAt g ts = some s → sliceAt o ts = some t →
        s.baseFile.fileName = t.baseFile.fileName) ↔
      (g.fileId = o.fileId ∧ g.partitionPath = o.partitionPath ∧
      ∀ ts s t, mapGet ts g.slices = some s → mapGet ts o.slices = some t → s.same t = true) := by
    simp only [sliceAt_eq]
    refine and_congr_right fun _ => and_congr_right fun hp => ?_
    refine forall_congr' fun ts => forall_congr' fun s => forall_congr' fun t => ?_
    refine forall_congr' fun hs => forall_congr' fun ht => ?_
    have h1 := (hwg.slice ts s hs).1.partition
    have h2 := (hwo.slice ts t ht).1.partition
    simp [FileSlice.same, h1, h2, hp]
  have hok : (∃ r, g.merge o = .ok r) ↔ (g.fileId = o.fileId ∧ g.partitionPath = o.partitionPath ∧
      ∀ ts s t, mapGet ts g.slices = some s → mapGet ts o.slices = some t → s.same t = true) := by
    constructor
    · rintro ⟨r, hr⟩
      exact ((merge_ok_iff hwg.sorted hwo.sorted).1 hr).1
    · intro h
      obtain ⟨m, h1, h2, h3⟩ := foldMerge_ok hwg.sorted hwo.sorted h.2.2
      exact ⟨{ g with slices := m }, (merge_ok_iff hwg.sorted hwo.sorted).2 ⟨h, rfl, rfl, h2, h3⟩⟩
  refine ⟨hok.trans hiff.symm, fun h => merge_err_of_not hwg.sorted hwo.sorted (fun h' => h (hok.2 h'))⟩

/-- **C18.**  The merged group has exactly the slices of both; a slice present in both keeps the base
file, and its log files are, by name, those of both. -/
theorem C18_merge_is_union (g o r : FileGroup) (hg : Built g) (ho : Built o) (fileId ext : Str)
    (hug : UniformLogs fileId ext g) (huo : UniformLogs fileId ext o) (h : g.merge o = .ok r) :
    r.fileId = g.fileId ∧ r.partitionPath = g.partitionPath ∧
    (∀ ts, sliceAt o ts = none → sliceAt r ts = sliceAt g ts) ∧
    (∀ ts, sliceAt g ts = none → sliceAt r ts = sliceAt o ts) ∧
    (∀ ts s t, sliceAt g ts = some s → sliceAt o ts = some t → ∃ u, sliceAt r ts = some u ∧
      u.baseFile = s.baseFile ∧ u.partitionPath = s.partitionPath ∧
      ∀ name, name ∈ u.logFiles.map LogFile.fileName ↔
        name ∈ s.logFiles.map LogFile.fileName ∨ name ∈ t.logFiles.map LogFile.fileName) := by
  have hwg := built_wf hg
  have hwo := built_wf ho
  obtain ⟨_, h1, h2, h3, h4⟩ := (merge_ok_iff hwg.sorted hwo.sorted).1 h
  simp only [UniformLogs, sliceAt_eq] at *
  refine ⟨h1, h2, fun ts hn => ?_, fun ts hn => ?_, fun ts s t hs ht => ?_⟩
  · rw [h4, hn]; cases mapGet ts g.slices <;> rfl
  · rw [h4, hn]; rfl
  · refine ⟨{ s with logFiles := setExtend LogFile.cmp s.logFiles t.logFiles },
      by rw [h4, hs, ht]; rfl, rfl, rfl, fun name => ?_⟩
    have huni : ∀ l, l ∈ s.logFiles ∨ l ∈ t.logFiles → l.fileId = fileId ∧ l.extension = ext :=
      fun l hl => hl.elim (hug ts s hs l) (huo ts t ht l)
    constructor
    · intro hn
      obtain ⟨l, hl, rfl⟩ := List.mem_map.1 hn
      exact (setExtend_sub _ _ l hl).imp List.mem_map_of_mem List.mem_map_of_mem
    · intro hn
      have : ∃ l, (l ∈ s.logFiles ∨ l ∈ t.logFiles) ∧ l.fileName = name := by
        rcases hn with hn | hn <;> obtain ⟨l, hl, rfl⟩ := List.mem_map.1 hn
        · exact ⟨l, .inl hl, rfl⟩
        · exact ⟨l, .inr hl, rfl⟩
      obtain ⟨l, hl, rfl⟩ := this
      obtain ⟨z, hz, he⟩ := setExtend_covers (cmp := LogFile.cmp) _ _ l hl
      have a := huni l hl
      have b := huni z (setExtend_sub _ _ z hz)
      rw [fileName_of_cmp_eq he (a.1.trans b.1.symm) (a.2.trans b.2.symm)]
      exact List.mem_map_of_mem hz

example : ∃ r, Demo.groupA.merge Demo.groupB = .ok r :=
  (C18_merge_succeeds_iff _ _ Demo.groupA_built Demo.groupB_built).1.2 ⟨rfl, rfl, by
    intro ts s t hs ht
    rw [sliceAt_eq] at hs ht
    have hm := mapGet_eq_some_mem hs
    have hn := mapGet_eq_some_mem ht
    have : ∀ e ∈ Demo.groupA.slices, ∀ f ∈ Demo.groupB.slices, e.1 = f.1 →
      e.2.baseFile.fileName = f.2.baseFile.fileName := by decide
    exact this _ hm _ hn rfl⟩

/-- The log file without its storage metadata. -/
def LogFile.bare (l : LogFile) : LogFile := { l with fileMeta := none }

theorem names_eq_of_same_members {fileId ext : Str} {a b : List LogFile} (ha : SetSorted LogFile.cmp a)
    (hb : SetSorted LogFile.cmp b) (hua : ∀ l ∈ a, l.fileId = fileId ∧ l.extension = ext)
    (hub : ∀ l ∈ b, l.fileId = fileId ∧ l.extension = ext)
    (hab : ∀ x ∈ a, ∃ y ∈ b, LogFile.cmp x y = .eq) (hba : ∀ x ∈ b, ∃ y ∈ a, LogFile.cmp x y = .eq) :
    a.map LogFile.fileName = b.map LogFile.fileName := by
  have hs : ∀ l : List LogFile, SetSorted LogFile.cmp l → SetSorted LogFile.cmp (l.map LogFile.bare) :=
    fun l h => List.pairwise_map.2 h
  have hbare : ∀ x y : LogFile, x.fileId = y.fileId → x.extension = y.extension →
      LogFile.cmp x y = .eq → x.bare = y.bare := by
    intro x y h1 h2 h3
    obtain ⟨h4, h5, h6⟩ := LogFile.cmp_eq_iff.1 h3
    cases x; cases y; simp_all [LogFile.bare]
  have : a.map LogFile.bare = b.map LogFile.bare := by
    refine (hs a ha).ext (hs b hb) (fun x => ?_)
    simp only [List.mem_map]
    constructor
    · rintro ⟨x, hx, rfl⟩
      obtain ⟨y, hy, he⟩ := hab x hx
      exact ⟨y, hy, (hbare x y ((hua x hx).1.trans (hub y hy).1.symm)
        ((hua x hx).2.trans (hub y hy).2.symm) he).symm⟩
    · rintro ⟨x, hx, rfl⟩
      obtain ⟨y, hy, he⟩ := hba x hx
      exact ⟨y, hy, (hbare x y ((hub x hx).1.trans (hua y hy).1.symm)
        ((hub x hx).2.trans (hua y hy).2.symm) he).symm⟩
  have h2 := congrArg (List.map LogFile.fileName) this
  rw [List.map_map, List.map_map] at h2
  exact h2

/-- **C18.**  Merging in either order gives the same slices: for every timestamp the same base file
name, partition and log file names in the same reading order. -/
theorem C18_merge_commutes (g o r : FileGroup) (hg : Built g) (ho : Built o) (fileId ext : Str)
    (hug : UniformLogs fileId ext g) (huo : UniformLogs fileId ext o) (h : g.merge o = .ok r) :
    ∃ r', o.merge g = .ok r' ∧ r'.fileId = r.fileId ∧ r'.partitionPath = r.partitionPath ∧
      ∀ ts, (sliceAt r' ts).map view = (sliceAt r ts).map view := by
  have hwg := built_wf hg
  have hwo := built_wf ho
  obtain ⟨⟨c1, c2, c3⟩, h1, h2, h3, h4⟩ := (merge_ok_iff hwg.sorted hwo.sorted).1 h
  obtain ⟨r', hr'⟩ := (C18_merge_succeeds_iff o g ho hg).1.2 ⟨c1.symm, c2.symm, by
    simp only [sliceAt_eq]
    intro ts s t hs ht
    have := c3 ts t s ht hs
    simp only [FileSlice.same, Bool.and_eq_true, decide_eq_true_eq] at this
    exact this.1.symm⟩
  obtain ⟨_, k1, k2, k3, k4⟩ := (merge_ok_iff hwo.sorted hwg.sorted).1 hr'
  refine ⟨r', hr', by rw [k1, h1, c1], by rw [k2, h2, c2], fun ts => ?_⟩
  simp only [UniformLogs, sliceAt_eq] at *
  rw [k4, h4]
  cases hs : mapGet ts g.slices with
  | none => cases ht : mapGet ts o.slices <;> rfl
  | some s =>
    cases ht : mapGet ts o.slices with
    | none => rfl
    | some t =>
      have hsame := c3 ts s t hs ht
      simp only [FileSlice.same, Bool.and_eq_true, decide_eq_true_eq] at hsame
      have ss := (hwg.slice ts s hs).2
      have st := (hwo.slice ts t ht).2
      have hn : (setExtend LogFile.cmp t.logFiles s.logFiles).map LogFile.fileName =
          (setExtend LogFile.cmp s.logFiles t.logFiles).map LogFile.fileName := by
        refine names_eq_of_same_members (fileId := fileId) (ext := ext) (setExtend_sorted st)
          (setExtend_sorted ss) ?_ ?_ ?_ ?_
        · intro l hl; exact (setExtend_sub _ _ l hl).elim (huo ts t ht l) (hug ts s hs l)
        · intro l hl; exact (setExtend_sub _ _ l hl).elim (hug ts s hs l) (huo ts t ht l)
        · intro x hx; exact setExtend_covers _ _ x (setExtend_sub _ _ x hx).symm
        · intro x hx; exact setExtend_covers _ _ x (setExtend_sub _ _ x hx).symm
      simp only [combine, Option.map_some, view, hsame.1, hsame.2, hn]

example : ∃ r r', Demo.groupA.merge Demo.groupB = .ok r ∧ Demo.groupB.merge Demo.groupA = .ok r' ∧
    (sliceAt r c!"20240103153000000").map view = (sliceAt r' c!"20240103153000000").map view :=
  ⟨_, _, rfl, rfl, by decide⟩

/-- **C18.**  Merging a group with itself changes nothing, and merging the same group in twice is the
same as merging it in once. -/
theorem C18_merge_idempotent (g o r : FileGroup) (hg : Built g) (ho : Built o) :
    g.merge g = .ok g ∧ (g.merge o = .ok r → r.merge o = .ok r) := by
  have hwg := built_wf hg
  have hwo := built_wf ho
  have hself : ∀ s : FileSlice, s.same s = true := by intro s; simp [FileSlice.same]
  constructor
  · refine (merge_ok_iff hwg.sorted hwg.sorted).2 ⟨⟨rfl, rfl, ?_⟩, rfl, rfl, hwg.sorted, fun ts => ?_⟩
    · intro ts s t hs ht; rw [hs] at ht; cases ht; exact hself s
    · cases hs : mapGet ts g.slices with
      | none => rfl
      | some s =>
        simp only [combine]
        rw [setExtend_of_covered (hwg.slice ts s hs).2
          (fun x hx => ⟨x, hx, Std.ReflCmp.compare_self (cmp := LogFile.cmp)⟩)]
  · intro h
    obtain ⟨⟨c1, c2, c3⟩, h1, h2, h3, h4⟩ := (merge_ok_iff hwg.sorted hwo.sorted).1 h
    refine (merge_ok_iff h3 hwo.sorted).2 ⟨⟨h1.trans c1, h2.trans c2, ?_⟩, rfl, rfl, h3, fun ts => ?_⟩
    · intro ts s t hs ht
      rw [h4, ht] at hs
      cases hg' : mapGet ts g.slices with
      | none => rw [hg'] at hs; cases hs; exact hself _
      | some s0 =>
        rw [hg'] at hs; cases hs
        exact c3 ts s0 t hg' ht
    · rw [h4]
      cases hs : mapGet ts g.slices with
      | none =>
        cases ht : mapGet ts o.slices with
        | none => rfl
        | some t =>
          simp only [combine]
          rw [setExtend_of_covered (hwo.slice ts t ht).2
            (fun x hx => ⟨x, hx, Std.ReflCmp.compare_self (cmp := LogFile.cmp)⟩)]
      | some s =>
        cases ht : mapGet ts o.slices with
        | none => rfl
        | some t =>
          simp only [combine]
          rw [setExtend_of_covered (setExtend_sorted (hwg.slice ts s hs).2)
            (fun x hx => setExtend_covers _ _ x (.inr hx))]

/-- **C18.**  Merging three groups does not depend on how the merges are nested: the same group, or an
error in both cases. -/
theorem C18_merge_associative (g o p : FileGroup) (hg : Built g) (ho : Built o) (hp : Built p) :
    (do let r ← g.merge o; r.merge p) = (do let r ← o.merge p; g.merge r) := by
  have hwg := built_wf hg
  have hwo := built_wf ho
  have hwp := built_wf hp
  have trans : ∀ a b c : FileSlice, a.same b = true → b.same c = true → a.same c = true := by
    intro a b c; simp only [FileSlice.same, Bool.and_eq_true, decide_eq_true_eq]
    rintro ⟨h1, h2⟩ ⟨h3, h4⟩; exact ⟨h1.trans h3, h2.trans h4⟩
  have symm : ∀ a b : FileSlice, a.same b = true → b.same a = true := by
    intro a b; simp only [FileSlice.same, Bool.and_eq_true, decide_eq_true_eq]
    rintro ⟨h1, h2⟩; exact ⟨h1.symm, h2.symm⟩
  -- both sides succeed with the same value, or neither succeeds
  have key : ∀ r, (do let r ← g.merge o; r.merge p) = Res.ok r ↔
      (do let r ← o.merge p; g.merge r) = Res.ok r := by
    intro r
    simp only [Res.bind_eq_ok]
    constructor
    · rintro ⟨a, ha, hr⟩
      have hwa := merge_wf hwg hwo ha
      obtain ⟨⟨c1, c2, c3⟩, h1, h2, h3, h4⟩ := (merge_ok_iff hwg.sorted hwo.sorted).1 ha
      obtain ⟨⟨d1, d2, d3⟩, k1, k2, k3, k4⟩ := (merge_ok_iff hwa.sorted hwp.sorted).1 hr
      have hop : ∀ ts s t, mapGet ts o.slices = some s → mapGet ts p.slices = some t →
          s.same t = true := by
        intro ts s t hs ht
        cases hgs : mapGet ts g.slices with
        | none => exact d3 ts s t (by rw [h4, hgs, hs]; rfl) ht
        | some u =>
          have e1 := c3 ts u s hgs hs
          have e2 := d3 ts { u with logFiles := setExtend LogFile.cmp u.logFiles s.logFiles } t
            (by rw [h4, hgs, hs]; rfl) ht
          exact trans _ _ _ (symm _ _ e1) e2
      obtain ⟨m, f1, f2, f3⟩ := foldMerge_ok hwo.sorted hwp.sorted hop
      refine ⟨{ o with slices := m }, (merge_ok_iff hwo.sorted hwp.sorted).2
        ⟨⟨by rw [← c1, ← h1, d1], by rw [← c2, ← h2, d2], hop⟩, rfl, rfl, f2, f3⟩, ?_⟩
      refine (merge_ok_iff hwg.sorted f2).2 ⟨⟨c1, c2, ?_⟩, by rw [k1, h1], by rw [k2, h2], k3, ?_⟩
      · intro ts s t hs ht
        rw [f3] at ht
        cases hos : mapGet ts o.slices with
        | none =>
          rw [hos] at ht
          exact d3 ts s t (by rw [h4, hs, hos]; rfl) ht
        | some u =>
          rw [hos] at ht
          have e1 := c3 ts s u hs hos
          cases hps : mapGet ts p.slices with
          | none => rw [hps] at ht; cases ht; exact e1
          | some v => rw [hps] at ht; cases ht; exact e1
      · intro ts
        rw [k4, h4, f3]
        cases hs : mapGet ts g.slices with
        | none => rfl
        | some s =>
          cases ht : mapGet ts o.slices with
          | none => cases hu : mapGet ts p.slices <;> rfl
          | some t =>
            cases hu : mapGet ts p.slices with
            | none => rfl
            | some u =>
              simp only [combine]
              rw [setExtend_assoc (hwg.slice ts s hs).2 (hwo.slice ts t ht).2 (hwp.slice ts u hu).2]
    · rintro ⟨a, ha, hr⟩
      have hwa := merge_wf hwo hwp ha
      obtain ⟨⟨c1, c2, c3⟩, h1, h2, h3, h4⟩ := (merge_ok_iff hwo.sorted hwp.sorted).1 ha
      obtain ⟨⟨d1, d2, d3⟩, k1, k2, k3, k4⟩ := (merge_ok_iff hwg.sorted hwa.sorted).1 hr
      have hgo : ∀ ts s t, mapGet ts g.slices = some s → mapGet ts o.slices = some t →
          s.same t = true := by
        intro ts s t hs ht
        cases hps : mapGet ts p.slices with
        | none => exact d3 ts s t hs (by rw [h4, ht, hps]; rfl)
        | some u =>
          exact d3 ts s { t with logFiles := setExtend LogFile.cmp t.logFiles u.logFiles } hs
            (by rw [h4, ht, hps]; rfl)
      obtain ⟨m, f1, f2, f3⟩ := foldMerge_ok hwg.sorted hwo.sorted hgo
      refine ⟨{ g with slices := m }, (merge_ok_iff hwg.sorted hwo.sorted).2
        ⟨⟨by rw [d1, h1], by rw [d2, h2], hgo⟩, rfl, rfl, f2, f3⟩, ?_⟩
      refine (merge_ok_iff f2 hwp.sorted).2 ⟨⟨by show g.fileId = _; rw [d1, h1, c1],
        by show g.partitionPath = _; rw [d2, h2, c2], ?_⟩, k1, k2, k3, ?_⟩
      · intro ts s t hs ht
        rw [f3] at hs
        cases hgs : mapGet ts g.slices with
        | none => rw [hgs] at hs; exact c3 ts s t hs ht
        | some u =>
          cases hos : mapGet ts o.slices with
          | none =>
            rw [hgs, hos] at hs; cases hs
            exact d3 ts s t hgs (by rw [h4, hos, ht]; rfl)
          | some v =>
            rw [hgs, hos] at hs; cases hs
            have e1 := hgo ts u v hgs hos
            exact trans _ _ _ e1 (c3 ts v t hos ht)
      · intro ts
        rw [k4, h4, f3]
        cases hs : mapGet ts g.slices with
        | none => rfl
        | some s =>
          cases ht : mapGet ts o.slices with
          | none => cases hu : mapGet ts p.slices <;> rfl
          | some t =>
            cases hu : mapGet ts p.slices with
            | none => rfl
            | some u =>
              simp only [combine]
              rw [setExtend_assoc (hwg.slice ts s hs).2 (hwo.slice ts t ht).2 (hwp.slice ts u hu).2]
  have errs : ∀ a b : FileGroup, GroupWF a → GroupWF b → (∃ r, a.merge b = .ok r) ∨
      a.merge b = .err .fileGroup := by
    intro a b ha hb
    by_cases h : ∃ r, a.merge b = .ok r
    · exact .inl h
    · refine .inr (merge_err_of_not ha.sorted hb.sorted (fun h' => h ?_))
      obtain ⟨m, f1, f2, f3⟩ := foldMerge_ok ha.sorted hb.sorted h'.2.2
      exact ⟨{ a with slices := m }, (merge_ok_iff ha.sorted hb.sorted).2 ⟨h', rfl, rfl, f2, f3⟩⟩
  have errL : (∃ r, (do let r ← g.merge o; r.merge p) = Res.ok r) ∨
      (do let r ← g.merge o; r.merge p) = Res.err .fileGroup := by
    rcases errs g o hwg hwo with ⟨r, hr⟩ | hr
    · rw [hr]; exact errs r p (merge_wf hwg hwo hr) hwp
    · rw [hr]; exact .inr rfl
  have errR : (∃ r, (do let r ← o.merge p; g.merge r) = Res.ok r) ∨
      (do let r ← o.merge p; g.merge r) = Res.err .fileGroup := by
    rcases errs o p hwo hwp with ⟨r, hr⟩ | hr
    · rw [hr]; exact errs g r hwg (merge_wf hwo hwp hr)
    · rw [hr]; exact .inr rfl
  rcases errL with ⟨r, hr⟩ | hl
  · rw [hr, (key r).1 hr]
  · rcases errR with ⟨r, hr⟩ | hr
    · rw [hr, (key r).2 hr]
    · rw [hl, hr]

example : ∃ r, (do let r ← Demo.groupA.merge Demo.groupB; r.merge Demo.groupA) = Res.ok r := ⟨_, rfl⟩

end Hudi
