import Verif.Spec.Handout
import Verif.Lemmas.Handout
import Verif.Props.Snapshot
import Verif.Props.Splits
import Verif.Props.ReadDemo

/-! # C62: file slices handed out by name -/

namespace Hudi
open Spec

/-- Every slice a query returns is returned by the underlying query. -/
theorem SliceQuery.returns_internal {q : SliceQuery} {E : Env} {A : Arrow} {tb : Table} {t : Tree}
    {c : Cache} {s : FileSlice} (h : q.Returns E A tb t c s) :
    ∃ ts fs ss, q.IsAsOf tb ts ∧ (tb.fileSlicesInternal E A t ts fs c).2 = .ok ss ∧ s ∈ ss := by
  have hasOf : ∀ {ts fs ss}, q.IsAsOf tb ts → (tb.fileSlicesAsOf E A t ts fs c).2 = .ok ss → s ∈ ss →
      ∃ ts fs ss, q.IsAsOf tb ts ∧ (tb.fileSlicesInternal E A t ts fs c).2 = .ok ss ∧ s ∈ ss := by
    intro ts fs ss ha h hs
    obtain ⟨fs', _, h2⟩ := Query.bind_lift_snd.1 h
    exact ⟨ts, fs', ss, ha, h2, hs⟩
  have hlatest : ∀ {fs ss}, (∀ ts, tb.timeline.latestTimestamp = some ts → q.IsAsOf tb ts) →
      (tb.fileSlices E A t fs c).2 = .ok ss → s ∈ ss →
      ∃ ts fs ss, q.IsAsOf tb ts ∧ (tb.fileSlicesInternal E A t ts fs c).2 = .ok ss ∧ s ∈ ss := by
    intro fs ss ha h hs
    unfold Table.fileSlices at h
    cases hl : tb.timeline.latestTimestamp with
    | none => rw [hl] at h; cases h; cases hs
    | some ts => rw [hl] at h; exact hasOf (ts := ts) (fs := fs) (ha ts hl) h hs
  cases q with
  | latest fs => obtain ⟨ss, h1, h2⟩ := h; exact hlatest (fun _ h => h) h1 h2
  | asOf ts fs => obtain ⟨ss, h1, h2⟩ := h; exact hasOf rfl h1 h2
  | splits n fs =>
    obtain ⟨sss, h1, ss, h2, h3⟩ := h
    obtain ⟨e1, e2, e3⟩ := C32_splits E A tb t n fs c _ _ (Eq.refl _ : tb.fileSlices E A t fs c = (_, _))
    cases hr : (tb.fileSlices E A t fs c).2 with
    | ok l =>
      obtain ⟨ss', h4, h5, _⟩ := e1 l hr
      rw [h4] at h1
      cases h1
      refine hlatest (fun _ h => h) hr ?_
      rw [← h5.1]
      exact List.mem_flatten.2 ⟨ss, h2, h3⟩
    | err e => rw [e2 e hr] at h1; cases h1
    | panic => rw [e3 hr] at h1; cases h1
  | splitsAsOf n ts fs =>
    obtain ⟨sss, h1, ss, h2, h3⟩ := h
    obtain ⟨e1, e2, e3⟩ := C32_splits_as_of E A tb t n ts fs c _ _
      (Eq.refl _ : tb.fileSlicesAsOf E A t ts fs c = (_, _))
    cases hr : (tb.fileSlicesAsOf E A t ts fs c).2 with
    | ok l =>
      obtain ⟨ss', h4, h5, _⟩ := e1 l hr
      rw [h4] at h1
      cases h1
      refine hasOf rfl hr ?_
      rw [← h5.1]
      exact List.mem_flatten.2 ⟨ss, h2, h3⟩
    | err e => rw [e2 e hr] at h1; cases h1
    | panic => rw [e3 hr] at h1; cases h1

theorem NamedSlice.readsLike {A : Arrow} {s : FileSlice} (h : NamedSlice s) :
    ReadsLike A (PySlice.ofSlice s) s := by
  intro C M ltz o t
  unfold PySlice.read
  rw [rebuild_eq h, Res.ok_bind, read_bare]

theorem namesFile (s : FileSlice) : NamesFile (PySlice.ofSlice s) :=
  ⟨s.baseFile.writeToken, s.baseFile.extension, by
    show s.baseFile.fileName = _
    unfold BaseFile.fileName
    simp [PySlice.ofSlice]⟩

/-- **C62, snapshot queries.**  After any sequence of queries through a handle, whatever the storage
held at each, the description of any file slice that a query (latest, as of a time, or in splits)
returns names the files of the slice and their file group and time, and reading by the description is reading the slice. -/
theorem C62_read_back (E : Env) (A : Arrow) (tb : Table) (hist : List Tree) (c : Cache)
    (hc : CacheAfter E A tb hist c) (t : Tree) (q : SliceQuery) (s : FileSlice)
    (hs : q.Returns E A tb t c s) :
    (PySlice.ofSlice s).basePath = s.basePath ∧
    (PySlice.ofSlice s).logPaths = s.logFiles.map s.logPath ∧
    NamesFile (PySlice.ofSlice s) ∧ ReadsLike A (PySlice.ofSlice s) s := by
  obtain ⟨ts, fs, ss, _, h1, h2⟩ := SliceQuery.returns_internal hs
  refine ⟨rfl, ?_, namesFile s, (internal_named (cacheAfter_named hc) h1 s h2).readsLike⟩
  unfold PySlice.logPaths PySlice.ofSlice
  rw [List.map_map]
  rfl

/-- **C62, slices changed in a range of time.** -/
theorem C62_read_back_between (E : Env) (A : Arrow) (tb : Table) (t : Tree) (start stop : Option Str)
    (ss : List FileSlice) (h : tb.fileSlicesBetween E t start stop = .ok ss) (s : FileSlice)
    (hs : s ∈ ss) :
    (PySlice.ofSlice s).basePath = s.basePath ∧
    (PySlice.ofSlice s).logPaths = s.logFiles.map s.logPath ∧
    NamesFile (PySlice.ofSlice s) ∧ ReadsLike A (PySlice.ofSlice s) s := by
  refine ⟨rfl, ?_, namesFile s, (between_named h s hs).readsLike⟩
  unfold PySlice.logPaths PySlice.ofSlice
  rw [List.map_map]
  rfl

/-- **C62 (partial), sizes.**  The sizes and the number of records in the description of a slice
returned by a snapshot query are those of the file on the storage, provided that no partition in which an
earlier query found a base file up to the time asked for has disappeared (see C26).  Missing: slices changed in a range of time
(`C62_false`). -/
theorem C62_sizes_partial (E : Env) (A : Arrow) (tb : Table) (hist : List Tree) (c : Cache)
    (hc : CacheAfter E A tb hist c) (hwfs : ∀ t ∈ hist, TreeWF t) (t : Tree) (hwf : TreeWF t)
    (q : SliceQuery) (hkeep : ∀ ts, q.IsAsOf tb ts → StillThere tb.opts hist t ts)
    (s : FileSlice) (hs : q.Returns E A tb t c s) : Describes t (PySlice.ofSlice s) := by
  obtain ⟨hn, _⟩ := cacheAfter_keys hc hwfs
  obtain ⟨ts, fs, ss, ha, h1, h2⟩ := SliceQuery.returns_internal hs
  obtain ⟨excl, schema, p, _, _, _, h4⟩ := fileSlicesInternal_ok.1 h1
  obtain ⟨m, r, hm, hr, rfl⟩ := viewSlicesAsOf_ok.1 h4
  obtain ⟨l, hl, hsl⟩ := List.mem_flatten.1 h2
  obtain ⟨g, hg, hgl⟩ := (Res.mapL_mem hr l).1 hl
  obtain ⟨_, k, s0, hlast, hload⟩ := (mem_pickGroup hgl s).1 hsl
  obtain ⟨stale, hperm, hst⟩ := included_harmless hwf hm hn ((sourced_queries hc hwfs).noStale (hkeep ts ha))
  have hg : g ∈ included A p m := by
    rcases List.mem_append.1 (hperm.mem_iff.1 hg) with hg | hg
    · exact hg
    · rw [hst g hg] at hlast; cases hlast
  obtain ⟨x, gs, _, _, hgs, hgm⟩ := (mem_included hwf hm g).1 hg
  obtain ⟨_, hspec, _⟩ := listFileGroups_spec (hwf.at (pathSegs x)).files_nodup hgs
  obtain ⟨_, hsorted, hsl⟩ := hspec g hgm
  obtain ⟨b, ⟨name, size, _, _, _, hb⟩, _, _, rfl⟩ :=
    (hsl k s0).1 ((mapGet_eq_some hsorted).2 ((mapLastLe_eq_some hsorted).1 hlast).1)
  have hmeta : b.fileMeta = some (FileMeta.new name size) := by
    unfold BaseFile.fromMeta at hb
    obtain ⟨y, _, h⟩ := Res.bind_eq_ok.1 hb
    cases h; rfl
  unfold FileSlice.loadMetadata at hload
  rw [hmeta] at hload
  obtain ⟨mm, h5, h6⟩ := Res.bind_eq_ok.1 hload
  cases h6
  unfold getFileMetadata at h5
  obtain ⟨⟨sz, content⟩, h7, h8⟩ := Res.bind_eq_ok.1 h5
  cases content with
  | parquet byteSize batch =>
    obtain ⟨nm, _, h9⟩ := Res.bind_eq_ok.1 h8
    cases h9
    exact ⟨batch, _, h7, rfl⟩
  | json j => cases h8
  | text j => cases h8
  | bytes j => cases h8
  | junk => cases h8

open Demo in
/-- A slice with a base file and a log file, found by a query through a handle used before, and read
back by its description. -/
example : ∃ c, CacheAfter env arrow morTable [morTree] c ∧ TreeWF morTree ∧
    (SliceQuery.latest []).Returns env arrow morTable morTree c morSlice ∧
    (PySlice.ofSlice morSlice).logFileNames = [morLog] ∧
    (PySlice.ofSlice morSlice).read codec arrow (mergeEnv arrow) env.ltz morTable.opts morTree =
      .ok ⟨mSchema, [mRow c!"1" c!"C" c!"bob" 7, mRow c!"1" c!"A" c!"ann" 5]⟩ := by
  refine ⟨_, .query _ (.asOf t2 []) .opened, by decide, ⟨[morSlice], by decide +kernel, by simp⟩,
    by decide +kernel, by decide +kernel⟩

open Demo in
/-- **C62 as stated is false** of the slices changed in a range of time: they are made from the
commits' metadata and nothing is looked up on the storage, so their descriptions say that the base
file has size 0 and no records, whatever it holds. -/
theorem C62_false : ∃ (E : Env) (tb : Table) (t : Tree) (start stop : Str) (s : FileSlice) (b : Batch),
    TreeWF t ∧ tb.fileSlicesBetween E t (some start) (some stop) = .ok [s] ∧
    ParquetAt t s.basePath b ∧ b.rows.length = 2 ∧ (PySlice.ofSlice s).numRecords = 0 ∧
    ¬ Describes t (PySlice.ofSlice s) := by
  refine ⟨env, incTable, incTree, t1, t2, incSlice, inc, by decide, by decide +kernel, ⟨1, 1, _, rfl⟩, rfl, rfl, ?_⟩
  rintro ⟨b, footer, h, _⟩
  have e : getFile incTree (PySlice.ofSlice incSlice).basePath = .ok (1, .parquet 1 inc) := rfl
  rw [e] at h
  cases h

end Hudi
