import Verif.Lemmas.Listing
import Verif.Lemmas.Store

/-! # C23: listing one partition -/

namespace Hudi
open Spec

/-- **C23 (partial).**  A partition listing succeeds exactly when the directory is listable, and
otherwise reports an error; when it succeeds the file groups are exactly what the directory holds:
one group per file id with a base file, each base file in the slice of its commit, each log file of
such a file id in the slice it was written against, and nothing else.  What is missing: the log files
of a file id that has no base file are dropped (`C23_false`). -/
theorem C23_listing_partial (o : Opts) (t : Tree) (partition : Str) (hwf : TreeWF t)
    (hone : OneExtension (t.at (pathSegs partition)).files) :
    (Listable (t.at (pathSegs partition)).files → ∃ gs, listFileGroups o t partition = .ok gs ∧
      ListingOf (t.at (pathSegs partition)).files partition gs) ∧
    (¬ Listable (t.at (pathSegs partition)).files → ∃ e, listFileGroups o t partition = .err e) := by
  have hnd := (hwf.at (pathSegs partition)).files_nodup
  have hiff := listFileGroups_ok_iff o t partition hnd
  constructor
  · intro h
    obtain ⟨gs, hgs⟩ := hiff.2 h
    exact ⟨gs, hgs, listFileGroups_listing hnd hone hgs⟩
  · intro h
    cases hgs : listFileGroups o t partition with
    | ok gs => exact absurd (hiff.1 ⟨gs, hgs⟩) h
    | err e => exact ⟨e, rfl⟩
    | panic => exact absurd hgs (listFileGroups_ne_panic o t partition)

/-- A listing is determined by the directory, up to the order of the file groups. -/
theorem Spec.ListingOf.unique {files files' : List (Str × Nat)} {partition : Str}
    {gs gs' : List FileGroup} (h : ListingOf files partition gs) (h' : ListingOf files' partition gs')
    (hf : ∀ e, e ∈ files ↔ e ∈ files') (hw : ∀ g ∈ gs, GroupWF g) (hw' : ∀ g ∈ gs', GroupWF g) :
    gs.Perm gs' := by
  have hB : ∀ b, BaseIn files b ↔ BaseIn files' b := fun b => by simp [BaseIn, hf]
  have hL : ∀ l, LogIn files l ↔ LogIn files' l := fun b => by simp [LogIn, hf]
  have key : ∀ {files files' : List (Str × Nat)} {gs gs' : List FileGroup},
      ListingOf files partition gs → ListingOf files' partition gs' →
      (∀ b, BaseIn files b ↔ BaseIn files' b) → (∀ l, LogIn files l ↔ LogIn files' l) →
      (∀ g ∈ gs, GroupWF g) → (∀ g ∈ gs', GroupWF g) → ∀ g ∈ gs, g ∈ gs' := by
    intro files files' gs gs' h h' hB hL hw hw' g hg
    obtain ⟨b, hb, hbf⟩ := (h.groups g.fileId).1 ⟨g, hg, rfl⟩
    obtain ⟨g', hg', hid⟩ := (h'.groups g.fileId).2 ⟨b, (hB b).1 hb, hbf⟩
    have hsame : g.slices = g'.slices := by
      refine (hw g hg).sorted.ext (hw' g' hg').sorted (fun ts => ?_)
      have half : ∀ {files files' : List (Str × Nat)} {gs gs' : List FileGroup} {g g' : FileGroup}
          (_ : ListingOf files partition gs) (_ : ListingOf files' partition gs')
          (_ : ∀ b, BaseIn files b ↔ BaseIn files' b) (_ : ∀ l, LogIn files l ↔ LogIn files' l)
          (_ : GroupWF g) (_ : GroupWF g') (_ : g ∈ gs) (_ : g' ∈ gs') (_ : g'.fileId = g.fileId) s,
          mapGet ts g.slices = some s → mapGet ts g'.slices = some s := by
        intro files files' gs gs' g g' h h' hB hL hw hw' hg hg' hid s hs
        obtain ⟨a1, a2, a3, a4, a5⟩ := h.slices g hg ts s (by rw [sliceAt_eq]; exact hs)
        obtain ⟨s', b1, b2⟩ := h'.bases g' hg' s.baseFile ((hB _).1 a1) (a2.trans hid.symm)
        rw [a3] at b1
        obtain ⟨c1, c2, c3, c4, c5⟩ := h'.slices g' hg' ts s' b1
        rw [sliceAt_eq] at b1
        have hlog : s.logFiles = s'.logFiles := by
          refine (hw.slice ts s hs).2.ext (hw'.slice ts s' b1).2 (fun l => ?_)
          rw [a5, c5, hL, hid]
        rw [b1]
        congr 1
        cases s; cases s'
        simp only at b2 hlog a4 c4
        rw [b2, hlog, a4, c4]
      have one := half h h' hB hL (hw g hg) (hw' g' hg') hg hg' hid
      have two := half h' h (fun b => (hB b).symm) (fun l => (hL l).symm) (hw' g' hg') (hw g hg) hg' hg
        hid.symm
      exact Option.ext (fun s => ⟨one s, two s⟩)
    have : g = g' := by
      have e1 := h.inPartition g hg
      have e2 := h'.inPartition g' hg'
      cases g; cases g'
      simp only at hsame hid e1 e2
      rw [hsame, hid, e1, e2]
    exact this ▸ hg'
  exact (List.perm_ext_iff_of_nodup h.distinct.of_map h'.distinct.of_map).2 (fun g =>
    ⟨key h h' hB hL hw hw' g, key h' h (fun b => (hB b).symm) (fun l => (hL l).symm) hw' hw g⟩)

/-- **C23, listing order.**  If two stores hold the same files in a partition, listed in any two
orders, the listings are the same up to the order of the file groups; if one fails, so does the
other. -/
theorem C23_listing_order_irrelevant (o : Opts) (t t' : Tree) (partition : Str) (hwf : TreeWF t)
    (hwf' : TreeWF t') (hone : OneExtension (t.at (pathSegs partition)).files)
    (hf : ∀ e, e ∈ (t.at (pathSegs partition)).files ↔ e ∈ (t'.at (pathSegs partition)).files) :
    (∀ gs, listFileGroups o t partition = .ok gs →
      ∃ gs', listFileGroups o t' partition = .ok gs' ∧ gs.Perm gs') ∧
    ((∃ e, listFileGroups o t partition = .err e) →
      ∃ e, listFileGroups o t' partition = .err e) := by
  have hB : ∀ b, BaseIn (t.at (pathSegs partition)).files b ↔
      BaseIn (t'.at (pathSegs partition)).files b := fun b => by simp [BaseIn, hf]
  have hL : ∀ b, LogIn (t.at (pathSegs partition)).files b ↔
      LogIn (t'.at (pathSegs partition)).files b := fun b => by simp [LogIn, hf]
  have hone' : OneExtension (t'.at (pathSegs partition)).files :=
    fun l l' h1 h2 => hone l l' ((hL _).2 h1) ((hL _).2 h2)
  have hlist : Listable (t.at (pathSegs partition)).files ↔
      Listable (t'.at (pathSegs partition)).files := by
    constructor
    · rintro ⟨h1, h2, h3⟩
      refine ⟨fun n s hm => h1 n s ((hf _).2 hm), fun b b' hb hb' => h2 b b' ((hB _).2 hb) ((hB _).2 hb'),
        fun l hl => ?_⟩
      simpa only [hB] using h3 l ((hL l).2 hl)
    · rintro ⟨h1, h2, h3⟩
      refine ⟨fun n s hm => h1 n s ((hf _).1 hm), fun b b' hb hb' => h2 b b' ((hB _).1 hb) ((hB _).1 hb'),
        fun l hl => ?_⟩
      simpa only [hB] using h3 l ((hL l).1 hl)
  have hnd := (hwf.at (pathSegs partition)).files_nodup
  have hnd' := (hwf'.at (pathSegs partition)).files_nodup
  constructor
  · intro gs hgs
    have hl := (listFileGroups_ok_iff o t partition hnd).1 ⟨gs, hgs⟩
    obtain ⟨gs', hgs'⟩ := (listFileGroups_ok_iff o t' partition hnd').2 (hlist.1 hl)
    exact ⟨gs', hgs', (listFileGroups_listing hnd hone hgs).unique
      (listFileGroups_listing hnd' hone' hgs') hf (listFileGroups_wf hnd hgs)
      (listFileGroups_wf hnd' hgs')⟩
  · rintro ⟨e, he⟩
    refine (C23_listing_partial o t' partition hwf' hone').2 (fun hl => ?_)
    obtain ⟨gs, hgs, _⟩ := (C23_listing_partial o t partition hwf hone).1 (hlist.2 hl)
    rw [he] at hgs; cases hgs

/-- **C23, metadata files.**  No base file or log file of a listing has the name of a partition
metadata or checksum file. -/
theorem C23_metadata_files_never_appear (o : Opts) (t : Tree) (partition : Str) (hwf : TreeWF t)
    (hone : OneExtension (t.at (pathSegs partition)).files) (gs : List FileGroup)
    (h : listFileGroups o t partition = .ok gs) :
    ∀ g ∈ gs, ∀ ts s, sliceAt g ts = some s →
      (∀ m, s.baseFile.fileMeta = some m → ¬ Ignored m.name) ∧
      ∀ l ∈ s.logFiles, ∀ m, l.fileMeta = some m → ¬ Ignored m.name := by
  intro g hg ts s hs
  obtain ⟨⟨n, sz, _, a1, _, a2⟩, _, _, _, a5⟩ := (listFileGroups_listing
    (hwf.at (pathSegs partition)).files_nodup hone h).slices g hg ts s hs
  constructor
  · intro m hm
    rw [BaseFile.fromMeta_meta a2] at hm
    cases hm; exact a1
  · intro l hl m hm
    obtain ⟨⟨n', sz', _, b1, _, b2⟩, _⟩ := (a5 l).1 hl
    rw [LogFile.fromMeta_meta b2] at hm
    cases hm; exact b1

namespace Demo

/-- A partition with two file groups, one of them with two versions and log files, a metadata file, a
checksum file and a foreign file. -/
def listTree : Tree :=
  .dir c!"p"
    (.file c!".hoodie_partition_metadata" 96 .junk
    (.file c!".f1_20240102000000000.log.1_0-1-2" 10 .junk
    (.file c!"f1_0-0-1_20240101000000000.parquet" 20 .junk
    (.file c!"f2_0-0-1_20240101000000000.parquet" 30 .junk
    (.file c!".f1_20240102000000000.log.2_0-1-2" 11 .junk
    (.file c!".f1_0-0-1_20240101000000000.parquet.crc" 8 .junk
    (.file c!"README" 5 .junk
    (.file c!"f1_0-0-2_20240102000000000.parquet" 21 .junk .nil)))))))) .nil

end Demo

/-- The hypotheses are met and the listing is what one expects: two file groups, the first with two
slices, the later of which has two log files. -/
example : TreeWF Demo.listTree ∧
    (∃ gs, listFileGroups [] Demo.listTree c!"p" = .ok gs ∧
      gs.map (fun g => (g.fileId, g.slices.map (fun e => (e.1, e.2.logFiles.length)))) =
        [(c!"f1", [(c!"20240101000000000", 0), (c!"20240102000000000", 2)]),
         (c!"f2", [(c!"20240101000000000", 0)])]) :=
  ⟨by decide, _, rfl, by decide⟩

theorem oneExtension_of {files : List (Str × Nat)}
    (h : ∀ a ∈ logsOf (metas files), ∀ b ∈ logsOf (metas files), a.fileId = b.fileId →
      a.baseCommitTimestamp = b.baseCommitTimestamp → a.version = b.version →
      a.writeToken = b.writeToken → a = b) : OneExtension files :=
  fun l l' h1 h2 => h l (mem_logsOf.2 h1) l' (mem_logsOf.2 h2)

example : OneExtension (Demo.listTree.at (pathSegs c!"p")).files := oneExtension_of (by decide)

/-- **C23 is false.**  A partition that holds only log files of a file group (which Hudi writes when
records are first inserted into log files) lists as empty: the log file is in no slice. -/
theorem C23_false : ∃ (t : Tree) (partition : Str) (l : LogFile) (gs : List FileGroup),
    TreeWF t ∧ OneExtension (t.at (pathSegs partition)).files ∧
    Listable (t.at (pathSegs partition)).files ∧ LogIn (t.at (pathSegs partition)).files l ∧
    listFileGroups [] t partition = .ok gs ∧ ∀ g ∈ gs, ∀ e ∈ g.slices, l ∉ e.2.logFiles := by
  have hok : listFileGroups [] (.dir c!"p" (.file c!".f1_20240102000000000.log.1_0-1-2" 10 .junk .nil)
    .nil) c!"p" = .ok [] := rfl
  have hwf : TreeWF (.dir c!"p" (.file c!".f1_20240102000000000.log.1_0-1-2" 10 .junk .nil) .nil) := by
    decide
  refine ⟨_, c!"p", ⟨c!"f1", c!"20240102000000000", c!"log", c!"1", c!"0-1-2",
    some (FileMeta.new c!".f1_20240102000000000.log.1_0-1-2" 10)⟩, [], hwf,
    oneExtension_of (by decide),
    (listFileGroups_ok_iff [] _ c!"p" (by decide)).1 ⟨_, hok⟩, mem_logsOf.1 (by decide), hok, by simp⟩

end Hudi
