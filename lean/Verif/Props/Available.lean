import Verif.Props.Racing

/-! # C67: reads do not fail because writers are at work -/

namespace Hudi
open Spec

theorem height_at_le (t : Tree) (ns : List Str) (h : (t.at ns).dirs ≠ []) : ns.length < t.height := by
  induction ns generalizing t with
  | nil =>
    cases hd : t.dirs with
    | nil => exact absurd hd h
    | cons d ds =>
      have := height_sub_lt (t := t) (n := d) (by rw [hd]; simp)
      simp only [List.length_nil]
      omega
  | cons n ns ih =>
    have h1 := ih (t.sub n) h
    have : n ∈ t.dirs := by
      by_contra hn
      have : t.sub n = .nil := by
        clear ih h h1
        induction t with
        | nil => rfl
        | file m s c rest ih => exact ih hn
        | dir m sub rest _ ih =>
          simp only [Tree.dirs, List.mem_cons, not_or] at hn
          simp only [Tree.sub]
          rw [if_neg (fun e => hn.1 e.symm)]
          exact ih hn.2
      rw [this] at h1
      simp [Tree.height] at h1
    have := height_sub_lt this
    simp only [List.length_cons]
    omega

/-- Partition discovery ends if the directories are never nested deeper than the bound. -/
theorem leafDirsR_returns {R : Race} {k : Nat} (hh : ∀ x, (R.dirs x).height ≤ k) (hwf : ∀ x, TreeWF (R.dirs x))
    (n : Nat) (ns : List Str) (hn : ns ≠ []) (hns : ∀ m ∈ ns, NormalName m) (hl : ns.length ≤ k)
    (hk : k < ns.length + n) : ∃ l, leafDirsR n R (joinWith '/' ns) = .ok l := by
  induction n generalizing ns with
  | zero => omega
  | succ n ih =>
    unfold leafDirsR
    generalize hu : R.dirs (joinWith '/' ns) = u
    have hseg : listDirs u (joinWith '/' ns) = (u.at ns).dirs := by
      unfold listDirs; rw [pathSegs_joinWith hns]
    rw [hseg]
    split
    · exact ⟨_, rfl⟩
    · rename_i hne
      have hlt := height_at_le u ns hne
      have hu' : u.height ≤ k := hu ▸ hh _
      obtain ⟨ls, hls⟩ := Res.mapL_ok_iff_all (f := fun d => leafDirsR n R (pathPush (joinWith '/' ns) d))
        (xs := (u.at ns).dirs) |>.2 (fun d hd => by
          have hdn := ((hu ▸ hwf (joinWith '/' ns) : TreeWF u).at ns).dirs_normal d hd
          show ∃ l, leafDirsR n R (pathPush (joinWith '/' ns) d) = .ok l
          rw [pathPush_join hn hns hdn]
          refine ih (ns ++ [d]) (by simp) ?_ (by simp; omega) (by simp; omega)
          intro m hm
          rcases List.mem_append.1 hm with hm | hm
          · exact hns m hm
          · rw [List.mem_singleton.1 hm]; exact hdn)
      rw [hls]
      exact ⟨_, rfl⟩

/-- The partitions can be discovered and listed. -/
theorem listRelevantR_returns {A : Arrow} {o : Opts} {depth : Nat} {R : Race} {p : Pruner}
    (hwf : ∀ x, TreeWF (R.dirs x)) (hwf' : ∀ x, TreeWF (R.files x)) (hh : ∀ x, (R.dirs x).height ≤ depth)
    (hpar : Partitioned o → ∀ v, hmGet c!"hoodie.read.listing.parallelism" o = some v → parseUsize v ≠ some 0)
    (hlist : ∀ x, PartitionPath o x → Listable (filesOf (R.files x) x)) :
    ∃ m, listRelevantR A o depth R p = .ok m := by
  have hl : ∀ x, PartitionPath o x → ∃ gs, listFileGroups o (R.files x) x = .ok gs := fun x hx =>
    (listFileGroups_ok_iff o (R.files x) x ((hwf' x).at (pathSegs x)).files_nodup).2 (hlist x hx)
  unfold listRelevantR
  rw [isTablePartitioned_eq]
  simp only [Res.ok_bind]
  by_cases hp : Partitioned o
  · simp only [hp, decide_true, Bool.true_eq_false, if_false]
    obtain ⟨n, hn, hn0⟩ := parallelism_ok o
    have hz := hn0.2 (hpar hp)
    have hdn : ∀ d ∈ listDirs (R.dirs []) [], NormalName d := (hwf []).dirs_normal
    have hpaths : ∃ paths, relevantPartitionsR A o depth R p = .ok paths ∧ ∀ x ∈ paths, PartitionPath o x := by
      unfold relevantPartitionsR
      rw [isTablePartitioned_eq]
      simp only [Res.ok_bind, hp, decide_true, Bool.true_eq_false, if_false]
      have htop : ∀ d ∈ (listDirs (R.dirs []) []).filter (fun d => !lakeFormatMetadataDirs.contains d),
          ∃ l, leafDirsR depth R d = .ok l := by
        intro d hd
        have hd1 := (List.mem_filter.1 hd).1
        have := height_sub_lt (t := R.dirs []) (n := d) hd1
        have := hh []
        exact leafDirsR_returns hh hwf depth [d] (by simp) (by simpa using hdn d hd1) (by simp; omega) (by simp)
      obtain ⟨ls, hls⟩ := Res.mapL_ok_iff_all.2 htop
      rw [hls]
      simp only [Res.ok_bind]
      have hmem : ∀ x ∈ ls.flatten, PartitionPath o x := by
        intro x hx
        obtain ⟨l, hl, hx⟩ := List.mem_flatten.1 hx
        obtain ⟨d, hd, hf⟩ := (Res.mapL_mem hls l).1 hl
        have hd1 := hdn d (List.mem_filter.1 hd).1
        obtain ⟨q, hq, rfl⟩ := (leafDirsR_spec hwf depth [d] (by simp) (by simpa using hd1) hf).2.1 x hx
        refine .inr ⟨hp, d, q, ?_, ?_, rfl⟩
        · intro m hm
          rcases List.mem_cons.1 hm with rfl | hm
          · exact hd1
          · exact hq m hm
        · have := (List.mem_filter.1 hd).2
          simpa [lakeFormatMetadataDirs, metadataDirs] using this
      split
      · exact ⟨_, rfl, hmem⟩
      · exact ⟨_, rfl, fun x hx => hmem x (List.mem_filter.1 hx).1⟩
    obtain ⟨paths, h1, h2⟩ := hpaths
    rw [h1, hn]
    simp only [Res.ok_bind, hz, if_false]
    obtain ⟨es, he⟩ := Res.mapL_ok_iff_all (f := listWithPathR o R) (xs := paths) |>.2 (fun x hx => by
      obtain ⟨gs, hg⟩ := hl x (h2 x hx)
      exact ⟨_, listWithPath_ok.2 ⟨gs, hg, rfl⟩⟩)
    rw [he]
    exact ⟨_, rfl⟩
  · simp only [hp, decide_false, if_true]
    obtain ⟨gs, hg⟩ := hl [] (.inl ⟨hp, rfl⟩)
    rw [hg]
    exact ⟨_, rfl⟩

/-- The slices of the read can be collected. -/
theorem fileSlicesInternalR_returns {E : Env} {A : Arrow} {C : Codec} {o : Opts} {t0 t : Tree} {tb : Table}
    {base : Str → Batch} {held : Str → List WBlock} {depth : Nat} {R : Race} {pre : Str}
    (hload : Timeline.load E o t0 = .ok tb.timeline) (hwf0 : ∀ n ∈ timelineNames t0, Spec.NormalName n)
    (hwf : TreeWF t) (hone : ∀ x, PartitionOf tb.opts t x → OneExtension (filesOf t x))
    {ts tzr : Str} (hdata : DataFiles C E.ltz tzr pre tb.opts t base held)
    (hR : AllSeen (Meanwhile C E.ltz tzr tb.opts ts tb.timeline t held) R) (ho : Orderly E.ltz tb.opts ts tb.timeline t R)
    (hh : ∀ x, (R.dirs x).height ≤ depth) {fs : List Filter} {ss : List FileSlice}
    (hq : (tb.fileSlicesInternal E A t ts fs []).2 = .ok ss) :
    ∃ ss', tb.fileSlicesInternalR E A depth R ts fs = .ok ss' := by
  obtain ⟨excl, sc, p, h3, h4, h5, h6⟩ := fileSlicesInternal_ok.1 hq
  unfold Table.fileSlicesInternalR
  rw [replacedAsOfR_same hload hwf0 (fun i hi => (hR.replaced i).docs i hi) h3]
  simp only [Res.ok_bind]
  rw [partitionSchemaR_same hload hwf0 hR.latest.docs hR.schema.columns h4]
  simp only [Res.ok_bind]
  rw [h5]
  simp only [Res.ok_bind]
  obtain ⟨hpar, _, _⟩ := (view_answers hwf).1 ⟨ss, h6⟩
  obtain ⟨m, hm⟩ := listRelevantR_returns (A := A) (p := p) (fun x => (hR.dirs x).wf) (fun x => (hR.files x).wf) hh
    hpar ho.listable
  unfold viewSlicesAsOfR
  rw [hm]
  simp only [Res.ok_bind]
  obtain ⟨hn, Found, f1, f2, f3, f4⟩ := listRelevantR_found
    (P := fun x => ∃ b, Wanted E.ltz tb.opts ts tb.timeline t x b) (fun x => (hR.dirs x).wf)
    (fun x ⟨b, hb⟩ y => (hR.dirs y).partitions x b hb) hm
  have hS := view_snapshot hwf hone h6
  rw [show hmExtend [] m = m from hmOfList_eq hn]
  obtain ⟨ls, hls⟩ := Res.mapL_ok_iff_all (f := pickGroupR R ts excl) (xs := included A p m) |>.2 (fun g hg => by
    obtain ⟨x, gs, hpart, hi, hgs, hgm⟩ := (mem_includedR hn f3 g).1 hg
    obtain ⟨_, hsp, _⟩ := listFileGroups_spec ((hR.files x).wf.at (pathSegs x)).files_nodup hgs
    obtain ⟨hpp, hsorted, hget⟩ := hsp g hgm
    unfold pickGroupR
    split
    · exact ⟨_, rfl⟩
    · rename_i hex
      split
      · exact ⟨_, rfl⟩
      · rename_i k s hlast
        obtain ⟨e1, e2, e3⟩ := (mapLastLe_eq_some hsorted).1 hlast
        obtain ⟨b, a1, a2, a3, a4⟩ := (hget k s).1 ((mapGet_eq_some hsorted).2 e1)
        obtain ⟨c1, c2⟩ := (hR.files x).newBases x b (f2 x hpart) a1 (by rw [a3]; exact e2)
        -- the base file is the one that the snapshot shows
        obtain ⟨s0, hs0, q1, q2⟩ := hS.complete x ⟨c1, hi⟩ b c2 (by rw [a3]; exact e2) (by
          rintro ⟨g', hg', hid⟩
          refine hex (List.any_eq_true.2 ⟨g', hg', ?_⟩)
          rw [same_iff]
          exact ⟨(Prod.mk.inj hid).2.trans a2, (Prod.mk.inj hid).1.trans hpp.symm⟩)
        obtain ⟨b0, m0, hw, q3⟩ := snapshot_wanted hload hwf0 h3 hS hs0
        rw [q1] at hw
        have q4 : b0.fileId = b.fileId := by rw [← q2, q3]
        have hbin := (hR.files x).bases x b0 hw
        have hle : (compare b0.commitTimestamp b.commitTimestamp).isLE := by
          rw [a3]
          obtain ⟨sl, hsl⟩ : ∃ sl, (b0.commitTimestamp, sl) ∈ g.slices :=
            ⟨_, (mapGet_eq_some hsorted).1 ((hget b0.commitTimestamp _).2 ⟨b0, hbin, q4.trans a2, rfl, rfl⟩)⟩
          exact e3 _ hsl hw.upTo
        have hts : b0.commitTimestamp = b.commitTimestamp :=
          str_le_antisymm hle (hw.latest b c2 q4.symm (by rw [a3]; exact e2))
        obtain rfl : b0 = b := (view_listable hwf h6 x c1 hi).unique b0 b hw.base c2 q4 hts
        obtain ⟨b1, b2, b3⟩ := hdata.bases x c1 b0 c2
        have hnb := (baseIn_normal hwf c2).1
        have hbp : s.basePath = pathPush x b0.fileName := by rw [a4]; rfl
        have hu := (hR.sizes s.basePath).parquet _ b0 hw _ b1
        have hin : BaseIn (filesOf (R.sizes s.basePath) x) b0 := (hR.sizes s.basePath).bases x b0 hw
        have : ∃ s', s.loadMetadata (R.sizes s.basePath) = .ok s' := by
          have hwu := (hR.sizes s.basePath).wf
          generalize R.sizes s.basePath = u at hu hin hwu ⊢
          rw [a4]
          refine (loadMetadata_iff hwu (s := ⟨b0, _, x⟩) hin).2 ?_
          obtain ⟨sz, bs, hf⟩ := hu
          rw [pathSegs_pathPush hnb, fileAt_append] at hf
          exact ⟨sz, bs, _, hf⟩
        obtain ⟨s', hs'⟩ := this
        rw [hs']
        exact ⟨_, rfl⟩)
  exact ⟨ls.flatten, by unfold included at hls; rw [hls]; rfl⟩

/-- **C67 (partial).**  A read of the snapshot as of `ts` returns whenever it returns without writers, and the
same batches, up to the order of batches and rows: if each of its requests is answered by whatever
the storage holds at that moment, while writers add base files, partitions and log files and append whole blocks
to log files, all later than `ts`, and cleaners remove files that the snapshot does not show.  Missing: blocks of
which only a part has been written (`C67_false`), and directories that cannot be listed for the moment, as when a
cleaner has removed a base file but not yet the log files written against it. -/
theorem C67_read_returns_partial (E : Env) (A : Arrow) (C : Codec) (M : MergeEnv A) (o : Opts)
    (t0 t : Tree) (tb : Table) (base : Str → Batch) (held : Str → List WBlock) (depth : Nat) (R : Race)
    (hload : Timeline.load E o t0 = .ok tb.timeline) (hwf0 : ∀ n ∈ timelineNames t0, Spec.NormalName n)
    (hwf : TreeWF t) (hone : ∀ x, PartitionOf tb.opts t x → OneExtension (filesOf t x))
    (ts tzr pre : Str) (hp : PlainStorage tb) (hm : PrecombinedBy tb.opts pre) (hstart : startOf tb.opts = none)
    (htzr : timezoneOf tb.opts = .ok tzr) (hts : ∃ d, parseDatetime E.ltz ts tzr = .ok d)
    (hdata : DataFiles C E.ltz tzr pre tb.opts t base held) (hkeys : OneRowPerKey tb.opts t base)
    (hheld : HeldOnly tb.opts t held)
    (hR : AllSeen (Meanwhile C E.ltz tzr tb.opts ts tb.timeline t held) R) (ho : Orderly E.ltz tb.opts ts tb.timeline t R)
    (hdepth : ∀ x, (R.dirs x).height ≤ depth) (filters : List (Str × Str × Str)) (ss : List FileSlice)
    (hq : (tb.fileSlicesAsOf E A t ts filters []).2 = .ok ss) :
    ∃ outs outs', (tb.readSnapshotAsOf E A C M t ts filters []).2 = .ok outs ∧
      tb.readSnapshotAsOfR E A C M depth R ts filters = .ok outs' ∧
      SameBatches outs outs' := by
  obtain ⟨fs, hfs, h2⟩ := Query.bind_lift_snd.1 hq
  obtain ⟨ss', h2'⟩ := fileSlicesInternalR_returns (depth := depth) hload hwf0 hwf hone hdata hR ho hdepth h2
  obtain ⟨p1, p2, _⟩ := racing_pairs hload hwf0 hwf hone hR h2 h2'
  obtain ⟨outs, outs', r1, r2, r3⟩ := racing_read E A C M o t0 t tb base held depth R hload hwf0 hwf hone ts tzr pre
    hp hm hstart htzr hts hdata hkeys hheld hR fs ss ss' h2 h2' (by
      intro hrd s' hs' l hl
      obtain ⟨s, _, hg⟩ := p2 s' hs'
      have hlp : s'.logPath l = pathPush s.partitionPath l.fileName := by
        unfold FileSlice.logPath FileSlice.relativePathFor; rw [hg.path]
      rw [hlp]
      obtain ⟨b, m, m', hw, e1, _⟩ := hg.base
      obtain ⟨g1, g2, g3⟩ := (hg.logs' l).1 hl
      rw [e1] at g2 g3
      exact ho.kept hrd _ b hw l g1 ⟨g2, g3⟩)
  refine ⟨outs, outs', ?_, ?_, r3⟩
  · unfold Table.readSnapshotAsOf
    refine Query.bind_lift_snd.2 ⟨fs, hfs, ?_⟩
    unfold Table.readSnapshotInternal
    rw [Query.bind_snd]
    exact ⟨ss, h2, r1⟩
  · unfold Table.readSnapshotAsOfR
    rw [hfs]
    simp only [Res.ok_bind]
    unfold Table.readSnapshotInternalR
    rw [h2']
    exact r2

/-- **C67, the latest snapshot (partial).**  Missing: as in `C67_read_returns_partial`. -/
theorem C67_latest_read_returns_partial (E : Env) (A : Arrow) (C : Codec) (M : MergeEnv A) (o : Opts)
    (t0 t : Tree) (tb : Table) (base : Str → Batch) (held : Str → List WBlock) (depth : Nat) (R : Race)
    (hload : Timeline.load E o t0 = .ok tb.timeline) (hwf0 : ∀ n ∈ timelineNames t0, Spec.NormalName n)
    (hwf : TreeWF t) (hone : ∀ x, PartitionOf tb.opts t x → OneExtension (filesOf t x))
    (ts tzr pre : Str) (hlast : tb.timeline.latestTimestamp = some ts)
    (hp : PlainStorage tb) (hm : PrecombinedBy tb.opts pre) (hstart : startOf tb.opts = none)
    (htzr : timezoneOf tb.opts = .ok tzr) (hts : ∃ d, parseDatetime E.ltz ts tzr = .ok d)
    (hdata : DataFiles C E.ltz tzr pre tb.opts t base held) (hkeys : OneRowPerKey tb.opts t base)
    (hheld : HeldOnly tb.opts t held)
    (hR : AllSeen (Meanwhile C E.ltz tzr tb.opts ts tb.timeline t held) R) (ho : Orderly E.ltz tb.opts ts tb.timeline t R)
    (hdepth : ∀ x, (R.dirs x).height ≤ depth) (filters : List (Str × Str × Str)) (ss : List FileSlice)
    (hq : (tb.fileSlices E A t filters []).2 = .ok ss) :
    ∃ outs outs', (tb.readSnapshot E A C M t filters []).2 = .ok outs ∧
      tb.readSnapshotR E A C M depth R filters = .ok outs' ∧
      SameBatches outs outs' := by
  obtain ⟨e1, e2, e3⟩ := readSnapshotR_eq E A C M tb depth R t ts hlast filters
  rw [e3] at hq
  rw [e1, e2]
  exact C67_read_returns_partial E A C M o t0 t tb base held depth R hload hwf0 hwf hone ts tzr pre hp hm hstart
    htzr hts hdata hkeys hheld hR ho hdepth filters ss hq

end Hudi
