import Verif.Spec.Healthy
import Verif.Props.Snapshot
import Verif.Props.FileNames

/-! # Lemmas: when queries have an answer -/

namespace Hudi
open Spec

theorem pathSegs_pathPush {x n : Str} (hn : NormalName n) :
    pathSegs (pathPush x n) = pathSegs x ++ [n] := by
  have hu := urlSegment_normal hn
  obtain ⟨h1, h2, h3, h4, _⟩ := hn
  have hp : pathPush x n = if x = [] ∨ x.getLast? = some '/' then x ++ n else x ++ c!"/" ++ n := by
    unfold pathPush
    split
    · exact absurd (by simp) h2
    · rfl
  have hone : ((splitAll '/' n).map urlSegment).filter (fun s => decide (s ≠ []) && decide (s ≠ c!".") && decide (s ≠ c!".."))
      = [n] := by
    rw [splitAll_single h2]
    simp [h1, h3, h4, hu]
  rw [hp]
  unfold pathSegs
  split
  · rename_i h
    rcases h with rfl | h
    · simpa [splitAll, urlSegment] using hone
    · obtain ⟨y, rfl⟩ : ∃ y, x = y ++ ['/'] := by
        obtain ⟨y, hy⟩ := List.getLast?_eq_some_iff.1 h
        exact ⟨y, hy⟩
      have e1 : splitAll '/' (y ++ ['/'] ++ n) = splitAll '/' y ++ splitAll '/' n := by
        rw [← splitAll_append_last]; simp
      have e2 : splitAll '/' (y ++ ['/']) = splitAll '/' y ++ splitAll '/' [] := splitAll_append_last y []
      rw [e1, e2, List.map_append, List.map_append, List.filter_append, List.filter_append, hone]
      simp [splitAll, urlSegment]
  · have e1 : splitAll '/' (x ++ c!"/" ++ n) = splitAll '/' x ++ splitAll '/' n := by
      rw [← splitAll_append_last]; simp
    rw [e1, List.map_append, List.filter_append, hone]

theorem fileAt_append {t : Tree} (p : List Str) (n : Str) : t.fileAt (p ++ [n]) = (t.at p).file? n := by
  induction p generalizing t with
  | nil => rfl
  | cons a p ih =>
    cases p with
    | nil => rfl
    | cons b p => exact ih (t := t.sub a)

theorem baseFile_fromMeta_parts {m : FileMeta} {b : BaseFile} (h : BaseFile.fromMeta m = .ok b) :
    b.fileMeta = some m ∧ BaseFile.fromStr m.name = .ok { b with fileMeta := none } := by
  unfold BaseFile.fromMeta at h
  obtain ⟨⟨fid, tok, ts, ext⟩, h1, h2⟩ := Res.bind_eq_ok.1 h
  cases h2
  refine ⟨rfl, ?_⟩
  unfold BaseFile.fromStr
  rw [h1]; rfl

theorem baseIn_normal {t : Tree} (h : TreeWF t) {x : Str} {b : BaseFile}
    (hb : BaseIn (filesOf t x) b) : NormalName b.fileName ∧ b.fileMeta.any (fun m => m.full) = false := by
  obtain ⟨name, size, h1, _, _, h4⟩ := hb
  obtain ⟨hm, hs⟩ := baseFile_fromMeta_parts h4
  have hnn : NormalName name := (h.at (pathSegs x)).files_normal _ h1
  obtain ⟨more, e1, e2, _, e4⟩ := baseFile_fromStr_ok hs
  simp only [FileMeta.new] at e1
  have hsub : ∀ d ∈ b.fileName, d ∈ name := by
    intro d hc
    rw [e1]
    simp only [BaseFile.fileName, List.mem_append, List.mem_cons, List.not_mem_nil, or_false] at hc
    cases more with
    | nil =>
      simp only [joinWith, List.mem_append, List.mem_cons]
      tauto
    | cons q qs =>
      simp only [joinWith, List.mem_append, List.mem_cons]
      tauto
  have hu : '_' ∈ b.fileName := by simp [BaseFile.fileName]
  refine ⟨⟨?_, fun hs => hnn.2.1 (hsub _ hs), ?_, ?_, fun d hd => hnn.2.2.2.2 d (hsub d hd)⟩, ?_⟩
  · intro hc; rw [hc] at hu; cases hu
  · intro hc; rw [hc] at hu; revert hu; decide
  · intro hc; rw [hc] at hu; revert hu; decide
  · rw [hm]; rfl

theorem loadMetadata_iff {t : Tree} (h : TreeWF t) {s : FileSlice}
    (hb : BaseIn (filesOf t s.partitionPath) s.baseFile) :
    (∃ s', s.loadMetadata t = .ok s') ↔ ParquetIn t s.partitionPath s.baseFile.fileName := by
  obtain ⟨hn, hfull⟩ := baseIn_normal h hb
  unfold FileSlice.loadMetadata
  rw [hfull]
  simp only [Bool.false_eq_true, if_false]
  have hseg : pathSegs s.basePath = pathSegs s.partitionPath ++ [s.baseFile.fileName] :=
    pathSegs_pathPush hn
  unfold ParquetIn getFileMetadata getFile
  rw [hseg, fileAt_append]
  simp only [List.getLast?_append, List.getLast?_singleton, Option.some_or, Res.ofOption_some]
  cases (t.at (pathSegs s.partitionPath)).file? s.baseFile.fileName with
  | none => simp
  | some e =>
    obtain ⟨size, c⟩ := e
    cases c <;> simp

theorem parquetSchema_ok {t : Tree} {path : Str} {s : Schema} :
    getParquetSchema t path = .ok s ↔ ColumnsAt t path s := by
  unfold getParquetSchema getFile ColumnsAt
  cases t.fileAt (pathSegs path) with
  | none => simp
  | some e =>
    obtain ⟨size, c⟩ := e
    cases c with
    | parquet k b footer => simp
    | _ => simp

theorem latestSchema_ok {E : Env} {o : Opts} {t0 t : Tree} {tl : Timeline}
    (hload : Timeline.load E o t0 = .ok tl) (hwf0 : ∀ n ∈ timelineNames t0, Spec.NormalName n) {s : Schema} :
    tl.latestSchema t = .ok s ↔ ∃ i md path, tl.completed.getLast? = some i ∧ docOf t i = some md ∧
      FirstFile md path ∧ ColumnsAt t path s := by
  have hmd : ∀ md, tl.latestMetadata t = .ok md ↔
      (tl.completed.getLast? = none ∧ md = []) ∨
      ∃ i, tl.completed.getLast? = some i ∧ docOf t i = some md := by
    intro md
    unfold Timeline.latestMetadata
    cases hl : tl.completed.getLast? with
    | none => simp [eq_comm]
    | some i =>
      obtain ⟨h1, h2⟩ := instantMetadata_doc (t := t) hload hwf0 (List.mem_of_getLast? hl)
      simp only [reduceCtorEq, false_and, false_or, Option.some.injEq, exists_eq_left']
      cases hd : docOf t i with
      | none =>
        obtain ⟨e, he⟩ := h2 hd
        rw [he]; simp
      | some md' => rw [h1 md' hd]; simp
  unfold Timeline.latestSchema schemaOfCommit
  rw [Res.bind_eq_ok]
  constructor
  · rintro ⟨md, h1, h2⟩
    obtain ⟨⟨partition, stats⟩, h3, h4⟩ := Res.bind_eq_ok.1 h2
    rw [Res.ofOption_eq_ok] at h3
    rcases (hmd md).1 h1 with ⟨_, rfl⟩ | ⟨i, hi, hd⟩
    · simp [jGet] at h3
    obtain ⟨l, h5, h6⟩ := Option.bind_eq_some_iff.1 h3
    obtain ⟨j, h7, h8⟩ := Option.bind_eq_some_iff.1 h5
    obtain rfl : j = .obj l := by cases j <;> simp_all [Json.asObj]
    obtain ⟨parts, rfl⟩ : ∃ parts, l = (partition, stats) :: parts := by
      cases l with
      | nil => cases h6
      | cons a l => simp at h6; exact ⟨l, by rw [h6]⟩
    simp only at h4
    split at h4
    · rename_i written hw
      obtain ⟨j, hw1, hw2⟩ := Option.bind_eq_some_iff.1 hw
      obtain ⟨stat, hw3, hw4⟩ := Option.bind_eq_some_iff.1 hw1
      obtain ⟨l2, hw5, hw6⟩ := Option.bind_eq_some_iff.1 hw3
      obtain rfl : j = .str written := by cases j <;> simp_all [Json.asStr]
      obtain rfl : stats = .arr l2 := by cases stats <;> simp_all [Json.asArr]
      obtain ⟨stats', rfl⟩ : ∃ stats', l2 = stat :: stats' := by
        cases l2 with
        | nil => cases hw6
        | cons a l => simp at hw6; exact ⟨l, by rw [hw6]⟩
      obtain ⟨so, hs1, hs2⟩ := Option.bind_eq_some_iff.1 hw4
      obtain rfl : stat = .obj so := by cases stat <;> simp_all [Json.asObj]
      by_cases he : endsWith c!".parquet" written = true
      · rw [if_pos he] at h4
        exact ⟨i, md, written, hi, hd, ⟨partition, so, stats', parts, written, h7, hs2,
          .inl ⟨(endsWith_iff _ _).1 he, rfl⟩⟩, parquetSchema_ok.1 h4⟩
      · rw [if_neg he] at h4
        obtain ⟨base, hb0, h4⟩ := Res.bind_eq_ok.1 h4
        rw [Res.ofOption_eq_ok] at hb0
        obtain ⟨j, hj1, hj2⟩ := Option.bind_eq_some_iff.1 hb0
        obtain rfl : j = .str base := by cases j <;> simp_all [Json.asStr]
        refine ⟨i, md, _, hi, hd, ⟨partition, so, stats', parts, written, h7, hs2,
          .inr ⟨fun hc => he ((endsWith_iff _ _).2 hc), base, ?_, rfl⟩⟩, parquetSchema_ok.1 h4⟩
        simpa [Json.asArr, Json.field, Json.asObj] using hj1
    · cases h4
  · rintro ⟨i, md, path, hi, hd, ⟨partition, stat, stats, parts, written, h1, h2, h3⟩, h4⟩
    refine ⟨md, (hmd md).2 (.inr ⟨i, hi, hd⟩), ?_⟩
    rw [h1]
    simp only [Option.bind_some, Json.asObj, List.head?_cons, Res.ofOption_some, Res.ok_bind, Json.asArr,
      Json.field, h2, Json.asStr]
    rcases h3 with ⟨h6, rfl⟩ | ⟨h6, base, h7, rfl⟩
    · rw [if_pos ((endsWith_iff _ _).2 h6)]
      exact parquetSchema_ok.2 h4
    · rw [if_neg (fun hc => h6 ((endsWith_iff _ _).1 hc)), h7]
      simp only [Option.bind_some, Res.ofOption_some, Res.ok_bind]
      exact parquetSchema_ok.2 h4

theorem partitionSchema_ok {E : Env} {o : Opts} {t0 t : Tree} {tb : Table}
    (hload : Timeline.load E o t0 = .ok tb.timeline) (hwf0 : ∀ n ∈ timelineNames t0, Spec.NormalName n)
    {s : Schema} : tb.partitionSchema t = .ok s ↔ PartitionColumns tb t s := by
  have hf : ((hmGet c!"hoodie.table.partition.fields" tb.opts).map (splitAll ',')).getD [] =
      partitionFieldNames tb.opts := by
    unfold partitionFieldNames
    cases hmGet c!"hoodie.table.partition.fields" tb.opts <;> rfl
  have hfil : ∀ l : Schema, l.filter (fun f => (partitionFieldNames tb.opts).contains f.name) =
      l.filter (fun f => decide (f.name ∈ partitionFieldNames tb.opts)) := by
    intro l
    congr 1
    funext f
    simp
  unfold Table.partitionSchema PartitionColumns Table.schema
  rw [partitionFieldsOf_eq, hf]
  simp only [Res.ok_bind]
  rw [Res.bind_eq_ok]
  constructor
  · rintro ⟨s', h1, h2⟩
    cases h2
    obtain ⟨i, md, path, a1, a2, a3, a4⟩ := (latestSchema_ok hload hwf0).1 h1
    exact ⟨i, md, path, s', a1, a2, a3, a4, hfil _⟩
  · rintro ⟨i, md, path, s', a1, a2, a3, a4, rfl⟩
    exact ⟨s', (latestSchema_ok hload hwf0).2 ⟨i, md, path, a1, a2, a3, a4⟩, by
      rw [← hfil]; rfl⟩

theorem pruner_ok {A : Arrow} {fs : List Filter} {schema : Schema} {o : Opts} :
    (∃ p, Pruner.new A fs schema o = .ok p) ↔
      (∃ hive url, PathStyle o hive url) ∧ ∀ f ∈ fs, Applicable A schema f := by
  have hfil : ∀ f : Filter, (∃ g, SFilter.ofFilter A f schema = .ok g) ↔ Applicable A schema f := by
    intro f
    unfold SFilter.ofFilter Applicable castValue Schema.fieldWithName
    cases schema.find? (fun g => decide (g.name = f.field)) with
    | none => simp
    | some field =>
      simp only [Res.ofOption_some, Res.ok_bind, Option.some.injEq]
      simp only [← textReads_iff]
      cases hc : castStr A field.dtype f.value with
      | none => simp [hc]
      | some v => simp [hc]
  constructor
  · rintro ⟨p, hp⟩
    refine ⟨⟨p.hiveStyle, p.urlEncoded, C29_style_of_the_table A fs schema o p hp⟩, ?_⟩
    have := (pruner_new_ok hp).2.1
    intro f hf
    obtain ⟨g, hg, _⟩ := Res.mapL_ok_mem this f hf
    exact (hfil f).1 ⟨g, hg⟩
  · rintro ⟨⟨hive, url, h1, h2⟩, h3⟩
    obtain ⟨gs, hgs⟩ := Res.mapL_ok_iff_all.2 (fun f hf => (hfil f).2 (h3 f hf))
    have hpb : ∀ b : Bool, parseBool (if b then c!"true" else c!"false") = some b := by decide
    have e1 : Cfg.isHiveStylePartitioning.getOrDefault o = .ok (.boolean hive) := by
      unfold Cfg.getOrDefault Cfg.get
      rw [show Cfg.isHiveStylePartitioning.key = c!"hoodie.datasource.write.hive_style_partitioning" from rfl,
        h1]
      simp only [Cfg.parseRaw, hpb]
    have e2 : Cfg.isPartitionPathUrlencoded.getOrDefault o = .ok (.boolean url) := by
      unfold Cfg.getOrDefault Cfg.get
      rw [show Cfg.isPartitionPathUrlencoded.key = c!"hoodie.datasource.write.partitionpath.urlencode" from rfl,
        h2]
      simp only [Cfg.parseRaw, hpb]
    refine ⟨⟨schema, hive, url, gs⟩, ?_⟩
    unfold Pruner.new
    rw [hgs, e1, e2]
    rfl

theorem parallelism_ok (o : Opts) : ∃ n, listingParallelismOf o = .ok n ∧
    (n ≠ 0 ↔ ∀ v, hmGet c!"hoodie.read.listing.parallelism" o = some v → parseUsize v ≠ some 0) := by
  unfold listingParallelismOf Cfg.getOrDefault Cfg.get
  rw [show Cfg.listingParallelism.key = c!"hoodie.read.listing.parallelism" from rfl]
  cases hmGet c!"hoodie.read.listing.parallelism" o with
  | none => exact ⟨10, rfl, by simp⟩
  | some v =>
    simp only [Cfg.parseRaw]
    cases hp : parseUsize v with
    | none => exact ⟨10, rfl, by simp [hp]⟩
    | some n => exact ⟨n, rfl, by simp [hp]⟩

theorem listRelevant_answers {A : Arrow} {o : Opts} {t : Tree} {p : Pruner} (h : TreeWF t) :
    (∃ m, listRelevant A o t p = .ok m) ↔
      (Partitioned o → ∀ v, hmGet c!"hoodie.read.listing.parallelism" o = some v → parseUsize v ≠ some 0) ∧
      ∀ x, PartitionOf o t x → (Partitioned o → p.shouldInclude A x = true) → Listable (filesOf t x) := by
  have hl : ∀ x, (∃ gs, listFileGroups o t x = .ok gs) ↔ Listable (filesOf t x) := fun x =>
    listFileGroups_ok_iff o t x (h.at (pathSegs x)).files_nodup
  have hlw : ∀ x, (∃ e, listWithPath o t x = .ok e) ↔ Listable (filesOf t x) := by
    intro x
    rw [← hl]
    constructor
    · rintro ⟨e, he⟩
      obtain ⟨gs, hg, _⟩ := listWithPath_ok.1 he
      exact ⟨gs, hg⟩
    · rintro ⟨gs, hg⟩; exact ⟨_, listWithPath_ok.2 ⟨gs, hg, rfl⟩⟩
  unfold listRelevant
  rw [isTablePartitioned_eq]
  simp only [Res.ok_bind]
  by_cases hp : Partitioned o
  · simp only [hp, decide_true, Bool.true_eq_false, if_false, true_implies]
    obtain ⟨paths, h1, _, h3⟩ := relevantPartitions_spec A o t p h
    obtain ⟨n, hn, hn0⟩ := parallelism_ok o
    rw [h1, hn]
    simp only [Res.ok_bind]
    by_cases hz : n = 0
    · simp only [hz, if_true, reduceCtorEq, exists_false, false_iff]
      rintro ⟨hc, _⟩
      exact hn0.2 hc hz
    · simp only [hz, if_false]
      constructor
      · rintro ⟨m, hm⟩
        obtain ⟨es, he, _⟩ := Res.bind_eq_ok.1 hm
        refine ⟨hn0.1 hz, fun x hx hi => ?_⟩
        exact (hlw x).1 (Res.mapL_ok_iff_all.1 ⟨es, he⟩ x ((h3 x).2 ⟨hx, fun _ => hi⟩))
      · rintro ⟨_, hc⟩
        obtain ⟨es, he⟩ := Res.mapL_ok_iff_all.2 (fun x hx =>
          (hlw x).2 (hc x ((h3 x).1 hx).1 (((h3 x).1 hx).2 hp)))
        exact ⟨_, by rw [he]; rfl⟩
  · simp only [hp, decide_false, if_true, false_implies, true_and, true_implies]
    constructor
    · rintro ⟨m, hm⟩ x hx
      obtain ⟨gs, hg, _⟩ := Res.bind_eq_ok.1 hm
      rcases hx with hx | hx
      · rw [hx.2]; exact (hl []).1 ⟨gs, hg⟩
      · exact absurd hx.1 hp
    · intro hc
      obtain ⟨gs, hg⟩ := (hl []).2 (hc [] (.inl ⟨hp, rfl⟩))
      exact ⟨_, by rw [hg]; rfl⟩

theorem fgContains_false {excl : List FileGroup} {g : FileGroup} : fgContains excl g = false ↔
    ¬ ∃ g' ∈ excl, groupId g' = (g.partitionPath, g.fileId) := by
  unfold fgContains
  rw [List.any_eq_false]
  constructor
  · rintro hx ⟨g', hg', he⟩
    apply hx g' hg'
    rw [same_iff]
    exact ⟨(Prod.mk.inj he).2, (Prod.mk.inj he).1⟩
  · intro hx g' hg' hs
    rw [same_iff] at hs
    exact hx ⟨g', hg', by unfold groupId; rw [hs.1, hs.2]⟩

theorem view_answers {A : Arrow} {o : Opts} {t : Tree} {ts : Str} {p : Pruner}
    {excl : List FileGroup} (h : TreeWF t) :
    (∃ ss, (viewSlicesAsOf A o t ts p excl []).2 = .ok ss) ↔
      (Partitioned o → ∀ v, hmGet c!"hoodie.read.listing.parallelism" o = some v → parseUsize v ≠ some 0) ∧
      (∀ x, PartitionOf o t x → (Partitioned o → p.shouldInclude A x = true) → Listable (filesOf t x)) ∧
      ∀ x b, PartitionOf o t x → p.shouldInclude A x = true → CurrentBase t ts x b →
        ¬ (∃ g ∈ excl, groupId g = (x, b.fileId)) → ParquetIn t x b.fileName := by
  rw [← and_assoc, ← listRelevant_answers (A := A) (p := p) h]
  have hstep : ∀ m, listRelevant A o t p = .ok m →
      ((∃ r, Res.mapL (pickGroup t ts excl) (included A p (hmExtend [] m)) = .ok r) ↔
      ∀ x b, PartitionOf o t x → p.shouldInclude A x = true → CurrentBase t ts x b →
        ¬ (∃ g ∈ excl, groupId g = (x, b.fileId)) → ParquetIn t x b.fileName) := by
    intro m hm
    obtain ⟨hn, _, hlist⟩ := listRelevant_ok h hm
    have hext : hmExtend [] m = m := hmOfList_eq hn
    rw [hext, Res.mapL_ok_iff_all]
    have hpick : ∀ g, (∃ l, pickGroup t ts excl g = .ok l) ↔
        (fgContains excl g = false → ∀ k s, mapLastLe ts g.slices = some (k, s) →
          ∃ s', s.loadMetadata t = .ok s') := by
      intro g
      unfold pickGroup collectGroup
      cases fgContains excl g with
      | true => simp
      | false =>
        simp only [Bool.false_eq_true, if_false, true_implies]
        cases mapLastLe ts g.slices with
        | none => simp
        | some e =>
          obtain ⟨k, s⟩ := e
          constructor
          · rintro ⟨l, hl⟩ k' s' he
            cases he
            cases hld : s.loadMetadata t with
            | ok s' => exact ⟨s', rfl⟩
            | err e => simp [hld] at hl
            | panic => simp [hld] at hl
          · intro hc
            obtain ⟨s', hs'⟩ := hc k s rfl
            exact ⟨_, by simp only [hs', Res.ok_bind, Res.pure_eq]; rfl⟩
    constructor
    · intro hall x b hx hi ⟨hb1, hb2, hb3⟩ hnr
      obtain ⟨gs, hgs⟩ := hlist x hx (fun _ => hi)
      obtain ⟨_, hsp, hgr⟩ := listFileGroups_spec (h.at (pathSegs x)).files_nodup hgs
      obtain ⟨g, hg, hgf⟩ := (hgr b.fileId).2 ⟨b, hb1, rfl⟩
      obtain ⟨hpp, hsorted, hget⟩ := hsp g hg
      have hx2 := (hpick g).1 (hall g ((mem_included h hm g).2 ⟨x, gs, hx, hi, hgs, hg⟩))
        (fgContains_false.2 (by rw [hpp, hgf]; exact hnr))
      have hme := (hget b.commitTimestamp _).2 ⟨b, hb1, hgf.symm, rfl, rfl⟩
      have hlast := (mapLastLe_eq_some hsorted (k := ts)).2 ⟨(mapGet_eq_some hsorted).1 hme, hb2, (by
        rintro ⟨k', s'⟩ he hle
        obtain ⟨b', a1, a2, a3, _⟩ := (hget k' s').1 ((mapGet_eq_some hsorted).2 he)
        subst a3
        exact hb3 b' a1 (a2.trans hgf) hle)⟩
      exact (loadMetadata_iff h (s := ⟨b, _, x⟩) hb1).1 (hx2 _ _ hlast)
    · intro hall g hg
      rw [hpick]
      intro hx k s hlast
      obtain ⟨x, gs, hpart, hi, hgs, hgm⟩ := (mem_included h hm g).1 hg
      obtain ⟨_, hsp, _⟩ := listFileGroups_spec (h.at (pathSegs x)).files_nodup hgs
      obtain ⟨hpp, hsorted, hget⟩ := hsp g hgm
      obtain ⟨e1, e2, e3⟩ := (mapLastLe_eq_some hsorted).1 hlast
      obtain ⟨b, a1, a2, a3, a4⟩ := (hget k s).1 ((mapGet_eq_some hsorted).2 e1)
      rw [a4]
      refine (loadMetadata_iff h (s := ⟨b, _, x⟩) a1).2 (hall x b hpart hi ⟨a1, ?_, ?_⟩ ?_)
      · rw [a3]; exact e2
      · intro b' c1 c2 c3
        rw [a3]
        exact e3 (b'.commitTimestamp, _) ((mapGet_eq_some hsorted).1
          ((hget _ _).2 ⟨b', c1, c2.trans a2, rfl, rfl⟩)) c3
      · rw [a2, ← hpp]; exact fgContains_false.1 hx
  constructor
  · rintro ⟨ss, hss⟩
    obtain ⟨m, r, hm, hr, rfl⟩ := viewSlicesAsOf_ok.1 hss
    exact ⟨⟨m, hm⟩, (hstep m hm).1 ⟨r, hr⟩⟩
  · rintro ⟨⟨m, hm⟩, hc⟩
    obtain ⟨r, hr⟩ := (hstep m hm).2 hc
    exact ⟨_, viewSlicesAsOf_ok.2 ⟨m, r, hm, hr, rfl⟩⟩

end Hudi
