import Verif.Spec.SameOptions
import Verif.Props.Distributed

/-! # C74: options by their values -/

namespace Hudi
open Spec

/-! ## Maps -/

namespace Spec.SameMap
variable {m m' : Opts} (h : SameMap m m')
include h

theorem insert (k v : Str) : SameMap (hmInsert k v m) (hmInsert k v m') where
  map := hmInsert_nodup h.map
  map' := hmInsert_nodup h.map'
  values x := by rw [hmGet_hmInsert, hmGet_hmInsert, h.values]

theorem extend (l : List (Str × Str)) : SameMap (hmExtend m l) (hmExtend m' l) where
  map := hmExtend_nodup h.map
  map' := hmExtend_nodup h.map'
  values x := by rw [hmGet_hmExtend, hmGet_hmExtend, h.values]

theorem extendBy {l l' : Opts} (hl : SameMap l l') : SameMap (hmExtend m l) (hmExtend m' l') where
  map := hmExtend_nodup h.map
  map' := hmExtend_nodup h.map'
  values x := by
    rw [hmGet_hmExtend, hmGet_hmExtend, h.values, hmGet_reverse_of_nodup hl.map, hmGet_reverse_of_nodup hl.map',
      hl.values]

theorem ofList : SameMap (hmOfList m) (hmOfList m') where
  map := hmOfList_nodup _
  map' := hmOfList_nodup _
  values x := by
    rw [hmGet_hmOfList, hmGet_hmOfList, hmGet_reverse_of_nodup h.map, hmGet_reverse_of_nodup h.map', h.values]

theorem split : SameMap (splitHudiOptions m).1 (splitHudiOptions m').1 ∧
    SameMap (splitHudiOptions m).2 (splitHudiOptions m').2 := by
  refine ⟨⟨(splitHudi_nodup _).1, (splitHudi_nodup _).1, fun k => ?_⟩,
    ⟨(splitHudi_nodup _).2, (splitHudi_nodup _).2, fun k => ?_⟩⟩
  · rw [hmGet_splitHudi_fst, hmGet_splitHudi_fst, hmGet_reverse_of_nodup h.map, hmGet_reverse_of_nodup h.map', h.values]
  · rw [hmGet_splitHudi_snd, hmGet_splitHudi_snd, hmGet_reverse_of_nodup h.map, hmGet_reverse_of_nodup h.map', h.values]

theorem absent {l l' : Opts} (hl : SameMap l l') : SameMap (extendIfAbsent m l) (extendIfAbsent m' l') := by
  have nd : ∀ (l : List (Str × Str)) (m : Opts), HmNodup m →
      HmNodup (l.foldl (fun m e => hmInsertIfAbsent e.1 e.2 m) m) := by
    intro l
    induction l with
    | nil => exact fun m h => h
    | cons e l ih =>
      intro m hm
      rw [List.foldl_cons]
      apply ih
      unfold hmInsertIfAbsent
      split
      · exact hm
      · exact hmInsert_nodup hm
  exact ⟨nd _ _ h.map, nd _ _ h.map', fun k => by
    rw [hmGet_extendIfAbsent, hmGet_extendIfAbsent, h.values, hl.values]⟩

theorem addAbsent (p : Str → Bool) (f : Str → Str) (l : List (Str × Str)) :
    SameMap (l.foldl (fun m e =>
        if p e.1 = true ∧ hmContains (f e.1) m = false then hmInsert (f e.1) e.2 m else m) m)
      (l.foldl (fun m e =>
        if p e.1 = true ∧ hmContains (f e.1) m = false then hmInsert (f e.1) e.2 m else m) m') := by
  induction l generalizing m m' with
  | nil => exact h
  | cons e l ih =>
    rw [List.foldl_cons, List.foldl_cons]
    apply ih
    unfold hmContains
    rw [h.values]
    split
    · exact h.insert _ _
    · exact h

theorem cloud (vars : List (Str × Str)) : SameMap (resolveCloudEnvVars vars m) (resolveCloudEnvVars vars m') :=
  h.addAbsent (fun k => cloudPrefixes.any (fun p => startsWith p k)) lower vars

theorem reader {so so' : Opts} (hs : SameMap so so') (more : List (Str × Str)) :
    SameMap (readerOpts m (hmExtend so more)) (readerOpts m' (hmExtend so' more)) := by
  unfold readerOpts
  exact h.extendBy (hs.extend more).split.1

end Spec.SameMap

/-! ## Everything reads options by their values -/

section same
variable {o o' : Opts} (h : ∀ k, hmGet k o = hmGet k o')
include h

theorem range_same (ltz : LocalTz) (as : List Action) (start stop : Option Str) :
    completedActionsInRange ltz as o start stop = completedActionsInRange ltz as o' start stop := by
  unfold completedActionsInRange; rw [timezoneOf_same h]

theorem partitionFieldsOf_same : partitionFieldsOf o = partitionFieldsOf o' := by
  unfold partitionFieldsOf; rw [getOrDefault_same h]

theorem isTablePartitioned_same : isTablePartitioned o = isTablePartitioned o' := by
  unfold isTablePartitioned usesNonPartitionedKeyGen
  rw [partitionFieldsOf_same h, tryGet_same h]

theorem prunerNew_same (A : Arrow) (fs : List Filter) (s : Schema) : Pruner.new A fs s o = Pruner.new A fs s o' := by
  unfold Pruner.new; simp only [getOrDefault_same h]

theorem listFileGroups_same (t : Tree) (p : Str) : listFileGroups o t p = listFileGroups o' t p := by
  unfold listFileGroups baseFileFormatOf; rw [getOrDefault_same h]

theorem listRelevant_same (A : Arrow) (t : Tree) (p : Pruner) : listRelevant A o t p = listRelevant A o' t p := by
  have : listWithPath o t = listWithPath o' t := by
    funext x; unfold listWithPath; rw [listFileGroups_same h]
  unfold listRelevant relevantPartitions listingParallelismOf
  rw [isTablePartitioned_same h, listFileGroups_same h, getOrDefault_same h, this]

theorem viewSlicesAsOf_same (A : Arrow) (t : Tree) (ts : Str) (p : Pruner) (excl : List FileGroup) :
    viewSlicesAsOf A o t ts p excl = viewSlicesAsOf A o' t ts p excl := by
  funext c
  unfold viewSlicesAsOf loadFileGroups
  rw [listRelevant_same h]

theorem validateConfigs_same : validateConfigs o = validateConfigs o' := by
  unfold validateConfigs mergeValidate Cfg.validate
  simp only [get_same h, getOrDefault_same h, tryGet_same h]

end same

namespace Spec.SameMap

theorem refl {m : Opts} (h : HmNodup m) : SameMap m m := ⟨h, h, fun _ => rfl⟩

theorem symm {m m' : Opts} (h : SameMap m m') : SameMap m' m := ⟨h.map', h.map, fun k => (h.values k).symm⟩

theorem trans {a b c : Opts} (h : SameMap a b) (h' : SameMap b c) : SameMap a c :=
  ⟨h.map, h'.map', fun k => (h.values k).trans (h'.values k)⟩

theorem of_perm {m m' : Opts} (h : HmNodup m) (hp : m.Perm m') : SameMap m m' := by
  have h' : HmNodup m' := (hp.map Prod.fst).nodup_iff.1 h
  refine ⟨h, h', fun k => ?_⟩
  apply Option.ext
  intro v
  rw [hmGet_eq_some h, hmGet_eq_some h', hp.mem_iff]

end Spec.SameMap

/-! ## Outcomes -/

theorem Spec.Alike.bind {α β α' β' : Type} {R : α → β → Prop} {S : α' → β' → Prop} {x : Res α} {y : Res β}
    {f : α → Res α'} {g : β → Res β'} (h : Alike R x y) (hf : ∀ a b, R a b → Alike S (f a) (g b)) :
    Alike S (x.bind f) (y.bind g) := by
  cases h with
  | ok h => exact hf _ _ h
  | err e => exact .err e
  | panic => exact .panic

theorem Spec.Alike.of_eq {α : Type} {x y : Res α} (h : x = y) : Alike Eq x y := by
  subst h; cases x <;> first | exact .ok rfl | exact .err _ | exact .panic

theorem Spec.Alike.mono {α β : Type} {R S : α → β → Prop} {x : Res α} {y : Res β} (h : Alike R x y)
    (hm : ∀ a b, R a b → S a b) : Alike S x y := by
  cases h with
  | ok h => exact .ok (hm _ _ h)
  | err e => exact .err e
  | panic => exact .panic

theorem Spec.Alike.answer {α β : Type} {R : α → β → Prop} {x : Res α} {y : Res β} {a : α} (h : Alike R x y)
    (hx : x = .ok a) : ∃ b, y = .ok b ∧ R a b := by
  subst hx
  cases h with
  | ok h => exact ⟨_, rfl, h⟩

/-! ## Opening -/

theorem storage_same {w : World} (hw : ByOptions w) {so so' o o' : Opts} (hs : ∀ k, hmGet k so = hmGet k so')
    (h : ∀ k, hmGet k o = hmGet k o') : w.storage so o = w.storage so' o' := by
  have : w.connect so = w.connect so' := funext fun u => hw so so' u hs
  unfold World.storage
  rw [tryGet_same h, this]

theorem load_alike (E : Env) (t : Tree) {o o' : Opts} (h : SameMap o o') :
    Alike (fun tl tl' => tl.opts = o ∧ tl'.opts = o' ∧ tl.completed = tl'.completed)
      (Timeline.load E o t) (Timeline.load E o' t) := by
  unfold Timeline.load
  rw [range_same h.values]
  refine (Alike.of_eq rfl).bind fun s s' e => ?_
  subst e
  refine (Alike.of_eq rfl).bind fun l l' e => ?_
  subst e
  exact .ok ⟨rfl, rfl, rfl⟩

/-- Two builders with the same options. -/
structure SameBuilder (b b' : TableBuilder) : Prop where
  uri : b.baseUri = b'.baseUri
  hudi : SameMap b.hudiOptions b'.hudiOptions
  storage : SameMap b.storageOptions b'.storageOptions
  options : SameMap b.options b'.options

theorem imbueTable_alike {o o' : Opts} (h : SameMap o o') (s : Storage) :
    Alike SameMap (imbueTableProperties o s) (imbueTableProperties o' s) := by
  unfold imbueTableProperties
  refine (Alike.of_eq rfl).bind fun c c' e => ?_
  subst e
  refine (Alike.of_eq rfl).bind fun l l' e => ?_
  subst e
  exact .ok (h.extend l)

theorem imbueGlobal_same (w : World) {o o' : Opts} (h : SameMap o o') (s : Storage) :
    SameMap (imbueGlobalConfigs w o s) (imbueGlobalConfigs w o' s) := by
  unfold imbueGlobalConfigs
  split
  · exact h
  · split
    · exact h.addAbsent (fun k => startsWith c!"hoodie." k) id _
    · exact h

theorem resolve_alike {w : World} (hw : ByOptions w) {b b' : TableBuilder} (h : SameBuilder b b') :
    Alike SameBuilder (b.resolveOptions w) (b'.resolveOptions w) := by
  have hh : SameMap b.resolveUserProvided.hudiOptions b'.resolveUserProvided.hudiOptions := by
    have := h.hudi.insert Cfg.basePath.key b.baseUri
    conv at this => rhs; rw [h.uri]
    exact this.absent h.options.split.1
  have hs : SameMap b.resolveUserProvided.storageOptions b'.resolveUserProvided.storageOptions :=
    h.storage.absent h.options.split.2
  have hc := hs.cloud w.vars
  unfold TableBuilder.resolveOptions resolveHudiOptions
  simp only
  rw [storage_same hw hc.values hh.values]
  refine (Alike.of_eq rfl).bind fun s s' e => ?_
  subst e
  refine (imbueTable_alike hh s).bind fun o o' ho => ?_
  exact .ok ⟨h.uri, imbueGlobal_same w ho s, hc, h.options⟩

theorem build_alike (E : Env) {w : World} (hw : ByOptions w) {b b' : TableBuilder} (h : SameBuilder b b') :
    Alike SameHandle (b.build E w) (b'.build E w) := by
  unfold TableBuilder.build
  refine (resolve_alike hw h).bind fun b b' h => ?_
  have ho := h.hudi.ofList
  simp only
  rw [validateConfigs_same ho.values, storage_same hw h.storage.values ho.values]
  refine (Alike.of_eq rfl).bind fun _ _ _ => ?_
  refine (Alike.of_eq rfl).bind fun s s' e => ?_
  subst e
  refine (load_alike E s.tree ho).bind fun tl tl' ht => ?_
  refine (Alike.of_eq rfl).bind fun _ _ _ => ?_
  refine .ok ⟨ho, h.storage, ?_, ht.2.2⟩
  show SameMap tl.opts tl'.opts
  rw [ht.1, ht.2.1]
  exact ho

theorem builder_same {uri : Str} {calls calls' : List Call} (h : SameGiven calls calls') :
    SameBuilder (builderOf uri calls) (builderOf uri calls') := by
  obtain ⟨n1, n2, n3⟩ := builder_nodup calls uri
  obtain ⟨m1, m2, m3⟩ := builder_nodup calls' uri
  refine ⟨?_, ⟨n1, m1, fun k => ?_⟩, ⟨n2, m2, fun k => ?_⟩, ⟨n3, m3, fun k => ?_⟩⟩
  · exact (builder_fields calls _ []).1.trans (builder_fields calls' _ []).1.symm
  · exact (builder_fields calls _ k).2.1.trans (by rw [h.hudi]; exact (builder_fields calls' _ k).2.1.symm)
  · exact (builder_fields calls _ k).2.2.1.trans (by rw [h.storage]; exact (builder_fields calls' _ k).2.2.1.symm)
  · exact (builder_fields calls _ k).2.2.2.trans (by rw [h.generic]; exact (builder_fields calls' _ k).2.2.2.symm)

/-- **C74.** Opening a table depends on which options are given last, and not on the calls by which they are
given or on their order: the same options give handles with the same options and instants, or the same
error.  (Partial: the storage library reads its options by their names; when it has two names for one option
and both are given, `C74_false`.)  Missing: options of the storage under two names (`C74_false`). -/
theorem C74_opening_partial (E : Env) (w : World) (hw : ByOptions w) (uri : Str) (calls calls' : List Call)
    (h : SameGiven calls calls') :
    Alike SameHandle ((builderOf uri calls).build E w) ((builderOf uri calls').build E w) :=
  build_alike E hw (builder_same h)

/-- **C74**, for opening with a map of options: the order of its entries is irrelevant.
(Partial, as above.)  Missing: as in `C74_opening_partial`. -/
theorem C74_any_order_partial (E : Env) (w : World) (hw : ByOptions w) (uri : Str) (options options' : List (Str × Str))
    (hn : (options.map Prod.fst).Nodup) (hp : options.Perm options') :
    Alike SameHandle (Table.newWithOptions E w uri options) (Table.newWithOptions E w uri options') := by
  refine C74_opening_partial E w hw uri [.options options] [.options options'] ⟨fun _ => rfl, fun _ => rfl, fun k => ?_⟩
  have h := SameMap.of_perm hn hp
  show lastGiven k (options ++ []) = lastGiven k (options' ++ [])
  rw [List.append_nil, List.append_nil, ← lastGiven_eq, ← lastGiven_eq, hmGet_reverse_of_nodup h.map,
    hmGet_reverse_of_nodup h.map', h.values]

/-- The Python builder after some calls has the options that the Rust builder has. -/
theorem pyBuilder_same (uri : Str) (calls : List Call) :
    (pyBuilderOf uri calls).baseUri = uri ∧
    SameMap (pyBuilderOf uri calls).hudiOptions (builderOf uri calls).hudiOptions ∧
    SameMap (pyBuilderOf uri calls).storageOptions (builderOf uri calls).storageOptions ∧
    SameMap (pyBuilderOf uri calls).options (builderOf uri calls).options := by
  have step : ∀ (l : List Call) (p : PyBuilder) (b : TableBuilder), p.baseUri = uri →
      SameMap p.hudiOptions b.hudiOptions → SameMap p.storageOptions b.storageOptions →
      SameMap p.options b.options →
      (l.foldl Call.applyPy p).baseUri = uri ∧
      SameMap (l.foldl Call.applyPy p).hudiOptions (l.foldl Call.apply b).hudiOptions ∧
      SameMap (l.foldl Call.applyPy p).storageOptions (l.foldl Call.apply b).storageOptions ∧
      SameMap (l.foldl Call.applyPy p).options (l.foldl Call.apply b).options := by
    intro l
    induction l with
    | nil => exact fun p b h1 h2 h3 h4 => ⟨h1, h2, h3, h4⟩
    | cons c l ih =>
      intro p b h1 h2 h3 h4
      rw [List.foldl_cons, List.foldl_cons]
      cases c with
      | hudiOption k v => exact ih _ _ h1 (h2.extend [(k, v)]) h3 h4
      | hudiOptions m => exact ih _ _ h1 (h2.extend m) h3 h4
      | storageOption k v => exact ih _ _ h1 h2 (h3.extend [(k, v)]) h4
      | storageOptions m => exact ih _ _ h1 h2 (h3.extend m) h4
      | option k v => exact ih _ _ h1 h2 h3 (h4.extend [(k, v)])
      | options m => exact ih _ _ h1 h2 h3 (h4.extend m)
  exact step calls _ _ rfl (.refl List.nodup_nil) (.refl List.nodup_nil) (.refl List.nodup_nil)

/-- **C74**, for Python: whatever the order in which the dictionaries of its builder are gone through, it opens
what the Rust builder opens after the same calls.  (Partial, as above.)  Missing: as in `C74_opening_partial`. -/
theorem C74_python_partial (E : Env) (w : World) (hw : ByOptions w) (uri : Str) (calls : List Call)
    (hudi storage options : List (Str × Str))
    (h1 : hudi.Perm (pyBuilderOf uri calls).hudiOptions) (h2 : storage.Perm (pyBuilderOf uri calls).storageOptions)
    (h3 : options.Perm (pyBuilderOf uri calls).options) :
    Alike SameHandle (buildHudiTable E w (pyBuilderOf uri calls).baseUri hudi storage options)
      ((builderOf uri calls).build E w) := by
  obtain ⟨p0, p1, p2, p3⟩ := pyBuilder_same uri calls
  have key : ∀ {m l l' : Opts}, l.Perm l' → SameMap l' m → SameMap (hmExtend [] l) m := by
    intro m l l' hp h
    have hl := (SameMap.of_perm h.map hp.symm).symm.trans h
    refine ⟨hmExtend_nodup List.nodup_nil, h.map', fun k => ?_⟩
    rw [hmGet_hmExtend, hmGet_reverse_of_nodup hl.map, hl.values]
    simp [hmGet]
  refine build_alike E hw ⟨?_, key h1 p1, key h2 p2, key h3 p3⟩
  exact p0.trans (builder_fields calls (TableBuilder.fromBaseUri uri) []).1.symm

/-! ## Answers -/

theorem replacedAsOf_same (E : Env) {tl tl' : Timeline} (h : ∀ k, hmGet k tl.opts = hmGet k tl'.opts)
    (hc : tl.completed = tl'.completed) (t : Tree) (ts : Str) : tl.replacedAsOf E t ts = tl'.replacedAsOf E t ts := by
  unfold Timeline.replacedAsOf; rw [range_same h, hc]

theorem fileGroupsBetween_same (E : Env) {tl tl' : Timeline} (h : ∀ k, hmGet k tl.opts = hmGet k tl'.opts)
    (hc : tl.completed = tl'.completed) (t : Tree) (start stop : Option Str) :
    tl.fileGroupsBetween E t start stop = tl'.fileGroupsBetween E t start stop := by
  unfold Timeline.fileGroupsBetween; rw [range_same h, hc]

theorem readSlices_same (C : Codec) (A : Arrow) (M : MergeEnv A) (ltz : LocalTz) {o o' : Opts}
    (h : ∀ k, hmGet k o = hmGet k o') (t : Tree) : readFileSlice C A M ltz o t = readFileSlice C A M ltz o' t :=
  funext fun s => readFileSlice_same_opts h C A M ltz t s

/-- **C74.** Handles with the same options and instants answer every call alike. -/
theorem C74_answers (E : Env) (A : Arrow) (C : Codec) (M : MergeEnv A) (tb tb' : Table) (h : SameHandle tb tb') :
    SameAnswers E A C M tb tb' := by
  obtain ⟨hh, hs, ht, hc⟩ := h
  have ho : ∀ k, hmGet k tb.opts = hmGet k tb'.opts := hh.values
  have hts : tb.timeline.latestTimestamp = tb'.timeline.latestTimestamp := by
    unfold Timeline.latestTimestamp; rw [hc]
  have hmd : ∀ t, tb.timeline.latestMetadata t = tb'.timeline.latestMetadata t := by
    intro t; unfold Timeline.latestMetadata; rw [hc]
  have hsch : ∀ t, tb.timeline.latestSchema t = tb'.timeline.latestSchema t := by
    intro t; unfold Timeline.latestSchema; rw [hmd]
  have hps : ∀ t, tb.partitionSchema t = tb'.partitionSchema t := by
    intro t
    unfold Table.partitionSchema Table.schema
    rw [hsch, partitionFieldsOf_same ho]
  have hint : ∀ t ts fs, tb.fileSlicesInternal E A t ts fs = tb'.fileSlicesInternal E A t ts fs := by
    intro t ts fs
    unfold Table.fileSlicesInternal
    simp only [replacedAsOf_same E ht.values hc, hps, prunerNew_same ho, viewSlicesAsOf_same ho]
  have hspl : ∀ t n ts fs, tb.fileSlicesSplitsInternal E A t n ts fs = tb'.fileSlicesSplitsInternal E A t n ts fs := by
    intro t n ts fs
    unfold Table.fileSlicesSplitsInternal
    rw [hint]
  have hbet : ∀ t start stop, tb.fileSlicesBetweenInternal E t start stop = tb'.fileSlicesBetweenInternal E t start stop := by
    intro t start stop
    unfold Table.fileSlicesBetweenInternal
    rw [fileGroupsBetween_same E ht.values hc]
  have hro : ∀ more, SameMap (tb.readerOpts more) (tb'.readerOpts more) := fun more => hh.reader hs more
  have hsnap : ∀ t ts fs, tb.readSnapshotInternal E A C M t ts fs = tb'.readSnapshotInternal E A C M t ts fs := by
    intro t ts fs
    unfold Table.readSnapshotInternal
    simp only [hint, readSlices_same C A M E.ltz (hro _).values]
  have hsp : ∀ t n fs, tb.fileSlicesSplits E A t n fs = tb'.fileSlicesSplits E A t n fs := by
    intro t n fs; unfold Table.fileSlicesSplits; simp only [hts, hspl]
  have hbu : ∀ U, tb.baseUrlPath U = tb'.baseUrlPath U := by
    intro U; unfold Table.baseUrlPath; rw [get_same ho]
  have hty : tb.tableType = tb'.tableType := by unfold Table.tableType; rw [get_same ho]
  constructor
  · intro t fs c; unfold Table.fileSlices; simp only [hts, hint]
  · intro t ts fs c; unfold Table.fileSlicesAsOf; simp only [hint]
  · intro t n fs c; rw [hsp]
  · intro t n ts fs c; unfold Table.fileSlicesSplitsAsOf; simp only [hspl]
  · intro t start stop; unfold Table.fileSlicesBetween; simp only [hts, hbet]
  · intro t fs c; unfold Table.readSnapshot; simp only [hts, hsnap]
  · intro t ts fs c; unfold Table.readSnapshotAsOf; simp only [hsnap]
  · intro t start stop
    unfold Table.readIncremental
    simp only [hts, hbet, readSlices_same C A M E.ltz (hro _).values]
  · exact hsch
  · intro t; unfold Table.avroSchema Timeline.latestAvroSchema; rw [hmd]
  · exact hps
  · intro a t desc; unfold Timeline.completedOf; rw [range_same ht.values]
  · intro t desc; unfold Timeline.clusteringCommits Timeline.completedOf; rw [range_same ht.values]
  · unfold Table.tableName; rw [get_same ho]
  · exact hty
  · unfold Table.isMor; rw [hty]
  · exact timezoneOf_same ho
  · exact hbu
  · intro t; unfold Table.dfSchema; rw [hsch]
  · intro U D t es c
    unfold Table.scan Table.inputPartitions
    simp only [hsp, hbu, getOrDefault_same ho]
  · intro w hw more
    unfold Table.createReader FgReader.newWithConfigs
    have e := storage_same hw (hs.extend more).split.2.values (hro more).values
    unfold Table.readerOpts Table.storageOptions at e
    rw [e]
    refine (Alike.of_eq rfl).bind fun s s' e => ?_
    subst e
    have e := readSlices_same C A M E.ltz (hro more).values s.tree
    unfold Table.readerOpts at e
    refine .ok ⟨rfl, fun x => ?_, fun d => ?_⟩
    · unfold FgReader.readSlice
      simp only
      rw [e]
    · unfold FgReader.readDescribed PySlice.read
      simp only
      rw [e]

end Hudi
