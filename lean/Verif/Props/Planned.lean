import Verif.Spec.Planned
import Verif.Lemmas.CleanerChanges
import Verif.Props.Cleaner
import Verif.Props.Available
import Verif.Props.Handout
import Verif.Props.Optimized
import Verif.Props.QueryRows

/-!
# C98: a scan that is planned at one moment and executed later
-/

namespace Hudi
open Spec

/-- The file slices that a handle opened at `s0` finds at `s`. -/
theorem planned_slices (E : Env) (A : Arrow) (S : Setting) (hmono : MonotoneTz E.ltz) {s0 s : Work} (hi0 : Inv S s0)
    (hi : Inv S s) {more : List Job} (hd : s.done = s0.done ++ more) {tb : Table}
    {filters : List (Str × Str × Str)} {fs : List Filter} {hive url : Bool}
    (ho : OpenedAt E A S s0 tb filters fs hive url) :
    ∃ ss, (tb.fileSlices E A s.tree filters []).2 = .ok ss ∧ (ss.map sliceKey).Nodup ∧
      (∀ k, (∃ x ∈ ss, sliceKey x = k) ↔ Kept A S.pcols hive url fs k.1 ∧ versionAfter s0.history k ≠ none) ∧
      ∀ x ∈ ss, ∃ v, versionAfter s0.history (sliceKey x) = some v ∧
        x.basePath = basePathOf (sliceKey x) v.token v.base ∧
        ∃ j0 ∈ s0.done, s0.history.getLast? = some j0.commit ∧
          tableAt s0.history j0.commit.ts (sliceKey x) = some v := by
  obtain ⟨o, hload⟩ := ho.load
  have hmono' : MonotoneTz S.ltz := ho.clock ▸ hmono
  obtain ⟨t1, t2, t3⟩ := timeline_of hload ho.zone hi0.wf (by rw [ho.clock]; exact hi0.timeline)
  rcases timeline_last hmono hi0.wf t1 t2 t3 with ⟨h1, h2⟩ | ⟨c0, d0, h1, h2, h3⟩
  · refine ⟨[], ?_, .nil, ?_, by simp⟩
    · unfold Table.fileSlices Timeline.latestTimestamp
      rw [h2]
      rfl
    · intro k
      rw [h1]
      simp [versionAfter]
  · obtain ⟨j0, hj0, rfl⟩ := mem_commitsOf.1 (List.mem_of_getLast? h1)
    obtain ⟨d1, hjob⟩ := hi0.jobOf hj0
    have hsub : ∀ j ∈ s0.done, j ∈ s.done := fun j hj => by rw [hd]; simp [hj]
    have hfiles := files_upTo hi0 hi hd hj0
    rw [← ho.clock] at hfiles
    obtain ⟨ss, h4, h5⟩ := C81_slices_as_of E A o s0.tree s.tree tb S.tz s0.history S.width filters fs S.pcols
      hive url hmono j0.commit.ts
      ⟨hload, fun m hm => timelineNames_normal hi0.treeWF _ (List.mem_map.2 ⟨m, hm, rfl⟩), hi.treeWF, ho.zone, hi0.wf,
        ho.options ▸ hfiles, ho.parsed,
        columns_upTo hmono' ho.clock hi0 hi hd (List.ne_nil_of_mem hj0) hload ho.zone ho.options, ho.names,
        ho.applicable, ho.options ▸ ho.style, ho.options ▸ ho.parallelism⟩
      hjob.time (ho.clock ▸ hjob.parses) (fun c hc _ x f token hk => by
        obtain ⟨j, hj, rfl⟩ := mem_commitsOf.1 hc
        have := hi.fileAt (by simp [baseAt, inPartition]) (hi.bases j (hsub j hj) _ _ hk)
        unfold baseAt inPartition at this
        rw [fileAt_append] at this
        exact ⟨_, _, _, _, this⟩)
    have e1 : tableAt s0.history j0.commit.ts = versionAfter s0.history := by
      funext k; unfold tableAt; rw [h3]
    obtain ⟨g1, g2, g3⟩ := h5
    rw [e1] at g2
    refine ⟨ss, ?_, g1, g2, fun x hx => ?_⟩
    · unfold Table.fileSlices Timeline.latestTimestamp
      rw [h2]
      exact h4
    · obtain ⟨v, v1, v2, v3, v4, _⟩ := g3 x hx
      refine ⟨v, e1 ▸ v1, ?_, j0, hj0, h1, v1⟩
      unfold FileSlice.basePath FileSlice.relativePathFor basePathOf BaseFile.fileName baseName
      rw [v2, v3, v4]
      simp [sliceKey]

/-- A handle cannot tell that a cleaner had worked when it was opened. -/
theorem opened_sweep {E : Env} {A : Arrow} {S : Setting} {v0 : Work} {g0 : List (List Str)} {r : Str} (hi0 : Inv S v0)
    (hg0 : Swept S r v0 g0) {tb : Table} {filters : List (Str × Str × Str)} {fs : List Filter} {hive url : Bool}
    (ho : OpenedAt E A S (sweep v0 g0) tb filters fs hive url) : OpenedAt E A S v0 tb filters fs hive url := by
  obtain ⟨o, hload⟩ := ho.load
  rw [sweep_load hi0 hg0] at hload
  exact ⟨⟨⟨o, hload⟩, ho.clock, ho.zone, ho.options, ho.merges⟩, ho.names, ho.parsed, ho.applicable, ho.style,
    ho.parallelism⟩

/-- A scan succeeds when the file slices can be listed. -/
theorem scan_planned {E : Env} {A : Arrow} {U : Str → Option Str} {D : Str → Str} {tb : Table} {t : Tree}
    {es : List Expr} {ss : List FileSlice} {base : Str} (hb : tb.baseUrlPath U = .ok base)
    (h : (tb.fileSlices E A t (exprsToFilters D es) []).2 = .ok ss) : ∃ gs, (tb.scan E A U D t es []).2 = .ok gs := by
  obtain ⟨n, h1, _⟩ := inputPartitions_eq tb
  obtain ⟨h2, _⟩ := C32_splits E A tb t n (exprsToFilters D es) [] _ _ rfl
  obtain ⟨sp, h3, _⟩ := h2 ss h
  refine ⟨_, Query.bind_lift_snd.2 ⟨n, h1, Query.bind_snd.2 ⟨sp, by rw [h3], Query.bind_lift_snd.2 ⟨base, hb, rfl⟩⟩⟩⟩

/-- The size that the engine is told is that of the file. -/
theorem planned_size {E : Env} {A : Arrow} {tb : Table} {t : Tree} (hwf : TreeWF t) {filters : List (Str × Str × Str)}
    {ss : List FileSlice} (h : (tb.fileSlices E A t filters []).2 = .ok ss) {x : FileSlice} (hx : x ∈ ss) (base : Str) :
    ∃ c, t.fileAt (pathSegs x.basePath) = some ((partitionedFile base x).size, c) := by
  obtain ⟨b, footer, h1, _⟩ := C62_sizes_partial E A tb [] [] .opened (by simp) t hwf (.latest filters)
    (by intro ts _ u hu; cases hu) x ⟨ss, h, hx⟩
  have h2 : t.fileAt (pathSegs x.basePath) = some ((PySlice.ofSlice x).baseFileSize,
      .parquet (PySlice.ofSlice x).baseFileByteSize b footer) := by
    unfold getFile at h1
    have e : (PySlice.ofSlice x).basePath = x.basePath := rfl
    rw [e] at h1
    cases h3 : t.fileAt (pathSegs x.basePath) with
    | none => rw [h3] at h1; cases h1
    | some y => rw [h3] at h1; cases h1; rfl
  have e : (PySlice.ofSlice x).baseFileSize = (partitionedFile base x).size := by
    unfold partitionedFile PySlice.ofSlice
    cases x.baseFile.fileMeta <;> rfl
  exact ⟨_, e ▸ h2⟩

/-- What is left on the storage is well-formed. -/
theorem sweep_treeWF {S : Setting} {v : Work} (hi : Inv S v) (gone : List (List Str)) : TreeWF (sweep v gone).tree :=
  wf_treeOf (sweep_paths hi)

theorem sweep_extensions {S : Setting} {v : Work} (hi : Inv S v) (gone : List (List Str)) {x : Str}
    (hx : PartitionOf S.o (sweep v gone).tree x) : OneExtension (filesOf (sweep v gone).tree x) := by
  have hp : PartitionPath S.o x := by
    rcases hx with h | ⟨h1, n, ns, hleaf, hm, rfl⟩
    · exact .inl h
    · obtain ⟨⟨z, hz, m, hzm⟩, _⟩ := (leafDir_treeOf (s := (sweep v gone).store) (by simp)).1 hleaf
      exact .inr ⟨h1, n, ns, fun a ha => (place_normal (sweep_place hi z hz)).2 a (by rw [hzm]; simp at ha ⊢; tauto), hm, rfl⟩
  exact fun _ _ hl hl' => path_extensions hi hp _ _ (sweep_log hi hl) (sweep_log hi hl')

/-- A plan whose file slices are those of the handle's latest snapshot can be executed while the cleaner works. -/
theorem planned_scan {E : Env} {A : Arrow} {U : Str → Option Str} {D : Str → Str} {S : Setting} {v0 v : Work}
    {gone : List (List Str)} {r : Str} (hi0 : Inv S v0) (hw0 : Works S v0 v) (hi : Inv S v) (hg0 : Swept S r v gone)
    {tb : Table} {es : List Expr} {fs : List Filter} {hive url : Bool} (hopts : tb.opts = S.o) {base : Str} {ds : List Str}
    (hbase : tb.baseUrlPath U = .ok base) (hpb : PlainBase base ds) (hplain : PlainTable S.o (sweep v gone).tree)
    (hr : ∀ c, v0.history.getLast? = some c → (compare r c.ts).isLE) {ss : List FileSlice}
    (hss : (tb.fileSlices E A (sweep v gone).tree (exprsToFilters D es) []).2 = .ok ss) (g1 : (ss.map sliceKey).Nodup)
    (g2 : ∀ k, (∃ x ∈ ss, sliceKey x = k) ↔ Kept A S.pcols hive url fs k.1 ∧ versionAfter v0.history k ≠ none)
    (g3 : ∀ x ∈ ss, ∃ v, versionAfter v0.history (sliceKey x) = some v ∧
        x.basePath = basePathOf (sliceKey x) v.token v.base ∧
        ∃ j0 ∈ v0.done, v0.history.getLast? = some j0.commit ∧
          tableAt v0.history j0.commit.ts (sliceKey x) = some v) :
    ∃ plan, (tb.scan E A U D (sweep v gone).tree es []).2 = .ok plan ∧ (plan.flatten.map ScanFile.path).Nodup ∧
      ∃ read, ReadsBaseFiles (basesBy v0.done) v0.history (Kept A S.pcols hive url fs) read ∧
        ∀ at' : ScanFile → Work, (∀ f, Cleans S r (sweep v gone) (at' f)) →
          Executes base (fun f => (at' f).tree) plan read := by
  classical
  have hwf := sweep_treeWF hi gone
  obtain ⟨plan, hplan⟩ := scan_planned (U := U) hbase hss
  obtain ⟨ss', n, k1, k2, k3, k4, k5, k6⟩ := C47_each_base_file_once_partial E A U D tb (sweep v gone).tree hwf
    (fun x hx => sweep_extensions hi gone (hopts ▸ hx)) (hopts ▸ hplain) base ds hbase hpb es plan hplan
  rw [hss] at k1; cases k1
  obtain ⟨_, base', n', m1, m2, _, m3⟩ := scan_ok hplan
  rw [hss] at m1; cases m1
  rw [hbase] at m2; cases m2
  have hv : ∀ x, ∃ v, x ∈ ss → versionAfter v0.history (sliceKey x) = some v ∧
      x.basePath = basePathOf (sliceKey x) v.token v.base ∧
        ∃ j0 ∈ v0.done, v0.history.getLast? = some j0.commit ∧
          tableAt v0.history j0.commit.ts (sliceKey x) = some v := by
    intro x
    by_cases hx : x ∈ ss
    · obtain ⟨v, hv⟩ := g3 x hx; exact ⟨v, fun _ => hv⟩
    · exact ⟨⟨[], [], []⟩, fun h => absurd h hx⟩
  choose ver hv using hv
  refine ⟨plan, hplan, k3, ss.map (fun x => basesBy v0.done (ver x).base (sliceKey x)), ⟨ss.map sliceKey, g1, ?_, ?_⟩, ?_⟩
  · intro k
    rw [List.mem_map, g2 k, lastWriteOf_eq]
    simp
  · rw [List.forall₂_map_left_iff, List.forall₂_map_right_iff, List.forall₂_same]
    exact fun x hx => ⟨(ver x).base, by rw [lastWriteOf_eq, (hv x hx).1]; rfl, rfl⟩
  · intro at' hat
    unfold Executes
    rw [m3.whole, List.forall₂_map_left_iff, List.forall₂_map_right_iff, List.forall₂_same]
    intro x hx
    obtain ⟨v1, v2, j0, hj0, hlast, v3⟩ := hv x hx
    obtain ⟨w1, w2, w3⟩ := tableAt_key hi0 v3
    obtain ⟨h1, h2, h3, c0, he, hc0⟩ := endsWith_of hi0.wf v3
    obtain ⟨j, hj, rfl⟩ := mem_commitsOf.1 (show c0 ∈ v0.history by rw [he.split]; simp)
    have hseg : pathSegs x.basePath = baseAt (sliceKey x) (ver x).token (ver x).base := by
      rw [v2, basePath_segs w1 w2 w3]
    have hwritten : basesBy v0.done (ver x).base (sliceKey x) = j.base (sliceKey x) := by
      unfold basesBy
      rw [← hc0, jobAt_mem (fun j hj j' hj' => hi0.unique hj hj') hj]
      rfl
    have hfound : ∀ (w : Work) (gone' : List (List Str)), Works S v w → Inv S w → Swept S r w gone' →
        ∃ byteSize footer, (sweep w gone').tree.fileAt (pathSegs x.basePath) =
          some (1, .parquet byteSize (j.base (sliceKey x)) footer) := by
      intro w gone' hw hiw hg
      obtain ⟨more', hd'⟩ := done_works (works_apart hw0 hw)
      have hkept : pathSegs x.basePath ∉ gone' := by
        intro hmem
        rw [hseg] at hmem
        exact kept_at hi0.jobs v3 (hr _ hlast)
          (superseded_known hiw hd' hj0 (hr _ hlast) (old_base hiw w1 w2 w3 (hg.old hmem)).1)
      refine ⟨1, (j.base (sliceKey x)).schema, ?_⟩
      rw [sweep_fileAt hiw hkept, hseg, ← hc0]
      exact hiw.fileAt (by simp [baseAt, inPartition])
        (hiw.bases j (by rw [hd']; simp [hj]) _ _ (changeOf_mem he.write))
    have hsize : (partitionedFile base x).size = 1 := by
      obtain ⟨c, hc⟩ := planned_size hwf hss hx base
      obtain ⟨_, _, hc'⟩ := hfound v gone (.refl _) hi hg0
      rw [hc] at hc'
      exact congrArg Prod.fst (Option.some.inj hc')
    obtain ⟨w, gone', hw, hiw, hg, hat'⟩ := cleans_sweep (hat (partitionedFile base x)) hi hg0 rfl
    obtain ⟨bs, ft, hfile⟩ := hfound w gone' hw hiw hg
    refine ⟨x.basePath, bs, ft, ?_, ?_⟩
    · rw [m3.whole, List.map_map, List.map_inj_left] at k2
      exact (k2 x hx).symm
    · simp only [hat']
      rw [hfile, hsize, hwritten]

/-- The rows that satisfy all predicates are in the partitions that the predicates do not rule out. -/
theorem planned_rows {E : Env} {A : Arrow} {D : Str → Str} (hD : Readable A D) (V : Meaning) {S : Setting}
    (hmono : MonotoneTz E.ltz) {v0 : Work} (hi0 : Inv S v0) {tb : Table} {es handed : List Expr}
    (hsub : ∀ e ∈ handed, e ∈ es) (hor : ∀ e ∈ handed, ColumnFirst e) {fs : List Filter} {hive url : Bool}
    (ho : OpenedAt E A S v0 tb (exprsToFilters D handed) fs hive url)
    (hcarry : CarryPartitions A S.pcols hive url v0.done) {read : List Batch}
    (hreads : ReadsBaseFiles (basesBy v0.done) v0.history (Kept A S.pcols hive url fs) read) :
    ∃ all, ReadsBaseFiles (basesBy v0.done) v0.history (fun _ => True) all ∧
        (read.flatMap (matching A V es)).Perm (all.flatMap (matching A V es)) := by
  classical
  obtain ⟨ks, n1, n2, n3⟩ := hreads
  obtain ⟨ss, _, g1, g2, g3⟩ := planned_slices E A S hmono hi0 hi0 (more := []) (by simp) (filters := []) (fs := [])
    ⟨ho.toHandleAt, ho.names, rfl, by simp, ho.style, ho.parallelism⟩
  have hall : ∀ k, k ∈ ss.map sliceKey ↔ lastWriteOf v0.history k ≠ none := by
    intro k
    rw [List.mem_map, g2 k, lastWriteOf_eq]
    simp [Kept]
  have hread : read = ks.map (fun k => basesBy v0.done ((lastWriteOf v0.history k).getD []) k) := by
    clear n1 n2
    induction n3 with
    | nil => rfl
    | cons h _ ih =>
      obtain ⟨ts, e1, rfl⟩ := h
      rw [List.map_cons, ← ih, e1]
      rfl
  refine ⟨(ss.map sliceKey).map (fun k => basesBy v0.done ((lastWriteOf v0.history k).getD []) k),
    ⟨ss.map sliceKey, g1, fun k => by rw [hall k]; simp, ?_⟩, ?_⟩
  · rw [List.forall₂_map_right_iff, List.forall₂_same]
    intro k hk
    obtain ⟨ts, e⟩ := Option.ne_none_iff_exists'.1 ((hall k).1 hk)
    exact ⟨ts, e, by rw [e]; rfl⟩
  · rw [hread]
    have hperm : ks.Perm ((ss.map sliceKey).filter (fun k => decide (Kept A S.pcols hive url fs k.1))) := by
      rw [List.perm_ext_iff_of_nodup n1 (g1.filter _)]
      intro k
      rw [n2 k, List.mem_filter, hall k, decide_eq_true_iff]
      exact and_comm
    refine ((hperm.map _).flatMap_right _).trans (.of_eq ?_)
    have hskip : ∀ k ∈ ss.map sliceKey, ¬ Kept A S.pcols hive url fs k.1 →
        matching A V es (basesBy v0.done ((lastWriteOf v0.history k).getD []) k) = [] := by
      intro k hk hn
      obtain ⟨x, hx, rfl⟩ := List.mem_map.1 hk
      obtain ⟨v, v1, v2, j0, hj0, _, v3⟩ := g3 x hx
      obtain ⟨h1, h2, h3, c0, he, hc0⟩ := endsWith_of hi0.wf v3
      obtain ⟨j, hj, rfl⟩ := mem_commitsOf.1 (show c0 ∈ v0.history by rw [he.split]; simp)
      have : basesBy v0.done ((lastWriteOf v0.history (sliceKey x)).getD []) (sliceKey x) = j.base (sliceKey x) := by
        unfold basesBy
        rw [lastWriteOf_eq, v1, Option.map_some, Option.getD_some, ← hc0,
          jobAt_mem (fun j hj j' hj' => hi0.unique hj hj') hj]
        rfl
      rw [this]
      exact matching_skipped hD hsub hor ho.parsed (hcarry j hj _ _ (changeOf_mem he.write)) hn
    generalize ss.map sliceKey = l at hskip
    induction l with
    | nil => rfl
    | cons k l ih =>
      have ih := ih (fun k hk => hskip k (by simp [hk]))
      by_cases hk : Kept A S.pcols hive url fs k.1
      · rw [List.filter_cons_of_pos (by simpa using hk)]
        simp only [List.map_cons, List.flatMap_cons, ih]
      · rw [List.filter_cons_of_neg (by simpa using hk)]
        simp only [List.map_cons, List.flatMap_cons, ih, hskip k (by simp) hk, List.nil_append]

/-- **C98 (partial).**  A handle is opened at a moment `s0`, a scan is planned through it at any later moment `s`, and
the files of the plan are opened at any moments after that, while writers and a cleaner work.  The plan names each
file once, and the engine finds each of them, of the size that it was told; together they are the base files of the
table as it was when the handle was opened, in the partitions that the predicates do not rule out.  Missing: a cleaner
that deletes what the handle's latest snapshot needs (`C98_false`); log files, which the engine does not read
(`C53_false`); names that are percent-encoded (`C47_false`). -/
theorem C98_planned_scan_partial (E : Env) (A : Arrow) (U : Str → Option Str) (D : Str → Str) (S : Setting)
    (hmono : MonotoneTz E.ltz) (s0 s : Work) (hs0 : Works S nothingYet s0) (hs : Works S s0 s) (tb : Table)
    (es : List Expr) (fs : List Filter) (hive url : Bool)
    (ho : OpenedAt E A S s0 tb (exprsToFilters D es) fs hive url) (base : Str) (ds : List Str)
    (hbase : tb.baseUrlPath U = .ok base) (hpb : PlainBase base ds) (hplain : PlainTable S.o s.tree)
    (r : Str) (hr : ∀ c, s0.history.getLast? = some c → (compare r c.ts).isLE) :
    ∃ plan, (tb.scan E A U D s.tree es []).2 = .ok plan ∧ (plan.flatten.map ScanFile.path).Nodup ∧
      ∃ read, ReadsBaseFiles (basesBy s0.done) s0.history (Kept A S.pcols hive url fs) read ∧
        ∀ at' : ScanFile → Work, (∀ f, Cleans S r s (at' f)) → Executes base (fun f => (at' f).tree) plan read := by
  have hi0 := inv_works (inv_nothing S) hs0
  have hi := inv_works hi0 hs
  obtain ⟨more, hd⟩ := done_works hs
  obtain ⟨ss, hss, g1, g2, g3⟩ := planned_slices E A S hmono hi0 hi hd ho
  have := planned_scan (U := U) hi0 hs hi (swept_nothing S r s) ho.options hbase hpb (by rw [sweep_nothing]; exact hplain) hr
    (by rw [sweep_nothing]; exact hss) g1 g2 g3
  rw [sweep_nothing] at this
  exact this

/-- **C98, the rows of a query (partial).**  The rows that satisfy all predicates of the query, in the files that the
engine opens while others work, are those of the base files of the table as it was when the handle was opened.
Missing: as for `C98_planned_scan_partial`, and as for C70, inequalities with the literal on the left and predicates
on other columns. -/
theorem C98_planned_query_partial (E : Env) (A : Arrow) (U : Str → Option Str) (D : Str → Str) (hD : Readable A D)
    (V : Meaning) (S : Setting)
    (hmono : MonotoneTz E.ltz) (s0 s : Work) (hs0 : Works S nothingYet s0) (hs : Works S s0 s) (tb : Table)
    (es handed : List Expr) (hsub : ∀ e ∈ handed, e ∈ es) (hor : ∀ e ∈ handed, ColumnFirst e)
    (fs : List Filter) (hive url : Bool)
    (ho : OpenedAt E A S s0 tb (exprsToFilters D handed) fs hive url) (base : Str) (ds : List Str)
    (hbase : tb.baseUrlPath U = .ok base) (hpb : PlainBase base ds) (hplain : PlainTable S.o s.tree)
    (hcarry : CarryPartitions A S.pcols hive url s0.done)
    (r : Str) (hr : ∀ c, s0.history.getLast? = some c → (compare r c.ts).isLE) :
    ∃ plan, (tb.scan E A U D s.tree handed []).2 = .ok plan ∧
      ∃ read all, ReadsBaseFiles (basesBy s0.done) s0.history (fun _ => True) all ∧
        (read.flatMap (matching A V es)).Perm (all.flatMap (matching A V es)) ∧
        ∀ at' : ScanFile → Work, (∀ f, Cleans S r s (at' f)) → Executes base (fun f => (at' f).tree) plan read := by
  obtain ⟨plan, h1, _, read, hread, h2⟩ := C98_planned_scan_partial E A U D S hmono s0 s hs0 hs tb handed fs
    hive url ho base ds hbase hpb hplain r hr
  obtain ⟨all, h3, h4⟩ := planned_rows hD V hmono (inv_works (inv_nothing S) hs0) hsub hor ho hcarry hread
  exact ⟨plan, h1, read, all, h3, h4, h2⟩

/-- The file slices that a handle opened at `sweep v0 g0` finds at `sweep v gone`, when a cleaner has worked. -/
theorem planned_slices_cleaned (E : Env) (A : Arrow) (S : Setting) (hmono : MonotoneTz E.ltz) (hsec : WholeSecondsTz E.ltz)
    {v0 v : Work} {g0 gone : List (List Str)} {r : Str} (hi0 : Inv S v0) (hg0 : Swept S r v0 g0)
    (hn : NamesCurrent v0) (hs : Cleans S r (sweep v0 g0) (sweep v gone)) {tb : Table}
    {filters : List (Str × Str × Str)} {fs : List Filter} {hive url : Bool}
    (ho : OpenedAt E A S v0 tb filters fs hive url)
    (hr : ∀ c, v0.history.getLast? = some c → (compare r c.ts).isLE) :
    ∃ ss, (tb.fileSlices E A (sweep v gone).tree filters []).2 = .ok ss ∧ (ss.map sliceKey).Nodup ∧
      (∀ k, (∃ x ∈ ss, sliceKey x = k) ↔ Kept A S.pcols hive url fs k.1 ∧ versionAfter v0.history k ≠ none) ∧
      ∀ x ∈ ss, ∃ v, versionAfter v0.history (sliceKey x) = some v ∧
        x.basePath = basePathOf (sliceKey x) v.token v.base ∧
        ∃ j0 ∈ v0.done, v0.history.getLast? = some j0.commit ∧
          tableAt v0.history j0.commit.ts (sliceKey x) = some v := by
  have hi' := inv_lasting hi0
  obtain ⟨ss, hss, g1, g2, g3⟩ := planned_slices E A S hmono hi0 hi' (more := []) (by rw [List.append_nil]; rfl) ho
  obtain ⟨o, hload⟩ := ho.load
  obtain ⟨t1, t2, t3⟩ := timeline_of hload ho.zone hi0.wf (by rw [ho.clock]; exact hi0.timeline)
  rcases timeline_last hmono hi0.wf t1 t2 t3 with ⟨h1, h2⟩ | ⟨c0, d0, h1, h2, h3⟩
  · refine ⟨[], ?_, .nil, ?_, by simp⟩
    · unfold Table.fileSlices Timeline.latestTimestamp
      rw [h2]
      rfl
    · intro k
      rw [h1]
      simp [versionAfter]
  · obtain ⟨j0, hj0, rfl⟩ := mem_commitsOf.1 (List.mem_of_getLast? h1)
    have hlast : tb.timeline.latestTimestamp = some j0.commit.ts := by
      unfold Timeline.latestTimestamp
      rw [h2]
      rfl
    obtain ⟨d1, hjob⟩ := hi0.jobOf hj0
    rw [ho.clock] at t1 t2
    obtain ⟨b1, b2, b3⟩ := data_lasting hi0
    have hopts := ho.options
    let m : Moments := ⟨fun _ => sweep v gone, sweep v gone, sweep v gone, fun _ => sweep v gone, fun _ => sweep v gone,
      fun _ => sweep v gone, fun _ => sweep v gone⟩
    have hm : SinceCleaned S r (sweep v0 g0) m :=
      ⟨fun _ => hs, hs, hs, fun _ => hs, fun _ => hs, fun _ => hs, fun _ _ => .refl _⟩
    have hseen := seen_cleaned ho.clock hmono hsec hi0 hg0 hm hj0 (hr _ h1) hn ho.zone t1 t2 t3
    have hord := orderly_cleaned ho.clock hmono hi0 hg0 hm hj0 (hr _ h1) ho.zone t1 t2
    unfold Table.fileSlices at hss
    rw [hlast] at hss
    obtain ⟨fs', hfs, hint⟩ := Query.bind_lift_snd.1 hss
    obtain ⟨ss', hss'⟩ := fileSlicesInternalR_returns (E := E) (C := S.C) (depth := (sweep v gone).tree.height + 1)
      (R := m.race) hload (timelineNames_normal hi0.treeWF) hi'.treeWF (fun x hx => hi'.extensions (hopts ▸ hx))
      (by rw [ho.clock, hopts]; exact b1) (by rw [ho.clock, hopts]; exact hseen) (by rw [ho.clock, hopts]; exact hord)
      (fun _ => Nat.le_succ _) hint
    obtain ⟨p1, p2, p3, p4, _⟩ := racing_pairs (E := E) (C := S.C) hload (timelineNames_normal hi0.treeWF) hi'.treeWF
      (fun x hx => hi'.extensions (hopts ▸ hx)) (by rw [ho.clock, hopts]; exact hseen) hint hss'
    rw [show m.race = Race.still (sweep v gone).tree from rfl, fileSlicesInternalR_still] at hss'
    have key : ∀ {x x'}, SeenGroup E.ltz j0.commit.ts tb.timeline (lasting S v0).tree m.race tb.opts x x' →
        sliceKey x' = sliceKey x ∧ x'.basePath = x.basePath := by
      intro x x' hx
      obtain ⟨b, m1, m2, _, e1, e2⟩ := hx.base
      constructor
      · unfold sliceKey; rw [e1, e2, hx.path]
      · unfold FileSlice.basePath FileSlice.relativePathFor; rw [e1, e2, hx.path]; rfl
    refine ⟨ss', ?_, p4, ?_, ?_⟩
    · unfold Table.fileSlices
      rw [hlast]
      exact Query.bind_lift_snd.2 ⟨fs', hfs, hss'⟩
    · intro k
      rw [← g2 k]
      constructor
      · rintro ⟨x', hx', rfl⟩
        obtain ⟨x, hx, hg⟩ := p2 x' hx'
        exact ⟨x, hx, (key hg).1.symm⟩
      · rintro ⟨x, hx, rfl⟩
        obtain ⟨x', hx', hg⟩ := p1 x hx
        exact ⟨x', hx', (key hg).1⟩
    · intro x' hx'
      obtain ⟨x, hx, hg⟩ := p2 x' hx'
      rw [(key hg).1, (key hg).2]
      exact g3 x hx

/-- **C98, after a cleaner has worked (partial).**  As `C98_planned_scan_partial`, when the cleaner also works before the
handle is opened, and before the plan is made.  Missing: a cleaner that deletes what the handle's latest snapshot needs
(`C98_false`), or the file from which the schema of the latest commit is read; log files, which the engine does not
read (`C53_false`); names that are percent-encoded (`C47_false`). -/
theorem C98_planned_scan_cleaned_partial (E : Env) (A : Arrow) (U : Str → Option Str) (D : Str → Str) (S : Setting)
    (hmono : MonotoneTz E.ltz) (hsec : WholeSecondsTz E.ltz) (r : Str) (s0 s : Work) (hs0 : Cleans S r nothingYet s0)
    (hs : Cleans S r s0 s) (hn : NamesCurrent s0) (tb : Table) (es : List Expr) (fs : List Filter) (hive url : Bool)
    (ho : OpenedAt E A S s0 tb (exprsToFilters D es) fs hive url) (base : Str) (ds : List Str)
    (hbase : tb.baseUrlPath U = .ok base) (hpb : PlainBase base ds) (hplain : PlainTable S.o s.tree)
    (hr : ∀ c, s0.history.getLast? = some c → (compare r c.ts).isLE) :
    ∃ plan, (tb.scan E A U D s.tree es []).2 = .ok plan ∧ (plan.flatten.map ScanFile.path).Nodup ∧
      ∃ read, ReadsBaseFiles (basesBy s0.done) s0.history (Kept A S.pcols hive url fs) read ∧
        ∀ at' : ScanFile → Work, (∀ f, Cleans S r s (at' f)) → Executes base (fun f => (at' f).tree) plan read := by
  obtain ⟨v0, g0, _, hi0, hg0, rfl⟩ := cleans_sweep hs0 (inv_nothing S) (swept_nothing S r _) (sweep_nothing _).symm
  obtain ⟨v, gone, hw, hi, hg, rfl⟩ := cleans_sweep hs hi0 hg0 rfl
  have ho' := opened_sweep hi0 hg0 ho
  obtain ⟨ss, hss, g1, g2, g3⟩ := planned_slices_cleaned E A S hmono hsec hi0 hg0 hn hs ho' hr
  exact planned_scan hi0 hw hi hg ho.options hbase hpb hplain hr hss g1 g2 g3

/-- **C98, the rows of a query, after a cleaner has worked (partial).**  As `C98_planned_query_partial`, when the cleaner
also works before the handle is opened, and before the plan is made.  Missing: as above, and as for C70. -/
theorem C98_planned_query_cleaned_partial (E : Env) (A : Arrow) (U : Str → Option Str) (D : Str → Str) (hD : Readable A D)
    (V : Meaning) (S : Setting) (hmono : MonotoneTz E.ltz) (hsec : WholeSecondsTz E.ltz) (r : Str) (s0 s : Work)
    (hs0 : Cleans S r nothingYet s0) (hs : Cleans S r s0 s) (hn : NamesCurrent s0) (tb : Table)
    (es handed : List Expr) (hsub : ∀ e ∈ handed, e ∈ es) (hor : ∀ e ∈ handed, ColumnFirst e)
    (fs : List Filter) (hive url : Bool)
    (ho : OpenedAt E A S s0 tb (exprsToFilters D handed) fs hive url) (base : Str) (ds : List Str)
    (hbase : tb.baseUrlPath U = .ok base) (hpb : PlainBase base ds) (hplain : PlainTable S.o s.tree)
    (hcarry : CarryPartitions A S.pcols hive url s0.done)
    (hr : ∀ c, s0.history.getLast? = some c → (compare r c.ts).isLE) :
    ∃ plan, (tb.scan E A U D s.tree handed []).2 = .ok plan ∧
      ∃ read all, ReadsBaseFiles (basesBy s0.done) s0.history (fun _ => True) all ∧
        (read.flatMap (matching A V es)).Perm (all.flatMap (matching A V es)) ∧
        ∀ at' : ScanFile → Work, (∀ f, Cleans S r s (at' f)) → Executes base (fun f => (at' f).tree) plan read := by
  obtain ⟨plan, h1, _, read, hread, h2⟩ := C98_planned_scan_cleaned_partial E A U D S hmono hsec r s0 s hs0 hs hn tb
    handed fs hive url ho base ds hbase hpb hplain hr
  obtain ⟨v0, g0, _, hi0, hg0, rfl⟩ := cleans_sweep hs0 (inv_nothing S) (swept_nothing S r _) (sweep_nothing _).symm
  obtain ⟨all, h3, h4⟩ := planned_rows hD V hmono hi0 hsub hor (opened_sweep hi0 hg0 ho) hcarry hread
  exact ⟨plan, h1, read, all, h3, h4, h2⟩

end Hudi
