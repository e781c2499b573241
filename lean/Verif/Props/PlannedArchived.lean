import Verif.Props.Planned
import Verif.Props.Archiver

/-! # C98: query plans beside an archiver -/

namespace Hudi
open Spec

/-- The file slices that a handle finds, when a cleaner and an archiver have worked before it was opened and since. -/
theorem planned_slices_archived (E : Env) (A : Arrow) (S : Setting) (hmono : MonotoneTz E.ltz) (hsec : WholeSecondsTz E.ltz)
    {v0 s : Work} {g0 a0 : List (List Str)} {r q : Str} (hi0 : Inv S v0) (hg0 : Swept S r v0 g0) (ht0 : Trimmed q v0 a0)
    (hn : NamesCurrent v0) (hs : Archives S r q (sweep (sweep v0 g0) a0) s) {tb : Table}
    {filters : List (Str × Str × Str)} {fs : List Filter} {hive url : Bool}
    (ho : OpenedAt E A S (sweep (sweep v0 g0) a0) tb filters fs hive url)
    (hr : ∀ c, v0.history.getLast? = some c → (compare r c.ts).isLE)
    (hq : ∀ c, v0.history.getLast? = some c → (compare q c.ts).isLE) :
    ∃ ss, (tb.fileSlices E A s.tree filters []).2 = .ok ss ∧ (ss.map sliceKey).Nodup ∧
      (∀ k, (∃ x ∈ ss, sliceKey x = k) ↔ Kept A S.pcols hive url fs k.1 ∧ versionAfter v0.history k ≠ none) ∧
      ∀ x ∈ ss, ∃ v, versionAfter v0.history (sliceKey x) = some v ∧
        x.basePath = basePathOf (sliceKey x) v.token v.base ∧
        ∃ j0 ∈ v0.done, v0.history.getLast? = some j0.commit ∧
          tableAt v0.history j0.commit.ts (sliceKey x) = some v := by
  have hi' := inv_lasting hi0
  obtain ⟨o, hload⟩ := ho.load
  rw [sweep_sweep] at hload
  obtain ⟨t1, t2, t3⟩ := timeline_of hload ho.zone (wf_filter hi0.wf (fun c => decide (instantAt c ∉ g0 ++ a0)))
    (by rw [ho.clock]; exact sweep_timeline hi0 _)
  have hk := last_left (keeps_trimmed hi0 hg0 ht0 hq)
  unfold leftOf at hk
  rcases timeline_last hmono (wf_filter hi0.wf (fun c => decide (instantAt c ∉ g0 ++ a0))) t1 t2 t3 with
    ⟨h1, h2⟩ | ⟨c0, d0, h1, h2, _⟩
  · rw [h1] at hk
    have hnil := List.getLast?_eq_none_iff.1 hk.symm
    refine ⟨[], ?_, .nil, ?_, by simp⟩
    · unfold Table.fileSlices Timeline.latestTimestamp
      rw [h2]
      rfl
    · intro k
      rw [hnil]
      simp [versionAfter]
  · rw [h1] at hk
    obtain ⟨j0, hj0, rfl⟩ := mem_commitsOf.1 (List.mem_of_getLast? hk.symm)
    have hlast : tb.timeline.latestTimestamp = some j0.commit.ts := by
      unfold Timeline.latestTimestamp
      rw [h2]
      rfl
    obtain ⟨o', tlf, tls, hloadf, hloads, al, alfs, hzonef, hM⟩ :=
      archived_view hmono hsec hi0 hg0 ht0 hn ho.load ho.clock ho.zone hj0 (hr _ hk.symm) hq
    obtain ⟨ss, hss, g1, g2, g3⟩ := planned_slices E A S hmono hi0 hi' (more := []) (by rw [List.append_nil]; rfl)
      (tb := { tb with timeline := tlf }) (filters := filters) (fs := fs) (hive := hive) (url := url)
      ⟨⟨⟨o', hloadf⟩, ho.clock, hzonef, ho.options,
        ⟨ho.merges.plain, ho.merges.merges, ho.merges.noStart, ho.merges.zone⟩⟩, ho.names, ho.parsed, ho.applicable, ho.style,
        ho.parallelism⟩
    have hlastf : tlf.latestTimestamp = some j0.commit.ts := by
      rw [← hlast]
      unfold Timeline.latestTimestamp
      rw [alfs.last, al.last]
    obtain ⟨b1, b2, b3⟩ := data_lasting hi0
    have hopts := ho.options
    let m : Moments := ⟨fun _ => s, s, s, fun _ => s, fun _ => s, fun _ => s, fun _ => s⟩
    have hm : SinceArchived S r q (sweep (sweep v0 g0) a0) m :=
      ⟨fun _ => hs, hs, hs, fun _ => hs, fun _ => hs, fun _ => hs, fun _ _ => .refl _⟩
    have hseen : AllSeen (Meanwhile S.C S.ltz S.tz S.o j0.commit.ts tls (lasting S v0).tree (heldIn (lasting S v0)))
        m.race :=
      ⟨fun _ => hM _ hs, hM _ hs, hM _ hs, fun _ => hM _ hs, fun _ => hM _ hs, fun _ => hM _ hs, fun _ => hM _ hs⟩
    have hord := orderly_archived hmono hi0 hg0 ht0 ho.clock hloadf hzonef alfs hj0 (hr _ hk.symm) hm
    unfold Table.fileSlices at hss
    rw [hlastf] at hss
    obtain ⟨fs', hfs, hint⟩ := Query.bind_lift_snd.1 hss
    rw [Alike.slices (tb := { tb with timeline := tlf }) alfs] at hint
    obtain ⟨ss', hss'⟩ := fileSlicesInternalR_returns (E := E) (C := S.C) (tb := { tb with timeline := tls })
      (depth := s.tree.height + 1)
      (R := m.race) hloads (timelineNames_normal (wf_treeOf (sweep_paths hi0))) hi'.treeWF
      (fun x hx => hi'.extensions (hopts ▸ hx))
      (by rw [ho.clock]; exact hopts ▸ b1) (by rw [ho.clock]; exact hopts ▸ hseen) (by rw [ho.clock]; exact hopts ▸ hord)
      (fun _ => Nat.le_succ _) hint
    obtain ⟨p1, p2, p3, p4, _⟩ := racing_pairs (E := E) (C := S.C) (tb := { tb with timeline := tls }) hloads
      (timelineNames_normal (wf_treeOf (sweep_paths hi0))) hi'.treeWF
      (fun x hx => hi'.extensions (hopts ▸ hx)) (by rw [ho.clock]; exact hopts ▸ hseen) hint hss'
    rw [show m.race = Race.still s.tree from rfl, fileSlicesInternalR_still, ← al.slices] at hss'
    have key : ∀ {x x'}, SeenGroup E.ltz j0.commit.ts tls (lasting S v0).tree m.race tb.opts x x' →
        sliceKey x' = sliceKey x ∧ x'.basePath = x.basePath := by
      intro x x' hx
      obtain ⟨b, m1, m2, _, e1, e2⟩ := hx.base
      constructor
      · unfold sliceKey; rw [e1, e2, hx.path]
      · unfold FileSlice.basePath FileSlice.relativePathFor; rw [e1, e2, hx.path]; rfl
    refine ⟨ss', ?_, p4, ?_, ?_⟩
    · unfold Table.fileSlices
      rw [hlast]
      exact Query.bind_lift_snd.2 ⟨fs', hfs, hss'⟩
    · intro k
      rw [← g2 k]
      constructor
      · rintro ⟨x', hx', rfl⟩
        obtain ⟨x, hx, hg⟩ := p2 x' hx'
        exact ⟨x, hx, (key hg).1.symm⟩
      · rintro ⟨x, hx, rfl⟩
        obtain ⟨x', hx', hg⟩ := p1 x hx
        exact ⟨x', hx', (key hg).1⟩
    · intro x' hx'
      obtain ⟨x, hx, hg⟩ := p2 x' hx'
      rw [(key hg).1, (key hg).2]
      exact g3 x hx

/-- A plan whose file slices are those of the handle's latest snapshot can be executed while cleaner and archiver work. -/
theorem planned_scan_archived {E : Env} {A : Arrow} {U : Str → Option Str} {D : Str → Str} {S : Setting} {v0 v : Work}
    {g a : List (List Str)} {r q : Str} (hi0 : Inv S v0) (hw0 : Works S v0 v) (hi : Inv S v) (hg0 : Swept S r v g)
    (ht0 : Trimmed q v a)
    {tb : Table} {es : List Expr} {fs : List Filter} {hive url : Bool} (hopts : tb.opts = S.o) {base : Str} {ds : List Str}
    (hbase : tb.baseUrlPath U = .ok base) (hpb : PlainBase base ds) (hplain : PlainTable S.o (sweep v (g ++ a)).tree)
    (hr : ∀ c, v0.history.getLast? = some c → (compare r c.ts).isLE) {ss : List FileSlice}
    (hss : (tb.fileSlices E A (sweep v (g ++ a)).tree (exprsToFilters D es) []).2 = .ok ss) (g1 : (ss.map sliceKey).Nodup)
    (g2 : ∀ k, (∃ x ∈ ss, sliceKey x = k) ↔ Kept A S.pcols hive url fs k.1 ∧ versionAfter v0.history k ≠ none)
    (g3 : ∀ x ∈ ss, ∃ v, versionAfter v0.history (sliceKey x) = some v ∧
        x.basePath = basePathOf (sliceKey x) v.token v.base ∧
        ∃ j0 ∈ v0.done, v0.history.getLast? = some j0.commit ∧
          tableAt v0.history j0.commit.ts (sliceKey x) = some v) :
    ∃ plan, (tb.scan E A U D (sweep v (g ++ a)).tree es []).2 = .ok plan ∧ (plan.flatten.map ScanFile.path).Nodup ∧
      ∃ read, ReadsBaseFiles (basesBy v0.done) v0.history (Kept A S.pcols hive url fs) read ∧
        ∀ at' : ScanFile → Work, (∀ f, Archives S r q (sweep (sweep v g) a) (at' f)) →
          Executes base (fun f => (at' f).tree) plan read := by
  classical
  have hwf := sweep_treeWF hi (g ++ a)
  obtain ⟨plan, hplan⟩ := scan_planned (U := U) hbase hss
  obtain ⟨ss', n, k1, k2, k3, k4, k5, k6⟩ := C47_each_base_file_once_partial E A U D tb (sweep v (g ++ a)).tree hwf
    (fun x hx => sweep_extensions hi (g ++ a) (hopts ▸ hx)) (hopts ▸ hplain) base ds hbase hpb es plan hplan
  rw [hss] at k1; cases k1
  obtain ⟨_, base', n', m1, m2, _, m3⟩ := scan_ok hplan
  rw [hss] at m1; cases m1
  rw [hbase] at m2; cases m2
  have hv : ∀ x, ∃ v, x ∈ ss → versionAfter v0.history (sliceKey x) = some v ∧
      x.basePath = basePathOf (sliceKey x) v.token v.base ∧
        ∃ j0 ∈ v0.done, v0.history.getLast? = some j0.commit ∧
          tableAt v0.history j0.commit.ts (sliceKey x) = some v := by
    intro x
    by_cases hx : x ∈ ss
    · obtain ⟨v, hv⟩ := g3 x hx; exact ⟨v, fun _ => hv⟩
    · exact ⟨⟨[], [], []⟩, fun h => absurd h hx⟩
  choose ver hv using hv
  refine ⟨plan, hplan, k3, ss.map (fun x => basesBy v0.done (ver x).base (sliceKey x)), ⟨ss.map sliceKey, g1, ?_, ?_⟩, ?_⟩
  · intro k
    rw [List.mem_map, g2 k, lastWriteOf_eq]
    simp
  · rw [List.forall₂_map_left_iff, List.forall₂_map_right_iff, List.forall₂_same]
    exact fun x hx => ⟨(ver x).base, by rw [lastWriteOf_eq, (hv x hx).1]; rfl, rfl⟩
  · intro at' hat
    unfold Executes
    rw [m3.whole, List.forall₂_map_left_iff, List.forall₂_map_right_iff, List.forall₂_same]
    intro x hx
    obtain ⟨v1, v2, j0, hj0, hlast, v3⟩ := hv x hx
    obtain ⟨w1, w2, w3⟩ := tableAt_key hi0 v3
    obtain ⟨h1, h2, h3, c0, he, hc0⟩ := endsWith_of hi0.wf v3
    obtain ⟨j, hj, rfl⟩ := mem_commitsOf.1 (show c0 ∈ v0.history by rw [he.split]; simp)
    have hseg : pathSegs x.basePath = baseAt (sliceKey x) (ver x).token (ver x).base := by
      rw [v2, basePath_segs w1 w2 w3]
    have hwritten : basesBy v0.done (ver x).base (sliceKey x) = j.base (sliceKey x) := by
      unfold basesBy
      rw [← hc0, jobAt_mem (fun j hj j' hj' => hi0.unique hj hj') hj]
      rfl
    have hfound : ∀ (w : Work) (gone' arch : List (List Str)), Works S v w → Inv S w → Swept S r w gone' →
        Trimmed q w arch → ∃ byteSize footer, (sweep w (gone' ++ arch)).tree.fileAt (pathSegs x.basePath) =
          some (1, .parquet byteSize (j.base (sliceKey x)) footer) := by
      intro w gone' arch hw hiw hg ht
      obtain ⟨more', hd'⟩ := done_works (works_apart hw0 hw)
      have hkept : pathSegs x.basePath ∉ gone' := by
        intro hmem
        rw [hseg] at hmem
        exact kept_at hi0.jobs v3 (hr _ hlast)
          (superseded_known hiw hd' hj0 (hr _ hlast) (old_base hiw w1 w2 w3 (hg.old hmem)).1)
      refine ⟨1, (j.base (sliceKey x)).schema, ?_⟩
      rw [trim_fileAt hiw (by rw [hseg]; exact base_kept hiw ht w1), sweep_fileAt hiw hkept, hseg, ← hc0]
      exact hiw.fileAt (by simp [baseAt, inPartition])
        (hiw.bases j (by rw [hd']; simp [hj]) _ _ (changeOf_mem he.write))
    have hsize : (partitionedFile base x).size = 1 := by
      obtain ⟨c, hc⟩ := planned_size hwf hss hx base
      obtain ⟨_, _, hc'⟩ := hfound v g a (.refl _) hi hg0 ht0
      rw [hc] at hc'
      exact congrArg Prod.fst (Option.some.inj hc')
    obtain ⟨w, gone', arch, hw, hiw, hg, ht, hat'⟩ := archives_sweep (hat (partitionedFile base x)) hi hg0 ht0 rfl
    rw [sweep_sweep] at hat'
    obtain ⟨bs, ft, hfile⟩ := hfound w gone' arch hw hiw hg ht
    refine ⟨x.basePath, bs, ft, ?_, ?_⟩
    · rw [m3.whole, List.map_map, List.map_inj_left] at k2
      exact (k2 x hx).symm
    · simp only [hat']
      rw [hfile, hsize, hwritten]

/-- **C98, beside an archiver (partial).**  As `C98_planned_scan_cleaned_partial`, when an archiver deletes timeline files
as well, as in C102: before the handle is opened, between that and the plan, and while the plan is executed.  Missing: as
there, and an archiver that has deleted the handle's latest commit. -/
theorem C98_planned_scan_archived_partial (E : Env) (A : Arrow) (U : Str → Option Str) (D : Str → Str) (S : Setting)
    (hmono : MonotoneTz E.ltz) (hsec : WholeSecondsTz E.ltz) (r q : Str) (s0 s : Work) (hs0 : Archives S r q nothingYet s0)
    (hs : Archives S r q s0 s) (hn : NamesCurrent s0) (tb : Table) (es : List Expr) (fs : List Filter) (hive url : Bool)
    (ho : OpenedAt E A S s0 tb (exprsToFilters D es) fs hive url) (base : Str) (ds : List Str)
    (hbase : tb.baseUrlPath U = .ok base) (hpb : PlainBase base ds) (hplain : PlainTable S.o s.tree)
    (hr : ∀ c, s0.history.getLast? = some c → (compare r c.ts).isLE)
    (hq : ∀ c, s0.history.getLast? = some c → (compare q c.ts).isLE) :
    ∃ plan, (tb.scan E A U D s.tree es []).2 = .ok plan ∧ (plan.flatten.map ScanFile.path).Nodup ∧
      ∃ read, ReadsBaseFiles (basesBy s0.done) s0.history (Kept A S.pcols hive url fs) read ∧
        ∀ at' : ScanFile → Work, (∀ f, Archives S r q s (at' f)) → Executes base (fun f => (at' f).tree) plan read := by
  obtain ⟨v0, g0, a0, _, hi0, hg0, ht0, rfl⟩ := archives_sweep hs0 (inv_nothing S) (swept_nothing S r _)
    (trimmed_nothing q _) (by rw [sweep_sweep]; exact (sweep_nothing _).symm)
  obtain ⟨v, g, a, hw, hi, hg, ht, rfl⟩ := archives_sweep hs hi0 hg0 ht0 rfl
  obtain ⟨ss, hss, g1, g2, g3⟩ := planned_slices_archived E A S hmono hsec hi0 hg0 ht0 hn hs ho hr hq
  rw [sweep_sweep] at hss hplain
  have := planned_scan_archived hi0 hw hi hg ht ho.options hbase hpb hplain hr hss g1 g2 g3
  rw [← sweep_sweep] at this
  exact this

/-- The rows that satisfy all predicates are in the partitions that the predicates do not rule out. -/
theorem planned_rows_archived {E : Env} {A : Arrow} {D : Str → Str} (hD : Readable A D) (V : Meaning) {S : Setting}
    (hmono : MonotoneTz E.ltz) {r q : Str} {s0 : Work} (hs0 : Archives S r q nothingYet s0) {tb : Table}
    {es handed : List Expr} (hsub : ∀ e ∈ handed, e ∈ es) (hor : ∀ e ∈ handed, ColumnFirst e) {fs : List Filter}
    {hive url : Bool} (ho : OpenedAt E A S s0 tb (exprsToFilters D handed) fs hive url)
    (hcarry : CarryPartitions A S.pcols hive url s0.done)
    (hq : ∀ c, s0.history.getLast? = some c → (compare q c.ts).isLE) {read : List Batch}
    (hread : ReadsBaseFiles (basesBy s0.done) s0.history (Kept A S.pcols hive url fs) read) :
    ∃ all, ReadsBaseFiles (basesBy s0.done) s0.history (fun _ => True) all ∧
      (read.flatMap (matching A V es)).Perm (all.flatMap (matching A V es)) := by
  obtain ⟨v0, g0, a0, _, hi0, hg0, ht0, rfl⟩ := archives_sweep hs0 (inv_nothing S) (swept_nothing S r _)
    (trimmed_nothing q _) (by rw [sweep_sweep]; exact (sweep_nothing _).symm)
  obtain ⟨o, hload⟩ := ho.load
  rw [sweep_sweep] at hload
  obtain ⟨tlf, hloadf⟩ := load_other (gone' := []) hi0 hg0 ht0 hload
  have hkf : KeepsLast v0 [] := ⟨(fun _ _ _ h => nomatch h), (fun _ _ h => nomatch h)⟩
  have alf := alike_sweep ho.clock hmono hi0 (keeps_trimmed hi0 hg0 ht0 hq) hkf hload hloadf ho.zone
  rw [sweep_nothing] at hloadf
  exact planned_rows (tb := { tb with timeline := tlf }) hD V hmono hi0 hsub hor
    ⟨⟨⟨o, hloadf⟩, ho.clock, by rw [← alf.opts]; exact ho.zone, ho.options,
        ⟨ho.merges.plain, ho.merges.merges, ho.merges.noStart, ho.merges.zone⟩⟩, ho.names, ho.parsed,
      ho.applicable, ho.style, ho.parallelism⟩ hcarry hread

/-- **C98, the rows of a query, beside an archiver (partial).**  As `C98_planned_query_cleaned_partial`, when an archiver
deletes timeline files as well.  Missing: as above, and as for C70. -/
theorem C98_planned_query_archived_partial (E : Env) (A : Arrow) (U : Str → Option Str) (D : Str → Str) (hD : Readable A D)
    (V : Meaning) (S : Setting) (hmono : MonotoneTz E.ltz) (hsec : WholeSecondsTz E.ltz) (r q : Str) (s0 s : Work)
    (hs0 : Archives S r q nothingYet s0) (hs : Archives S r q s0 s) (hn : NamesCurrent s0) (tb : Table)
    (es handed : List Expr) (hsub : ∀ e ∈ handed, e ∈ es) (hor : ∀ e ∈ handed, ColumnFirst e)
    (fs : List Filter) (hive url : Bool)
    (ho : OpenedAt E A S s0 tb (exprsToFilters D handed) fs hive url) (base : Str) (ds : List Str)
    (hbase : tb.baseUrlPath U = .ok base) (hpb : PlainBase base ds) (hplain : PlainTable S.o s.tree)
    (hcarry : CarryPartitions A S.pcols hive url s0.done)
    (hr : ∀ c, s0.history.getLast? = some c → (compare r c.ts).isLE)
    (hq : ∀ c, s0.history.getLast? = some c → (compare q c.ts).isLE) :
    ∃ plan, (tb.scan E A U D s.tree handed []).2 = .ok plan ∧
      ∃ read all, ReadsBaseFiles (basesBy s0.done) s0.history (fun _ => True) all ∧
        (read.flatMap (matching A V es)).Perm (all.flatMap (matching A V es)) ∧
        ∀ at' : ScanFile → Work, (∀ f, Archives S r q s (at' f)) → Executes base (fun f => (at' f).tree) plan read := by
  obtain ⟨plan, h1, _, read, hread, h2⟩ := C98_planned_scan_archived_partial E A U D S hmono hsec r q s0 s hs0 hs hn tb
    handed fs hive url ho base ds hbase hpb hplain hr hq
  obtain ⟨all, h3, h4⟩ := planned_rows_archived hD V hmono hs0 hsub hor ho hcarry hq hread
  exact ⟨plan, h1, read, all, h3, h4, h2⟩

end Hudi
