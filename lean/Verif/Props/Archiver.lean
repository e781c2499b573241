import Verif.Lemmas.ArchiverTimeline
import Verif.Props.Cleaner

/-!
# C102: reads that run while writers, a cleaner and an archiver work

The archiver deletes the timeline files of old completed commits, other than replacecommits.
-/

namespace Hudi
open Spec

/-- The instants that the archiver may delete play no part. -/
theorem wanted_alike {ltz : LocalTz} {o : Opts} {ts : Str} {tl tl' : Timeline} (h : Alike tl tl') {t : Tree} {x : Str}
    {b : BaseFile} (hw : Wanted ltz o ts tl t x b) : Wanted ltz o ts tl' t x b := by
  refine ⟨hw.part, hw.base, hw.upTo, hw.latest, ?_⟩
  rintro tz d hz hd ⟨i, hi, ha, hrest⟩
  have hmem : i ∈ tl'.completed.filter (fun i => decide (i.action = .replaceCommit)) :=
    List.mem_filter.2 ⟨hi, decide_eq_true ha⟩
  rw [← h.replaced] at hmem
  exact hw.live tz d (by rw [h.opts]; exact hz) hd ⟨i, (List.mem_filter.1 hmem).1, ha, hrest⟩

/-- The archiver has left all that the read needs. -/
theorem meanwhile_trim {S : Setting} {ts : Str} {v v0 : Work} (hi : Inv S v) (hi0 : Inv S v0) {q : Str}
    {g a : List (List Str)} (ht : Trimmed q v a) {tl tl' : Timeline} (h : Alike tl tl')
    (hsub : ∀ i ∈ tl'.completed, i ∈ tl.completed ∧ [c!".hoodie", i.timestamp ++ c!"." ++ suffix i.action i.state] ∉ a)
    {held : Str → List WBlock}
    (hM : Meanwhile S.C S.ltz S.tz S.o ts tl (lasting S v0).tree held (sweep v g).tree) :
    Meanwhile S.C S.ltz S.tz S.o ts tl' (lasting S v0).tree held (sweep v (g ++ a)).tree := by
  have hw' : ∀ {x b}, Wanted S.ltz S.o ts tl' (lasting S v0).tree x b → Wanted S.ltz S.o ts tl (lasting S v0).tree x b :=
    fun hw => wanted_alike h.symm hw
  have hpath : ∀ {x b}, Wanted S.ltz S.o ts tl' (lasting S v0).tree x b → PartitionPath S.o x :=
    fun hw => partition_path (inv_lasting hi0) hw.part
  have hbase : ∀ {x b}, Wanted S.ltz S.o ts tl' (lasting S v0).tree x b →
      BaseIn (filesOf (sweep v (g ++ a)).tree x) b :=
    fun {x b} hw => (trim_base hi ht (hpath hw)).2 (hM.bases x b (hw' hw))
  have hparquet : ∀ {p : List Str} {size n b f}, (sweep v g).tree.fileAt p = some (size, .parquet n b f) → p ∉ a := by
    intro p size n b f hp hm
    obtain ⟨j, hj, _, _, rfl⟩ := ht _ hm
    change (treeOf _).fileAt _ = _ at hp
    rw [fileAt_treeOf (sweep_paths hi).nonempty (by simp [instantAt])] at hp
    obtain ⟨y, h1, h2⟩ := Option.map_eq_some_iff.1 hp
    have h3 := (sweep_get (v := v) (gone := g) h1).1
    rw [hi.instants j hj] at h3
    cases h3
    cases h2
  refine ⟨wf_treeOf (sweep_paths hi), ?_, ?_, ?_, ?_, ?_, ?_, ?_, ?_, ?_⟩
  · intro x hx l l' hl hl'
    exact hM.one x hx l l' ((trim_log hi ht hx).1 hl) ((trim_log hi ht hx).1 hl')
  · intro i him
    obtain ⟨h1, h2⟩ := hsub i him
    rw [← hM.docs i h1]
    unfold docOf
    rw [trim_fileAt hi h2]
  · intro i md path sc hlast hdoc hfirst hcols
    obtain ⟨size, n, b, hf⟩ := hM.columns i md path sc (by rw [h.last]; exact hlast) hdoc hfirst hcols
    exact ⟨size, n, b, by rw [trim_fileAt hi (hparquet hf)]; exact hf⟩
  · intro x b hw
    obtain ⟨name, size, h1, _⟩ := hbase hw
    obtain ⟨_, y, hy⟩ := (files_treeOf (sweep_paths hi)).1 h1
    exact partition_of_place (sweep_place hi) (site_of_path hi (hpath hw) ((sweep_files hi).1 h1).1) hy
  · exact fun x b hw => hbase hw
  · intro x b hw rows hrows
    obtain ⟨size, n, footer, hf⟩ := hM.parquet x b (hw' hw) rows hrows
    exact ⟨size, n, footer, by rw [trim_fileAt hi (hparquet hf)]; exact hf⟩
  · intro x b hw l hl ha
    obtain ⟨l', h1, h2⟩ := hM.logs x b (hw' hw) l hl ha
    exact ⟨l', (trim_log hi ht (hpath hw)).2 h1, h2⟩
  · intro x b hx hb
    exact hM.newBases x b hx ((trim_base hi ht hx).1 hb)
  · intro hro x b hw l hl ha
    have hl' := (trim_log hi ht (hpath hw)).1 hl
    obtain ⟨more, ⟨size, c, h1, h2⟩, h3⟩ := hM.appended hro x b (hw' hw) l hl' ha
    refine ⟨more, ⟨size, c, ?_, h2⟩, h3⟩
    obtain ⟨j1, f1, token1, l1, ws1, hj1, hk1, hl1, hg1, hn1, rfl⟩ :=
      sweep_log_in hi (log_site hi (hpath hw) (sweep_log hi hl)) hl
    obtain ⟨d1, hjob1⟩ := hi.jobOf hj1
    have hkey := job_key hjob1 hk1
    have hp := log_path (k := (x, f1)) (m := some (FileMeta.new (logName f1 j1.commit.ts l1.1 l1.2) 1)) hkey
      hjob1.time.1 hl1
    rw [hp] at h1 ⊢
    rw [trim_fileAt hi (log_kept hi ht hkey)]
    exact h1

/-- The timeline of a handle, the whole one, and the one without all that may be archived cannot be told apart; and at
every later moment the storage is as writers, cleaner and archiver may leave it while the table is read. -/
theorem archived_view {E : Env} {S : Setting} (hmono : MonotoneTz E.ltz) (hsec : WholeSecondsTz E.ltz) {r q : Str}
    {v0 : Work} {g0 a0 : List (List Str)} (hi0 : Inv S v0) (hg0 : Swept S r v0 g0) (ht0 : Trimmed q v0 a0)
    (hn : NamesCurrent v0) {tb : Table} (hl : ∃ o, Timeline.load E o (sweep (sweep v0 g0) a0).tree = .ok tb.timeline)
    (hclock : E.ltz = S.ltz) (hzone : timezoneOf tb.timeline.opts = .ok S.tz) {j0 : Job} (hj0 : j0 ∈ v0.done)
    (hr : (compare r j0.commit.ts).isLE) (hq : ∀ c, v0.history.getLast? = some c → (compare q c.ts).isLE) :
    ∃ o tlf tls, Timeline.load E o v0.tree = .ok tlf ∧
      Timeline.load E o (sweep v0 (archivable q v0)).tree = .ok tls ∧ Alike tb.timeline tls ∧ Alike tlf tls ∧
      timezoneOf tlf.opts = .ok S.tz ∧
      ∀ s, Archives S r q (sweep (sweep v0 g0) a0) s → Meanwhile S.C S.ltz S.tz S.o j0.commit.ts tls (lasting S v0).tree
        (heldIn (lasting S v0)) s.tree := by
  obtain ⟨o, hload⟩ := hl
  rw [sweep_sweep] at hload
  obtain ⟨tlf, hloadf⟩ := load_other (gone' := []) hi0 hg0 ht0 hload
  obtain ⟨tls, hloads⟩ := load_other (gone' := archivable q v0) hi0 hg0 ht0 hload
  have hk := keeps_trimmed hi0 hg0 ht0 hq
  have hkf : KeepsLast v0 [] := ⟨(fun _ _ _ h => nomatch h), (fun _ _ h => nomatch h)⟩
  have hks : KeepsLast v0 (archivable q v0) :=
    keeps_trimmed (g := []) hi0 (swept_nothing S r _) (archivable_trimmed q v0) hq
  have al := alike_sweep hclock hmono hi0 hk hks hload hloads hzone
  have alf := alike_sweep hclock hmono hi0 hk hkf hload hloadf hzone
  have hzonef : timezoneOf tlf.opts = .ok S.tz := by rw [← alf.opts]; exact hzone
  have hzones : timezoneOf tls.opts = .ok S.tz := by rw [← al.opts]; exact hzone
  have alfs := alike_sweep hclock hmono hi0 hkf hks hloadf hloads hzonef
  rw [sweep_nothing] at hloadf
  obtain ⟨t1, t2, t3⟩ := timeline_of hloadf hzonef hi0.wf (by rw [hclock]; exact hi0.timeline)
  rw [hclock] at t1 t2
  obtain ⟨u1, _, _⟩ := timeline_of hloads hzones (wf_filter hi0.wf (fun c => decide (instantAt c ∉ archivable q v0)))
    (by rw [hclock]; exact sweep_timeline hi0 _)
  rw [hclock] at u1
  have hsub : ∀ {v : Work} {a : List (List Str)}, Inv S v → Trimmed q v a → ∀ i ∈ tls.completed, i ∈ tlf.completed ∧
      [c!".hoodie", i.timestamp ++ c!"." ++ suffix i.action i.state] ∉ a := by
    intro v a hi ht i him
    obtain ⟨c, hc, d, hd, rfl⟩ := u1 i him
    obtain ⟨hc1, hc2⟩ := List.mem_filter.1 hc
    have hc2 := of_decide_eq_true hc2
    obtain ⟨d', hd', h3⟩ := t2 c hc1
    rw [hd] at hd'; cases hd'
    refine ⟨h3, trimmed_spares (c := c) hi ht (hi0.wf.times c hc1).1 ?_⟩
    by_contra hcon
    rw [not_or] at hcon
    refine hc2 ?_
    obtain ⟨j, hj, rfl⟩ := mem_commitsOf.1 hc1
    refine List.mem_map.2 ⟨j, List.mem_filter.2 ⟨hj, decide_eq_true ⟨?_, hcon.1⟩⟩, rfl⟩
    have := hcon.2
    rw [Std.OrientedCmp.eq_swap (cmp := (compare : Str → Str → Ordering))]
    cases hcmp : (compare q j.commit.ts) <;> simp_all
  have hM : ∀ {s}, Archives S r q (sweep (sweep v0 g0) a0) s → Meanwhile S.C S.ltz S.tz S.o j0.commit.ts tls
      (lasting S v0).tree (heldIn (lasting S v0)) s.tree := by
    intro s hs
    obtain ⟨v, g, a, hw, hi, hg, ht, rfl⟩ := archives_sweep hs hi0 hg0 ht0 rfl
    rw [sweep_sweep]
    exact meanwhile_trim hi hi0 ht alfs (hsub hi ht)
      (meanwhile_sweep hclock hmono hsec hi0 hw hj0 hr hg hn hzonef t1 t2 t3)
  exact ⟨o, tlf, tls, hloadf, hloads, al, alfs, hzonef, fun _ hs => hM hs⟩

/-- While writers, a cleaner and an archiver work, what a read lists can be opened. -/
theorem orderly_archived {E : Env} {S : Setting} (hmono : MonotoneTz E.ltz) {r q : Str} {v0 : Work}
    {g0 a0 : List (List Str)} (hi0 : Inv S v0) (hg0 : Swept S r v0 g0) (ht0 : Trimmed q v0 a0) (hclock : E.ltz = S.ltz)
    {o : Opts} {tlf tls : Timeline} (hloadf : Timeline.load E o v0.tree = .ok tlf)
    (hzonef : timezoneOf tlf.opts = .ok S.tz) (alfs : Alike tlf tls) {j0 : Job} (hj0 : j0 ∈ v0.done)
    (hr : (compare r j0.commit.ts).isLE) {m : Moments} (hm : SinceArchived S r q (sweep (sweep v0 g0) a0) m) :
    Orderly S.ltz S.o j0.commit.ts tls (lasting S v0).tree m.race := by
  obtain ⟨t1, t2, t3⟩ := timeline_of hloadf hzonef hi0.wf (by rw [hclock]; exact hi0.timeline)
  rw [hclock] at t1 t2
  constructor
  · intro x hx
    obtain ⟨v, g, a, hw, hi, hg, ht, e⟩ := archives_sweep (hm.files x) hi0 hg0 ht0 rfl
    show Listable (filesOf (m.files x).tree x)
    have hl := sweep_listable hi hg hx
    rw [e, sweep_sweep]
    refine ⟨?_, ?_, ?_⟩
    · exact fun name size h1 => hl.names name size ((trim_files hi ht hx).1 h1)
    · exact fun b b' hb hb' => hl.unique b b' ((trim_base hi ht hx).1 hb) ((trim_base hi ht hx).1 hb')
    · simp only [trim_log hi ht hx, trim_base hi ht hx]
      exact hl.logs
  · intro _ x b hwant l hl ha
    change LogIn (filesOf (m.files x).tree x) l at hl
    obtain ⟨v, gone, a, hw, hi, hg, ht, e⟩ := archives_sweep (hm.files x) hi0 hg0 ht0 rfl
    have hpath := partition_path (inv_lasting hi0) hwant.part
    rw [e, sweep_sweep] at hl
    obtain ⟨v2, gone2, a2, hw2, hi2, hg2, ht2, e2⟩ := archives_sweep (e ▸ hm.data x (pathPush x l.fileName)) hi hg ht rfl
    obtain ⟨more, hd⟩ := done_works (works_apart hw hw2)
    obtain ⟨j, f, token, hj, hk, rfl, hno⟩ := wanted_kept hclock hmono hi0 hi2 hd hj0 hr hzonef t1 t2
      (wanted_alike alfs.symm hwant)
    obtain ⟨j1, f1, token1, l1, ws1, hj1, hk1, hl1, hg1, hn1, rfl⟩ :=
      sweep_log_in hi (log_site hi hpath (sweep_log hi hl)) hl
    obtain ⟨d1, hjob1⟩ := hi.jobOf hj1
    obtain ⟨rfl, e3⟩ : f1 = f ∧ j1.commit.ts = j.commit.ts := ha
    rw [← e3] at hno
    have hkey := job_key hjob1 hk1
    have hp := log_path (k := (x, f1)) (m := some (FileMeta.new (logName f1 j1.commit.ts l1.1 l1.2) 1)) hkey
      hjob1.time.1 hl1
    have h3 := (grows_works hi hw2 hkey hjob1.time.1 hl1).2 (by rw [hg1]; exact (fun e => nomatch e))
    obtain ⟨y, hy⟩ := Option.ne_none_iff_exists'.1 h3
    refine ⟨(1, y.content), ?_⟩
    show (m.data _).tree.fileAt _ = _
    rw [e2, sweep_sweep, hp, trim_fileAt hi2 (log_kept hi2 ht2 hkey),
      sweep_fileAt hi2 (fun hm => hno (old_log hi2 hkey hl1 hjob1.time.1 (hg2.old hm)))]
    exact hi2.fileAt (by simp [logAt, inPartition]) hy

/-- What is read, while writers, cleaner and archiver work, through a handle that may have been opened when timeline files
were gone, is what is read when nobody works, nothing has been deleted, and the handle knows the whole timeline. -/
theorem archived_read {E : Env} {A : Arrow} {S : Setting} {M : MergeEnv A} (hmono : MonotoneTz E.ltz)
    (hsec : WholeSecondsTz E.ltz) {r q : Str} {v0 : Work} {g0 a0 : List (List Str)} (hi0 : Inv S v0)
    (hg0 : Swept S r v0 g0) (ht0 : Trimmed q v0 a0) (hn : NamesCurrent v0) {tb : Table}
    (hl : ∃ o, Timeline.load E o (sweep (sweep v0 g0) a0).tree = .ok tb.timeline) (hclock : E.ltz = S.ltz)
    (hzone : timezoneOf tb.timeline.opts = .ok S.tz) (hopts : tb.opts = S.o) (hp : PlainStorage tb)
    (hpre : PrecombinedBy tb.opts S.pre) (hstart : startOf tb.opts = none) (htz : timezoneOf tb.opts = .ok S.tz)
    {j0 : Job} (hj0 : j0 ∈ v0.done) (hr : (compare r j0.commit.ts).isLE)
    (hq : ∀ c, v0.history.getLast? = some c → (compare q c.ts).isLE) {m : Moments}
    (hm : SinceArchived S r q (sweep (sweep v0 g0) a0) m) {depth : Nat} (hdepth : S.depth < depth) :
    ∃ o tlf, Timeline.load E o v0.tree = .ok tlf ∧ timezoneOf tlf.opts = .ok S.tz ∧ ∀ filters outs,
      (Table.readSnapshotAsOf E A S.C M { tb with timeline := tlf } (lasting S v0).tree j0.commit.ts filters []).2 =
        .ok outs →
      ∃ outs', tb.readSnapshotAsOfR E A S.C M depth m.race j0.commit.ts filters = .ok outs' ∧ SameBatches outs outs' := by
  have hi' := inv_lasting hi0
  obtain ⟨d1, hjob⟩ := hi0.jobOf hj0
  obtain ⟨o, tlf, tls, hloadf, hloads, al, alfs, hzonef, hM⟩ :=
    archived_view hmono hsec hi0 hg0 ht0 hn hl hclock hzone hj0 hr hq
  refine ⟨o, tlf, hloadf, hzonef, fun filters outs h1 => ?_⟩
  rw [Alike.reads (tb := { tb with timeline := tlf }) alfs] at h1
  obtain ⟨ss, hss⟩ : ∃ ss, (Table.fileSlicesAsOf E A { tb with timeline := tls } (lasting S v0).tree j0.commit.ts
      filters []).2 = .ok ss := by
    unfold Table.readSnapshotAsOf at h1
    obtain ⟨fs', g1, g2⟩ := Query.bind_lift_snd.1 h1
    unfold Table.readSnapshotInternal at g2
    rw [Query.bind_snd] at g2
    obtain ⟨ss, g3, _⟩ := g2
    exact ⟨ss, Query.bind_lift_snd.2 ⟨fs', g1, g3⟩⟩
  have hdata : ∀ p, Archives S r q (sweep (sweep v0 g0) a0) (m.data p) := by
    intro p
    have h1 := hm.files []
    have h2 := hm.data [] p
    generalize m.data p = d at h2 ⊢
    induction h2 with
    | refl => exact h1
    | step _ hstep ih => exact .step ih hstep
  have hseen : AllSeen (Meanwhile S.C S.ltz S.tz S.o j0.commit.ts tls (lasting S v0).tree (heldIn (lasting S v0))) m.race :=
    ⟨fun i => hM _ (hm.replaced i), hM _ hm.latest, hM _ hm.schema, fun x => hM _ (hm.dirs x), fun x => hM _ (hm.files x),
      fun x => hM _ (hm.sizes x), fun x => hM _ (hdata x)⟩
  have hord : Orderly S.ltz S.o j0.commit.ts tls (lasting S v0).tree m.race :=
    orderly_archived hmono hi0 hg0 ht0 hclock hloadf hzonef alfs hj0 hr hm
  obtain ⟨b1, b2, b3⟩ := data_lasting hi0
  obtain ⟨outs1, outs', r1, r2, r3⟩ := C67_read_returns_partial E A S.C M o (sweep v0 (archivable q v0)).tree
    (lasting S v0).tree { tb with timeline := tls }
    (parquetIn (lasting S v0).tree) (heldIn (lasting S v0)) depth m.race hloads
    (timelineNames_normal (wf_treeOf (sweep_paths hi0))) hi'.treeWF
    (fun x hx => hi'.extensions (hopts ▸ hx)) j0.commit.ts S.tz S.pre hp hpre
    hstart htz (hclock ▸ hjob.parses) (by rw [hclock]; exact hopts ▸ b1) (hopts ▸ b2)
    (hopts ▸ b3)
    (by rw [hclock]; exact hopts ▸ hseen)
    (by rw [hclock]; exact hopts ▸ hord)
    (fun x => by
      obtain ⟨v, g, a, hw, hi, hg, ht, e⟩ := archives_sweep (hm.dirs x) hi0 hg0 ht0 rfl
      show (m.dirs x).tree.height ≤ _
      rw [e, sweep_sweep]
      exact Nat.le_trans (sweep_height hi) hdepth) filters ss hss
  rw [h1] at r1
  cases r1
  exact ⟨outs', by rw [al.readsR]; exact r2, r3⟩

/-- **C102, as of a commit.**  Writers work on a table, a cleaner deletes files of versions of file groups that completed
writes up to the time `r` have superseded, and an archiver deletes the timeline files of completed commits before the
time `q` other than replacecommits, keeping the latest that the handle knows.  A handle opened at any moment `s0` reads as of any commit from `r` on that had completed at
`s0`, while all of them go on working: each request of the read is answered at some later moment, files being read after
their partitions have been listed.  The read returns exactly the records that the writes completed by that commit had
written, archived ones too, as if nothing had been deleted.  Missing: times before `r`, cleaners that delete in another
order, and archivers that delete replacecommits (`C102_false`). -/
theorem C102_reads_as_of_partial (E : Env) (A : Arrow) (S : Setting) (M : MergeEnv A) (hmono : MonotoneTz E.ltz)
    (hsec : WholeSecondsTz E.ltz) (r q : Str) (s0 : Work) (hs0 : Archives S r q nothingYet s0) (hn : NamesCurrent s0)
    (m : Moments) (hm : SinceArchived S r q s0 m)
    (tb : Table) (filters : List (Str × Str × Str)) (fs : List Filter) (hive url : Bool)
    (ho : OpenedAt E A S s0 tb filters fs hive url) (depth : Nat) (hdepth : S.depth < depth) (c : HCommit)
    (hc : c ∈ s0.history) (hr : (compare r c.ts).isLE)
    (hq : ∀ c, s0.history.getLast? = some c → (compare q c.ts).isLE) :
    ∃ outs, tb.readSnapshotAsOfR E A S.C M depth m.race c.ts filters = .ok outs ∧
      ReadsEvolving A (columnsBy s0.done) S.pre (tableAt s0.history c.ts) (Kept A S.pcols hive url fs)
        (fun k r => r ∈ recordsAt (rowsOf s0.done) s0.history c.ts k) outs := by
  obtain ⟨v0, g0, a0, _, hi0, hg0, ht0, rfl⟩ := archives_sweep hs0 (inv_nothing S) (swept_nothing S r _)
    (trimmed_nothing q _) (by rw [sweep_sweep]; exact (sweep_nothing _).symm)
  have hi' := inv_lasting hi0
  obtain ⟨j0, hj0, rfl⟩ := mem_commitsOf.1 hc
  change j0 ∈ v0.done at hj0
  change NamesCurrent v0 at hn
  obtain ⟨o, tlf, hloadf, hzonef, hread⟩ := archived_read (A := A) (M := M) hmono hsec hi0 hg0 ht0 hn ho.load ho.clock
    ho.zone ho.options ho.merges.plain (fun _ => ho.merges.merges.field) ho.merges.noStart ho.merges.zone hj0 hr hq hm
    hdepth
  have hof : OpenedAt E A S v0 { tb with timeline := tlf } filters fs hive url :=
    ⟨⟨⟨o, hloadf⟩, ho.clock, hzonef, ho.options, ⟨ho.merges.plain, ho.merges.merges, ho.merges.noStart, ho.merges.zone⟩⟩,
      ho.names, ho.parsed, ho.applicable, ho.style, ho.parallelism⟩
  obtain ⟨outs, h1, h2⟩ := upTo_reads E A S M hmono hsec (s := lasting S v0) hi0 hi' (more := [])
    (by rw [List.append_nil]; rfl) hof (mem_commitsOf.2 ⟨j0, hj0, rfl⟩)
  obtain ⟨outs', h3, h4⟩ := hread filters outs h1
  exact ⟨outs', h3, readsEvolving_same h4 h2⟩

/-- **C102, the latest snapshot.**  Likewise without a timestamp, if cleaner and archiver keep to a time that the handle
knows: no later than the latest commit that had completed at `s0`.  The read returns exactly the records of the writes
that had completed then; nothing if there were none.  Missing: as in `C102_reads_as_of_partial`. -/
theorem C102_reads_latest_partial (E : Env) (A : Arrow) (S : Setting) (M : MergeEnv A) (hmono : MonotoneTz E.ltz)
    (hsec : WholeSecondsTz E.ltz) (r q : Str) (s0 : Work) (hs0 : Archives S r q nothingYet s0) (hn : NamesCurrent s0)
    (m : Moments) (hm : SinceArchived S r q s0 m)
    (tb : Table) (filters : List (Str × Str × Str)) (fs : List Filter) (hive url : Bool)
    (ho : OpenedAt E A S s0 tb filters fs hive url) (depth : Nat) (hdepth : S.depth < depth)
    (hr : ∀ c, s0.history.getLast? = some c → (compare r c.ts).isLE)
    (hq : ∀ c, s0.history.getLast? = some c → (compare q c.ts).isLE) :
    ∃ outs, tb.readSnapshotR E A S.C M depth m.race filters = .ok outs ∧
      ReadsEvolving A (columnsBy s0.done) S.pre (versionAfter s0.history) (Kept A S.pcols hive url fs)
        (fun k r => r ∈ recordsAfter (rowsOf s0.done) s0.history k) outs := by
  obtain ⟨v0, g0, a0, _, hi0, hg0, ht0, e0⟩ := archives_sweep hs0 (inv_nothing S) (swept_nothing S r _)
    (trimmed_nothing q _) (by rw [sweep_sweep]; exact (sweep_nothing _).symm)
  have hh : s0.history = v0.history := by rw [e0]; rfl
  obtain ⟨o, hload⟩ := ho.load
  rw [e0, sweep_sweep] at hload
  obtain ⟨t1, t2, t3⟩ := timeline_of hload ho.zone (wf_filter hi0.wf (fun c => decide (instantAt c ∉ g0 ++ a0)))
    (by rw [ho.clock]; exact sweep_timeline hi0 _)
  cases hlast : s0.history.getLast? with
  | none =>
    have hnil := List.getLast?_eq_none_iff.1 hlast
    have h2 : tb.timeline.completed = [] := by
      rw [List.eq_nil_iff_forall_not_mem]
      intro i hi
      obtain ⟨c, hc, _⟩ := t1 i hi
      have := (List.mem_filter.1 hc).1
      rw [← hh, hnil] at this
      cases this
    refine ⟨[], ?_, [], .nil, ?_, .nil⟩
    · unfold Table.readSnapshotR Timeline.latestTimestamp
      rw [h2]
      rfl
    · intro k
      rw [hnil]
      simp [versionAfter]
  | some c0 =>
    have hc0 := List.mem_of_getLast? hlast
    obtain ⟨j0, hj0, rfl⟩ := mem_commitsOf.1 (hh ▸ hc0 : c0 ∈ v0.history)
    have hk := last_left (keeps_trimmed hi0 hg0 ht0 (hh ▸ hq))
    rw [← hh, hlast] at hk
    unfold leftOf at hk
    have hall : s0.history.filter (fun c => (compare c.ts j0.commit.ts).isLE) = s0.history := by
      rw [List.filter_eq_self]
      intro c hc
      rcases List.eq_nil_or_concat s0.history with e | ⟨l, c', e⟩
      · rw [e] at hc; cases hc
      · rw [List.concat_eq_append] at e
        rw [e] at hlast hc
        simp only [List.getLast?_append, List.getLast?_singleton, Option.some_or, Option.some.injEq] at hlast
        subst hlast
        rcases List.mem_append.1 hc with h1 | h1
        · have := hi0.wf.ordered
          rw [← hh, e, List.pairwise_append] at this
          rw [this.2.2 _ h1 j0.commit (by simp)]; rfl
        · rw [List.mem_singleton.1 h1, Std.ReflCmp.compare_self (cmp := (compare : Str → Str → Ordering))]; rfl
    rcases timeline_last hmono (wf_filter hi0.wf (fun c => decide (instantAt c ∉ g0 ++ a0))) t1 t2 t3 with
      ⟨h1, _⟩ | ⟨c1, d1, h1, h2, _⟩
    · rw [h1] at hk; cases hk
    · rw [h1] at hk
      cases hk
      obtain ⟨outs, h4, h5⟩ := C102_reads_as_of_partial E A S M hmono hsec r q s0 hs0 hn m hm tb filters fs hive url ho depth
        hdepth j0.commit hc0 (hr _ hlast) hq
      refine ⟨outs, ?_, ?_⟩
      · unfold Table.readSnapshotR Timeline.latestTimestamp
        rw [h2]
        exact h4
      · have e1 : tableAt s0.history j0.commit.ts = versionAfter s0.history := by
          funext k; unfold tableAt; rw [hall]
        have e2 : recordsAt (rowsOf s0.done) s0.history j0.commit.ts = recordsAfter (rowsOf s0.done) s0.history := by
          funext k; unfold recordsAt; rw [hall]
        rw [e1, e2] at h5
        exact h5

end Hudi
