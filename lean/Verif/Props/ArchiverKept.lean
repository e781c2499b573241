import Verif.Spec.ArchiverKept
import Verif.Props.Archiver
import Verif.Lemmas.ArchiverChanges
import Verif.Props.CleanerKept

/-!
# C102: a handle that is kept while writers, a cleaner and an archiver work

What the handle has cached may by now have been deleted, and so may instants of the timeline it has loaded.
-/

namespace Hudi
open Spec

/-- The storage at some moment since writers, cleaner and archiver had come to `s0`. -/
def AfterArchived (S : Setting) (r q : Str) (s0 : Work) (u : Tree) : Prop := ∃ s, Archives S r q s0 s ∧ u = s.tree

theorem since_archived_seen {S : Setting} {r q : Str} {s0 : Work} {m : Moments} (hm : SinceArchived S r q s0 m) :
    AllSeen (AfterArchived S r q s0) m.race := by
  have hdata : ∀ p, Archives S r q s0 (m.data p) := by
    intro p
    have h1 := hm.files []
    have h2 := hm.data [] p
    generalize m.data p = d at h2 ⊢
    induction h2 with
    | refl => exact h1
    | step _ hstep ih => exact .step ih hstep
  exact ⟨fun i => ⟨_, hm.replaced i, rfl⟩, ⟨_, hm.latest, rfl⟩, ⟨_, hm.schema, rfl⟩, fun x => ⟨_, hm.dirs x, rfl⟩,
    fun x => ⟨_, hm.files x, rfl⟩, fun x => ⟨_, hm.sizes x, rfl⟩, fun x => ⟨_, hdata x, rfl⟩⟩

theorem sourcedAs_archived {E : Env} {A : Arrow} {S : Setting} {M : MergeEnv A} {r q : Str} {s0 : Work} {tb : Table}
    {depth : Nat} {c : Cache} (h : KeptArchived E A S M r q s0 tb depth c)
    (hwf : ∀ u, AfterArchived S r q s0 u → TreeWF u) : SourcedAs tb.opts (AfterArchived S r q s0) c := by
  induction h with
  | opened => exact ⟨.nil, fun _ _ h => nomatch h⟩
  | call m call F hm _ ih =>
    exact race_keeps (P := SourcedAs tb.opts (AfterArchived S r q s0))
      (fun ts p excl => sourcedAs_view hwf (since_archived_seen hm) ts p excl) call F _ ih

/-- A read as of a commit through a handle that has been kept while writers, cleaner and archiver went on returns what it
would return when the handle had just been opened. -/
theorem archived_again {E : Env} {A : Arrow} {S : Setting} {M : MergeEnv A} (hmono : MonotoneTz E.ltz)
    (hsec : WholeSecondsTz E.ltz) {r q : Str} {v0 : Work} {g0 a0 : List (List Str)} (hi0 : Inv S v0)
    (hg0 : Swept S r v0 g0) (ht0 : Trimmed q v0 a0) (hn : NamesCurrent v0) {tb : Table}
    (hl : ∃ o, Timeline.load E o (sweep (sweep v0 g0) a0).tree = .ok tb.timeline) (hclock : E.ltz = S.ltz)
    (hzone : timezoneOf tb.timeline.opts = .ok S.tz) (hopts : tb.opts = S.o)
    {j0 : Job} (hj0 : j0 ∈ v0.done) (hr : (compare r j0.commit.ts).isLE)
    (hq : ∀ c, v0.history.getLast? = some c → (compare q c.ts).isLE) {m : Moments}
    (hm : SinceArchived S r q (sweep (sweep v0 g0) a0) m) {depth : Nat} {cache : Cache}
    (hk : KeptArchived E A S M r q (sweep (sweep v0 g0) a0) tb depth cache) {filters : List (Str × Str × Str)}
    (hstat : ∀ o tlf, Timeline.load E o v0.tree = .ok tlf → timezoneOf tlf.opts = .ok S.tz →
      ∃ outs, (Table.readSnapshotAsOf E A S.C M { tb with timeline := tlf } (lasting S v0).tree j0.commit.ts filters []).2 =
        .ok outs) {outs : List Batch}
    (h3 : tb.readSnapshotAsOfR E A S.C M depth m.race j0.commit.ts filters = .ok outs) :
    ∃ outs', ((TableCall.snapshotAsOf j0.commit.ts filters).race E A S.C M tb depth m.race noFaults cache).2.2 =
        .ok (.batches outs') ∧ outs.Perm outs' := by
  have hi' := inv_lasting hi0
  obtain ⟨o, tlf, tls, hloadf, hloads, al, alfs, hzonef, hV⟩ :=
    archived_view hmono hsec hi0 hg0 ht0 hn hl hclock hzone hj0 hr hq
  obtain ⟨outs0, q1⟩ := hstat o tlf hloadf hzonef
  rw [Alike.reads (tb := { tb with timeline := tlf }) alfs] at q1
  obtain ⟨excl0, q3⟩ : ∃ excl, tls.replacedAsOf E (lasting S v0).tree j0.commit.ts = .ok excl := by
    unfold Table.readSnapshotAsOf at q1
    obtain ⟨fs', g1, g2⟩ := Query.bind_lift_snd.1 q1
    unfold Table.readSnapshotInternal at g2
    rw [Query.bind_snd] at g2
    obtain ⟨ss, g3, _⟩ := g2
    obtain ⟨excl, _, _, g4, _⟩ := fileSlicesInternal_ok.1 g3
    exact ⟨excl, g4⟩
  have hM : ∀ u, AfterArchived S r q (sweep (sweep v0 g0) a0) u → Meanwhile S.C S.ltz S.tz S.o j0.commit.ts tls
      (lasting S v0).tree (heldIn (lasting S v0)) u := by
    rintro u ⟨s, hs, rfl⟩
    exact hV s hs
  have hsrc := sourcedAs_archived hk (fun u hu => (hM u hu).wf)
  have hR := since_archived_seen hm
  have hnames : ∀ n ∈ timelineNames (sweep v0 (archivable q v0)).tree, NormalName n :=
    timelineNames_normal (wf_treeOf (sweep_paths hi0))
  obtain ⟨outs', h5, h6⟩ := readSnapshotRC_idle
    (P := fun x => ∃ b, Wanted S.ltz S.o j0.commit.ts tls (lasting S v0).tree x b)
    (fun x => (hM _ (hR.dirs x)).wf)
    (by rw [hopts]; rintro x ⟨b, hb⟩ y; exact (hM _ (hR.dirs y)).partitions x b hb) hsrc.1 (by
      intro excl hexcl x gs hx
      rw [al.replacedAsOfR, replacedAsOfR_same hloads hnames
        (fun i hi => (hM _ (hR.replaced i)).docs i hi) q3] at hexcl
      cases hexcl
      by_cases hwant : ∃ b, Wanted S.ltz S.o j0.commit.ts tls (lasting S v0).tree x b
      · exact .inl hwant
      refine .inr (fun g hg => ?_)
      obtain ⟨hpp, hkeys⟩ := hsrc.2 x gs hx g hg
      by_cases hnone : mapLastLe j0.commit.ts g.slices = none
      · exact .inr hnone
      refine .inl ?_
      rw [mapLastLe_eq_none] at hnone
      obtain ⟨e, he, hle⟩ : ∃ e ∈ g.slices, (compare e.1 j0.commit.ts).isLE := by
        by_contra hno
        refine hnone (fun e he => ?_)
        cases hcmp : compare e.1 j0.commit.ts with
        | gt => rfl
        | lt => exact absurd ⟨e, he, by rw [hcmp]; rfl⟩ hno
        | eq => exact absurd ⟨e, he, by rw [hcmp]; rfl⟩ hno
      obtain ⟨hpath, u, hu, b, hb, hbf, hbk⟩ := hkeys e.1 (List.mem_map.2 ⟨e, he, rfl⟩)
      rw [hopts] at hpath
      rw [← hbk] at hle
      obtain ⟨g1, g2⟩ := (hM u hu).newBases x b hpath hb hle
      rcases wanted_or_replaced (ltz := S.ltz) (tl := tls) g1 g2 hle with h | ⟨tz, d, g3, g4, g5⟩
      · exact absurd h hwant
      · obtain ⟨g', hg', hid⟩ := (replaced_iff hloads hnames g3 ⟨d, by rw [hclock]; exact g4, rfl⟩ q3 x b.fileId).2 g5
        unfold fgContains
        rw [List.any_eq_true]
        refine ⟨g', hg', same_iff.2 ?_⟩
        unfold groupId at hid
        rw [hpp, ← hbf]
        exact ⟨(Prod.mk.inj hid).2, (Prod.mk.inj hid).1⟩) h3
  refine ⟨outs', ?_, h6⟩
  have h7 := (faithful_snapshotAsOfRF E A S.C M tb depth m.race j0.commit.ts filters cache).none
  rw [h5] at h7
  exact answerOf_ok.2 ⟨outs', h7, rfl⟩

/-- **C102, kept handles, as of a commit.**  Writers work on a table, a cleaner deletes files of versions of file groups
that completed writes up to the time `r` have superseded, and an archiver deletes the timeline files of completed commits
before the time `q` other than replacecommits, keeping the latest that the handle knows.  A handle opened at any moment `s0` is kept while they go on, and any calls have
been made on it since, any of their requests failing, the others being answered at any moments.  A read as of any commit
from `r` on that had completed at `s0` returns an error if one of its requests fails; and otherwise, whenever each of its
requests is answered, exactly the records that the writes completed by then had written.  Missing: as in
`C102_reads_as_of_partial`. -/
theorem C102_kept_as_of_partial (E : Env) (A : Arrow) (S : Setting) (M : MergeEnv A) (hmono : MonotoneTz E.ltz)
    (hsec : WholeSecondsTz E.ltz) (r q : Str) (s0 : Work) (hs0 : Archives S r q nothingYet s0) (hn : NamesCurrent s0)
    (m : Moments) (hm : SinceArchived S r q s0 m)
    (tb : Table) (filters : List (Str × Str × Str)) (fs : List Filter) (hive url : Bool)
    (ho : OpenedAt E A S s0 tb filters fs hive url) (depth : Nat) (hdepth : S.depth < depth) (cache : Cache)
    (hk : KeptArchived E A S M r q s0 tb depth cache) (c : HCommit) (hc : c ∈ s0.history)
    (hr : (compare r c.ts).isLE) (hq : ∀ c, s0.history.getLast? = some c → (compare q c.ts).isLE)
    (F : Faults) :
    ((TableCall.snapshotAsOf c.ts filters).SomeFails E A S.C M tb depth m.race F cache →
      ∃ e, ((TableCall.snapshotAsOf c.ts filters).race E A S.C M tb depth m.race F cache).2.2 = .err e) ∧
    (¬ (TableCall.snapshotAsOf c.ts filters).SomeFails E A S.C M tb depth m.race F cache →
      ∃ outs, ((TableCall.snapshotAsOf c.ts filters).race E A S.C M tb depth m.race F cache).2.2 = .ok (.batches outs) ∧
        ReadsEvolving A (columnsBy s0.done) S.pre (tableAt s0.history c.ts) (Kept A S.pcols hive url fs)
          (fun k r => r ∈ recordsAt (rowsOf s0.done) s0.history c.ts k) outs) := by
  obtain ⟨h1, h2⟩ := C86_failures_are_reported E A S.C M tb depth m.race cache (.snapshotAsOf c.ts filters) F
  refine ⟨h1, fun hF => ?_⟩
  rw [h2 hF]
  obtain ⟨outs, h3, h4⟩ := C102_reads_as_of_partial E A S M hmono hsec r q s0 hs0 hn m hm tb filters fs hive url ho depth
    hdepth c hc hr hq
  obtain ⟨v0, g0, a0, _, hi0, hg0, ht0, rfl⟩ := archives_sweep hs0 (inv_nothing S) (swept_nothing S r _)
    (trimmed_nothing q _) (by rw [sweep_sweep]; exact (sweep_nothing _).symm)
  obtain ⟨j0, hj0, rfl⟩ := mem_commitsOf.1 hc
  change j0 ∈ v0.done at hj0
  change NamesCurrent v0 at hn
  obtain ⟨outs', h5, h6⟩ := archived_again hmono hsec hi0 hg0 ht0 hn ho.load ho.clock ho.zone ho.options hj0 hr hq hm hk
    (fun o tlf hloadf hzonef => by
      have hof : OpenedAt E A S v0 { tb with timeline := tlf } filters fs hive url :=
        ⟨⟨⟨o, hloadf⟩, ho.clock, hzonef, ho.options,
          ⟨ho.merges.plain, ho.merges.merges, ho.merges.noStart, ho.merges.zone⟩⟩,
          ho.names, ho.parsed, ho.applicable, ho.style, ho.parallelism⟩
      obtain ⟨outs0, q1, _⟩ := upTo_reads E A S M hmono hsec (s := lasting S v0) hi0 (inv_lasting hi0) (more := [])
        (by rw [List.append_nil]; rfl) hof (mem_commitsOf.2 ⟨j0, hj0, rfl⟩)
      exact ⟨outs0, q1⟩) h3
  exact ⟨outs', h5, readsEvolving_perm h6 h4⟩

/-- **C102, kept handles, the latest snapshot.**  Likewise without a timestamp, if cleaner and archiver keep to a time
that the handle knows.  The read returns an error if one of its requests fails, and otherwise exactly the records of the
writes that had completed when the handle was opened.  Missing: as in `C102_reads_as_of_partial`. -/
theorem C102_kept_latest_partial (E : Env) (A : Arrow) (S : Setting) (M : MergeEnv A) (hmono : MonotoneTz E.ltz)
    (hsec : WholeSecondsTz E.ltz) (r q : Str) (s0 : Work) (hs0 : Archives S r q nothingYet s0) (hn : NamesCurrent s0)
    (m : Moments) (hm : SinceArchived S r q s0 m)
    (tb : Table) (filters : List (Str × Str × Str)) (fs : List Filter) (hive url : Bool)
    (ho : OpenedAt E A S s0 tb filters fs hive url) (depth : Nat) (hdepth : S.depth < depth) (cache : Cache)
    (hk : KeptArchived E A S M r q s0 tb depth cache)
    (hr : ∀ c, s0.history.getLast? = some c → (compare r c.ts).isLE)
    (hq : ∀ c, s0.history.getLast? = some c → (compare q c.ts).isLE) (F : Faults) :
    ((TableCall.snapshot filters).SomeFails E A S.C M tb depth m.race F cache →
      ∃ e, ((TableCall.snapshot filters).race E A S.C M tb depth m.race F cache).2.2 = .err e) ∧
    (¬ (TableCall.snapshot filters).SomeFails E A S.C M tb depth m.race F cache →
      ∃ outs, ((TableCall.snapshot filters).race E A S.C M tb depth m.race F cache).2.2 = .ok (.batches outs) ∧
        ReadsEvolving A (columnsBy s0.done) S.pre (versionAfter s0.history) (Kept A S.pcols hive url fs)
          (fun k r => r ∈ recordsAfter (rowsOf s0.done) s0.history k) outs) := by
  obtain ⟨v0, g0, a0, _, hi0, hg0, ht0, e0⟩ := archives_sweep hs0 (inv_nothing S) (swept_nothing S r _)
    (trimmed_nothing q _) (by rw [sweep_sweep]; exact (sweep_nothing _).symm)
  have hh : s0.history = v0.history := by rw [e0]; rfl
  obtain ⟨o, hload⟩ := ho.load
  rw [e0, sweep_sweep] at hload
  obtain ⟨t1, t2, t3⟩ := timeline_of hload ho.zone (wf_filter hi0.wf (fun c => decide (instantAt c ∉ g0 ++ a0)))
    (by rw [ho.clock]; exact sweep_timeline hi0 _)
  cases hlast : s0.history.getLast? with
  | none =>
    have hnil := List.getLast?_eq_none_iff.1 hlast
    have h2 : tb.timeline.completed = [] := by
      rw [List.eq_nil_iff_forall_not_mem]
      intro i hi
      obtain ⟨c, hc, _⟩ := t1 i hi
      have := (List.mem_filter.1 hc).1
      rw [← hh, hnil] at this
      cases this
    have e : ∀ F, (TableCall.snapshot filters).race E A S.C M tb depth m.race F cache = (0, cache, .ok (.batches [])) := by
      intro F
      unfold TableCall.race Table.readSnapshotRF Timeline.latestTimestamp
      rw [h2]
      rfl
    refine ⟨fun ⟨k, hk, _⟩ => ?_, fun _ => ⟨[], by rw [e], [], .nil, ?_, .nil⟩⟩
    · rw [e] at hk
      exact absurd hk (Nat.not_lt_zero _)
    · intro k
      rw [hnil]
      simp [versionAfter]
  | some c0 =>
    have hc0 := List.mem_of_getLast? hlast
    obtain ⟨j0, hj0, rfl⟩ := mem_commitsOf.1 (hh ▸ hc0 : c0 ∈ v0.history)
    have hl := last_left (keeps_trimmed hi0 hg0 ht0 (hh ▸ hq))
    rw [← hh, hlast] at hl
    unfold leftOf at hl
    rcases timeline_last hmono (wf_filter hi0.wf (fun c => decide (instantAt c ∉ g0 ++ a0))) t1 t2 t3 with
      ⟨h1, _⟩ | ⟨c1, d1, h1, h2, _⟩
    · rw [h1] at hl; cases hl
    · rw [h1] at hl
      cases hl
      have e : ∀ F, (TableCall.snapshot filters).race E A S.C M tb depth m.race F cache =
          (TableCall.snapshotAsOf j0.commit.ts filters).race E A S.C M tb depth m.race F cache := by
        intro F
        unfold TableCall.race Table.readSnapshotRF Timeline.latestTimestamp
        rw [h2]
        rfl
      have h := C102_kept_as_of_partial E A S M hmono hsec r q s0 hs0 hn m hm tb filters fs hive url ho depth hdepth cache
        hk j0.commit hc0 (hr _ hlast) hq F
      have hall : s0.history.filter (fun c => (compare c.ts j0.commit.ts).isLE) = s0.history := by
        rw [hh]; exact upTo_last hi0.wf (hh ▸ hlast)
      have e1 : tableAt s0.history j0.commit.ts = versionAfter s0.history := by
        funext k; unfold tableAt; rw [hall]
      have e2 : recordsAt (rowsOf s0.done) s0.history j0.commit.ts = recordsAfter (rowsOf s0.done) s0.history := by
        funext k; unfold recordsAt; rw [hall]
      rw [e1, e2] at h
      unfold TableCall.SomeFails at h ⊢
      rw [e, e]
      exact h

end Hudi
