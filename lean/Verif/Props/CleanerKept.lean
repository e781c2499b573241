import Verif.Lemmas.CleanerKept
import Verif.Props.Cleaner
import Verif.Props.RacingFaults

/-!
# C91: a handle that is kept while writers and a cleaner work

What the handle has cached may by now have been deleted.
-/

namespace Hudi
open Spec

/-- A handle that is kept reads like a fresh one. -/
theorem kept_again {E : Env} {A : Arrow} {S : Setting} {M : MergeEnv A} (hmono : MonotoneTz E.ltz)
    (hsec : WholeSecondsTz E.ltz) {r : Str} {v0 : Work} {g0 : List (List Str)} (hi0 : Inv S v0) (hg0 : Swept S r v0 g0)
    (hn : NamesCurrent (sweep v0 g0)) {m : Moments} (hm : SinceCleaned S r (sweep v0 g0) m) {tb : Table} {o : Opts}
    (hload : Timeline.load E o v0.tree = .ok tb.timeline) (hclock : E.ltz = S.ltz)
    (hzone : timezoneOf tb.timeline.opts = .ok S.tz) (hopts : tb.opts = S.o) {depth : Nat} {cache : Cache}
    (hk : KeptCleaned E A S M r (sweep v0 g0) tb depth cache) {j0 : Job} (hj0 : j0 ∈ v0.done)
    (hr : (compare r j0.commit.ts).isLE) {excl0 : List FileGroup}
    (q3 : tb.timeline.replacedAsOf E (lasting S v0).tree j0.commit.ts = .ok excl0)
    {filters : List (Str × Str × Str)} {outs : List Batch}
    (h3 : tb.readSnapshotAsOfR E A S.C M depth m.race j0.commit.ts filters = .ok outs) :
    ∃ outs', ((TableCall.snapshotAsOf j0.commit.ts filters).race E A S.C M tb depth m.race noFaults cache).2.2 =
      .ok (.batches outs') ∧ outs.Perm outs' := by
  obtain ⟨t1, t2, t3⟩ := timeline_of hload hzone hi0.wf (by rw [hclock]; exact hi0.timeline)
  rw [hclock] at t1 t2
  have hM : ∀ u, AfterCleaned S r (sweep v0 g0) u → Meanwhile S.C S.ltz S.tz S.o j0.commit.ts tb.timeline
      (lasting S v0).tree (heldIn (lasting S v0)) u := by
    rintro u ⟨s, hs, rfl⟩
    obtain ⟨v, gone, hw, hi, hg, rfl⟩ := cleans_sweep hs hi0 hg0 rfl
    exact meanwhile_sweep hclock hmono hsec hi0 hw hj0 hr hg hn hzone t1 t2 t3
  have hsrc := sourcedAs_kept hk (fun u hu => (hM u hu).wf)
  have hR := since_cleaned_seen hm
  obtain ⟨outs', h5, h6⟩ := readSnapshotRC_idle
    (P := fun x => ∃ b, Wanted S.ltz S.o j0.commit.ts tb.timeline (lasting S v0).tree x b)
    (fun x => (hM _ (hR.dirs x)).wf)
    (by rw [hopts]; rintro x ⟨b, hb⟩ y; exact (hM _ (hR.dirs y)).partitions x b hb) hsrc.1 (by
      intro excl hexcl x gs hx
      rw [replacedAsOfR_same hload (timelineNames_normal hi0.treeWF)
        (fun i hi => (hM _ (hR.replaced i)).docs i hi) q3] at hexcl
      cases hexcl
      by_cases hwant : ∃ b, Wanted S.ltz S.o j0.commit.ts tb.timeline (lasting S v0).tree x b
      · exact .inl hwant
      refine .inr (fun g hg => ?_)
      obtain ⟨hpp, hkeys⟩ := hsrc.2 x gs hx g hg
      by_cases hnone : mapLastLe j0.commit.ts g.slices = none
      · exact .inr hnone
      refine .inl ?_
      rw [mapLastLe_eq_none] at hnone
      obtain ⟨e, he, hle⟩ : ∃ e ∈ g.slices, (compare e.1 j0.commit.ts).isLE := by
        by_contra hno
        refine hnone (fun e he => ?_)
        cases hcmp : compare e.1 j0.commit.ts with
        | gt => rfl
        | lt => exact absurd ⟨e, he, by rw [hcmp]; rfl⟩ hno
        | eq => exact absurd ⟨e, he, by rw [hcmp]; rfl⟩ hno
      obtain ⟨hpath, u, hu, b, hb, hbf, hbk⟩ := hkeys e.1 (List.mem_map.2 ⟨e, he, rfl⟩)
      rw [hopts] at hpath
      rw [← hbk] at hle
      obtain ⟨g1, g2⟩ := (hM u hu).newBases x b hpath hb hle
      rcases wanted_or_replaced (ltz := S.ltz) (tl := tb.timeline) g1 g2 hle with h | ⟨tz, d, g3, g4, g5⟩
      · exact absurd h hwant
      · obtain ⟨g', hg', hid⟩ := (replaced_iff hload (timelineNames_normal hi0.treeWF) g3
          ⟨d, by rw [hclock]; exact g4, rfl⟩ q3 x b.fileId).2 g5
        unfold fgContains
        rw [List.any_eq_true]
        refine ⟨g', hg', same_iff.2 ?_⟩
        unfold groupId at hid
        rw [hpp, ← hbf]
        exact ⟨(Prod.mk.inj hid).2, (Prod.mk.inj hid).1⟩) h3
  refine ⟨outs', ?_, h6⟩
  have h7 := (faithful_snapshotAsOfRF E A S.C M tb depth m.race j0.commit.ts filters cache).none
  rw [h5] at h7
  exact answerOf_ok.2 ⟨outs', h7, rfl⟩

/-- **C91, as of a commit.**  Writers work on a table, and a cleaner deletes files of versions of file groups that
completed writes up to the time `r` have superseded, the log files of a version before its base file.  A handle opened
at any moment `s0` is kept while they go on, and any calls have been made on it since, any of their requests failing, the
others being answered at any moments.  A read as of any commit from `r` on that had completed at `s0` returns an error if
one of its requests fails; and otherwise, whenever each of its requests is answered (files being read after their
partitions have been listed), exactly the records that the writes completed by then had written.  Missing: as in
`C90_reads_as_of_partial`, and handles that know less than the cleaner (`C91_false`). -/
theorem C91_as_of_partial (E : Env) (A : Arrow) (S : Setting) (M : MergeEnv A) (hmono : MonotoneTz E.ltz)
    (hsec : WholeSecondsTz E.ltz) (r : Str) (s0 : Work) (hs0 : Cleans S r nothingYet s0) (hn : NamesCurrent s0)
    (m : Moments) (hm : SinceCleaned S r s0 m)
    (tb : Table) (filters : List (Str × Str × Str)) (fs : List Filter) (hive url : Bool)
    (ho : OpenedAt E A S s0 tb filters fs hive url) (depth : Nat) (hdepth : S.depth < depth) (cache : Cache)
    (hk : KeptCleaned E A S M r s0 tb depth cache) (c : HCommit) (hc : c ∈ s0.history)
    (hr : (compare r c.ts).isLE) (F : Faults) :
    ((TableCall.snapshotAsOf c.ts filters).SomeFails E A S.C M tb depth m.race F cache →
      ∃ e, ((TableCall.snapshotAsOf c.ts filters).race E A S.C M tb depth m.race F cache).2.2 = .err e) ∧
    (¬ (TableCall.snapshotAsOf c.ts filters).SomeFails E A S.C M tb depth m.race F cache →
      ∃ outs, ((TableCall.snapshotAsOf c.ts filters).race E A S.C M tb depth m.race F cache).2.2 = .ok (.batches outs) ∧
        ReadsEvolving A (columnsBy s0.done) S.pre (tableAt s0.history c.ts) (Kept A S.pcols hive url fs)
          (fun k r => r ∈ recordsAt (rowsOf s0.done) s0.history c.ts k) outs) := by
  obtain ⟨h1, h2⟩ := C86_failures_are_reported E A S.C M tb depth m.race cache (.snapshotAsOf c.ts filters) F
  refine ⟨h1, fun hF => ?_⟩
  rw [h2 hF]
  obtain ⟨outs, h3, h4⟩ := C90_reads_as_of_partial E A S M hmono hsec r s0 hs0 hn m hm tb filters fs hive url ho depth
    hdepth c hc hr
  obtain ⟨v0, g0, _, hi0, hg0, rfl⟩ := cleans_sweep hs0 (inv_nothing S) (swept_nothing S r _) (sweep_nothing _).symm
  obtain ⟨j0, hj0, rfl⟩ := mem_commitsOf.1 hc
  have hi' := inv_lasting hi0
  obtain ⟨o, hload⟩ := ho.load
  rw [sweep_load hi0 hg0] at hload
  have ho' : OpenedAt E A S v0 tb filters fs hive url :=
    ⟨⟨⟨o, hload⟩, ho.clock, ho.zone, ho.options, ho.merges⟩, ho.names, ho.parsed, ho.applicable, ho.style, ho.parallelism⟩
  obtain ⟨outs0, q1, _⟩ := upTo_reads E A S M hmono hsec (s := lasting S v0) hi0 hi' (more := [])
    (by rw [List.append_nil]; rfl) ho' hc
  obtain ⟨excl0, q3⟩ : ∃ excl, tb.timeline.replacedAsOf E (lasting S v0).tree j0.commit.ts = .ok excl := by
    unfold Table.readSnapshotAsOf at q1
    obtain ⟨fs', g1, g2⟩ := Query.bind_lift_snd.1 q1
    unfold Table.readSnapshotInternal at g2
    rw [Query.bind_snd] at g2
    obtain ⟨ss, g3, _⟩ := g2
    obtain ⟨excl, _, _, g4, _⟩ := fileSlicesInternal_ok.1 g3
    exact ⟨excl, g4⟩
  obtain ⟨outs', h5, h6⟩ := kept_again hmono hsec hi0 hg0 hn hm hload ho.clock ho.zone ho.options hk hj0 hr q3 h3
  exact ⟨outs', h5, readsEvolving_perm h6 h4⟩

/-- **C91, the latest snapshot.**  Likewise without a timestamp, if the cleaner keeps to versions superseded by a time
that the handle knows: no later than the latest commit that had completed at `s0`.  The read returns an error if one of
its requests fails, and otherwise exactly the records of the writes that had completed when the handle was opened.
Missing: as in `C91_as_of_partial`. -/
theorem C91_latest_partial (E : Env) (A : Arrow) (S : Setting) (M : MergeEnv A) (hmono : MonotoneTz E.ltz)
    (hsec : WholeSecondsTz E.ltz) (r : Str) (s0 : Work) (hs0 : Cleans S r nothingYet s0) (hn : NamesCurrent s0)
    (m : Moments) (hm : SinceCleaned S r s0 m)
    (tb : Table) (filters : List (Str × Str × Str)) (fs : List Filter) (hive url : Bool)
    (ho : OpenedAt E A S s0 tb filters fs hive url) (depth : Nat) (hdepth : S.depth < depth) (cache : Cache)
    (hk : KeptCleaned E A S M r s0 tb depth cache)
    (hr : ∀ c, s0.history.getLast? = some c → (compare r c.ts).isLE) (F : Faults) :
    ((TableCall.snapshot filters).SomeFails E A S.C M tb depth m.race F cache →
      ∃ e, ((TableCall.snapshot filters).race E A S.C M tb depth m.race F cache).2.2 = .err e) ∧
    (¬ (TableCall.snapshot filters).SomeFails E A S.C M tb depth m.race F cache →
      ∃ outs, ((TableCall.snapshot filters).race E A S.C M tb depth m.race F cache).2.2 = .ok (.batches outs) ∧
        ReadsEvolving A (columnsBy s0.done) S.pre (versionAfter s0.history) (Kept A S.pcols hive url fs)
          (fun k r => r ∈ recordsAfter (rowsOf s0.done) s0.history k) outs) := by
  obtain ⟨v0, g0, _, hi0, hg0, e0⟩ := cleans_sweep hs0 (inv_nothing S) (swept_nothing S r _) (sweep_nothing _).symm
  obtain ⟨o, hload⟩ := ho.load
  have hh : s0.history = v0.history := by rw [e0]; rfl
  rw [e0, sweep_load hi0 hg0] at hload
  obtain ⟨t1, t2, t3⟩ := timeline_of hload ho.zone hi0.wf (by rw [ho.clock]; exact hi0.timeline)
  rcases timeline_last hmono hi0.wf t1 t2 t3 with ⟨h1, h2⟩ | ⟨c0, d0, h1, h2, h3⟩
  · have e : ∀ F, (TableCall.snapshot filters).race E A S.C M tb depth m.race F cache = (0, cache, .ok (.batches [])) := by
      intro F
      unfold TableCall.race Table.readSnapshotRF Timeline.latestTimestamp
      rw [h2]
      rfl
    refine ⟨fun ⟨k, hk, _⟩ => ?_, fun _ => ⟨[], by rw [e], [], .nil, ?_, .nil⟩⟩
    · rw [e] at hk
      exact absurd hk (Nat.not_lt_zero _)
    · intro k
      rw [hh, h1]
      simp [versionAfter]
  · rw [← hh] at h1 h3
    have e : ∀ F, (TableCall.snapshot filters).race E A S.C M tb depth m.race F cache =
        (TableCall.snapshotAsOf c0.ts filters).race E A S.C M tb depth m.race F cache := by
      intro F
      unfold TableCall.race Table.readSnapshotRF Timeline.latestTimestamp
      rw [h2]
      rfl
    have h := C91_as_of_partial E A S M hmono hsec r s0 hs0 hn m hm tb filters fs hive url ho depth hdepth cache hk c0
      (List.mem_of_getLast? h1) (hr c0 h1) F
    have e1 : tableAt s0.history c0.ts = versionAfter s0.history := by
      funext k; unfold tableAt; rw [h3]
    have e2 : recordsAt (rowsOf s0.done) s0.history c0.ts = recordsAfter (rowsOf s0.done) s0.history := by
      funext k; unfold recordsAt; rw [h3]
    rw [e1, e2] at h
    unfold TableCall.SomeFails at h ⊢
    rw [e, e]
    exact h

end Hudi
