import Verif.Lemmas.Cleaner
import Verif.Props.RacingWriter

/-!
# C90: reads that run while writers and a cleaner work

The cleaner deletes files of versions of file groups that were superseded by a given time, log files before base
files.
-/

namespace Hudi
open Spec

/-- The cleaner has left all that the read needs, whenever a request is answered. -/
theorem seen_cleaned {S : Setting} {E : Env} (hclock : E.ltz = S.ltz) (hmono : MonotoneTz E.ltz)
    (hsec : WholeSecondsTz E.ltz) {v0 : Work} {g0 : List (List Str)} (hi0 : Inv S v0) {r : Str}
    (hg0 : Swept S r v0 g0) {m : Moments} (hm : SinceCleaned S r (sweep v0 g0) m) {j0 : Job} (hj0 : j0 ∈ v0.done)
    (hr : (compare r j0.commit.ts).isLE) (hn : NamesCurrent v0) {tl : Timeline}
    (hzone : timezoneOf tl.opts = .ok S.tz)
    (t1 : ∀ i ∈ tl.completed, ∃ c ∈ v0.history, ∃ d, parseDatetime S.ltz c.ts S.tz = .ok d ∧
      i = ⟨c.ts, c.action, .completed, d.epochMillis⟩)
    (t2 : ∀ c ∈ v0.history, ∃ d, parseDatetime S.ltz c.ts S.tz = .ok d ∧
      (⟨c.ts, c.action, .completed, d.epochMillis⟩ : Instant) ∈ tl.completed)
    (t3 : tl.completed.Pairwise (fun a b => a.epochMillis ≤ b.epochMillis)) :
    AllSeen (Meanwhile S.C S.ltz S.tz S.o j0.commit.ts tl (lasting S v0).tree (heldIn (lasting S v0))) m.race := by
  have hM : ∀ {s}, Cleans S r (sweep v0 g0) s →
      Meanwhile S.C S.ltz S.tz S.o j0.commit.ts tl (lasting S v0).tree (heldIn (lasting S v0)) s.tree := by
    intro s hs
    obtain ⟨v, gone, hw, hi, hg, rfl⟩ := cleans_sweep hs hi0 hg0 rfl
    exact meanwhile_sweep hclock hmono hsec hi0 hw hj0 hr hg hn hzone t1 t2 t3
  have hdata : ∀ p, Cleans S r (sweep v0 g0) (m.data p) := by
    intro p
    have h1 := hm.files []
    have h2 := hm.data [] p
    generalize m.data p = d at h2 ⊢
    induction h2 with
    | refl => exact h1
    | step _ hstep ih => exact .step ih hstep
  exact ⟨fun i => hM (hm.replaced i), hM hm.latest, hM hm.schema, fun x => hM (hm.dirs x), fun x => hM (hm.files x),
    fun x => hM (hm.sizes x), fun x => hM (hdata x)⟩

theorem orderly_cleaned {S : Setting} {E : Env} (hclock : E.ltz = S.ltz) (hmono : MonotoneTz E.ltz) {v0 : Work}
    {g0 : List (List Str)} (hi0 : Inv S v0) {r : Str}
    (hg0 : Swept S r v0 g0) {m : Moments} (hm : SinceCleaned S r (sweep v0 g0) m) {j0 : Job} (hj0 : j0 ∈ v0.done)
    (hr : (compare r j0.commit.ts).isLE) {tl : Timeline} (hzone : timezoneOf tl.opts = .ok S.tz)
    (t1 : ∀ i ∈ tl.completed, ∃ c ∈ v0.history, ∃ d, parseDatetime S.ltz c.ts S.tz = .ok d ∧
      i = ⟨c.ts, c.action, .completed, d.epochMillis⟩)
    (t2 : ∀ c ∈ v0.history, ∃ d, parseDatetime S.ltz c.ts S.tz = .ok d ∧
      (⟨c.ts, c.action, .completed, d.epochMillis⟩ : Instant) ∈ tl.completed) :
    Orderly S.ltz S.o j0.commit.ts tl (lasting S v0).tree m.race where
  listable := by
    intro x hx
    obtain ⟨v, gone, hw, hi, hg, e⟩ := cleans_sweep (hm.files x) hi0 hg0 rfl
    show Listable (filesOf (m.files x).tree x)
    rw [e]
    exact sweep_listable hi hg hx
  kept := by
    intro _ x b hwant l hl ha
    change LogIn (filesOf (m.files x).tree x) l at hl
    obtain ⟨v, gone, hw, hi, hg, e⟩ := cleans_sweep (hm.files x) hi0 hg0 rfl
    rw [e] at hl
    have hpath := partition_path (inv_lasting hi0) hwant.part
    obtain ⟨v2, gone2, hw2, hi2, hg2, e2⟩ := cleans_sweep (e ▸ hm.data x (pathPush x l.fileName)) hi hg rfl
    obtain ⟨more, hd⟩ := done_works (works_apart hw hw2)
    obtain ⟨j, f, token, hj, hk, rfl, hno⟩ := wanted_kept hclock hmono hi0 hi2 hd hj0 hr hzone t1 t2 hwant
    obtain ⟨j1, f1, token1, l1, ws1, hj1, hk1, hl1, hg1, hn1, rfl⟩ :=
      sweep_log_in hi (log_site hi hpath (sweep_log hi hl)) hl
    obtain ⟨d1, hjob1⟩ := hi.jobOf hj1
    obtain ⟨rfl, e3⟩ : f1 = f ∧ j1.commit.ts = j.commit.ts := ha
    rw [← e3] at hno
    have hkey := job_key hjob1 hk1
    have hp := log_path (k := (x, f1)) (m := some (FileMeta.new (logName f1 j1.commit.ts l1.1 l1.2) 1)) hkey
      hjob1.time.1 hl1
    have h3 := (grows_works hi hw2 hkey hjob1.time.1 hl1).2 (by rw [hg1]; exact (fun e => nomatch e))
    obtain ⟨y, hy⟩ := Option.ne_none_iff_exists'.1 h3
    refine ⟨(1, y.content), ?_⟩
    show (m.data _).tree.fileAt _ = _
    rw [e2, hp, sweep_fileAt hi2 (fun hm => hno (old_log hi2 hkey hl1 hjob1.time.1 (hg2.old hm)))]
    exact hi2.fileAt (by simp [logAt, inPartition]) hy

/-- **C90, as of a commit.**  Writers work on a table, and a cleaner deletes files of versions of file groups that
completed writes up to the time `r` have superseded, the log files of a version before its base file.  A handle opened
at any moment `s0` reads as of any commit from `r` on that had completed at `s0`, while writers and the cleaner go on
working: each request of the read is answered at some later moment, files being read after their partitions have been
listed.  The read returns exactly the records that the writes completed by that commit had written, as if nothing had
been deleted.  Missing: cleaners that delete in another order, and times before `r` (`C90_false`). -/
theorem C90_reads_as_of_partial (E : Env) (A : Arrow) (S : Setting) (M : MergeEnv A) (hmono : MonotoneTz E.ltz)
    (hsec : WholeSecondsTz E.ltz) (r : Str) (s0 : Work) (hs0 : Cleans S r nothingYet s0) (hn : NamesCurrent s0)
    (m : Moments) (hm : SinceCleaned S r s0 m)
    (tb : Table) (filters : List (Str × Str × Str)) (fs : List Filter) (hive url : Bool)
    (ho : OpenedAt E A S s0 tb filters fs hive url) (depth : Nat) (hdepth : S.depth < depth) (c : HCommit)
    (hc : c ∈ s0.history) (hr : (compare r c.ts).isLE) :
    ∃ outs, tb.readSnapshotAsOfR E A S.C M depth m.race c.ts filters = .ok outs ∧
      ReadsEvolving A (columnsBy s0.done) S.pre (tableAt s0.history c.ts) (Kept A S.pcols hive url fs)
        (fun k r => r ∈ recordsAt (rowsOf s0.done) s0.history c.ts k) outs := by
  obtain ⟨v0, g0, _, hi0, hg0, rfl⟩ := cleans_sweep hs0 (inv_nothing S) (swept_nothing S r _) (sweep_nothing _).symm
  have hi' := inv_lasting hi0
  have hmono' : MonotoneTz S.ltz := ho.clock ▸ hmono
  obtain ⟨o, hload⟩ := ho.load
  rw [sweep_load hi0 hg0] at hload
  have ho' : OpenedAt E A S v0 tb filters fs hive url :=
    ⟨⟨⟨o, hload⟩, ho.clock, ho.zone, ho.options, ho.merges⟩, ho.names, ho.parsed, ho.applicable, ho.style, ho.parallelism⟩
  obtain ⟨outs, h1, h2⟩ := upTo_reads E A S M hmono hsec (s := lasting S v0) hi0 hi' (more := [])
    (by rw [List.append_nil]; rfl) ho' hc
  obtain ⟨j0, hj0, rfl⟩ := mem_commitsOf.1 hc
  obtain ⟨d1, hjob⟩ := hi0.jobOf hj0
  obtain ⟨ss, hss⟩ : ∃ ss, (tb.fileSlicesAsOf E A (lasting S v0).tree j0.commit.ts filters []).2 = .ok ss := by
    unfold Table.readSnapshotAsOf at h1
    obtain ⟨fs', g1, g2⟩ := Query.bind_lift_snd.1 h1
    unfold Table.readSnapshotInternal at g2
    rw [Query.bind_snd] at g2
    obtain ⟨ss, g3, _⟩ := g2
    exact ⟨ss, Query.bind_lift_snd.2 ⟨fs', g1, g3⟩⟩
  obtain ⟨t1, t2, t3⟩ := timeline_of hload ho.zone hi0.wf (by rw [ho.clock]; exact hi0.timeline)
  rw [ho.clock] at t1 t2
  obtain ⟨b1, b2, b3⟩ := data_lasting hi0
  have hopts := ho.options
  obtain ⟨outs1, outs', r1, r2, r3⟩ := C67_read_returns_partial E A S.C M o v0.tree (lasting S v0).tree tb
    (parquetIn (lasting S v0).tree) (heldIn (lasting S v0)) depth m.race hload (timelineNames_normal hi0.treeWF) hi'.treeWF
    (fun x hx => hi'.extensions (hopts ▸ hx)) j0.commit.ts S.tz S.pre ho.merges.plain (fun _ => ho.merges.merges.field)
    ho.merges.noStart ho.merges.zone (ho.clock ▸ hjob.parses) (by rw [ho.clock, hopts]; exact b1) (hopts ▸ b2)
    (hopts ▸ b3)
    (by rw [ho.clock, hopts]; exact seen_cleaned ho.clock hmono hsec hi0 hg0 hm hj0 hr hn ho.zone t1 t2 t3)
    (by rw [ho.clock, hopts]; exact orderly_cleaned ho.clock hmono hi0 hg0 hm hj0 hr ho.zone t1 t2)
    (fun x => by
      obtain ⟨v, gone, hw, hi, hg, e⟩ := cleans_sweep (hm.dirs x) hi0 hg0 rfl
      show (m.dirs x).tree.height ≤ _
      rw [e]
      exact Nat.le_trans (sweep_height hi) hdepth) filters ss hss
  rw [h1] at r1
  cases r1
  exact ⟨outs', r2, readsEvolving_same r3 h2⟩

/-- **C90, the latest snapshot.**  Likewise without a timestamp, if the cleaner keeps to versions superseded by a time
that the handle knows: no later than the latest commit that had completed at `s0`.  The read returns exactly the
records of the writes that had completed then; nothing if there were none.  Missing: cleaners that delete in another
order, and handles that know less than the cleaner (`C90_false`). -/
theorem C90_reads_latest_partial (E : Env) (A : Arrow) (S : Setting) (M : MergeEnv A) (hmono : MonotoneTz E.ltz)
    (hsec : WholeSecondsTz E.ltz) (r : Str) (s0 : Work) (hs0 : Cleans S r nothingYet s0) (hn : NamesCurrent s0)
    (m : Moments) (hm : SinceCleaned S r s0 m)
    (tb : Table) (filters : List (Str × Str × Str)) (fs : List Filter) (hive url : Bool)
    (ho : OpenedAt E A S s0 tb filters fs hive url) (depth : Nat) (hdepth : S.depth < depth)
    (hr : ∀ c, s0.history.getLast? = some c → (compare r c.ts).isLE) :
    ∃ outs, tb.readSnapshotR E A S.C M depth m.race filters = .ok outs ∧
      ReadsEvolving A (columnsBy s0.done) S.pre (versionAfter s0.history) (Kept A S.pcols hive url fs)
        (fun k r => r ∈ recordsAfter (rowsOf s0.done) s0.history k) outs := by
  obtain ⟨v0, g0, _, hi0, hg0, e0⟩ := cleans_sweep hs0 (inv_nothing S) (swept_nothing S r _) (sweep_nothing _).symm
  obtain ⟨o, hload⟩ := ho.load
  have hh : s0.history = v0.history := by rw [e0]; rfl
  rw [e0, sweep_load hi0 hg0] at hload
  obtain ⟨t1, t2, t3⟩ := timeline_of hload ho.zone hi0.wf (by rw [ho.clock]; exact hi0.timeline)
  rcases timeline_last hmono hi0.wf t1 t2 t3 with ⟨h1, h2⟩ | ⟨c0, d0, h1, h2, h3⟩
  · refine ⟨[], ?_, [], .nil, ?_, .nil⟩
    · unfold Table.readSnapshotR Timeline.latestTimestamp
      rw [h2]
      rfl
    · intro k
      rw [hh, h1]
      simp [versionAfter]
  · rw [← hh] at h1 h3
    obtain ⟨outs, h4, h5⟩ := C90_reads_as_of_partial E A S M hmono hsec r s0 hs0 hn m hm tb filters fs hive url ho depth
      hdepth c0 (List.mem_of_getLast? h1) (hr c0 h1)
    refine ⟨outs, ?_, ?_⟩
    · unfold Table.readSnapshotR Timeline.latestTimestamp
      rw [h2]
      exact h4
    · have e1 : tableAt s0.history c0.ts = versionAfter s0.history := by
        funext k; unfold tableAt; rw [h3]
      have e2 : recordsAt (rowsOf s0.done) s0.history c0.ts = recordsAfter (rowsOf s0.done) s0.history := by
        funext k; unfold recordsAt; rw [h3]
      rw [e1, e2] at h5
      exact h5

end Hudi
