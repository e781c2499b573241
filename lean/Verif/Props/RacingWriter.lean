import Verif.Lemmas.RacingWriter
import Verif.Props.Writer
import Verif.Props.Available
import Mathlib.Data.List.Perm.Basic

/-!
# C83: reads that run while writers work

Each request of the read is answered at a moment of its own, at which writers may have come anywhere: they may be in
the middle of a write, have completed it, or be rolling it back.
-/

namespace Hudi
open Spec

theorem latestVersions_perm {A : Arrow} {schema : Schema} {pre : Str} {rows a b : List (List Cell)} (h : b.Perm a)
    (ha : LatestVersions A schema pre rows a) : LatestVersions A schema pre rows b where
  sound := fun r hr => ha.sound r (h.mem_iff.1 hr)
  one := (h.map _).nodup_iff.2 ha.one
  all := fun r hr => by
    obtain ⟨r', h1, h2⟩ := ha.all r hr
    exact ⟨r', h.mem_iff.2 h1, h2⟩
  latest := fun r hr => ha.latest r (h.mem_iff.1 hr)

/-- The order of the batches, and of the rows in each, does not matter for what has been read. -/
theorem readsEvolving_same {A : Arrow} {cols : Columns} {pre : Str} {table : GroupKey → Option Version}
    {parts : Str → Prop} {rowOf : GroupKey → List Cell → Prop} {outs outs' : List Batch} (h : SameBatches outs outs')
    (hr : ReadsEvolving A cols pre table parts rowOf outs) : ReadsEvolving A cols pre table parts rowOf outs' := by
  obtain ⟨mid, hp, hf⟩ := h
  obtain ⟨ks, h1, h2, h3⟩ := hr
  have h4 : List.Forall₂ (fun out k => ∃ v rows, table k = some v ∧ out.schema = cols v.base k ∧
      (∀ r, r ∈ rows ↔ rowOf k r) ∧ LatestVersions A (cols v.base k) pre rows out.rows) mid ks := by
    clear hp h1 h2
    induction hf generalizing ks with
    | nil => cases h3; exact .nil
    | cons hb _ ih =>
      cases h3 with
      | cons hk h3 =>
        refine .cons ?_ (ih _ h3)
        obtain ⟨v, rows, g1, g2, g3, g4⟩ := hk
        exact ⟨v, rows, g1, hb.1.trans g2, g3, latestVersions_perm hb.2 g4⟩
  obtain ⟨ks', h5, h6⟩ := List.perm_comp_forall₂ hp h4
  exact ⟨ks', h6.nodup_iff.2 h1, fun k => h6.mem_iff.trans (h2 k), h5.flip⟩

/-- The requests of the read are all answered as if only lasting objects mattered. -/
theorem seen_works {S : Setting} {s0 : Work} (hmono : MonotoneTz S.ltz) (hsec : WholeSecondsTz S.ltz)
    (hi0 : Inv S s0) {m : Moments} (hm : Since S s0 m) {j0 : Job} (hj0 : j0 ∈ s0.done) {tl : Timeline}
    (htl : ∀ i ∈ tl.completed, ∃ c ∈ s0.history, ∃ d, parseDatetime S.ltz c.ts S.tz = .ok d ∧
      i = ⟨c.ts, c.action, .completed, d.epochMillis⟩) :
    AllSeen (Meanwhile S.C S.ltz S.tz S.o j0.commit.ts tl (lasting S s0).tree (heldIn (lasting S s0))) m.race := by
  have hM := fun {s} (hs : Works S s0 s) => meanwhile_works hmono hsec hi0 hs hj0 htl
  have hdata : ∀ p, Works S s0 (m.data p) := by
    intro p
    have h1 := hm.files []
    have h2 := hm.data [] p
    generalize m.data p = d at h2 ⊢
    induction h2 with
    | refl => exact h1
    | step _ hstep ih => exact .step ih hstep
  exact ⟨fun i => hM (hm.replaced i), hM hm.latest, hM hm.schema, fun x => hM (hm.dirs x), fun x => hM (hm.files x),
    fun x => hM (hm.sizes x), fun x => hM (hdata x)⟩

theorem orderly_works {S : Setting} {s0 : Work} (hi0 : Inv S s0) {m : Moments} (hm : Since S s0 m) (ltz : LocalTz)
    (ts : Str) (tl : Timeline) (t : Tree) (ht : ∀ x, PartitionOf S.o t x → PartitionPath S.o x) :
    Orderly ltz S.o ts tl t m.race where
  listable := fun x hx => path_listable (inv_works hi0 (hm.files x)) hx
  kept := by
    rintro _ x _ ⟨hx, _⟩ l hl _
    have hi := inv_works hi0 (hm.files x)
    obtain ⟨j, f, token, l', ws, hj, hk, hl', hg, rfl⟩ := log_in hi (log_site hi (ht x hx) hl) hl
    obtain ⟨d1, hjob⟩ := hi.jobOf hj
    have hp := log_path (k := (x, f)) (m := some (FileMeta.new (logName f j.commit.ts l'.1 l'.2) 1)) (job_key hjob hk)
      hjob.time.1 hl'
    have h3 := (grows_works hi (hm.data x (pathPush x (LogFile.fileName ⟨f, j.commit.ts, c!"log", l'.1, l'.2,
        some (FileMeta.new (logName f j.commit.ts l'.1 l'.2) 1)⟩))) (job_key hjob hk) hjob.time.1 hl').2
      (by rw [hg]; exact (fun e => nomatch e))
    obtain ⟨y, hy⟩ := Option.ne_none_iff_exists'.1 h3
    refine ⟨(1, y.content), ?_⟩
    rw [hp]
    exact (inv_works hi (hm.data x _)).fileAt (by simp [logAt, inPartition]) hy

/-- **C83, as of a commit.**  Writers work on a table, several at a time, and may stop at any moment, to be rolled
back.  A handle opened at any moment `s0` reads as of any commit that had completed at `s0`, while writers go on
working: each request of the read is answered at some later moment, files being read after their partitions have been
listed.  The read returns exactly the records that the writes completed by that commit had written. -/
theorem C83_reads_as_of (E : Env) (A : Arrow) (S : Setting) (M : MergeEnv A) (hmono : MonotoneTz E.ltz)
    (hsec : WholeSecondsTz E.ltz) (s0 : Work) (hs0 : Works S nothingYet s0) (m : Moments) (hm : Since S s0 m)
    (tb : Table) (filters : List (Str × Str × Str)) (fs : List Filter) (hive url : Bool)
    (ho : OpenedAt E A S s0 tb filters fs hive url) (depth : Nat) (hdepth : S.depth < depth) (c : HCommit)
    (hc : c ∈ s0.history) :
    ∃ outs, tb.readSnapshotAsOfR E A S.C M depth m.race c.ts filters = .ok outs ∧
      ReadsEvolving A (columnsBy s0.done) S.pre (tableAt s0.history c.ts) (Kept A S.pcols hive url fs)
        (fun k r => r ∈ recordsAt (rowsOf s0.done) s0.history c.ts k) outs := by
  have hi0 := inv_works (inv_nothing S) hs0
  have hi' := inv_lasting hi0
  have hmono' : MonotoneTz S.ltz := ho.clock ▸ hmono
  have hsec' : WholeSecondsTz S.ltz := ho.clock ▸ hsec
  obtain ⟨outs, h1, h2⟩ := upTo_reads E A S M hmono hsec (s := lasting S s0) hi0 hi' (more := [])
    (by rw [List.append_nil]; rfl) ho hc
  obtain ⟨j0, hj0, rfl⟩ := mem_commitsOf.1 hc
  obtain ⟨d1, hjob⟩ := hi0.jobOf hj0
  obtain ⟨o, hload⟩ := ho.load
  obtain ⟨ss, hss⟩ : ∃ ss, (tb.fileSlicesAsOf E A (lasting S s0).tree j0.commit.ts filters []).2 = .ok ss := by
    unfold Table.readSnapshotAsOf at h1
    obtain ⟨fs', g1, g2⟩ := Query.bind_lift_snd.1 h1
    unfold Table.readSnapshotInternal at g2
    rw [Query.bind_snd] at g2
    obtain ⟨ss, g3, _⟩ := g2
    exact ⟨ss, Query.bind_lift_snd.2 ⟨fs', g1, g3⟩⟩
  obtain ⟨t1, t2, t3⟩ := timeline_of hload ho.zone hi0.wf (by rw [ho.clock]; exact hi0.timeline)
  rw [ho.clock] at t1
  obtain ⟨b1, b2, b3⟩ := data_lasting hi0
  have hopts := ho.options
  have hzone := ho.merges.zone
  obtain ⟨outs1, outs', r1, r2, r3⟩ := C67_read_returns_partial E A S.C M o s0.tree (lasting S s0).tree tb
    (parquetIn (lasting S s0).tree) (heldIn (lasting S s0)) depth m.race hload (timelineNames_normal hi0.treeWF) hi'.treeWF
    (fun x hx => hi'.extensions (hopts ▸ hx)) j0.commit.ts S.tz S.pre ho.merges.plain (fun _ => ho.merges.merges.field)
    ho.merges.noStart ho.merges.zone (ho.clock ▸ hjob.parses) (by rw [ho.clock, hopts]; exact b1) (hopts ▸ b2)
    (hopts ▸ b3) (by rw [ho.clock, hopts]; exact seen_works hmono' hsec' hi0 hm hj0 t1)
    (hopts ▸ orderly_works hi0 hm _ _ _ _ (fun x hx => partition_path hi' hx))
    (fun x => Nat.le_trans (inv_works hi0 (hm.dirs x)).height hdepth) filters ss hss
  rw [h1] at r1
  cases r1
  exact ⟨outs', r2, readsEvolving_same r3 h2⟩

/-- **C83, the latest snapshot.**  Likewise without a timestamp: the read returns exactly the records of the writes
that had completed when the handle was opened; nothing if there were none. -/
theorem C83_reads_latest (E : Env) (A : Arrow) (S : Setting) (M : MergeEnv A) (hmono : MonotoneTz E.ltz)
    (hsec : WholeSecondsTz E.ltz) (s0 : Work) (hs0 : Works S nothingYet s0) (m : Moments) (hm : Since S s0 m)
    (tb : Table) (filters : List (Str × Str × Str)) (fs : List Filter) (hive url : Bool)
    (ho : OpenedAt E A S s0 tb filters fs hive url) (depth : Nat) (hdepth : S.depth < depth) :
    ∃ outs, tb.readSnapshotR E A S.C M depth m.race filters = .ok outs ∧
      ReadsEvolving A (columnsBy s0.done) S.pre (versionAfter s0.history) (Kept A S.pcols hive url fs)
        (fun k r => r ∈ recordsAfter (rowsOf s0.done) s0.history k) outs := by
  have hi0 := inv_works (inv_nothing S) hs0
  obtain ⟨o, hload⟩ := ho.load
  obtain ⟨t1, t2, t3⟩ := timeline_of hload ho.zone hi0.wf (by rw [ho.clock]; exact hi0.timeline)
  rcases timeline_last hmono hi0.wf t1 t2 t3 with ⟨h1, h2⟩ | ⟨c0, d0, h1, h2, h3⟩
  · refine ⟨[], ?_, [], .nil, ?_, .nil⟩
    · unfold Table.readSnapshotR Timeline.latestTimestamp
      rw [h2]
      rfl
    · intro k
      rw [h1]
      simp [versionAfter]
  · obtain ⟨outs, h4, h5⟩ := C83_reads_as_of E A S M hmono hsec s0 hs0 m hm tb filters fs hive url ho depth hdepth c0
      (List.mem_of_getLast? h1)
    refine ⟨outs, ?_, ?_⟩
    · unfold Table.readSnapshotR Timeline.latestTimestamp
      rw [h2]
      exact h4
    · have e1 : tableAt s0.history c0.ts = versionAfter s0.history := by
        funext k; unfold tableAt; rw [h3]
      have e2 : recordsAt (rowsOf s0.done) s0.history c0.ts = recordsAfter (rowsOf s0.done) s0.history := by
        funext k; unfold recordsAt; rw [h3]
      rw [e1, e2] at h5
      exact h5

end Hudi
