import Verif.Lemmas.CountedWriter
import Verif.Props.RacingWriter
import Verif.Props.Cleaner

/-!
# C101: tables that keep every record, while writers work

On a table without a merge strategy that overwrites, records that have the same key are all kept, and a record that
was written twice is there twice.  What matters is how often each record is read.
-/

namespace Hudi
open Spec

/-- The order of the batches, and of the rows in each, does not matter. -/
theorem readsAll_same {cols : Columns} {table : GroupKey → Option Version} {parts : Str → Prop}
    {records : GroupKey → List (List Cell)} {outs outs' : List Batch} (h : SameBatches outs outs')
    (hr : ReadsAll cols table parts records outs) : ReadsAll cols table parts records outs' := by
  obtain ⟨mid, hp, hf⟩ := h
  obtain ⟨ks, h1, h2, h3⟩ := hr
  have h4 : List.Forall₂ (fun out k => ∃ v, table k = some v ∧ out.schema = cols v.base k ∧
      out.rows.Perm (records k)) mid ks := by
    clear hp h1 h2
    induction hf generalizing ks with
    | nil => cases h3; exact .nil
    | cons hb _ ih =>
      cases h3 with
      | cons hk h3 =>
        refine .cons ?_ (ih _ h3)
        obtain ⟨v, g1, g2, g3⟩ := hk
        exact ⟨v, g1, hb.1.trans g2, hb.2.trans g3⟩
  obtain ⟨ks', h5, h6⟩ := List.perm_comp_forall₂ hp h4
  exact ⟨ks', h6.nodup_iff.2 h1, fun k => h6.mem_iff.trans (h2 k), h5.flip⟩

/-- What is read through a handle opened at `s0` from a table `s` that holds at least what had been completed then. -/
theorem upTo_all (E : Env) (A : Arrow) (S : Setting) (M : MergeEnv A) (hmono : MonotoneTz E.ltz)
    (hsec : WholeSecondsTz E.ltz) {s0 s : Work} (hi0 : Inv S s0) (hi : Inv S s) {more : List Job}
    (hd : s.done = s0.done ++ more) (hp : Placed s)
    (hone : ∀ d1 j d2 k ls v l, s0.done = d1 ++ j :: d2 → (k, Change.append ls) ∈ j.commit.changes →
      versionAfter (commitsOf d1) k = some v → NamePart l.1 ∧ NamePart l.2 →
      blocksBy j.commit.ts (blocksAt s.store (logAt k v.base l)) = if l ∈ ls then j.blocks k l else [])
    (hcount : ∀ j ∈ s0.done, Counts S j) {tb : Table} {filters : List (Str × Str × Str)} {fs : List Filter}
    {hive url : Bool} (ho : AppendingAt E A S s0 tb filters fs hive url) {c : HCommit} (hc : c ∈ s0.history) :
    ∃ outs, (tb.readSnapshotAsOf E A S.C M s.tree c.ts filters []).2 = .ok outs ∧
      ReadsAll (columnsBy s0.done) (tableAt s0.history c.ts) (Kept A S.pcols hive url fs)
        (recordsAt (rowsOf s0.done) s0.history c.ts) outs := by
  obtain ⟨j0, hj0, rfl⟩ := mem_commitsOf.1 hc
  obtain ⟨d1, hjob⟩ := hi0.jobOf hj0
  obtain ⟨o, hload⟩ := ho.load
  have hmono' : MonotoneTz S.ltz := ho.clock ▸ hmono
  have hsec' : WholeSecondsTz S.ltz := ho.clock ▸ hsec
  have hrows := counted_works hi0 hi hp hone hd hcount hj0
  have hset := settled_upTo hmono' hsec' hi0 hi hd hj0
  have hfiles := files_upTo hi0 hi hd hj0
  rw [← ho.clock] at hrows hset hfiles
  refine every_upTo M (o := o) (t0 := s0.tree) (n := S.width) hmono hsec ?_ ho.appends hrows hset hjob.time
    (ho.clock ▸ hjob.parses)
  refine ⟨hload, ?_, hi.treeWF, ho.zone, hi0.wf, ho.options ▸ hfiles, ho.parsed, ?_, ho.names, ho.applicable,
    ho.options ▸ ho.style, ho.options ▸ ho.parallelism⟩
  · intro m hm
    exact timelineNames_normal hi0.treeWF _ (List.mem_map.2 ⟨m, hm, rfl⟩)
  · exact columns_upTo hmono' ho.clock hi0 hi hd (List.ne_nil_of_mem hj0) hload ho.zone ho.options

/-- **C101, as of a commit.**  Writers work on a table that keeps every record, several at a time, and may stop at any
moment, to be rolled back; none of them repeats a request to append that has been carried out.  A handle opened at any
moment `s0` reads, at any later moment `s`, as of any commit that had completed at `s0`, each record exactly as often
as the writes completed by then had written it.  From `s0` on, writers may repeat their requests.

Missing: writers that have repeated a request to append before the handle was opened (`C101_false`). -/
theorem C101_as_of_partial (E : Env) (A : Arrow) (S : Setting) (M : MergeEnv A) (hmono : MonotoneTz E.ltz)
    (hsec : WholeSecondsTz E.ltz) (s0 s : Work) (hs0 : WorksOnce S nothingYet s0) (hs : Works S s0 s)
    (hcount : ∀ j ∈ s0.done, Counts S j) (tb : Table) (filters : List (Str × Str × Str)) (fs : List Filter)
    (hive url : Bool) (ho : AppendingAt E A S s0 tb filters fs hive url) (c : HCommit) (hc : c ∈ s0.history) :
    ∃ outs, (tb.readSnapshotAsOf E A S.C M s.tree c.ts filters []).2 = .ok outs ∧
      ReadsAll (columnsBy s0.done) (tableAt s0.history c.ts) (Kept A S.pcols hive url fs)
        (recordsAt (rowsOf s0.done) s0.history c.ts) outs := by
  have hw := works_of_once hs0
  have hi0 := inv_works (inv_nothing S) hw
  obtain ⟨more, hd⟩ := done_works hs
  refine upTo_all E A S M hmono hsec hi0 (inv_works hi0 hs) hd (placed_works (S := S) ?_)
    (fun d1 j d2 k ls v l h1 h2 h3 h4 => doneOnce_old hi0 hs (once_works hs0).1 h1 h2 h3 h4) hcount ho hc
  clear hc ho hcount hd
  induction hs with
  | refl => exact hw
  | step _ hstep ih => exact .step ih hstep

/-- **C101, the latest snapshot.**  Likewise without a timestamp: the handle reads each record exactly as often as the
writes that had completed when it was opened had written it; nothing if there were none.

Missing: writers that have repeated a request to append before the handle was opened (`C101_false`). -/
theorem C101_latest_partial (E : Env) (A : Arrow) (S : Setting) (M : MergeEnv A) (hmono : MonotoneTz E.ltz)
    (hsec : WholeSecondsTz E.ltz) (s0 s : Work) (hs0 : WorksOnce S nothingYet s0) (hs : Works S s0 s)
    (hcount : ∀ j ∈ s0.done, Counts S j) (tb : Table) (filters : List (Str × Str × Str)) (fs : List Filter)
    (hive url : Bool) (ho : AppendingAt E A S s0 tb filters fs hive url) :
    ∃ outs, (tb.readSnapshot E A S.C M s.tree filters []).2 = .ok outs ∧
      ReadsAll (columnsBy s0.done) (versionAfter s0.history) (Kept A S.pcols hive url fs)
        (recordsAfter (rowsOf s0.done) s0.history) outs := by
  have hi0 := inv_works (inv_nothing S) (works_of_once hs0)
  obtain ⟨o, hload⟩ := ho.load
  obtain ⟨t1, t2, t3⟩ := timeline_of hload ho.zone hi0.wf (by rw [ho.clock]; exact hi0.timeline)
  rcases timeline_last hmono hi0.wf t1 t2 t3 with ⟨h1, h2⟩ | ⟨c0, d0, h1, h2, h3⟩
  · refine ⟨[], ?_, [], .nil, ?_, .nil⟩
    · unfold Table.readSnapshot Timeline.latestTimestamp
      rw [h2]
      rfl
    · intro k
      rw [h1]
      simp [versionAfter]
  · obtain ⟨outs, h4, h5⟩ := C101_as_of_partial E A S M hmono hsec s0 s hs0 hs hcount tb filters fs hive url ho c0
      (List.mem_of_getLast? h1)
    refine ⟨outs, ?_, ?_⟩
    · unfold Table.readSnapshot Timeline.latestTimestamp
      rw [h2]
      exact h4
    · have e1 : tableAt s0.history c0.ts = versionAfter s0.history := by
        funext k; unfold tableAt; rw [h3]
      have e2 : recordsAt (rowsOf s0.done) s0.history c0.ts = recordsAfter (rowsOf s0.done) s0.history := by
        funext k; unfold recordsAt; rw [h3]
      rw [e1, e2] at h5
      exact h5

/-- **C101, reads that run while writers work, as of a commit.**  Each request of the read is answered at some moment
after the handle was opened, files being read after their partitions have been listed.  The read returns each record
exactly as often as the writes completed by that commit had written it.

Missing: writers that have repeated a request to append before the handle was opened (`C101_false`). -/
theorem C101_racing_as_of_partial (E : Env) (A : Arrow) (S : Setting) (M : MergeEnv A) (hmono : MonotoneTz E.ltz)
    (hsec : WholeSecondsTz E.ltz) (s0 : Work) (hs0 : WorksOnce S nothingYet s0) (m : Moments) (hm : Since S s0 m)
    (hcount : ∀ j ∈ s0.done, Counts S j) (tb : Table) (filters : List (Str × Str × Str)) (fs : List Filter)
    (hive url : Bool) (ho : AppendingAt E A S s0 tb filters fs hive url) (depth : Nat) (hdepth : S.depth < depth)
    (c : HCommit) (hc : c ∈ s0.history) :
    ∃ outs, tb.readSnapshotAsOfR E A S.C M depth m.race c.ts filters = .ok outs ∧
      ReadsAll (columnsBy s0.done) (tableAt s0.history c.ts) (Kept A S.pcols hive url fs)
        (recordsAt (rowsOf s0.done) s0.history c.ts) outs := by
  have hw := works_of_once hs0
  have hi0 := inv_works (inv_nothing S) hw
  have hi' := inv_lasting hi0
  have hmono' : MonotoneTz S.ltz := ho.clock ▸ hmono
  have hsec' : WholeSecondsTz S.ltz := ho.clock ▸ hsec
  obtain ⟨outs, h1, h2⟩ := upTo_all E A S M hmono hsec (s := lasting S s0) hi0 hi' (more := [])
    (by rw [List.append_nil]; rfl) (placed_lasting hi0 (placed_works hw))
    (doneOnce_lasting hi0 (once_works hs0).1) hcount ho hc
  obtain ⟨j0, hj0, rfl⟩ := mem_commitsOf.1 hc
  obtain ⟨d1, hjob⟩ := hi0.jobOf hj0
  obtain ⟨o, hload⟩ := ho.load
  obtain ⟨ss, hss⟩ : ∃ ss, (tb.fileSlicesAsOf E A (lasting S s0).tree j0.commit.ts filters []).2 = .ok ss := by
    unfold Table.readSnapshotAsOf at h1
    obtain ⟨fs', g1, g2⟩ := Query.bind_lift_snd.1 h1
    unfold Table.readSnapshotInternal at g2
    rw [Query.bind_snd] at g2
    obtain ⟨ss, g3, _⟩ := g2
    exact ⟨ss, Query.bind_lift_snd.2 ⟨fs', g1, g3⟩⟩
  obtain ⟨t1, t2, t3⟩ := timeline_of hload ho.zone hi0.wf (by rw [ho.clock]; exact hi0.timeline)
  rw [ho.clock] at t1
  obtain ⟨b1, b2, b3⟩ := data_lasting hi0
  have hopts := ho.options
  obtain ⟨outs1, outs', r1, r2, r3⟩ := C67_read_returns_partial E A S.C M o s0.tree (lasting S s0).tree tb
    (parquetIn (lasting S s0).tree) (heldIn (lasting S s0)) depth m.race hload (timelineNames_normal hi0.treeWF) hi'.treeWF
    (fun x hx => hi'.extensions (hopts ▸ hx)) j0.commit.ts S.tz S.pre ho.appends.plain
    (fun hm => absurd hm.1 ho.appends.keeps)
    ho.appends.noStart ho.appends.zone (ho.clock ▸ hjob.parses) (by rw [ho.clock, hopts]; exact b1) (hopts ▸ b2)
    (hopts ▸ b3) (by rw [ho.clock, hopts]; exact seen_works hmono' hsec' hi0 hm hj0 t1)
    (hopts ▸ orderly_works hi0 hm _ _ _ _ (fun x hx => partition_path hi' hx))
    (fun x => Nat.le_trans (inv_works hi0 (hm.dirs x)).height hdepth) filters ss hss
  rw [h1] at r1
  cases r1
  exact ⟨outs', r2, readsAll_same r3 h2⟩

/-- **C101, reads of the latest snapshot that run while writers work.**

Missing: writers that have repeated a request to append before the handle was opened (`C101_false`). -/
theorem C101_racing_latest_partial (E : Env) (A : Arrow) (S : Setting) (M : MergeEnv A) (hmono : MonotoneTz E.ltz)
    (hsec : WholeSecondsTz E.ltz) (s0 : Work) (hs0 : WorksOnce S nothingYet s0) (m : Moments) (hm : Since S s0 m)
    (hcount : ∀ j ∈ s0.done, Counts S j) (tb : Table) (filters : List (Str × Str × Str)) (fs : List Filter)
    (hive url : Bool) (ho : AppendingAt E A S s0 tb filters fs hive url) (depth : Nat) (hdepth : S.depth < depth) :
    ∃ outs, tb.readSnapshotR E A S.C M depth m.race filters = .ok outs ∧
      ReadsAll (columnsBy s0.done) (versionAfter s0.history) (Kept A S.pcols hive url fs)
        (recordsAfter (rowsOf s0.done) s0.history) outs := by
  have hi0 := inv_works (inv_nothing S) (works_of_once hs0)
  obtain ⟨o, hload⟩ := ho.load
  obtain ⟨t1, t2, t3⟩ := timeline_of hload ho.zone hi0.wf (by rw [ho.clock]; exact hi0.timeline)
  rcases timeline_last hmono hi0.wf t1 t2 t3 with ⟨h1, h2⟩ | ⟨c0, d0, h1, h2, h3⟩
  · refine ⟨[], ?_, [], .nil, ?_, .nil⟩
    · unfold Table.readSnapshotR Timeline.latestTimestamp
      rw [h2]
      rfl
    · intro k
      rw [h1]
      simp [versionAfter]
  · obtain ⟨outs, h4, h5⟩ := C101_racing_as_of_partial E A S M hmono hsec s0 hs0 m hm hcount tb filters fs hive url ho
      depth hdepth c0 (List.mem_of_getLast? h1)
    refine ⟨outs, ?_, ?_⟩
    · unfold Table.readSnapshotR Timeline.latestTimestamp
      rw [h2]
      exact h4
    · have e1 : tableAt s0.history c0.ts = versionAfter s0.history := by
        funext k; unfold tableAt; rw [h3]
      have e2 : recordsAt (rowsOf s0.done) s0.history c0.ts = recordsAfter (rowsOf s0.done) s0.history := by
        funext k; unfold recordsAt; rw [h3]
      rw [e1, e2] at h5
      exact h5

/-- Writers that append once and a cleaner amount to such writers alone, but for files of superseded versions. -/
theorem cleansOnce_sweep {S : Setting} {r : Str} {s : Work} (h : CleansOnce S r nothingYet s) :
    ∃ v gone, WorksOnce S nothingYet v ∧ Inv S v ∧ Swept S r v gone ∧ s = sweep v gone := by
  induction h with
  | refl => exact ⟨_, _, .refl, inv_nothing S, swept_nothing S r _, (sweep_nothing _).symm⟩
  | step _ hstep ho ih =>
    obtain ⟨v1, g1, w1, hi1, hg1, rfl⟩ := ih
    obtain ⟨v2, g2, h1 | h1, h2, rfl⟩ := clean_sweep hi1 hg1 hstep
    · rw [h1] at h2 ⊢
      exact ⟨v1, g2, w1, hi1, h2, rfl⟩
    · exact ⟨v2, g2, .step w1 h1 ho, inv_step hi1 h1, h2, rfl⟩

/-- **C101, beside a cleaner.**  The same while a cleaner works that deletes versions superseded by the time `r`, log
files before base files, as in C90: reads as of commits from `r` on return each record exactly as often as it was
written.

Missing: writers that have repeated a request to append before the handle was opened (`C101_false`), and cleaners that
delete in another order or what the handle still needs (`C90_false`). -/
theorem C101_cleaned_as_of_partial (E : Env) (A : Arrow) (S : Setting) (M : MergeEnv A) (hmono : MonotoneTz E.ltz)
    (hsec : WholeSecondsTz E.ltz) (r : Str) (s0 : Work) (hs0 : CleansOnce S r nothingYet s0) (hn : NamesCurrent s0)
    (m : Moments) (hm : SinceCleaned S r s0 m)
    (hcount : ∀ j ∈ s0.done, Counts S j) (tb : Table) (filters : List (Str × Str × Str)) (fs : List Filter) (hive url : Bool)
    (ho : AppendingAt E A S s0 tb filters fs hive url) (depth : Nat) (hdepth : S.depth < depth) (c : HCommit)
    (hc : c ∈ s0.history) (hr : (compare r c.ts).isLE) :
    ∃ outs, tb.readSnapshotAsOfR E A S.C M depth m.race c.ts filters = .ok outs ∧
      ReadsAll (columnsBy s0.done) (tableAt s0.history c.ts) (Kept A S.pcols hive url fs)
        (recordsAt (rowsOf s0.done) s0.history c.ts) outs := by
  obtain ⟨v0, g0, hw0, hi0, hg0, rfl⟩ := cleansOnce_sweep hs0
  have hi' := inv_lasting hi0
  have hmono' : MonotoneTz S.ltz := ho.clock ▸ hmono
  obtain ⟨o, hload⟩ := ho.load
  rw [sweep_load hi0 hg0] at hload
  have ho' : AppendingAt E A S v0 tb filters fs hive url :=
    ⟨⟨o, hload⟩, ho.clock, ho.zone, ho.options, ho.appends, ho.names, ho.parsed, ho.applicable, ho.style, ho.parallelism⟩
  obtain ⟨outs, h1, h2⟩ := upTo_all E A S M hmono hsec (s := lasting S v0) hi0 hi' (more := [])
    (by rw [List.append_nil]; rfl) (placed_lasting hi0 (placed_works (works_of_once hw0)))
    (doneOnce_lasting hi0 (once_works hw0).1) hcount ho' hc
  obtain ⟨j0, hj0, rfl⟩ := mem_commitsOf.1 hc
  obtain ⟨d1, hjob⟩ := hi0.jobOf hj0
  obtain ⟨ss, hss⟩ : ∃ ss, (tb.fileSlicesAsOf E A (lasting S v0).tree j0.commit.ts filters []).2 = .ok ss := by
    unfold Table.readSnapshotAsOf at h1
    obtain ⟨fs', g1, g2⟩ := Query.bind_lift_snd.1 h1
    unfold Table.readSnapshotInternal at g2
    rw [Query.bind_snd] at g2
    obtain ⟨ss, g3, _⟩ := g2
    exact ⟨ss, Query.bind_lift_snd.2 ⟨fs', g1, g3⟩⟩
  obtain ⟨t1, t2, t3⟩ := timeline_of hload ho.zone hi0.wf (by rw [ho.clock]; exact hi0.timeline)
  rw [ho.clock] at t1 t2
  obtain ⟨b1, b2, b3⟩ := data_lasting hi0
  have hopts := ho.options
  obtain ⟨outs1, outs', r1, r2, r3⟩ := C67_read_returns_partial E A S.C M o v0.tree (lasting S v0).tree tb
    (parquetIn (lasting S v0).tree) (heldIn (lasting S v0)) depth m.race hload (timelineNames_normal hi0.treeWF) hi'.treeWF
    (fun x hx => hi'.extensions (hopts ▸ hx)) j0.commit.ts S.tz S.pre ho.appends.plain 
    (fun hm => absurd hm.1 ho.appends.keeps)
    ho.appends.noStart ho.appends.zone (ho.clock ▸ hjob.parses) (by rw [ho.clock, hopts]; exact b1) (hopts ▸ b2)
    (hopts ▸ b3)
    (by rw [ho.clock, hopts]; exact seen_cleaned ho.clock hmono hsec hi0 hg0 hm hj0 hr hn ho.zone t1 t2 t3)
    (by rw [ho.clock, hopts]; exact orderly_cleaned ho.clock hmono hi0 hg0 hm hj0 hr ho.zone t1 t2)
    (fun x => by
      obtain ⟨v, gone, hw, hi, hg, e⟩ := cleans_sweep (hm.dirs x) hi0 hg0 rfl
      show (m.dirs x).tree.height ≤ _
      rw [e]
      exact Nat.le_trans (sweep_height hi) hdepth) filters ss hss
  rw [h1] at r1
  cases r1
  exact ⟨outs', r2, readsAll_same r3 h2⟩

/-- **C101, the latest snapshot beside a cleaner.**

Missing: writers that have repeated a request to append before the handle was opened (`C101_false`), and cleaners that
delete in another order or what the handle still needs (`C90_false`). -/
theorem C101_cleaned_latest_partial (E : Env) (A : Arrow) (S : Setting) (M : MergeEnv A) (hmono : MonotoneTz E.ltz)
    (hsec : WholeSecondsTz E.ltz) (r : Str) (s0 : Work) (hs0 : CleansOnce S r nothingYet s0) (hn : NamesCurrent s0)
    (m : Moments) (hm : SinceCleaned S r s0 m)
    (hcount : ∀ j ∈ s0.done, Counts S j) (tb : Table) (filters : List (Str × Str × Str)) (fs : List Filter) (hive url : Bool)
    (ho : AppendingAt E A S s0 tb filters fs hive url) (depth : Nat) (hdepth : S.depth < depth)
    (hr : ∀ c, s0.history.getLast? = some c → (compare r c.ts).isLE) :
    ∃ outs, tb.readSnapshotR E A S.C M depth m.race filters = .ok outs ∧
      ReadsAll (columnsBy s0.done) (versionAfter s0.history) (Kept A S.pcols hive url fs)
        (recordsAfter (rowsOf s0.done) s0.history) outs := by
  obtain ⟨v0, g0, hw0, hi0, hg0, e0⟩ := cleansOnce_sweep hs0
  obtain ⟨o, hload⟩ := ho.load
  have hh : s0.history = v0.history := by rw [e0]; rfl
  rw [e0, sweep_load hi0 hg0] at hload
  obtain ⟨t1, t2, t3⟩ := timeline_of hload ho.zone hi0.wf (by rw [ho.clock]; exact hi0.timeline)
  rcases timeline_last hmono hi0.wf t1 t2 t3 with ⟨h1, h2⟩ | ⟨c0, d0, h1, h2, h3⟩
  · refine ⟨[], ?_, [], .nil, ?_, .nil⟩
    · unfold Table.readSnapshotR Timeline.latestTimestamp
      rw [h2]
      rfl
    · intro k
      rw [hh, h1]
      simp [versionAfter]
  · rw [← hh] at h1 h3
    obtain ⟨outs, h4, h5⟩ := C101_cleaned_as_of_partial E A S M hmono hsec r s0 hs0 hn m hm hcount tb filters fs hive url ho depth
      hdepth c0 (List.mem_of_getLast? h1) (hr c0 h1)
    refine ⟨outs, ?_, ?_⟩
    · unfold Table.readSnapshotR Timeline.latestTimestamp
      rw [h2]
      exact h4
    · have e1 : tableAt s0.history c0.ts = versionAfter s0.history := by
        funext k; unfold tableAt; rw [h3]
      have e2 : recordsAt (rowsOf s0.done) s0.history c0.ts = recordsAfter (rowsOf s0.done) s0.history := by
        funext k; unfold recordsAt; rw [h3]
      rw [e1, e2] at h5
      exact h5

end Hudi
