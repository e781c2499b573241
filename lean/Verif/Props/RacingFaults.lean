import Verif.Lemmas.RacingFaults
import Verif.Props.Kept
import Verif.Props.WriterChanges

/-!
# C86: a handle kept while writers work and requests fail

Any calls are made on the handle; each request of each call fails, or is answered at a moment of its own, at which writers
may have come anywhere.
-/

namespace Hudi
open Spec

/-! ## Every call: requests that fail -/

theorem faithfulO_io {σ α : Type} {x : Io α} {r : Res α} (h : Faithful x r) (s : σ) :
    FaithfulO (fun F n => ((x F n).1, s, (x F n).2)) r := by
  intro n
  obtain ⟨m, h1, h2, h3⟩ := h n
  refine ⟨m, h1, fun F hq => ?_, fun F hq => ?_⟩
  · simp only [h2 F hq, and_self]
  · obtain ⟨n', e, he⟩ := h3 F hq
    exact ⟨e, by simp only [he]⟩

/-- From the first request on: an error if one of the requests fails, and otherwise the outcome `r`. -/
theorem FaithfulO.run {σ α : Type} {x : Faults → Nat → Nat × σ × Res α} {r : Res α} (h : FaithfulO x r) (F : Faults) :
    ((∃ k < (x noFaults 0).1, F k = true) → ∃ e, (x F 0).2.2 = .err e) ∧
    ((∀ k < (x noFaults 0).1, F k = false) → (x F 0).2.2 = r) := by
  obtain ⟨m, _, h2, h3⟩ := h 0
  obtain ⟨e1, _⟩ := h2 noFaults (fun _ _ _ => rfl)
  rw [e1]
  exact ⟨fun ⟨k, hk, hf⟩ => h3 F ⟨k, Nat.zero_le _, hk, hf⟩, fun hq => (h2 F (fun k _ hk => hq k hk)).2⟩

theorem FaithfulO.none {σ α : Type} {x : Faults → Nat → Nat × σ × Res α} {r : Res α} (h : FaithfulO x r) :
    (x noFaults 0).2.2 = r := (h.run noFaults).2 (fun _ _ => rfl)

theorem faithfulO_latest {α : Type} {tb : Table} {c : Cache} (f : Str → IoQuery α) (d : α)
    (h : ∀ ts, ∃ r, FaithfulO (fun F n => f ts F n c) r) : ∃ r, FaithfulO (fun F n => (match tb.timeline.latestTimestamp with
      | some ts => f ts
      | none => (pure d : IoQuery α)) F n c) r := by
  cases tb.timeline.latestTimestamp with
  | none => exact ⟨.ok d, faithfulO_done c (.ok d)⟩
  | some ts => exact h ts

theorem faithful_latestSchemaRF (tl : Timeline) (R : Race) :
    Faithful (tl.latestSchemaRF R) (tl.latestMetadata R.latest >>= schemaOfCommit R.schema) :=
  faithful_bind (faithful_latestMetadata _ _) (fun md _ => faithful_schemaOfCommit _ md)

theorem faithful_betweenRF (E : Env) (tb : Table) (R : Race) (start stop : Option Str) :
    ∃ r, Faithful (tb.fileSlicesBetweenRF E R start stop) r := by
  unfold Table.fileSlicesBetweenRF
  cases stop.or tb.timeline.latestTimestamp with
  | none => exact ⟨_, faithful_lift _⟩
  | some stop => exact ⟨_, faithful_bind (faithful_fileGroupsBetweenRF E _ R _ _) (fun gs _ => faithful_pure _)⟩

/-- Every call is a computation with requests whose value is turned into an answer. -/
theorem race_faithful (E : Env) (A : Arrow) (C : Codec) (M : MergeEnv A) (tb : Table) (depth : Nat) (R : Race) (c : Cache)
    (call : TableCall) : ∃ (α : Type) (f : α → Answer) (x : Faults → Nat → Nat × Cache × Res α) (r : Res α),
      FaithfulO x r ∧ ∀ F, (call.race E A C M tb depth R F c).1 = (x F 0).1 ∧
        (call.race E A C M tb depth R F c).2.2 = answerOf f (x F 0).2.2 := by
  have hint := fun ts fs => faithful_internalRF E A tb depth R ts fs c
  have hsplits : ∀ k ts (fs : List (Str × Str × Str)), ∃ r, FaithfulO (fun F n =>
      (tb.fileSlicesSplitsAsOfRF E A depth R k ts fs) F n c) r := fun k ts fs =>
    ⟨_, faithfulO_after (faithful_lift _) (fun l => faithfulO_then (hint ts l) (fun ss => faithful_lift (splitSlices k ss)))⟩
  have hslices : ∀ ts (fs : List (Str × Str × Str)), ∃ r, FaithfulO (fun F n =>
      (tb.fileSlicesAsOfRF E A depth R ts fs) F n c) r := fun ts fs =>
    ⟨_, faithfulO_after (faithful_lift _) (fun l => hint ts l)⟩
  cases call with
  | slices fs =>
    obtain ⟨r, hr⟩ := faithfulO_latest (tb := tb) (c := c) (fun ts => tb.fileSlicesAsOfRF E A depth R ts fs) []
      (fun ts => hslices ts fs)
    exact ⟨_, .slices, _, r, hr, fun F => ⟨rfl, rfl⟩⟩
  | slicesAsOf ts fs =>
    obtain ⟨r, hr⟩ := hslices ts fs
    exact ⟨_, .slices, _, r, hr, fun F => ⟨rfl, rfl⟩⟩
  | splits k fs =>
    obtain ⟨r, hr⟩ := faithfulO_latest (tb := tb) (c := c) (fun ts => tb.fileSlicesSplitsAsOfRF E A depth R k ts fs) []
      (fun ts => hsplits k ts fs)
    exact ⟨_, .splits, _, r, hr, fun F => ⟨rfl, rfl⟩⟩
  | splitsAsOf k ts fs =>
    obtain ⟨r, hr⟩ := hsplits k ts fs
    exact ⟨_, .splits, _, r, hr, fun F => ⟨rfl, rfl⟩⟩
  | slicesBetween start stop =>
    obtain ⟨r, hr⟩ := faithful_betweenRF E tb R start stop
    exact ⟨_, .slices, _, r, faithfulO_io hr c, fun F => ⟨rfl, rfl⟩⟩
  | snapshot fs =>
    obtain ⟨r, hr⟩ := faithfulO_latest (tb := tb) (c := c) (fun ts => tb.readSnapshotAsOfRF E A C M depth R ts fs) []
      (fun ts => ⟨_, faithful_snapshotAsOfRF E A C M tb depth R ts fs c⟩)
    exact ⟨_, .batches, _, r, hr, fun F => ⟨rfl, rfl⟩⟩
  | snapshotAsOf ts fs =>
    exact ⟨_, .batches, _, _, faithful_snapshotAsOfRF E A C M tb depth R ts fs c, fun F => ⟨rfl, rfl⟩⟩
  | incremental start stop =>
    exact ⟨_, .batches, _, _, faithfulO_io (faithful_incrementalRF E A C M tb R start stop) c, fun F => ⟨rfl, rfl⟩⟩
  | schema => exact ⟨_, .schema, _, _, faithfulO_io (faithful_latestSchemaRF tb.timeline R) c, fun F => ⟨rfl, rfl⟩⟩
  | partitionSchema => exact ⟨_, .schema, _, _, faithfulO_io (faithful_partitionSchemaRF tb R) c, fun F => ⟨rfl, rfl⟩⟩
  | avroSchema => exact ⟨_, .text, _, _, faithfulO_io (faithful_avroSchema tb.timeline R.latest) c, fun F => ⟨rfl, rfl⟩⟩
  | readSlice options s =>
    exact ⟨_, fun b => .batches [b], _, _,
      faithfulO_io (faithful_readFileSliceRF C A M E.ltz (tb.readerOpts options) R s) c, fun F => ⟨rfl, rfl⟩⟩

/-- **C86, requests that fail.**  Whatever the storage holds when each request of a call is answered, and whatever the
handle has cached: the call returns an error if one of its requests fails, and otherwise what it returns when none
fails. -/
theorem C86_failures_are_reported (E : Env) (A : Arrow) (C : Codec) (M : MergeEnv A) (tb : Table) (depth : Nat) (R : Race)
    (c : Cache) (call : TableCall) (F : Faults) :
    (call.SomeFails E A C M tb depth R F c → ∃ e, (call.race E A C M tb depth R F c).2.2 = .err e) ∧
    (¬ call.SomeFails E A C M tb depth R F c →
      (call.race E A C M tb depth R F c).2.2 = (call.race E A C M tb depth R noFaults c).2.2) := by
  obtain ⟨α, f, x, r, h, hx⟩ := race_faithful E A C M tb depth R c call
  unfold TableCall.SomeFails
  rw [(hx noFaults).1, (hx noFaults).2, (hx F).2]
  refine ⟨fun hs => ?_, fun hs => ?_⟩
  · obtain ⟨e, he⟩ := (h.run F).1 hs
    exact ⟨e, by rw [he]; rfl⟩
  · rw [(h.run F).2 (fun k hk => by
      cases hf : F k with
      | false => rfl
      | true => exact absurd ⟨k, hk, hf⟩ hs), h.none]

/-! ## Reading -/

theorem since_data {S : Setting} {s0 : Work} {m : Moments} (hm : Since S s0 m) (p : Str) : Works S s0 (m.data p) := by
  have h1 := hm.files []
  have h2 := hm.data [] p
  generalize m.data p = d at h2 ⊢
  induction h2 with
  | refl => exact h1
  | step _ hstep ih => exact .step ih hstep

/-- The storage at some moment since `s0`. -/
def AfterMoment (S : Setting) (s0 : Work) (u : Tree) : Prop := ∃ s, Works S s0 s ∧ u = s.tree

theorem since_seen {S : Setting} {s0 : Work} {m : Moments} (hm : Since S s0 m) : AllSeen (AfterMoment S s0) m.race :=
  ⟨fun i => ⟨_, hm.replaced i, rfl⟩, ⟨_, hm.latest, rfl⟩, ⟨_, hm.schema, rfl⟩, fun x => ⟨_, hm.dirs x, rfl⟩,
    fun x => ⟨_, hm.files x, rfl⟩, fun x => ⟨_, hm.sizes x, rfl⟩, fun x => ⟨_, since_data hm x, rfl⟩⟩

theorem sourcedBy_kept {E : Env} {A : Arrow} {S : Setting} {M : MergeEnv A} {s0 : Work} {tb : Table} {depth : Nat}
    {c : Cache} (h : KeptWhile E A S M s0 tb depth c) (hi0 : Inv S s0) {t : Tree}
    (hpart : ∀ u, AfterMoment S s0 u → ∀ x, PartitionOf tb.opts t x → PartitionOf tb.opts u x) :
    SourcedBy tb.opts (AfterMoment S s0) c := by
  induction h with
  | opened => exact sourcedBy_nil
  | call m call F hm _ ih =>
    refine race_keeps (P := SourcedBy tb.opts (AfterMoment S s0)) (fun ts p excl => ?_) call F _ ih
    refine sourcedBy_view (t := t) ?_ (since_seen hm) (fun x hx y => hpart _ ((since_seen hm).dirs y) x hx) ts p excl
    rintro u ⟨s, hs, rfl⟩
    exact (inv_works hi0 hs).treeWF

/-- **C86, as of a commit.**  A handle opened at any moment `s0` is kept while writers work, and any calls have been made
on it since, any of their requests failing, the others being answered at any moments.  A read as of any commit that had
completed at `s0` returns an error if one of its requests fails; and otherwise, whenever each of its requests is answered
(files being read after their partitions have been listed), exactly the records that the writes completed by then had
written. -/
theorem C86_as_of (E : Env) (A : Arrow) (S : Setting) (M : MergeEnv A) (hmono : MonotoneTz E.ltz)
    (hsec : WholeSecondsTz E.ltz) (s0 : Work) (hs0 : Works S nothingYet s0) (m : Moments) (hm : Since S s0 m)
    (tb : Table) (filters : List (Str × Str × Str)) (fs : List Filter) (hive url : Bool)
    (ho : OpenedAt E A S s0 tb filters fs hive url) (depth : Nat) (hdepth : S.depth < depth) (cache : Cache)
    (hk : KeptWhile E A S M s0 tb depth cache) (c : HCommit) (hc : c ∈ s0.history) (F : Faults) :
    ((TableCall.snapshotAsOf c.ts filters).SomeFails E A S.C M tb depth m.race F cache →
      ∃ e, ((TableCall.snapshotAsOf c.ts filters).race E A S.C M tb depth m.race F cache).2.2 = .err e) ∧
    (¬ (TableCall.snapshotAsOf c.ts filters).SomeFails E A S.C M tb depth m.race F cache →
      ∃ outs, ((TableCall.snapshotAsOf c.ts filters).race E A S.C M tb depth m.race F cache).2.2 = .ok (.batches outs) ∧
        ReadsEvolving A (columnsBy s0.done) S.pre (tableAt s0.history c.ts) (Kept A S.pcols hive url fs)
          (fun k r => r ∈ recordsAt (rowsOf s0.done) s0.history c.ts k) outs) := by
  obtain ⟨h1, h2⟩ := C86_failures_are_reported E A S.C M tb depth m.race cache (.snapshotAsOf c.ts filters) F
  refine ⟨h1, fun hF => ?_⟩
  rw [h2 hF]
  have hi0 := inv_works (inv_nothing S) hs0
  obtain ⟨outs, h3, h4⟩ := C83_reads_as_of E A S M hmono hsec s0 hs0 m hm tb filters fs hive url ho depth hdepth c hc
  obtain ⟨j0, hj0, rfl⟩ := mem_commitsOf.1 hc
  obtain ⟨o, hload⟩ := ho.load
  obtain ⟨t1, t2, t3⟩ := timeline_of hload ho.zone hi0.wf (by rw [ho.clock]; exact hi0.timeline)
  rw [ho.clock] at t1
  have hopts := ho.options
  have hM : ∀ u, AfterMoment S s0 u → Meanwhile S.C S.ltz S.tz S.o j0.commit.ts tb.timeline (lasting S s0).tree
      (heldIn (lasting S s0)) u := by
    rintro u ⟨s, hs, rfl⟩
    exact meanwhile_works (ho.clock ▸ hmono) (ho.clock ▸ hsec) hi0 hs hj0 t1
  have hpart : ∀ u, AfterMoment S s0 u → ∀ x, PartitionOf tb.opts (lasting S s0).tree x → PartitionOf tb.opts u x := by
    rw [hopts]
    rintro u ⟨s, hs, rfl⟩ x hx
    exact partitions_works hi0 hs hx
  have hsrc := sourcedBy_kept hk hi0 hpart
  have hno : NoStale tb.opts (lasting S s0).tree j0.commit.ts cache := hsrc.noStale (by
    rw [hopts]
    exact fun u hu x b hx hb hle => ((hM u hu).newBases x b hx hb hle).1)
  obtain ⟨outs', h5, h6⟩ := readSnapshotRC_harmless (t := (lasting S s0).tree)
    (fun x => (inv_works hi0 (hm.dirs x)).treeWF) (fun x hx y => hpart _ ((since_seen hm).dirs y) x hx) hsrc.1 hno h3
  refine ⟨outs', ?_, readsEvolving_perm h6 h4⟩
  have h7 := (faithful_snapshotAsOfRF E A S.C M tb depth m.race j0.commit.ts filters cache).none
  rw [h5] at h7
  exact answerOf_ok.2 ⟨outs', h7, rfl⟩

/-- **C86, the latest snapshot.**  Likewise without a timestamp: the read returns an error if one of its requests fails,
and otherwise exactly the records of the writes that had completed when the handle was opened. -/
theorem C86_latest (E : Env) (A : Arrow) (S : Setting) (M : MergeEnv A) (hmono : MonotoneTz E.ltz)
    (hsec : WholeSecondsTz E.ltz) (s0 : Work) (hs0 : Works S nothingYet s0) (m : Moments) (hm : Since S s0 m)
    (tb : Table) (filters : List (Str × Str × Str)) (fs : List Filter) (hive url : Bool)
    (ho : OpenedAt E A S s0 tb filters fs hive url) (depth : Nat) (hdepth : S.depth < depth) (cache : Cache)
    (hk : KeptWhile E A S M s0 tb depth cache) (F : Faults) :
    ((TableCall.snapshot filters).SomeFails E A S.C M tb depth m.race F cache →
      ∃ e, ((TableCall.snapshot filters).race E A S.C M tb depth m.race F cache).2.2 = .err e) ∧
    (¬ (TableCall.snapshot filters).SomeFails E A S.C M tb depth m.race F cache →
      ∃ outs, ((TableCall.snapshot filters).race E A S.C M tb depth m.race F cache).2.2 = .ok (.batches outs) ∧
        ReadsEvolving A (columnsBy s0.done) S.pre (versionAfter s0.history) (Kept A S.pcols hive url fs)
          (fun k r => r ∈ recordsAfter (rowsOf s0.done) s0.history k) outs) := by
  have hi0 := inv_works (inv_nothing S) hs0
  obtain ⟨o, hload⟩ := ho.load
  obtain ⟨t1, t2, t3⟩ := timeline_of hload ho.zone hi0.wf (by rw [ho.clock]; exact hi0.timeline)
  rcases timeline_last hmono hi0.wf t1 t2 t3 with ⟨h1, h2⟩ | ⟨c0, d0, h1, h2, h3⟩
  · have e : ∀ F, (TableCall.snapshot filters).race E A S.C M tb depth m.race F cache = (0, cache, .ok (.batches [])) := by
      intro F
      unfold TableCall.race Table.readSnapshotRF Timeline.latestTimestamp
      rw [h2]
      rfl
    refine ⟨fun ⟨k, hk, _⟩ => ?_, fun _ => ⟨[], by rw [e], [], .nil, ?_, .nil⟩⟩
    · rw [e] at hk
      exact absurd hk (Nat.not_lt_zero _)
    · intro k
      rw [h1]
      simp [versionAfter]
  · have e : ∀ F, (TableCall.snapshot filters).race E A S.C M tb depth m.race F cache =
        (TableCall.snapshotAsOf c0.ts filters).race E A S.C M tb depth m.race F cache := by
      intro F
      unfold TableCall.race Table.readSnapshotRF Timeline.latestTimestamp
      rw [h2]
      rfl
    have h := C86_as_of E A S M hmono hsec s0 hs0 m hm tb filters fs hive url ho depth hdepth cache hk c0
      (List.mem_of_getLast? h1) F
    have e1 : tableAt s0.history c0.ts = versionAfter s0.history := by
      funext k; unfold tableAt; rw [h3]
    have e2 : recordsAt (rowsOf s0.done) s0.history c0.ts = recordsAfter (rowsOf s0.done) s0.history := by
      funext k; unfold recordsAt; rw [h3]
    rw [e1, e2] at h
    unfold TableCall.SomeFails at h ⊢
    rw [e, e]
    exact h

/-- **C86, changes.**  A read of the changes between any time and any commit that had completed when the handle was opened
returns an error if one of its requests fails; and otherwise the records that the writes completed in the span had
written, and those of blocks, in log files that these writes have appended to, of failed writes that no block in such a
log file rolls back. -/
theorem C86_changes_and_failed (E : Env) (A : Arrow) (S : Setting) (M : MergeEnv A) (hmono : MonotoneTz E.ltz)
    (hsec : WholeSecondsTz E.ltz) (s0 : Work) (hs0 : Works S nothingYet s0) (hdoc : AllDocumented s0.done)
    (m : Moments) (hm : Since S s0 m) (tb : Table) (ho : HandleAt E S s0 tb) (depth : Nat) (cache : Cache)
    (hmeta : MetaFields S.o) (start : Str) (hs : WriterTimestamp start ∧ start.length = S.width)
    (hps : ∃ d, parseDatetime S.ltz start S.tz = .ok d) (c : HCommit) (hc : c ∈ s0.history) (F : Faults) :
    ((TableCall.incremental start (some c.ts)).SomeFails E A S.C M tb depth m.race F cache →
      ∃ e, ((TableCall.incremental start (some c.ts)).race E A S.C M tb depth m.race F cache).2.2 = .err e) ∧
    (¬ (TableCall.incremental start (some c.ts)).SomeFails E A S.C M tb depth m.race F cache →
      ∃ outs, ((TableCall.incremental start (some c.ts)).race E A S.C M tb depth m.race F cache).2.2 =
          .ok (.batches outs) ∧
        ReadsEvolvingChanges A (columnsBy s0.done) S.pre start c.ts s0.history (fun schema k r =>
          (r ∈ recordsAt (rowsOf s0.done) s0.history c.ts k ∧ CommittedIn schema start (some c.ts) r) ∨
            PendingChange S.C S.ltz S.tz start c.ts s0.history s0.blocksAt k r) outs) := by
  obtain ⟨h1, h2⟩ := C86_failures_are_reported E A S.C M tb depth m.race cache (.incremental start (some c.ts)) F
  refine ⟨h1, fun hF => ?_⟩
  rw [h2 hF]
  obtain ⟨outs, h3, h4⟩ := C84_changes_and_failed E A S M hmono hsec s0 hs0 hdoc m hm tb ho hmeta start hs hps c hc
  refine ⟨outs, ?_, h4⟩
  have h7 := (faithfulO_io (faithful_incrementalRF E A S.C M tb m.race start (some c.ts)) cache).none
  rw [h3] at h7
  exact answerOf_ok.2 ⟨outs, h7, rfl⟩

theorem keptWhile_with {E : Env} {A : Arrow} {S : Setting} {M : MergeEnv A} {s0 : Work} {tb : Table} {depth : Nat}
    {c : Cache} {o : Opts} (h : KeptWhile E A S M s0 tb depth c)
    (hsince : ∀ m, Since S s0 m → Since { S with o := o } s0 m) :
    KeptWhile E A { S with o := o } M s0 tb depth c := by
  induction h with
  | opened => exact .opened
  | call m call F hm _ ih => exact .call (S := { S with o := o }) m call F (hsince m hm) ih

/-- **C86, from the path.**  While writers work on a table, it opens by its path at any moment `s0`; and the handle, kept
and used for any calls with requests that fail or are answered at any moments, goes on reading as of any commit that had
completed at `s0`, and without a timestamp: an error if one of the requests of the read fails, and otherwise exactly the
records that the writes completed by then had written. -/
theorem C86_opened (E : Env) (A : Arrow) (S : Setting) (M : MergeEnv A) (hmono : MonotoneTz E.ltz)
    (hsec : WholeSecondsTz E.ltz) (s0 : Work) (hs0 : Works S nothingYet s0) (w : World) (uri : Str)
    (calls : List Call) (hw : TableOf E S s0 w uri calls) (filters : List (Str × Str × Str)) (fs : List Filter)
    (hive url : Bool) (ha : Askable A S filters fs hive url) (depth : Nat) (hdepth : S.depth < depth) :
    ∃ tb, (builderOf uri calls).build E w = .ok tb ∧ ∀ cache, KeptWhile E A S M s0 tb depth cache →
      ∀ m, Since S s0 m → ∀ F,
      (∀ c ∈ s0.history,
        ((TableCall.snapshotAsOf c.ts filters).SomeFails E A S.C M tb depth m.race F cache →
          ∃ e, ((TableCall.snapshotAsOf c.ts filters).race E A S.C M tb depth m.race F cache).2.2 = .err e) ∧
        (¬ (TableCall.snapshotAsOf c.ts filters).SomeFails E A S.C M tb depth m.race F cache →
          ∃ outs, ((TableCall.snapshotAsOf c.ts filters).race E A S.C M tb depth m.race F cache).2.2 = .ok (.batches outs) ∧
            ReadsEvolving A (columnsBy s0.done) S.pre (tableAt s0.history c.ts) (Kept A S.pcols hive url fs)
              (fun k r => r ∈ recordsAt (rowsOf s0.done) s0.history c.ts k) outs)) ∧
      ((TableCall.snapshot filters).SomeFails E A S.C M tb depth m.race F cache →
        ∃ e, ((TableCall.snapshot filters).race E A S.C M tb depth m.race F cache).2.2 = .err e) ∧
      (¬ (TableCall.snapshot filters).SomeFails E A S.C M tb depth m.race F cache →
        ∃ outs, ((TableCall.snapshot filters).race E A S.C M tb depth m.race F cache).2.2 = .ok (.batches outs) ∧
          ReadsEvolving A (columnsBy s0.done) S.pre (versionAfter s0.history) (Kept A S.pcols hive url fs)
            (fun k r => r ∈ recordsAfter (rowsOf s0.done) s0.history k) outs) := by
  obtain ⟨tb, hb, ho, hh⟩ := tableOf_opens hw
  have hp := partitionPath_same ho
  have hf := agree_same ho
  refine ⟨tb, hb, fun cache hk m hm F => ?_⟩
  have hk' : KeptWhile E A { S with o := tb.opts } M s0 tb depth cache := keptWhile_with hk (fun m hm => since_with hp hf hm)
  exact ⟨fun c hc => C86_as_of E A { S with o := tb.opts } M hmono hsec s0 (works_with hp hf hs0) m (since_with hp hf hm) tb
      filters fs hive url (askable_with ho ha hh) depth hdepth cache hk' c hc F,
    C86_latest E A { S with o := tb.opts } M hmono hsec s0 (works_with hp hf hs0) m (since_with hp hf hm) tb
      filters fs hive url (askable_with ho ha hh) depth hdepth cache hk' F⟩

/-! ## Without writers -/

theorem leafDirsRF_still (k : Nat) (t : Tree) (x : Str) : leafDirsRF k (Race.still t) x = leafDirsF k t x := by
  induction k generalizing x with
  | zero => rfl
  | succ k ih =>
    unfold leafDirsRF leafDirsF
    simp only [ih]
    rfl

theorem listRelevantRF_still (A : Arrow) (o : Opts) (t : Tree) (p : Pruner) :
    listRelevantRF A o (t.height + 1) (Race.still t) p = listRelevantF A o t p := by
  have h : leafDirsRF (t.height + 1) (Race.still t) = leafDirsF (t.height + 1) t := funext (leafDirsRF_still _ t)
  unfold listRelevantRF listRelevantF relevantPartitionsRF relevantPartitionsF
  rw [h]
  rfl

theorem collectGroupsRF_still (t : Tree) (ts : Str) (excl gs : List FileGroup) (F : Faults) (n : Nat) :
    collectGroupsRF (Race.still t) ts excl gs F n = collectGroupsF t ts excl gs F n := by
  induction gs generalizing n with
  | nil => rfl
  | cons g gs ih =>
    unfold collectGroupsRF collectGroupsF
    simp only [ih]
    rfl

theorem collectSlicesRF_still (A : Arrow) (t : Tree) (ts : Str) (p : Pruner) (excl : List FileGroup) (F : Faults) (n : Nat)
    (c : Cache) : collectSlicesRF A (Race.still t) ts p excl F n c = collectSlicesF A t ts p excl F n c := by
  induction c generalizing n with
  | nil => rfl
  | cons e c ih =>
    obtain ⟨x, gs⟩ := e
    unfold collectSlicesRF collectSlicesF
    simp only [ih, collectGroupsRF_still]
    rfl

theorem internalRF_still (E : Env) (A : Arrow) (tb : Table) (t : Tree) (ts : Str) (fs : List Filter) :
    tb.fileSlicesInternalRF E A (t.height + 1) (Race.still t) ts fs = tb.fileSlicesInternalF E A t ts fs := by
  have hv : ∀ p excl, viewSlicesAsOfRF A tb.opts (t.height + 1) (Race.still t) ts p excl =
      viewSlicesAsOfF A tb.opts t ts p excl := by
    intro p excl
    funext F n c
    unfold viewSlicesAsOfRF viewSlicesAsOfF
    simp only [listRelevantRF_still, collectSlicesRF_still]
    rfl
  unfold Table.fileSlicesInternalRF Table.fileSlicesInternalF
  simp only [hv]
  rfl

/-- **C86, without writers.**  When all requests are answered by the same storage, the calls are those of C72. -/
theorem C86_nobody_writes (E : Env) (A : Arrow) (C : Codec) (M : MergeEnv A) (tb : Table) (t : Tree) (F : Faults) (c : Cache)
    (call : TableCall) :
    call.race E A C M tb (t.height + 1) (Race.still t) F c = call.run E A C M tb t F c := by
  have hint := internalRF_still E A tb t
  cases call with
  | slices fs =>
    simp only [TableCall.race, TableCall.run, Table.fileSlicesRF, Table.fileSlicesF, hint]
    rfl
  | slicesAsOf ts fs => simp only [TableCall.race, TableCall.run, Table.fileSlicesAsOfRF, Table.fileSlicesAsOfF, hint]
  | splits k fs =>
    simp only [TableCall.race, TableCall.run, Table.fileSlicesSplitsRF, Table.fileSlicesSplitsF,
      Table.fileSlicesSplitsInternalRF, Table.fileSlicesSplitsInternalF, hint]
    rfl
  | splitsAsOf k ts fs =>
    simp only [TableCall.race, TableCall.run, Table.fileSlicesSplitsAsOfRF, Table.fileSlicesSplitsAsOfF,
      Table.fileSlicesSplitsInternalRF, Table.fileSlicesSplitsInternalF, hint]
  | snapshot fs =>
    simp only [TableCall.race, TableCall.run, Table.readSnapshotRF, Table.readSnapshotF, Table.readSnapshotInternalRF,
      Table.readSnapshotInternalF, hint]
    rfl
  | snapshotAsOf ts fs =>
    simp only [TableCall.race, TableCall.run, Table.readSnapshotAsOfRF, Table.readSnapshotAsOfF,
      Table.readSnapshotInternalRF, Table.readSnapshotInternalF, hint]
    rfl
  | slicesBetween start stop => rfl
  | incremental start stop => rfl
  | schema => rfl
  | partitionSchema => rfl
  | avroSchema => rfl
  | readSlice options s => rfl

end Hudi
