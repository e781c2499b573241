import Verif.Lemmas.RacingConcurrentRun
import Verif.Props.Concurrent

/-! # Property C87: concurrent queries through one handle while writers work -/

namespace Hudi
open Spec

/-- What `C83_reads_as_of` says of the steps of the read. -/
theorem reads_steps {E : Env} {A : Arrow} {C : Codec} {M : MergeEnv A} {tb : Table} {depth : Nat} {R : Race} {ts : Str}
    {filters : List (Str × Str × Str)} {outs : List Batch}
    (h : tb.readSnapshotAsOfR E A C M depth R ts filters = .ok outs) :
    ∃ p ss, tb.planAsOfR E A depth R ts filters = .ok p ∧
      viewSlicesAsOfR A tb.opts depth R ts p.pruner p.excl = .ok ss ∧
      Res.mapL (readFileSliceR C A M E.ltz (tb.readerOpts [(Cfg.fileGroupEndTimestamp.key, ts)]) R) ss = .ok outs := by
  unfold Table.readSnapshotAsOfR at h
  obtain ⟨fs, h1, h⟩ := Res.bind_eq_ok.1 h
  unfold Table.readSnapshotInternalR at h
  obtain ⟨ss, h2, h⟩ := Res.bind_eq_ok.1 h
  unfold Table.fileSlicesInternalR at h2
  obtain ⟨excl, g1, h2⟩ := Res.bind_eq_ok.1 h2
  obtain ⟨schema, g2, h2⟩ := Res.bind_eq_ok.1 h2
  obtain ⟨pruner, g3, h2⟩ := Res.bind_eq_ok.1 h2
  obtain ⟨listed, r, g4, _, _⟩ := viewSlicesAsOfR_ok h2
  refine ⟨⟨ts, pruner, excl, listed⟩, ss, ?_, h2, h⟩
  unfold Table.planAsOfR
  simp only [h1, g1, g2, g3, g4, Res.ok_bind]
  rfl

theorem planR_listed {E : Env} {A : Arrow} {tb : Table} {depth : Nat} {R : Race} {ask : Ask} {p : Plan}
    (h : tb.planR E A depth R ask = .ok (some p)) : listRelevantR A tb.opts depth R p.pruner = .ok p.listed := by
  have key : ∀ ts fs, (do return some (← tb.planAsOfR E A depth R ts fs) : Res (Option Plan)) = .ok (some p) →
      listRelevantR A tb.opts depth R p.pruner = .ok p.listed := by
    intro ts fs h
    obtain ⟨p', h1, h2⟩ := Res.bind_eq_ok.1 h
    cases h2
    exact (planAsOfR_ok h1).2
  cases ask with
  | latest fs =>
    unfold Table.planR at h
    cases hl : tb.timeline.latestTimestamp with
    | some ts => rw [hl] at h; exact key _ _ h
    | none => rw [hl] at h; cases h
  | asOf ts fs => exact key _ _ h

theorem runInv_runs {E : Env} {A : Arrow} {S : Setting} (M : MergeEnv A) (hmono : MonotoneTz E.ltz)
    (hsec : WholeSecondsTz E.ltz) {s0 : Work} (hs0 : Works S nothingYet s0) {tb : Table}
    {filters : List (Str × Str × Str)} {fs : List Filter} {hive url : Bool}
    (ho : OpenedAt E A S s0 tb filters fs hive url) {depth : Nat} (hdepth : S.depth < depth) {R : Runtime}
    (hR : ∀ x, R.shard x < R.shards) {c : HCommit} (hc : c ∈ s0.history) {asks : List Ask} {i0 : Nat} {ask : Ask}
    (hi : asks[i0]? = some ask)
    (hask : ∀ race, tb.planR E A depth race ask = (do return some (← tb.planAsOfR E A depth race c.ts filters)))
    {w : Work} {s : Conc} {failed : List Nat} (hrun : RunsWhile E A S tb depth R s0 asks w s failed) :
    Works S s0 w ∧ SeenUpTo tb.opts (lasting S s0).tree c.ts (Heard S s0 w) ∧
    RunInv A R tb.opts (lasting S s0).tree c.ts (Heard S s0 w) (PlannedBy E A S tb depth s0 w c.ts filters) i0 ask failed
      s := by
  have hi0 := inv_works (inv_nothing S) hs0
  obtain ⟨j0, hj0, rfl⟩ := mem_commitsOf.1 hc
  obtain ⟨o, hload⟩ := ho.load
  obtain ⟨t1, t2, t3⟩ := timeline_of hload ho.zone hi0.wf (by rw [ho.clock]; exact hi0.timeline)
  rw [ho.clock] at t1
  have hopts := ho.options
  have hS : ∀ w, SeenUpTo tb.opts (lasting S s0).tree j0.commit.ts (Heard S s0 w) := fun w => by
    rw [hopts]
    exact seenUpTo_works (ho.clock ▸ hmono) (ho.clock ▸ hsec) hi0 hj0 t1 w
  suffices h : Works S s0 w ∧ RunInv A R tb.opts (lasting S s0).tree j0.commit.ts (Heard S s0 w)
      (PlannedBy E A S tb depth s0 w j0.commit.ts filters) i0 ask failed s from ⟨h.1, hS w, h.2⟩
  induction hrun with
  | begin hw => exact ⟨hw, .init sourcedBy_nil hi⟩
  | work _ hstep ih =>
    have hstep' := Works.step (S := S) (.refl _) hstep
    exact ⟨works_after ih.1 hstep', ih.2.mono (fun u hu => hu.later hstep')
      (fun p hp => by obtain ⟨m, h1, h2⟩ := hp; exact ⟨m, h1.later hstep', h2⟩)⟩
  | @query w s s' failed m i ks _ hm hstep ih =>
    refine ⟨ih.1, RunInv.step (hS w) (fun p hp => ?_) hR ⟨w, ih.1, .refl _, rfl⟩ (fun ask' p hp x gs hx => ?_) ?_ ih.2 hstep⟩
    · obtain ⟨m', hm', hp⟩ := hp
      obtain ⟨h1, h2⟩ := planAsOfR_ok hp
      refine ⟨h1, fun x hx => ?_⟩
      obtain ⟨_, Found, hfound, _, h3, h4⟩ := listRelevantR_ok (t := (lasting S s0).tree)
        (fun x => (hS w).wf _ ⟨_, (hm'.dirs x).1, (hm'.dirs x).2, rfl⟩)
        (fun x hx y => (hS w).part _ ⟨_, (hm'.dirs y).1, (hm'.dirs y).2, rfl⟩ x hx) h2
      obtain ⟨gs, hgs⟩ := h4 x (hfound x hx.1) (fun _ => hx.2)
      exact ⟨gs, (h3 x gs).2 ⟨hfound x hx.1, fun _ => hx.2, hgs⟩⟩
    · obtain ⟨_, Found, _, hpath, h3, _⟩ := listRelevantR_ok (t := (lasting S s0).tree)
        (fun x => (hS w).wf _ ⟨_, (hm.dirs x).1, (hm.dirs x).2, rfl⟩)
        (fun x hx y => (hS w).part _ ⟨_, (hm.dirs y).1, (hm.dirs y).2, rfl⟩ x hx) (planR_listed hp)
      obtain ⟨h4, _, h5⟩ := (h3 x gs).1 hx
      exact ⟨hpath x h4, _, ⟨_, (hm.files x).1, (hm.files x).2, rfl⟩, h5⟩
    · let m' : Moments := { m with sizes := fun _ => s0, data := fun _ => w }
      have hm' : Since S s0 m' := ⟨fun i => (hm.replaced i).1, hm.latest.1, hm.schema.1, fun x => (hm.dirs x).1,
        fun x => (hm.files x).1, fun _ => .refl _, fun x _ => (hm.files x).2⟩
      obtain ⟨outs, h1, _⟩ := C83_reads_as_of E A S M hmono hsec s0 hs0 m' hm' tb filters fs hive url ho depth hdepth
        j0.commit hc
      obtain ⟨p, ss, h2, _, _⟩ := reads_steps h1
      rw [planAsOfR_congr (R := m'.race) (R' := m.race) rfl rfl rfl rfl rfl] at h2
      refine ⟨p, ?_, m, hm, h2⟩
      rw [hask, h2]
      rfl
  | fails i e _ hstep ih => exact ⟨ih.1, ih.2.fail hstep⟩

open Classical in
/-- What a query as of a commit has returned. -/
theorem returned_reads {E : Env} {A : Arrow} {S : Setting} (M : MergeEnv A) (hmono : MonotoneTz E.ltz)
    (hsec : WholeSecondsTz E.ltz) {s0 : Work} (hs0 : Works S nothingYet s0) {tb : Table}
    {filters : List (Str × Str × Str)} {fs : List Filter} {hive url : Bool}
    (ho : OpenedAt E A S s0 tb filters fs hive url) {depth : Nat} (hdepth : S.depth < depth) {R : Runtime}
    (hR : ∀ x, R.shard x < R.shards) {c : HCommit} (hc : c ∈ s0.history) {asks : List Ask} {i0 : Nat} {ask : Ask}
    (hi : asks[i0]? = some ask)
    (hask : ∀ race, tb.planR E A depth race ask = (do return some (← tb.planAsOfR E A depth race c.ts filters)))
    {w : Work} {s : Conc} {failed : List Nat} (hrun : RunsWhile E A S tb depth R s0 asks w s failed)
    {r : Res (List FileSlice)} (hr : Returned s i0 r) :
    (i0 ∈ failed → ∃ e, r = .err e) ∧
    (i0 ∉ failed → ∃ ss, r = .ok ss ∧ ∀ d : Str → Work, (∀ path, Works S w (d path)) →
      ∃ outs, Res.mapL (readFileSliceR S.C A M E.ltz (tb.readerOpts [(Cfg.fileGroupEndTimestamp.key, c.ts)]) (readAt d)) ss =
          .ok outs ∧
        ReadsEvolving A (columnsBy s0.done) S.pre (tableAt s0.history c.ts) (Kept A S.pcols hive url fs)
          (fun k r => r ∈ recordsAt (rowsOf s0.done) s0.history c.ts k) outs) := by
  obtain ⟨hw, hS, hinv⟩ := runInv_runs M hmono hsec hs0 ho hdepth hR hc hi hask hrun
  obtain ⟨tk, htk, hpc⟩ := hr
  refine ⟨fun hf => ?_, fun hf => ?_⟩
  · obtain ⟨e, he⟩ := hinv.fails tk htk hf
    rw [hpc] at he
    cases he
    exact ⟨e, rfl⟩
  · have ht := hinv.tracked tk htk hf
    rw [hpc] at ht
    obtain ⟨p, ⟨m, hm, hp⟩, ss, vis, src, rfl, hvis, hcol⟩ := ht
    refine ⟨ss, rfl, fun d hd => ?_⟩
    have hex : ∀ x, ∃ u, (Works S s0 u ∧ Works S u w) ∧ (x ∈ vis → src x = u.tree) := fun x => by
      by_cases hx : x ∈ vis
      · obtain ⟨⟨u, h1, h2, h3⟩, _⟩ := hcol.listed x hx
        exact ⟨u, ⟨h1, h2⟩, fun _ => h3⟩
      · exact ⟨m.files x, hm.files x, fun h => absurd h hx⟩
    choose f hf1 hf2 using hex
    let m' : Moments := { m with files := f, sizes := fun _ => s0, data := d }
    have hm' : Since S s0 m' := ⟨fun i => (hm.replaced i).1, hm.latest.1, hm.schema.1, fun x => (hm.dirs x).1,
      fun x => (hf1 x).1, fun _ => .refl _, fun x path => works_after (hf1 x).2 (hd path)⟩
    obtain ⟨outs, h1, h2⟩ := C83_reads_as_of E A S M hmono hsec s0 hs0 m' hm' tb filters fs hive url ho depth hdepth c hc
    obtain ⟨p', ss', h3, h4, h5⟩ := reads_steps h1
    have hpp : p'.pruner = p.pruner ∧ p'.excl = p.excl := by
      unfold Table.planAsOfR at h3 hp
      obtain ⟨fs1, a1, h3⟩ := Res.bind_eq_ok.1 h3
      obtain ⟨excl, a2, h3⟩ := Res.bind_eq_ok.1 h3
      obtain ⟨schema, a3, h3⟩ := Res.bind_eq_ok.1 h3
      obtain ⟨pruner, a4, h3⟩ := Res.bind_eq_ok.1 h3
      obtain ⟨listed, a5, h3⟩ := Res.bind_eq_ok.1 h3
      cases h3
      rw [a1, Res.ok_bind, show tb.timeline.replacedAsOfR E m.race c.ts = .ok excl from a2, Res.ok_bind,
        show tb.partitionSchemaR m.race = .ok schema from a3, Res.ok_bind, a4, Res.ok_bind] at hp
      obtain ⟨listed, b5, hp⟩ := Res.bind_eq_ok.1 hp
      cases hp
      exact ⟨rfl, rfl⟩
    rw [hpp.1, hpp.2] at h4
    have hperm := collected_view (R := m'.race) (depth := depth) hS (planAsOfR_ok hp).1 hvis hcol
      (fun x => ⟨_, (hm.dirs x).1, (hm.dirs x).2, rfl⟩) (fun x => ⟨_, (hf1 x).1, (hf1 x).2, rfl⟩)
      (fun x => ⟨s0, .refl _, hw, rfl⟩) (fun x hx => (hf2 x hx).symm) h4
    obtain ⟨outs', h6, h7⟩ := mapL_perm hperm h5
    exact ⟨outs', h6, readsEvolving_perm h7 h2⟩

/-- **C87, as of a commit.**  A handle opened at any moment `s0` is used by any number of queries at the same time, while
writers work; the queries and the writers take steps in any order, and requests may fail.  A query as of a commit that had
completed at `s0` returns an error if a request of its has failed; and otherwise file slices from which, whenever after
that each file is read, exactly the records are read that the writes completed by then had written. -/
theorem C87_as_of (E : Env) (A : Arrow) (S : Setting) (M : MergeEnv A) (hmono : MonotoneTz E.ltz)
    (hsec : WholeSecondsTz E.ltz) (s0 : Work) (hs0 : Works S nothingYet s0) (tb : Table)
    (filters : List (Str × Str × Str)) (fs : List Filter) (hive url : Bool)
    (ho : OpenedAt E A S s0 tb filters fs hive url) (depth : Nat) (hdepth : S.depth < depth) (R : Runtime)
    (hR : ∀ x, R.shard x < R.shards) (asks : List Ask) (w : Work) (s : Conc) (failed : List Nat)
    (hrun : RunsWhile E A S tb depth R s0 asks w s failed) (c : HCommit) (hc : c ∈ s0.history) (i : Nat)
    (hi : asks[i]? = some (.asOf c.ts filters)) (r : Res (List FileSlice)) (hr : Returned s i r) :
    (i ∈ failed → ∃ e, r = .err e) ∧
    (i ∉ failed → ∃ ss, r = .ok ss ∧ ∀ d : Str → Work, (∀ path, Works S w (d path)) →
      ∃ outs, tb.readSlicesR E A S.C M (readAt d) (.asOf c.ts filters) ss = .ok outs ∧
        ReadsEvolving A (columnsBy s0.done) S.pre (tableAt s0.history c.ts) (Kept A S.pcols hive url fs)
          (fun k r => r ∈ recordsAt (rowsOf s0.done) s0.history c.ts k) outs) :=
  returned_reads M hmono hsec hs0 ho hdepth hR hc hi (fun _ => rfl) hrun hr

/-- What holds of the queries that find no commits. -/
theorem runs_empty {E : Env} {A : Arrow} {S : Setting} {tb : Table} {depth : Nat} {R : Runtime} {s0 : Work}
    {asks : List Ask} (hl : tb.timeline.latestTimestamp = none) {i : Nat} {filters : List (Str × Str × Str)}
    (hi : asks[i]? = some (.latest filters)) {w : Work} {s : Conc} {failed : List Nat}
    (hrun : RunsWhile E A S tb depth R s0 asks w s failed) :
    ∃ pc, s.tasks[i]? = some ⟨.latest filters, pc⟩ ∧ (i ∈ failed → ∃ e, pc = .finished (.err e)) ∧
      (i ∉ failed → pc = .start ∨ pc = .finished (.ok [])) := by
  induction hrun with
  | begin _ =>
    refine ⟨.start, ?_, (fun h => nomatch h), fun _ => .inl rfl⟩
    unfold Conc.init
    simp only [List.getElem?_map, hi]
    rfl
  | work _ _ ih => exact ih
  | query m j ks _ _ hstep ih =>
    obtain ⟨pc, h1, h2, h3⟩ := ih
    unfold Conc.stepR at hstep
    split at hstep
    · cases hstep
    · rename_i tk htk
      split at hstep
      · split at hstep
        · rename_i c' pc' hp
          cases hstep
          by_cases hij : j = i
          · subst hij
            rw [h1] at htk
            cases htk
            refine ⟨pc', ?_, fun hf => ?_, fun hf => ?_⟩
            · exact List.getElem?_set_self (List.getElem?_eq_some_iff.1 h1).1
            · obtain ⟨e, rfl⟩ := h2 hf
              cases hp
            · rcases h3 hf with rfl | rfl
              · simp only [pcStepWith, Table.planR, hl] at hp
                cases hp
                exact .inr rfl
              · cases hp
          · exact ⟨pc, by simp only [List.getElem?_set_ne hij, h1], h2, h3⟩
        · cases hstep
      · cases hstep
  | fails j e _ hstep ih =>
    obtain ⟨pc, h1, h2, h3⟩ := ih
    unfold Conc.fail at hstep
    split at hstep
    · cases hstep
    · rename_i tk htk
      split at hstep
      · split at hstep
        · rename_i pc' hp
          cases hstep
          by_cases hij : j = i
          · subst hij
            rw [h1] at htk
            cases htk
            refine ⟨pc', List.getElem?_set_self (List.getElem?_eq_some_iff.1 h1).1, fun _ => ⟨e, ?_⟩,
              fun hf => absurd List.mem_cons_self hf⟩
            cases pc with
            | start => cases hp; rfl
            | visiting p k rest j acc =>
              simp only [Pc.fail] at hp
              split at hp
              · cases hp; rfl
              · cases hp
            | inserting p rest => cases hp
            | next p k acc => cases hp
            | finished r => cases hp
          · refine ⟨pc, by simp only [List.getElem?_set_ne hij, h1], fun hf => h2 ?_, fun hf => h3 ?_⟩
            · exact (List.mem_cons.1 hf).resolve_left (fun e => hij e.symm)
            · exact fun h => hf (List.mem_cons_of_mem _ h)
        · cases hstep
      · cases hstep

/-- **C87, the latest snapshot.**  Likewise without a timestamp: an error if a request of the query has failed, and
otherwise file slices from which exactly the records of the writes are read that had completed when the handle was
opened. -/
theorem C87_latest (E : Env) (A : Arrow) (S : Setting) (M : MergeEnv A) (hmono : MonotoneTz E.ltz)
    (hsec : WholeSecondsTz E.ltz) (s0 : Work) (hs0 : Works S nothingYet s0) (tb : Table)
    (filters : List (Str × Str × Str)) (fs : List Filter) (hive url : Bool)
    (ho : OpenedAt E A S s0 tb filters fs hive url) (depth : Nat) (hdepth : S.depth < depth) (R : Runtime)
    (hR : ∀ x, R.shard x < R.shards) (asks : List Ask) (w : Work) (s : Conc) (failed : List Nat)
    (hrun : RunsWhile E A S tb depth R s0 asks w s failed) (i : Nat) (hi : asks[i]? = some (.latest filters))
    (r : Res (List FileSlice)) (hr : Returned s i r) :
    (i ∈ failed → ∃ e, r = .err e) ∧
    (i ∉ failed → ∃ ss, r = .ok ss ∧ ∀ d : Str → Work, (∀ path, Works S w (d path)) →
      ∃ outs, tb.readSlicesR E A S.C M (readAt d) (.latest filters) ss = .ok outs ∧
        ReadsEvolving A (columnsBy s0.done) S.pre (versionAfter s0.history) (Kept A S.pcols hive url fs)
          (fun k r => r ∈ recordsAfter (rowsOf s0.done) s0.history k) outs) := by
  have hi0 := inv_works (inv_nothing S) hs0
  obtain ⟨o, hload⟩ := ho.load
  obtain ⟨t1, t2, t3⟩ := timeline_of hload ho.zone hi0.wf (by rw [ho.clock]; exact hi0.timeline)
  rcases timeline_last hmono hi0.wf t1 t2 t3 with ⟨h1, h2⟩ | ⟨c0, d0, h1, h2, h3⟩
  · have hl : tb.timeline.latestTimestamp = none := by unfold Timeline.latestTimestamp; rw [h2]; rfl
    obtain ⟨pc, g1, g2, g3⟩ := runs_empty hl hi hrun
    obtain ⟨tk, htk, hpc⟩ := hr
    rw [g1] at htk
    cases htk
    simp only at hpc
    subst hpc
    refine ⟨fun hf => ?_, fun hf => ?_⟩
    · obtain ⟨e, he⟩ := g2 hf
      cases he
      exact ⟨e, rfl⟩
    · rcases g3 hf with he | he
      · cases he
      · cases he
        refine ⟨[], rfl, fun d _ => ⟨[], ?_, [], .nil, ?_, .nil⟩⟩
        · simp only [Table.readSlicesR, hl]
        · intro k
          rw [h1]
          simp [versionAfter]
  · have hl : tb.timeline.latestTimestamp = some c0.ts := by unfold Timeline.latestTimestamp; rw [h2]; rfl
    have h := returned_reads M hmono hsec hs0 ho hdepth hR (List.mem_of_getLast? h1) hi
      (fun race => by simp only [Table.planR, hl]) hrun hr
    have e1 : tableAt s0.history c0.ts = versionAfter s0.history := by
      funext k; unfold tableAt; rw [h3]
    have e2 : recordsAt (rowsOf s0.done) s0.history c0.ts = recordsAfter (rowsOf s0.done) s0.history := by
      funext k; unfold recordsAt; rw [h3]
    rw [e1, e2] at h
    simp only [Table.readSlicesR, hl]
    exact h

/-- **C87, no run goes on forever**: whatever the storage holds at each step, and whichever requests fail, the queries take
only finitely many steps. -/
theorem C87_no_endless_run (E : Env) (A : Arrow) (tb : Table) (depth : Nat) (R : Runtime) (c : Cache) (asks : List Ask)
    (f : Nat → Conc) (h0 : f 0 = .init c asks) :
    ¬ ∀ n, (∃ race t i ks, (f n).stepR E A tb depth R race t i ks = some (f (n + 1))) ∨
      ∃ i e, (f n).fail A R i e = some (f (n + 1)) := by
  intro hstep
  have hone : ∀ n, Exclusive R (f n) → Exclusive R (f (n + 1)) ∧
      Relation.CutExpand rankLt ((f (n + 1)).ranksIn R) ((f n).ranksIn R) := by
    intro n hn
    rcases hstep n with ⟨race, t, i, ks, h⟩ | ⟨i, e, h⟩
    · exact hn.stepR h
    · exact hn.fail h
  have hex : ∀ n, Exclusive R (f n) := by
    intro n
    induction n with
    | zero => rw [h0]; exact .init R c asks
    | succ n ih => exact (hone n ih).1
  have hwell : WellFounded (Relation.CutExpand rankLt) := rankLt_wf.cutExpand
  have : ∀ m : Multiset (Nat × Nat × Nat), ∀ n, (f n).ranksIn R = m → False := by
    intro m
    induction m using hwell.induction with
    | _ m ih =>
      intro n hm
      exact ih _ (hm ▸ (hone n (hex n)).2) (n + 1) rfl
  exact this _ 0 rfl

/-- **C87, all return.**  As long as not all queries have returned, and each has a thread of its own, one of them can take a
step, whenever its requests are answered. -/
theorem C87_all_return (E : Env) (A : Arrow) (S : Setting) (tb : Table) (depth : Nat) (R : Runtime)
    (hown : OwnThreads R) (s0 : Work) (asks : List Ask) (w : Work) (s : Conc) (failed : List Nat)
    (hrun : RunsWhile E A S tb depth R s0 asks w s failed) (hnot : ¬ AllReturned s) (race : Race) (t : Tree) :
    ∃ i ks s', s.stepR E A tb depth R race t i ks = some s' := by
  have hex : Exclusive R s := by
    clear hnot
    induction hrun with
    | begin _ => exact .init R _ _
    | work _ _ ih => exact ih
    | query m i ks _ _ hstep ih => exact (ih.stepR hstep).1
    | fails i e _ hstep ih => exact (ih.fail hstep).1
  obtain ⟨i, tk, h1, h2, h3⟩ := some_free (R := R) s (fun tk htk k hk => by
    obtain ⟨j, hj⟩ := List.mem_iff_getElem?.1 htk
    exact (hex.place j tk hj).2.holds hk) hnot
  obtain ⟨ks, r, h4⟩ := pcStep_enabled (A := A) (plan := tb.planR E A depth race) (t := t) (free := s.free i)
    (keysIn := s.keysIn R) (ask := tk.ask) (c := s.cache) h2 h3
  refine ⟨i, ks, ⟨r.1, s.tasks.set i ⟨tk.ask, r.2⟩⟩, ?_⟩
  unfold Conc.stepR
  rw [h1]
  simp only
  rw [if_pos (scheduled_own hown s i), h4]

end Hudi
