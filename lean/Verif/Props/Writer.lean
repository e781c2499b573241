import Verif.Lemmas.WriterTree
import Verif.Props.Remains

/-!
# C82: a writer that stops at any moment

Writers work on a table, several at a time; each can stop after any of its requests to storage.
-/

namespace Hudi
open Spec

/-- The latest instant of a loaded timeline is the last commit of its history. -/
theorem timeline_last {ltz : LocalTz} (hmono : MonotoneTz ltz) {tz : Str} {tl : Timeline} {h : History} {n : Nat}
    (hw : h.WF n)
    (h1 : ∀ i ∈ tl.completed, ∃ c ∈ h, ∃ d, parseDatetime ltz c.ts tz = .ok d ∧
      i = ⟨c.ts, c.action, .completed, d.epochMillis⟩)
    (h2 : ∀ c ∈ h, ∃ d, parseDatetime ltz c.ts tz = .ok d ∧
      (⟨c.ts, c.action, .completed, d.epochMillis⟩ : Instant) ∈ tl.completed)
    (h3 : tl.completed.Pairwise (fun a b => a.epochMillis ≤ b.epochMillis)) :
    (h = [] ∧ tl.completed = []) ∨ ∃ c0 d0, h.getLast? = some c0 ∧
      tl.completed.getLast? = some ⟨c0.ts, c0.action, .completed, DateTime.epochMillis d0⟩ ∧
      h.filter (fun c => (compare c.ts c0.ts).isLE) = h := by
  cases hi : tl.completed.getLast? with
  | none =>
    left
    have hnil := List.getLast?_eq_none_iff.1 hi
    refine ⟨?_, hnil⟩
    rw [List.eq_nil_iff_forall_not_mem]
    intro c hc
    obtain ⟨_, _, hm⟩ := h2 c hc
    rw [hnil] at hm
    cases hm
  | some i =>
    right
    obtain ⟨c0, hc0, d0, hd0, rfl⟩ := h1 i (List.mem_of_getLast? hi)
    have hall : ∀ c ∈ h, (compare c.ts c0.ts).isLE = true := by
      intro c hc
      obtain ⟨d, hd, hm⟩ := h2 c hc
      obtain ⟨q1, q2⟩ := hw.times c hc
      obtain ⟨r1, r2⟩ := hw.times c0 hc0
      rw [C04_same_width_partial ltz hmono tz _ _ _ _ q1 r1 (by rw [q2, r2]) hd hd0, Int.isLE_compare]
      obtain ⟨ys, hys⟩ := List.getLast?_eq_some_iff.1 hi
      rw [hys] at hm h3
      rcases List.mem_append.1 hm with hm | hm
      · exact (List.pairwise_append.1 h3).2.2 _ hm _ (List.mem_singleton_self _)
      · have := congrArg Instant.epochMillis (List.mem_singleton.1 hm)
        exact Int.le_of_eq this
    refine ⟨c0, d0, ?_, rfl, List.filter_eq_self.2 hall⟩
    obtain ⟨a, b, rfl⟩ := List.append_of_mem hc0
    cases b with
    | nil => simp
    | cons c b =>
      have hlt := (List.pairwise_cons.1 (List.pairwise_append.1 hw.ordered).2.1).1 c (by simp)
      have hle := hall c (by simp)
      rw [Std.OrientedCmp.eq_swap (cmp := (compare : Str → Str → Ordering)), hlt] at hle
      cases hle

/-! ## Storage at a later moment, seen from a handle -/

theorem files_upTo {S : Setting} {s0 s : Work} (hi0 : Inv S s0) (hi : Inv S s) {more : List Job}
    (hd : s.done = s0.done ++ more) {j0 : Job} (hj0 : j0 ∈ s0.done) :
    FilesUpTo S.ltz S.tz S.o s0.tree s.tree s0.history j0.commit.ts := by
  have hsub : ∀ j ∈ s0.done, j ∈ s.done := fun j hj => by rw [hd]; simp [hj]
  refine ⟨hi0.timeline, ?_, ?_, ?_, fun x hx => hi.listable hx, fun x hx => hi.extensions hx⟩
  · intro c hc _ ha
    obtain ⟨j, hj, rfl⟩ := mem_commitsOf.1 hc
    obtain ⟨d1, hjob⟩ := hi0.jobOf hj
    obtain ⟨h1, h2⟩ := hjob.document ha
    exact ⟨j.doc, ⟨1, hi.fileAt (p := instantAt j.commit) (by simp [instantAt]) (hi.instants j (hsub j hj))⟩, h1, h2⟩
  · intro c hc _ x f token hk
    obtain ⟨j, hj, rfl⟩ := mem_commitsOf.1 hc
    obtain ⟨d1, hjob⟩ := hi0.jobOf hj
    exact ⟨partition_of_site hi (hjob.sites _ hk) (hi.bases j (hsub j hj) _ _ hk), 1,
      (base_there hi (hsub j hj) hk).1⟩
  · intro x b hx hb hle
    have hs : Site S x := by obtain ⟨_, _, h1, _⟩ := hb; exact site_of_partition hi hx h1
    obtain ⟨j, f, token, hj, hk, rfl⟩ := base_in hi hs hb
    exact ⟨rfl, j.commit, mem_commitsOf.2 ⟨j, before_known hi hd hj0 hj hle, rfl⟩, hk, rfl⟩

/-- A completed write is at one place. -/
theorem split_job {S : Setting} {js d1 d2 e1 e2 : List Job} {j : Job}
    (hjobs : ∀ d1 j d2, js = d1 ++ j :: d2 → JobOk S d1 j) (h : js = d1 ++ j :: d2) (h' : js = e1 ++ j :: e2) :
    d1 = e1 := by
  rcases List.append_eq_append_iff.1 (h.symm.trans h') with ⟨a, h1, h2⟩ | ⟨a, h1, h2⟩
  · cases a with
    | nil => simpa using h1.symm
    | cons x a =>
      simp only [List.cons_append, List.cons.injEq] at h2
      have := (hjobs e1 j e2 h').later j (by rw [h1, h2.1]; simp)
      exact absurd this cmp_irrefl
  · cases a with
    | nil => simpa using h1
    | cons x a =>
      simp only [List.cons_append, List.cons.injEq] at h2
      have := (hjobs d1 j d2 h).later j (by rw [h1, h2.1]; simp)
      exact absurd this cmp_irrefl

theorem split_commits {js : List Job} {h1 h2 : History} {c : HCommit} (h : commitsOf js = h1 ++ c :: h2) :
    ∃ d1 j d2, js = d1 ++ j :: d2 ∧ commitsOf d1 = h1 ∧ j.commit = c ∧ commitsOf d2 = h2 := by
  unfold commitsOf at h
  obtain ⟨d1, r, rfl, e1, e2⟩ := List.map_eq_append_iff.1 h
  obtain ⟨j, d2, rfl, e3, e4⟩ := List.map_eq_cons_iff.1 e2
  exact ⟨d1, j, d2, rfl, e1, e3, e4⟩

theorem rollback_decodes {C : Codec} {w : WBlock} (h : IsRollback w) {bs : List Batch} (hd : Decodes C w bs) :
    bs = [] := by
  unfold Decodes at hd
  rw [h.1] at hd
  exact hd

/-- The files that are read up to a commit known to the handle. -/
theorem rows_upTo' {S : Setting} {s0 s : Work} (hi0 : Inv S s0) (hi : Inv S s) {more : List Job}
    (hd : s.done = s0.done ++ more) {j0 : Job} (hj0 : j0 ∈ s0.done) :
    (∀ c ∈ s0.history, (compare c.ts j0.commit.ts).isLE → ∀ k token, (k, Change.write token) ∈ c.changes →
      ParquetAt s.tree (basePathOf k token c.ts) ⟨columnsBy s0.done c.ts k, (rowsOf s0.done).base c.ts k⟩ ∧
      (⟨columnsBy s0.done c.ts k, (rowsOf s0.done).base c.ts k⟩ : Batch).WF) ∧
    (∀ k v l, tableAt s0.history j0.commit.ts k = some v → LogOf s.tree k v.base l →
      LogAt S.C s.tree (pathPush k.1 l.fileName) (heldIn s (pathPush k.1 l.fileName))) ∧
    (∀ k v w, tableAt s0.history j0.commit.ts k = some v → StoredBlock s.tree (heldIn s) k v.base w →
      GoodBlock S.C S.ltz S.tz w ∧ BatchesFit S.C (columnsBy s0.done v.base k) [w]) ∧
    ∀ k v w i, tableAt s0.history j0.commit.ts k = some v → StoredBlock s.tree (heldIn s) k v.base w →
      WrittenUpTo S.ltz S.tz j0.commit.ts w → RollsBack w i → ∀ c, AppendedTo s0.history k v.base c → c.ts ≠ i := by
  have hsub : ∀ j ∈ s0.done, j ∈ s.done := fun j hj => by rw [hd]; simp [hj]
  have hat : ∀ j ∈ s0.done, jobAt s0.done j.commit.ts = some j :=
    fun j hj => jobAt_mem (fun j hj j' hj' => hi0.unique hj hj') hj
  have hver : ∀ k v, tableAt s0.history j0.commit.ts k = some v → KeyOk S k ∧ WriterTimestamp v.base ∧
      ∃ j ∈ s0.done, j.commit.ts = v.base := by
    intro k v hv
    obtain ⟨h1, c, h2, e1, e2, e3, _⟩ := versionAfter_some.1 (show versionAfter _ k = some v from hv)
    have : c ∈ s0.history.filter (fun c => (compare c.ts j0.commit.ts).isLE) := by rw [e1]; simp
    obtain ⟨j, hj, rfl⟩ := mem_commitsOf.1 (List.mem_filter.1 this).1
    obtain ⟨d1, hjob⟩ := hi0.jobOf hj
    exact ⟨job_key hjob (changeOf_mem e2), e3 ▸ hjob.time.1, j, hj, e3⟩
  refine ⟨?_, ?_, ?_, ?_⟩
  · intro c hc _ k token hk
    obtain ⟨j, hj, rfl⟩ := mem_commitsOf.1 hc
    obtain ⟨d1, hjob⟩ := hi0.jobOf hj
    have e : (⟨columnsBy s0.done j.commit.ts k, (rowsOf s0.done).base j.commit.ts k⟩ : Batch) = j.base k := by
      simp [columnsBy, rowsOf, hat j hj]
    rw [e]
    refine ⟨⟨1, 1, (j.base k).schema, ?_⟩, (hjob.batches k token hk).1⟩
    have hp : pathSegs (basePathOf k token j.commit.ts) = baseAt k token j.commit.ts := by
      unfold basePathOf
      rw [pathSegs_pathPush (base_normal (hjob.ids _ hk) (hjob.tokens _ _ hk) (digits_part hjob.time.1))]
      rfl
    rw [hp]
    exact hi.fileAt (by simp [baseAt, inPartition]) (hi.bases j (hsub j hj) k token hk)
  · intro k v l hv hl
    obtain ⟨hk, hb, _⟩ := hver k v hv
    obtain ⟨h1, h2, h3⟩ := hl
    obtain ⟨j, f, token, l', ws, hj, hc, hl', hg, rfl⟩ := log_in hi hk.1 h1
    obtain ⟨x, f'⟩ := k
    cases (show f = f' from h2)
    have e := (show j.commit.ts = v.base from h3)
    refine ⟨1, .bytes (logBytes ws), ?_, ?_⟩
    · rw [e] at hg ⊢
      rw [log_path (k := (x, f)) hk hb hl']
      exact hi.fileAt (by simp [logAt, inPartition]) hg
    · have : heldIn s (pathPush x (LogFile.fileName ⟨f, j.commit.ts, c!"log", l'.1, l'.2,
          some (FileMeta.new (logName f j.commit.ts l'.1 l'.2) 1)⟩)) = ws := by
        unfold heldIn
        rw [e] at hg ⊢
        rw [log_path (k := (x, f)) hk hb hl', hg]
        rfl
      rw [this]
      rfl
  · intro k v w hv hw
    obtain ⟨hk, hb, hj⟩ := hver k v hv
    have hok := stored_ok hi ((stored_block hi hk hb).1 hw)
    refine ⟨hok.good, ?_⟩
    have := hok.fit
    rw [hd, columnsBy_append hj] at this
    exact this
  · intro k v w i hv hw _ hr c hap hci
    obtain ⟨hk, hb, _⟩ := hver k v hv
    have hmem : c ∈ s0.history := by obtain ⟨h1, h2, _, _, e, _⟩ := hap; rw [e]; simp
    obtain ⟨j, hj, rfl⟩ := mem_commitsOf.1 hmem
    cases (stored_ok hi ((stored_block hi hk hb).1 hw)).origin with
    | done d1 j' d2 ls v' l hd' hk' hv' hb' hl hw' ht =>
      exact ((hi.jobs d1 j' d2 hd').blocks k ls v' hk' hv' l hl w hw').2.2.1 hr.1
    | current a ls v' l hc hk' hv' hb' hl hw' ht _ =>
      exact ((hi.attempt a hc).blocks k ls v' hk' hv' l hl w hw').2.2.1 hr.1
    | failed i' r w' ht hn => exact hn hr.1
    | rollback i' hb' hu hdn hc =>
      have e : i' = i := by
        have h1 := hb'.2
        rw [hr.2] at h1
        exact (Option.some.inj h1).symm
      exact hdn j (hsub j hj) (by rw [e]; exact hci)

/-- What is read up to a commit known to the handle. -/
theorem rows_upTo {S : Setting} {s0 s : Work} (hov : OverwritesWithLatest S.o) (hi0 : Inv S s0) (hi : Inv S s) {more : List Job}
    (hd : s.done = s0.done ++ more) {j0 : Job} (hj0 : j0 ∈ s0.done) :
    RowsUpTo S.C S.ltz S.tz (columnsBy s0.done) s.tree s0.history (rowsOf s0.done) (heldIn s) j0.commit.ts := by
  have hsub : ∀ j ∈ s0.done, j ∈ s.done := fun j hj => by rw [hd]; simp [hj]
  have hat : ∀ j ∈ s0.done, jobAt s0.done j.commit.ts = some j :=
    fun j hj => jobAt_mem (fun j hj j' hj' => hi0.unique hj hj') hj
  have hver : ∀ k v, tableAt s0.history j0.commit.ts k = some v → KeyOk S k ∧ WriterTimestamp v.base ∧
      ∃ j ∈ s0.done, j.commit.ts = v.base := by
    intro k v hv
    obtain ⟨h1, c, h2, e1, e2, e3, _⟩ := versionAfter_some.1 (show versionAfter _ k = some v from hv)
    have : c ∈ s0.history.filter (fun c => (compare c.ts j0.commit.ts).isLE) := by rw [e1]; simp
    obtain ⟨j, hj, rfl⟩ := mem_commitsOf.1 (List.mem_filter.1 this).1
    obtain ⟨d1, hjob⟩ := hi0.jobOf hj
    exact ⟨job_key hjob (changeOf_mem e2), e3 ▸ hjob.time.1, j, hj, e3⟩
  obtain ⟨r1, r2, r3, r4⟩ := rows_upTo' hi0 hi hd hj0
  refine ⟨?_, r2, r3, r4, ?_⟩
  · intro c hc hle k token hk
    refine ⟨(r1 c hc hle k token hk).1, (r1 c hc hle k token hk).2, ?_⟩
    obtain ⟨j, hj, rfl⟩ := mem_commitsOf.1 hc
    obtain ⟨d1, hjob⟩ := hi0.jobOf hj
    have e1 : columnsBy s0.done j.commit.ts k = (j.base k).schema := by simp [columnsBy, hat j hj]
    have e2 : (rowsOf s0.done).base j.commit.ts k = (j.base k).rows := by simp [rowsOf, hat j hj]
    rw [e1, e2]
    exact ((hjob.batches k token hk).2 hov).1
  · intro k v c hv hap hle r
    obtain ⟨hk, hb, _⟩ := hver k v hv
    obtain ⟨h1, h2, ls, v', e1, e2, e3, e4⟩ := hap
    obtain ⟨d1, j, d2, hdone, rfl, rfl, _⟩ := split_commits e1
    have hj : j ∈ s0.done := by rw [hdone]; simp
    have hjob := hi0.jobs d1 j d2 hdone
    have hsplit : s.done = d1 ++ j :: (d2 ++ more) := by rw [hd, hdone]; simp
    have e : (rowsOf s0.done).appended j.commit.ts k = j.appended k := by simp [rowsOf, hat j hj]
    rw [e, hjob.rows k ls e2 r]
    constructor
    · rintro ⟨l, hl, w, hw, bs, hdec, hrow⟩
      refine ⟨w, bs, (stored_block hi hk hb).2 ?_, (hjob.blocks k ls v' e2 e3 l hl w hw).2.1, hdec, hrow⟩
      rw [← e4]
      exact hi.blocks d1 j (d2 ++ more) k ls v' l w hsplit e2 e3 hl hw
    · rintro ⟨w, bs, hw, ht, hdec, hrow⟩
      have hts : ∀ i, WrittenBy w i → i = j.commit.ts := by
        intro i hi'
        unfold WrittenBy at hi' ht
        rw [hi'] at ht
        exact Option.some.inj ht
      cases (stored_ok hi ((stored_block hi hk hb).1 hw)).origin with
      | done d1' j' d2' ls' v'' l hd' hk' hv' hb' hl hw' ht' =>
        cases hi.unique (by rw [hd']; simp) (hsub j hj) (hts _ ht')
        have := (changeOf_iff hjob.once).2 e2
        rw [(changeOf_iff hjob.once).2 hk'] at this
        cases this
        exact ⟨l, hl, w, hw', bs, hdec, hrow⟩
      | current a ls' v'' l hc hk' hv' hb' hl hw' ht' _ =>
        have := (hi.attempt a hc).later j (hsub j hj)
        rw [hts _ ht'] at this
        exact absurd this cmp_irrefl
      | failed i' r' w' ht' hn hir hw' hb' hr' hu hdn hc =>
        rcases hdn j (hsub j hj) with hlt | hlt
        · rw [hts _ ht'] at hlt
          exact absurd hlt cmp_irrefl
        · rw [hts _ ht'] at hir
          exact absurd (cmp_trans hir hlt) cmp_irrefl
      | rollback i' hb' hu hdn hc =>
        rw [rollback_decodes hb'.1 hdec] at hrow
        cases hrow

/-- The table as of a commit known to the handle is settled. -/
theorem settled_upTo {S : Setting} {s0 s : Work} (hmono : MonotoneTz S.ltz) (hsec : WholeSecondsTz S.ltz)
    (hi0 : Inv S s0) (hi : Inv S s) {more : List Job} (hd : s.done = s0.done ++ more) {j0 : Job} (hj0 : j0 ∈ s0.done) :
    Settled S.ltz S.tz j0.commit.ts s.tree s0.history (heldIn s) := by
  intro k v w i hv hw ht hup
  obtain ⟨h1, c, h2, e1, e2, e3, _⟩ := versionAfter_some.1 (show versionAfter _ k = some v from hv)
  have : c ∈ s0.history.filter (fun c => (compare c.ts j0.commit.ts).isLE) := by rw [e1]; simp
  obtain ⟨j1, hj1, rfl⟩ := mem_commitsOf.1 (List.mem_filter.1 this).1
  obtain ⟨b1, hjob1⟩ := hi0.jobOf hj1
  have hk : KeyOk S k := job_key hjob1 (changeOf_mem e2)
  have hb : WriterTimestamp v.base := e3 ▸ hjob1.time.1
  have hok := stored_ok hi ((stored_block hi hk hb).1 hw)
  obtain ⟨b0, hjob0⟩ := hi0.jobOf hj0
  obtain ⟨d0, hd0⟩ := hjob0.parses
  have hsub : ∀ j ∈ s0.done, j ∈ s.done := fun j hj => by rw [hd]; simp [hj]
  have upTo : ∀ w' u, GoodBlock S.C S.ltz S.tz w' → WrittenBy w' u → WriterTimestamp u ∧ u.length = S.width →
      (WrittenUpTo S.ltz S.tz j0.commit.ts w' ↔ (compare u j0.commit.ts).isLE = true) := by
    intro w' u hg hw' hu
    exact writtenUpTo_iff hmono hsec hu.1 hjob0.time.1 (by rw [hu.2, hjob0.time.2]) hd0 hg.time hw'
  have hts : ∀ u, WrittenBy w u → u = i := by
    intro u hu
    unfold WrittenBy at hu ht
    rw [hu] at ht
    exact Option.some.inj ht
  cases hok.origin with
  | done d1 j d2 ls v' l hd' hk' hv' hb' hl hw' ht' =>
    right; left
    have hj : j ∈ s.done := by rw [hd']; simp
    have hle := (upTo w _ hok.good ht' (hi.jobs d1 j d2 hd').time).1 hup
    have hj' := before_known hi hd hj0 (.inl hj) hle
    obtain ⟨a, b, e⟩ := List.append_of_mem hj'
    have ea : d1 = a := split_job hi.jobs hd' (show s.done = a ++ j :: (b ++ more) by rw [hd, e]; simp)
    subst ea
    refine ⟨j.commit, ⟨commitsOf d1, commitsOf b, ls, v', ?_, hk', hv', hb'⟩, hts _ ht'⟩
    unfold Work.history
    rw [e, commitsOf_append]
    rfl
  | current a ls v' l hc hk' hv' hb' hl hw' ht' _ =>
    have hle := (upTo w _ hok.good ht' (hi.attempt a hc).time).1 hup
    have := (hi.attempt a hc).later j0 (hsub j0 hj0)
    rw [Std.OrientedCmp.eq_swap (cmp := (compare : Str → Str → Ordering)), this] at hle
    cases hle
  | failed i' r w' ht' hn hir hw' hb' hr hu hdn hc =>
    right; right
    refine ⟨w', (stored_block hi hk hb).2 hw', hts _ ht' ▸ hb', ?_⟩
    have hok' := stored_ok hi hw'
    rw [upTo w' r hok'.good hr (hi.times r hu.2)]
    rcases hdn j0 (hsub j0 hj0) with hlt | hlt
    · -- the write would be later
      exfalso
      have hti : WriterTimestamp i' ∧ i'.length = S.width := hi.times i' hu.1
      have hle := (upTo w _ hok.good ht' hti).1 hup
      rw [Std.OrientedCmp.eq_swap (cmp := (compare : Str → Str → Ordering)), hlt] at hle
      cases hle
    · rw [hlt]; rfl
  | rollback i' hb' => exact .inl hb'.1

/-- The partition columns are known to the handle at any later moment. -/
theorem columns_upTo {E : Env} {S : Setting} {s0 s : Work} (hmono : MonotoneTz S.ltz) (hclock : E.ltz = S.ltz)
    (hi0 : Inv S s0) (hi : Inv S s) {more : List Job} (hd : s.done = s0.done ++ more) (hne : s0.done ≠ []) {o : Opts}
    {tb : Table} (hload : Timeline.load E o s0.tree = .ok tb.timeline)
    (hzone : timezoneOf tb.timeline.opts = .ok S.tz) (hopts : tb.opts = S.o) : PartitionColumns tb s.tree S.pcols := by
  have hsub : ∀ j ∈ s0.done, j ∈ s.done := fun j hj => by rw [hd]; simp [hj]
  obtain ⟨t1, t2, t3⟩ := timeline_of hload hzone hi0.wf (by rw [hclock]; exact hi0.timeline)
  rw [hclock] at t1 t2
  rcases timeline_last hmono hi0.wf t1 t2 t3 with ⟨h1, _⟩ | ⟨c0, d0, h1, h2, _⟩
  · exact absurd (List.map_eq_nil_iff.1 h1) hne
  · obtain ⟨ys, hys⟩ := List.getLast?_eq_some_iff.1 h1
    obtain ⟨d1, j, d2, e1, _, rfl, e2⟩ := split_commits (js := s0.done) (h1 := ys) (h2 := []) hys
    have hj : j ∈ s0.done := by rw [e1]; simp
    obtain ⟨j', hj', k, token, path, f1, f2, f3, f4⟩ := (hi0.jobs d1 j d2 e1).firstFile
    have hj'' : j' ∈ s0.done := by
      rw [e1]
      rcases List.mem_append.1 hj' with h | h
      · simp [h]
      · rw [List.mem_singleton.1 h]; simp
    refine ⟨_, j.doc, path, (j'.base k).schema, h2, docOf_eq (size := 1) ?_, f2, ⟨1, 1, j'.base k, ?_⟩, ?_⟩
    · exact hi.fileAt (p := instantAt j.commit) (by simp [instantAt]) (hi.instants j (hsub j hj))
    · rw [f3]
      exact hi.fileAt (by simp [baseAt, inPartition]) (hi.bases j' (hsub j' hj'') k token f1)
    · rw [hopts]; exact f4

/-! ## Reading -/

/-- What is read through a handle opened at `s0` from a table `s` that holds at least what had been completed then. -/
theorem upTo_reads (E : Env) (A : Arrow) (S : Setting) (M : MergeEnv A) (hmono : MonotoneTz E.ltz)
    (hsec : WholeSecondsTz E.ltz) {s0 s : Work} (hi0 : Inv S s0) (hi : Inv S s) {more : List Job}
    (hd : s.done = s0.done ++ more) {tb : Table} {filters : List (Str × Str × Str)} {fs : List Filter} {hive url : Bool}
    (ho : OpenedAt E A S s0 tb filters fs hive url) {c : HCommit} (hc : c ∈ s0.history) :
    ∃ outs, (tb.readSnapshotAsOf E A S.C M s.tree c.ts filters []).2 = .ok outs ∧
      ReadsEvolving A (columnsBy s0.done) S.pre (tableAt s0.history c.ts) (Kept A S.pcols hive url fs)
        (fun k r => r ∈ recordsAt (rowsOf s0.done) s0.history c.ts k) outs := by
  obtain ⟨j0, hj0, rfl⟩ := mem_commitsOf.1 hc
  obtain ⟨d1, hjob⟩ := hi0.jobOf hj0
  obtain ⟨o, hload⟩ := ho.load
  have hmono' : MonotoneTz S.ltz := ho.clock ▸ hmono
  have hsec' : WholeSecondsTz S.ltz := ho.clock ▸ hsec
  have hrows := rows_upTo ho.overwrites hi0 hi hd hj0
  have hset := settled_upTo hmono' hsec' hi0 hi hd hj0
  have hfiles := files_upTo hi0 hi hd hj0
  rw [← ho.clock] at hrows hset hfiles
  refine C81_completed_records_partial E A S.C M o s0.tree s.tree tb S.tz S.pre s0.history S.width filters fs S.pcols
    hive url hmono hsec j0.commit.ts ?_ ho.merges (columnsBy s0.done) ?_ (rowsOf s0.done) (heldIn s) hrows hset
    hjob.time (ho.clock ▸ hjob.parses)
  · refine ⟨hload, ?_, hi.treeWF, ho.zone, hi0.wf, ho.options ▸ hfiles, ho.parsed, ?_, ho.names, ho.applicable,
      ho.options ▸ ho.style, ho.options ▸ ho.parallelism⟩
    · intro m hm
      exact timelineNames_normal hi0.treeWF _ (List.mem_map.2 ⟨m, hm, rfl⟩)
    · exact columns_upTo hmono' ho.clock hi0 hi hd (List.ne_nil_of_mem hj0) hload ho.zone ho.options
  · intro c' hc' k token hk
    obtain ⟨j, hj, rfl⟩ := mem_commitsOf.1 hc'
    obtain ⟨d1, hjob'⟩ := hi0.jobOf hj
    have : columnsBy s0.done j.commit.ts k = (j.base k).schema := by
      simp [columnsBy, jobAt_mem (fun j hj j' hj' => hi0.unique hj hj') hj]
    rw [this]
    exact ((hjob'.batches k token hk).2 ho.overwrites).2

/-- **C82, as of a commit.**  Writers work on a table, several at a time, and may stop at any moment, to be rolled
back.  A handle opened at any moment `s0` reads, at any later moment `s`, as of any commit that had completed at
`s0`, exactly the records that the writes completed by then had written. -/
theorem C82_reads_as_of (E : Env) (A : Arrow) (S : Setting) (M : MergeEnv A) (hmono : MonotoneTz E.ltz)
    (hsec : WholeSecondsTz E.ltz) (s0 s : Work) (hs0 : Works S nothingYet s0) (hs : Works S s0 s) (tb : Table)
    (filters : List (Str × Str × Str)) (fs : List Filter) (hive url : Bool)
    (ho : OpenedAt E A S s0 tb filters fs hive url) (c : HCommit) (hc : c ∈ s0.history) :
    ∃ outs, (tb.readSnapshotAsOf E A S.C M s.tree c.ts filters []).2 = .ok outs ∧
      ReadsEvolving A (columnsBy s0.done) S.pre (tableAt s0.history c.ts) (Kept A S.pcols hive url fs)
        (fun k r => r ∈ recordsAt (rowsOf s0.done) s0.history c.ts k) outs := by
  have hi0 := inv_works (inv_nothing S) hs0
  obtain ⟨more, hd⟩ := done_works hs
  exact upTo_reads E A S M hmono hsec hi0 (inv_works hi0 hs) hd ho hc

/-- **C82, the latest snapshot.**  Likewise without a timestamp: the handle reads exactly the records of the writes
that had completed when it was opened; nothing if there were none. -/
theorem C82_reads_latest (E : Env) (A : Arrow) (S : Setting) (M : MergeEnv A) (hmono : MonotoneTz E.ltz)
    (hsec : WholeSecondsTz E.ltz) (s0 s : Work) (hs0 : Works S nothingYet s0) (hs : Works S s0 s) (tb : Table)
    (filters : List (Str × Str × Str)) (fs : List Filter) (hive url : Bool)
    (ho : OpenedAt E A S s0 tb filters fs hive url) :
    ∃ outs, (tb.readSnapshot E A S.C M s.tree filters []).2 = .ok outs ∧
      ReadsEvolving A (columnsBy s0.done) S.pre (versionAfter s0.history) (Kept A S.pcols hive url fs)
        (fun k r => r ∈ recordsAfter (rowsOf s0.done) s0.history k) outs := by
  have hi0 := inv_works (inv_nothing S) hs0
  obtain ⟨o, hload⟩ := ho.load
  obtain ⟨t1, t2, t3⟩ := timeline_of hload ho.zone hi0.wf (by rw [ho.clock]; exact hi0.timeline)
  rcases timeline_last hmono hi0.wf t1 t2 t3 with ⟨h1, h2⟩ | ⟨c0, d0, h1, h2, h3⟩
  · refine ⟨[], ?_, [], .nil, ?_, .nil⟩
    · unfold Table.readSnapshot Timeline.latestTimestamp
      rw [h2]
      rfl
    · intro k
      rw [h1]
      simp [versionAfter]
  · obtain ⟨outs, h4, h5⟩ := C82_reads_as_of E A S M hmono hsec s0 s hs0 hs tb filters fs hive url ho c0
      (List.mem_of_getLast? h1)
    refine ⟨outs, ?_, ?_⟩
    · unfold Table.readSnapshot Timeline.latestTimestamp
      rw [h2]
      exact h4
    · have e1 : tableAt s0.history c0.ts = versionAfter s0.history := by
        funext k; unfold tableAt; rw [h3]
      have e2 : recordsAt (rowsOf s0.done) s0.history c0.ts = recordsAfter (rowsOf s0.done) s0.history := by
        funext k; unfold recordsAt; rw [h3]
      rw [e1, e2] at h5
      exact h5

/-- **C82, stopping.**  What a handle opened at a moment `s` reads does not depend on how much the write in progress
has done, nor on whether it stops there, completes, or is rolled back: the handle reads the same records as one
opened before the write began, and reads them at every later moment. -/
theorem C82_write_in_progress_unseen (E : Env) (A : Arrow) (S : Setting) (M : MergeEnv A) (hmono : MonotoneTz E.ltz)
    (hsec : WholeSecondsTz E.ltz) (before s later : Work) (hb : Works S nothingYet before) (hs : Works S before s)
    (hl : Works S s later) (hdone : s.done = before.done) (tb : Table)
    (filters : List (Str × Str × Str)) (fs : List Filter) (hive url : Bool)
    (ho : OpenedAt E A S s tb filters fs hive url) :
    ∃ outs, (tb.readSnapshot E A S.C M later.tree filters []).2 = .ok outs ∧
      ReadsEvolving A (columnsBy before.done) S.pre (versionAfter before.history) (Kept A S.pcols hive url fs)
        (fun k r => r ∈ recordsAfter (rowsOf before.done) before.history k) outs := by
  have hall : Works S nothingYet s := by
    clear hl ho hdone
    induction hs with
    | refl => exact hb
    | step _ hstep ih => exact .step ih hstep
  have := C82_reads_latest E A S M hmono hsec s later hall hl tb filters fs hive url ho
  have e : s.history = before.history := by unfold Work.history; rw [hdone]
  rw [hdone, e] at this
  exact this

end Hudi
