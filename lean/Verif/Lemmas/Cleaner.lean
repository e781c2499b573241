import Verif.Spec.Cleaner
import Verif.Lemmas.RacingWriter
import Verif.Props.Writer

/-!
# Lemmas: a cleaner

Whatever a cleaner and writers do to a storage, writers alone could have done, but for the files that the cleaner has
deleted.
-/

namespace Hudi
open Spec

/-- The objects at other paths. -/
def without (st : Objects) (gone : List (List Str)) : Objects := st.filter (fun e => decide (e.1 ∉ gone))

theorem get_without (st : Objects) (gone : List (List Str)) (p : List Str) :
    (without st gone).get p = if p ∈ gone then none else st.get p := by
  induction st with
  | nil => simp [without, Objects.get]
  | cons e st ih =>
    unfold without Objects.get at ih ⊢
    rw [List.filter_cons]
    by_cases he : e.1 ∈ gone
    · rw [if_neg (by simpa using he), ih, List.find?_cons]
      by_cases hp : e.1 = p
      · subst hp; simp [he]
      · simp [hp]
    · rw [if_pos (by simpa using he), List.find?_cons, List.find?_cons]
      by_cases hp : e.1 = p
      · subst hp; simp [he]
      · simp only [hp, decide_false]; exact ih

theorem run_without {q : Request} {st : Objects} {gone : List (List Str)} (h : q.path ∉ gone) :
    q.run (without st gone) = without (q.run st) gone := by
  have hr : without ((q.result (st.get q.path)).map (fun x => (q.path, x))).toList gone =
      ((q.result (st.get q.path)).map (fun x => (q.path, x))).toList := by
    cases q.result (st.get q.path) with
    | none => rfl
    | some x => simp [without, h]
  unfold Request.run
  rw [get_without, if_neg h]
  unfold without at hr ⊢
  rw [List.filter_append, hr, List.filter_filter, List.filter_filter]
  congr 1
  refine List.filter_congr (fun e _ => ?_)
  rw [Bool.and_comm]

theorem delete_without {st : Objects} {gone : List (List Str)} {p : List Str} :
    (Request.delete p).run (without st gone) = without st (p :: gone) := by
  unfold Request.run without
  simp only [Request.result, Request.path, Option.map_none, Option.toList_none, List.append_nil]
  rw [List.filter_filter]
  refine List.filter_congr (fun e _ => ?_)
  by_cases h : e.1 = p <;> simp [h]

/-- The state when the objects at the paths have been deleted. -/
def sweep (v : Work) (gone : List (List Str)) : Work := { v with store := without v.store gone }

/-- What has been deleted are files of superseded versions, and the log files of a version are gone when its base
file is. -/
structure Swept (S : Setting) (r : Str) (v : Work) (gone : List (List Str)) : Prop where
  each : ∀ p ∈ gone, ∃ j ∈ v.done, ∃ k token, (k, Change.write token) ∈ j.commit.changes ∧
    Superseded v.done r k j.commit.ts ∧
    (p = baseAt k token j.commit.ts ∨ ∃ l, (NamePart l.1 ∧ NamePart l.2) ∧ p = logAt k j.commit.ts l)
  order : ∀ j ∈ v.done, ∀ k token, (k, Change.write token) ∈ j.commit.changes → baseAt k token j.commit.ts ∈ gone →
    ∀ l, NamePart l.1 ∧ NamePart l.2 → logAt k j.commit.ts l ∉ gone → v.store.get (logAt k j.commit.ts l) = none

theorem swept_nothing (S : Setting) (r : Str) (v : Work) : Swept S r v [] := ⟨by simp, by simp⟩

theorem sweep_nothing (v : Work) : sweep v [] = v := by
  unfold sweep without; simp

theorem superseded_more {js more : List Job} {r : Str} {k : GroupKey} {base : Str} (h : Superseded js r k base) :
    Superseded (js ++ more) r k base := by
  obtain ⟨j, hj, h⟩ := h
  exact ⟨j, by simp [hj], h⟩

/-- The current version is not superseded. -/
theorem current_kept {S : Setting} {js : List Job} (hj : ∀ d1 j d2, js = d1 ++ j :: d2 → JobOk S d1 j) {k : GroupKey}
    {v : Version} (hv : versionAfter (commitsOf js) k = some v) {r : Str} : ¬ Superseded js r k v.base := by
  have hw := wf_commits hj
  rintro ⟨j, hm, hlt, _, hch⟩
  obtain ⟨h1, c, h2, e1, e2, e3, e4, _⟩ := versionAfter_some.1 hv
  have hmem : j.commit ∈ commitsOf js := mem_commitsOf.2 ⟨j, hm, rfl⟩
  have hord := hw.ordered
  rw [e1] at hord hmem
  rcases List.mem_append.1 hmem with h | h
  · have := (List.pairwise_append.1 hord).2.2 j.commit h c (by simp)
    rw [e3] at this
    exact cmp_irrefl (cmp_trans hlt this)
  · rcases List.mem_cons.1 h with h | h
    · rw [h, e3] at hlt
      exact cmp_irrefl hlt
    · have hmem' : j.commit ∈ commitsOf js := mem_commitsOf.2 ⟨j, hm, rfl⟩
      rcases hch with ⟨token, hch⟩ | hch
      · have h3 := (hw.of_mem hmem').2 hch
        rcases e4 _ h with h4 | ⟨ls, h4⟩ <;> rw [h4] at h3 <;> cases h3
      · have h3 := (hw.of_mem hmem').2 hch
        rcases e4 _ h with h4 | ⟨ls, h4⟩ <;> rw [h4] at h3 <;> cases h3

/-! ## Writers leave superseded versions alone -/

/-- A file of a superseded version. -/
def OldFile (r : Str) (v : Work) (p : List Str) : Prop :=
  ∃ j ∈ v.done, ∃ k token, (k, Change.write token) ∈ j.commit.changes ∧ Superseded v.done r k j.commit.ts ∧
    (p = baseAt k token j.commit.ts ∨ ∃ l, (NamePart l.1 ∧ NamePart l.2) ∧ p = logAt k j.commit.ts l)

theorem old_unread {S : Setting} {r : Str} {v : Work} (hi : Inv S v) {p : List Str} (h : Unread S p) : ¬ OldFile r v p := by
  rintro ⟨j, hj, k, token, hk, _, rfl | ⟨l, hl, rfl⟩⟩
  · obtain ⟨d1, hjob⟩ := hi.jobOf hj
    exact base_read (job_key hjob hk) h
  · obtain ⟨d1, hjob⟩ := hi.jobOf hj
    exact log_read (job_key hjob hk) hjob.time.1 hl h

theorem old_instant {S : Setting} {r : Str} {v : Work} (hi : Inv S v) {c : HCommit} : ¬ OldFile r v (instantAt c) := by
  rintro ⟨j, hj, k, token, hk, _, e | ⟨l, hl, e⟩⟩
  · obtain ⟨d1, hjob⟩ := hi.jobOf hj
    exact base_ne_instant (job_key hjob hk) e.symm
  · obtain ⟨d1, hjob⟩ := hi.jobOf hj
    exact log_ne_instant (job_key hjob hk) e.symm

/-- A base file is one of a superseded version only if its version is superseded. -/
theorem old_base {S : Setting} {r : Str} {v : Work} (hi : Inv S v) {k : GroupKey} {token ts : Str} (hk : KeyOk S k)
    (ht : NamePart token) (hts : WriterTimestamp ts) (h : OldFile r v (baseAt k token ts)) :
    Superseded v.done r k ts ∧ ∃ j ∈ v.done, j.commit.ts = ts := by
  obtain ⟨j, hj, k', token', hk', hs, e | ⟨l, hl, e⟩⟩ := h
  · obtain ⟨d1, hjob⟩ := hi.jobOf hj
    obtain ⟨rfl, _, rfl⟩ := baseAt_inj hk (job_key hjob hk') ht (hjob.tokens _ _ hk') hts hjob.time.1 e
    exact ⟨hs, j, hj, rfl⟩
  · obtain ⟨d1, hjob⟩ := hi.jobOf hj
    exact absurd e (base_ne_log hk (job_key hjob hk') hl)

theorem old_log {S : Setting} {r : Str} {v : Work} (hi : Inv S v) {k : GroupKey} {ts : Str} {l : Str × Str}
    (hk : KeyOk S k) (hl : NamePart l.1 ∧ NamePart l.2) (hts : WriterTimestamp ts) (h : OldFile r v (logAt k ts l)) :
    Superseded v.done r k ts := by
  obtain ⟨j, hj, k', token', hk', hs, e | ⟨l', hl', e⟩⟩ := h
  · obtain ⟨d1, hjob⟩ := hi.jobOf hj
    exact absurd e.symm (base_ne_log (job_key hjob hk') hk hl)
  · obtain ⟨d1, hjob⟩ := hi.jobOf hj
    obtain ⟨rfl, rfl, _⟩ := logAt_inj hk (job_key hjob hk') hts hjob.time.1 hl hl' e
    exact hs

theorem old_attempt {S : Setting} {r : Str} {v : Work} (hi : Inv S v) {a : Attempt} (ha : a ∈ v.current)
    {k : GroupKey} {token : Str} (hk : (k, Change.write token) ∈ a.job.commit.changes) :
    ¬ OldFile r v (baseAt k token a.job.commit.ts) := by
  intro h
  have hjob := hi.attempt a ha
  obtain ⟨_, j, hj, e⟩ := old_base hi (job_key hjob hk) (hjob.tokens _ _ hk) hjob.time.1 h
  have := hjob.later j hj
  rw [e] at this
  exact cmp_irrefl this

theorem old_current {S : Setting} {r : Str} {v : Work} (hi : Inv S v) {k : GroupKey} {w : Version} {l : Str × Str}
    (hw : versionAfter v.history k = some w) (hl : NamePart l.1 ∧ NamePart l.2) : ¬ OldFile r v (logAt k w.base l) :=
  fun h => current_kept hi.jobs hw (old_log hi (version_key hi hw).1 hl (version_key hi hw).2 h)

theorem Swept.old {S : Setting} {r : Str} {v : Work} {gone : List (List Str)} (h : Swept S r v gone) {p : List Str}
    (hp : p ∈ gone) : OldFile r v p := h.each p hp

/-- Requests for other files leave what has been deleted as it is. -/
theorem swept_run {S : Setting} {r : Str} {v v' : Work} {gone : List (List Str)} (hi : Inv S v) (h : Swept S r v gone)
    (q : Request) (hq : ¬ OldFile r v q.path) (hstore : v'.store = q.run v.store) (hdone : v'.done = v.done) : Swept S r v' gone where
  each := by rw [hdone]; exact h.each
  order := by
    rw [hdone]
    intro j hj k token hk hb l hl hg
    obtain ⟨d1, hjob⟩ := hi.jobOf hj
    have hs := (old_base hi (job_key hjob hk) (hjob.tokens _ _ hk) hjob.time.1 (h.old hb)).1
    rw [hstore, get_run]
    split
    · rename_i e
      exact absurd (e ▸ ⟨j, hj, k, token, hk, hs, .inr ⟨l, hl, rfl⟩⟩) hq
    · exact h.order j hj k token hk hb l hl hg

theorem sweep_run {v : Work} {gone : List (List Str)} (q : Request) (h : q.path ∉ gone) :
    q.run (sweep v gone).store = without (q.run v.store) gone := run_without h

/-- A step of a writer is one that it could have made had nothing been deleted. -/
theorem sweep_work {S : Setting} {r : Str} {v s' : Work} {gone : List (List Str)} (hi : Inv S v) (hg : Swept S r v gone)
    (h : WorkStep S (sweep v gone) s') : ∃ v', WorkStep S v v' ∧ Swept S r v' gone ∧ s' = sweep v' gone := by
  have hfree : ∀ p, ¬ OldFile r v p → p ∉ gone := fun p hp hm => hp (hg.old hm)
  cases h with
  | aside q hq =>
    have hold := old_unread (r := r) hi hq
    exact ⟨_, .aside v q hq, swept_run hi hg q hold rfl rfl, by rw [sweep_run q (hfree _ hold)]; rfl⟩
  | begin j hc hf hj => exact ⟨_, .begin v j hc hf hj, ⟨hg.each, hg.order⟩, rfl⟩
  | request a q hc hu hq =>
    have hold : ¬ OldFile r v q.path := by
      rcases mem_requests hq with ⟨k, token, hk, rfl⟩ | ⟨k, ls, w, l, hk, hw, hl, rfl⟩
      · exact old_attempt hi hc hk
      · exact old_current hi hw ((hi.attempt a hc).logs k ls hk l hl)
    exact ⟨_, .request v a q hc hu hq, swept_run hi hg q hold rfl rfl, by rw [sweep_run q (hfree _ hold)]; rfl⟩
  | complete a hc hu hq ho =>
    have hold : ¬ OldFile r v a.job.completion.path := old_instant hi
    have h1 : Swept S r { v with store := a.job.completion.run v.store } gone := swept_run hi hg _ hold rfl rfl
    refine ⟨_, .complete v a hc hu hq ho, ⟨?_, ?_⟩, by rw [sweep_run _ (hfree _ hold)]; rfl⟩
    · intro p hp
      obtain ⟨j, hj, k, token, hk, hs, h2⟩ := hg.each p hp
      exact ⟨j, by simp [hj], k, token, hk, superseded_more hs, h2⟩
    · intro j hj k token hk hb l hl hn
      rcases List.mem_append.1 hj with hj | hj
      · exact h1.order j hj k token hk hb l hl hn
      · rw [List.mem_singleton] at hj
        subst hj
        exact absurd (hg.old hb) (old_attempt hi hc hk)
  | rollback a r' hc hf ht hp ho => exact ⟨_, .rollback v a r' hc hf ht hp ho, ⟨hg.each, hg.order⟩, rfl⟩
  | delete a r' k token hc hu hk =>
    have hold : ¬ OldFile r v (Request.delete (baseAt k token a.job.commit.ts)).path := old_attempt hi hc hk
    exact ⟨_, .delete v a r' k token hc hu hk, swept_run hi hg _ hold rfl rfl, by rw [sweep_run _ (hfree _ hold)]; rfl⟩
  | block a r' k ls w l b hc hu hk hw hl hgd hwr hr =>
    have hold : ¬ OldFile r v (Request.append (logAt k w.base l) [b]).path := old_current hi hw hl
    exact ⟨_, .block v a r' k ls w l b hc hu hk hw hl hgd hwr hr, swept_run hi hg _ hold rfl rfl,
      by rw [sweep_run _ (hfree _ hold)]; rfl⟩
  | recovered a r' hc hu hd hb =>
    refine ⟨_, .recovered v a r' hc hu ?_ hb, ⟨hg.each, hg.order⟩, rfl⟩
    intro k token hk
    have := hd k token hk
    change (without v.store gone).get _ = none at this
    rwa [get_without, if_neg (hfree _ (old_attempt hi hc hk))] at this

/-- A step of a writer or the cleaner is one of a writer, or none, but for the files of superseded versions that are
gone. -/
theorem clean_sweep {S : Setting} {r : Str} {v1 s' : Work} {g1 : List (List Str)} (hi1 : Inv S v1)
    (hg1 : Swept S r v1 g1) (hstep : CleanStep S r (sweep v1 g1) s') :
    ∃ v2 g2, (v2 = v1 ∨ WorkStep S v1 v2) ∧ Swept S r v2 g2 ∧ s' = sweep v2 g2 := by
  cases hstep with
  | work _ h =>
    obtain ⟨v2, h1, h2, rfl⟩ := sweep_work hi1 hg1 h
    exact ⟨v2, g1, .inr h1, h2, rfl⟩
  | log j k token l hj hk hs hl =>
    refine ⟨v1, logAt k j.commit.ts l :: g1, .inl rfl, ⟨?_, ?_⟩, ?_⟩
    · intro p hp
      rcases List.mem_cons.1 hp with rfl | hp
      · exact ⟨j, hj, k, token, hk, hs, .inr ⟨l, hl, rfl⟩⟩
      · exact hg1.each p hp
    · intro j' hj' k' token' hk' hb l' hl' hn
      rcases List.mem_cons.1 hb with e | hb
      · obtain ⟨d1, hjob⟩ := hi1.jobOf hj
        obtain ⟨d1', hjob'⟩ := hi1.jobOf hj'
        exact absurd e (base_ne_log (job_key hjob' hk') (job_key hjob hk) hl)
      · exact hg1.order j' hj' k' token' hk' hb l' hl' (fun hm => hn (List.mem_cons_of_mem _ hm))
    · show _ = { v1 with store := without v1.store _ }
      rw [← delete_without]
      rfl
  | base j k token hj hk hs hl =>
    refine ⟨v1, baseAt k token j.commit.ts :: g1, .inl rfl, ⟨?_, ?_⟩, ?_⟩
    · intro p hp
      rcases List.mem_cons.1 hp with rfl | hp
      · exact ⟨j, hj, k, token, hk, hs, .inl rfl⟩
      · exact hg1.each p hp
    · intro j' hj' k' token' hk' hb l' hl' hn
      rcases List.mem_cons.1 hb with e | hb
      · obtain ⟨d1, hjob⟩ := hi1.jobOf hj
        obtain ⟨d1', hjob'⟩ := hi1.jobOf hj'
        obtain ⟨rfl, _, e3⟩ := baseAt_inj (job_key hjob' hk') (job_key hjob hk) (hjob'.tokens _ _ hk')
          (hjob.tokens _ _ hk) hjob'.time.1 hjob.time.1 e
        have h1 := hl l' hl'
        rw [← e3] at h1
        change (without v1.store g1).get _ = none at h1
        rwa [get_without, if_neg (fun hm => hn (List.mem_cons_of_mem _ hm))] at h1
      · exact hg1.order j' hj' k' token' hk' hb l' hl' (fun hm => hn (List.mem_cons_of_mem _ hm))
    · show _ = { v1 with store := without v1.store _ }
      rw [← delete_without]
      rfl

/-! ## What is left -/

/-- Whatever writers and a cleaner do, writers alone could have done, but for the files of superseded versions that
are gone. -/
theorem cleans_sweep {S : Setting} {r : Str} {s s' : Work} (h : Cleans S r s s') : ∀ {v : Work} {gone : List (List Str)},
    Inv S v → Swept S r v gone → s = sweep v gone →
    ∃ v' gone', Works S v v' ∧ Inv S v' ∧ Swept S r v' gone' ∧ s' = sweep v' gone' := by
  induction h with
  | refl => exact fun hi hg e => ⟨_, _, .refl _, hi, hg, e⟩
  | step _ hstep ih =>
    intro v gone hi hg e
    obtain ⟨v1, g1, w1, hi1, hg1, rfl⟩ := ih hi hg e
    obtain ⟨v2, g2, h1 | h1, h2, h3⟩ := clean_sweep hi1 hg1 hstep
    · rw [h1] at h2 h3
      exact ⟨v1, g2, w1, hi1, h2, h3⟩
    · exact ⟨v2, g2, .step w1 h1, inv_step hi1 h1, h2, h3⟩

theorem mem_without {st : Objects} {gone : List (List Str)} {e : List Str × Stored} (h : e ∈ without st gone) : e ∈ st :=
  (List.mem_filter.1 h).1

theorem sweep_get {v : Work} {gone : List (List Str)} {p : List Str} {x : Stored}
    (h : (sweep v gone).store.get p = some x) : v.store.get p = some x ∧ p ∉ gone := by
  change (without v.store gone).get p = _ at h
  rw [get_without] at h
  split at h
  · cases h
  · rename_i hp; exact ⟨h, hp⟩

theorem get_sweep {v : Work} {gone : List (List Str)} {p : List Str} (hp : p ∉ gone) :
    (sweep v gone).store.get p = v.store.get p := by
  show (without v.store gone).get p = _
  rw [get_without, if_neg hp]

theorem sweep_place {S : Setting} {v : Work} (hi : Inv S v) {gone : List (List Str)} : ∀ e ∈ (sweep v gone).store,
    Place S e.1 := fun _ he => hi.place (mem_without he)

theorem sweep_paths {S : Setting} {v : Work} (hi : Inv S v) {gone : List (List Str)} : GoodPaths (sweep v gone).store where
  nodup := (List.Sublist.map _ List.filter_sublist).nodup hi.nodup
  nonempty := fun e he => hi.paths.nonempty e (mem_without he)
  normal := fun e he => hi.paths.normal e (mem_without he)
  free := fun e he e' he' => hi.paths.free e (mem_without he) e' (mem_without he')

theorem sweep_height {S : Setting} {v : Work} (hi : Inv S v) {gone : List (List Str)} :
    (sweep v gone).tree.height ≤ S.depth + 1 := by
  refine height_treeOf _ _ (fun e he => ?_)
  rcases sweep_place hi e he with ⟨m, h3, _⟩ | ⟨x', m, h3, hx', _⟩
  · rw [h3]; simp
  · rw [h3, inPartition_length hx']; omega

theorem sweep_fileAt {S : Setting} {v : Work} (hi : Inv S v) {gone : List (List Str)} {p : List Str} (hp : p ∉ gone) :
    (sweep v gone).tree.fileAt p = v.tree.fileAt p := by
  by_cases h : p = []
  · subst h; rfl
  · show (treeOf _).fileAt p = (treeOf _).fileAt p
    rw [fileAt_treeOf (sweep_paths hi).nonempty h, fileAt_treeOf hi.paths.nonempty h, get_sweep hp]

theorem sweep_files {S : Setting} {v : Work} (hi : Inv S v) {gone : List (List Str)} {x name : Str} {size : Nat} :
    (name, size) ∈ filesOf (sweep v gone).tree x ↔ (name, size) ∈ filesOf v.tree x ∧ inPartition x name ∉ gone := by
  rw [mem_filesOf hi]
  refine (files_treeOf (sweep_paths hi)).trans ?_
  change _ ∧ (∃ y, (sweep v gone).store.get (inPartition x name) = some y) ↔ _
  constructor
  · rintro ⟨h1, y, h2⟩
    exact ⟨⟨h1, y, (sweep_get h2).1⟩, (sweep_get h2).2⟩
  · rintro ⟨⟨h1, y, h2⟩, h3⟩
    exact ⟨h1, y, by rw [get_sweep h3]; exact h2⟩

theorem sweep_base {S : Setting} {v : Work} (hi : Inv S v) {gone : List (List Str)} {x : Str} {b : BaseFile}
    (h : BaseIn (filesOf (sweep v gone).tree x) b) : BaseIn (filesOf v.tree x) b := by
  obtain ⟨name, size, h1, h2⟩ := h
  exact ⟨name, size, ((sweep_files hi).1 h1).1, h2⟩

theorem sweep_log {S : Setting} {v : Work} (hi : Inv S v) {gone : List (List Str)} {x : Str} {l : LogFile}
    (h : LogIn (filesOf (sweep v gone).tree x) l) : LogIn (filesOf v.tree x) l := by
  obtain ⟨name, size, h1, h2⟩ := h
  exact ⟨name, size, ((sweep_files hi).1 h1).1, h2⟩

/-- The log file is among what is left, under its path. -/
theorem sweep_log_in {S : Setting} {v : Work} (hi : Inv S v) {gone : List (List Str)} {x : Str} (hx : Site S x)
    {l : LogFile} (h : LogIn (filesOf (sweep v gone).tree x) l) :
    ∃ j f token l' ws, j ∈ v.done ∧ ((x, f), Change.write token) ∈ j.commit.changes ∧ (NamePart l'.1 ∧ NamePart l'.2) ∧
      v.store.get (logAt (x, f) j.commit.ts l') = some (.log ws) ∧ logAt (x, f) j.commit.ts l' ∉ gone ∧
      l = ⟨f, j.commit.ts, c!"log", l'.1, l'.2, some (FileMeta.new (logName f j.commit.ts l'.1 l'.2) 1)⟩ := by
  obtain ⟨name, size, h1, h2, h3, h4⟩ := h
  obtain ⟨h1, hn⟩ := (sweep_files hi).1 h1
  rcases data_file hi hx h1 h2 with ⟨j, f, token, hj, hk, rfl⟩ | ⟨j, f, token, l', ws, hj, hk, hl, rfl, hw⟩
  · exact absurd parquetName_base h3
  · obtain ⟨d1, hjob⟩ := hi.jobOf hj
    have hsz := ((mem_filesOf hi).1 h1).1
    subst hsz
    have ht := digits_part hjob.time.1
    rw [fromMeta_logName (hjob.ids _ hk) ht.2.2.1 ht.1 hl.1 hl.2] at h4
    cases h4
    exact ⟨j, f, token, l', ws, hj, hk, hl, hw, hn, rfl⟩

/-- What is left of a partition can be listed. -/
theorem sweep_listable {S : Setting} {r : Str} {v : Work} (hi : Inv S v) {gone : List (List Str)} (hg : Swept S r v gone)
    {x : Str} (hx : PartitionPath S.o x) : Listable (filesOf (sweep v gone).tree x) := by
  have h := path_listable hi hx
  refine ⟨?_, ?_, ?_⟩
  · intro name size h1
    exact h.names name size ((sweep_files hi).1 h1).1
  · intro b b' hb hb'
    exact h.unique b b' (sweep_base hi hb) (sweep_base hi hb')
  · intro l hl _
    obtain ⟨j, f, token, l', ws, hj, hk, hl', hw, hn, rfl⟩ := sweep_log_in hi (log_site hi hx (sweep_log hi hl)) hl
    obtain ⟨d1, hjob⟩ := hi.jobOf hj
    obtain ⟨h1, name, size, h2, h3⟩ := base_there hi hj hk
    have hnot : baseAt (x, f) token j.commit.ts ∉ gone := by
      intro hm
      have := hg.order j hj _ _ hk hm l' hl' hn
      rw [hw] at this
      cases this
    exact ⟨_, ⟨_, _, (sweep_files hi).2 ⟨h1, hnot⟩, base_not_ignored (hjob.ids _ hk), parquetName_base,
      fromMeta_baseName (hjob.ids _ hk) (hjob.tokens _ _ hk) (digits_part hjob.time.1).2.1⟩, rfl, rfl⟩

/-! ## The timeline is as it was -/

theorem sub_addAt_ne {d : Str} {p : List Str} (c : Content) (t : Tree) (h : ∀ e rest, p ≠ d :: e :: rest) :
    (addAt p c t).sub d = t.sub d := by
  cases p with
  | nil => rfl
  | cons a p =>
    cases p with
    | nil => exact sub_addFile _ _ _ _
    | cons b p =>
      show (inDir a (addAt (b :: p) c) t).sub d = _
      rw [sub_inDir, if_neg]
      rintro rfl
      exact h b p rfl

theorem sub_addAt_eq {d e : Str} {p : List Str} (c : Content) (t : Tree) :
    (addAt (d :: e :: p) c t).sub d = addAt (e :: p) c (t.sub d) := by
  show (inDir d (addAt (e :: p) c) t).sub d = _
  rw [sub_inDir, if_pos rfl]

theorem sub_without (d : Str) (st : Objects) (gone : List (List Str)) (h : ∀ p ∈ gone, ∀ e rest, p ≠ d :: e :: rest) :
    (treeOf (without st gone)).sub d = (treeOf st).sub d := by
  induction st with
  | nil => rfl
  | cons e st ih =>
    unfold without at ih ⊢
    rw [List.filter_cons]
    by_cases he : e.1 ∈ gone
    · rw [if_neg (by simpa using he), ih]
      exact (sub_addAt_ne _ _ (h _ he)).symm
    · rw [if_pos (by simpa using he)]
      show (addAt e.1 e.2.content _).sub d = (addAt e.1 e.2.content _).sub d
      by_cases hd : ∃ a rest, e.1 = d :: a :: rest
      · obtain ⟨a, rest, hd⟩ := hd
        rw [hd, sub_addAt_eq, sub_addAt_eq, ih]
      · have hd' : ∀ a rest, e.1 ≠ d :: a :: rest := fun a rest e' => hd ⟨a, rest, e'⟩
        rw [sub_addAt_ne _ _ hd', sub_addAt_ne _ _ hd', ih]

theorem inPartition_apart {S : Setting} {x n e : Str} {rest : List Str} (hx : Site S x) :
    inPartition x n ≠ c!".hoodie" :: e :: rest := by
  intro h
  unfold inPartition at h
  rcases site_segs hx with ⟨_, _, e⟩ | ⟨_, a, as, _, h1, e, _⟩
  · rw [e] at h; simp at h
  · rw [e] at h
    simp only [List.cons_append, List.cons.injEq] at h
    rw [h.1] at h1
    revert h1; decide

/-- The timeline is loaded as if nothing had been deleted. -/
theorem sweep_load {S : Setting} {r : Str} {v : Work} (hi : Inv S v) {gone : List (List Str)} (hg : Swept S r v gone)
    (E : Env) (o : Opts) : Timeline.load E o (sweep v gone).tree = Timeline.load E o v.tree := by
  have h : listFiles (sweep v gone).tree hudiMetadataDir = listFiles v.tree hudiMetadataDir := by
    have hsegs : pathSegs hudiMetadataDir = [c!".hoodie"] := by decide
    unfold listFiles
    rw [hsegs]
    show ((treeOf (without v.store gone)).sub c!".hoodie").files.map _ = ((treeOf v.store).sub c!".hoodie").files.map _
    rw [sub_without]
    intro p hp e rest he
    obtain ⟨j, hj, k, token, hk, _, h | ⟨l, hl, h⟩⟩ := hg.each p hp
    · obtain ⟨d1, hjob⟩ := hi.jobOf hj
      exact inPartition_apart (hjob.sites _ hk) (h ▸ he)
    · obtain ⟨d1, hjob⟩ := hi.jobOf hj
      exact inPartition_apart (hjob.sites _ hk) (h ▸ he)
  unfold Timeline.load loadInstants
  rw [h]

/-! ## What a read finds -/

theorem works_apart {S : Setting} {a b c : Work} (h1 : Works S a b) (h2 : Works S b c) : Works S a c := by
  induction h2 with
  | refl => exact h1
  | step _ hstep ih => exact .step ih hstep

/-- What supersedes a version up to a time that a handle knows was known to the handle. -/
theorem superseded_known {S : Setting} {v0 v : Work} (hi : Inv S v) {more : List Job} (hd : v.done = v0.done ++ more)
    {j0 : Job} (hj0 : j0 ∈ v0.done) {r : Str} (hr : (compare r j0.commit.ts).isLE) {k : GroupKey} {base : Str}
    (h : Superseded v.done r k base) : Superseded v0.done r k base := by
  obtain ⟨j, hj, h1, h2, h3⟩ := h
  exact ⟨j, before_known hi hd hj0 (.inl hj) (Std.TransCmp.isLE_trans h2 hr), h1, h2, h3⟩

/-- The base files that the snapshot shows are those of versions that are not superseded. -/
theorem wanted_kept {S : Setting} {E : Env} (hclock : E.ltz = S.ltz) (hmono : MonotoneTz E.ltz) {v0 v : Work}
    (hi0 : Inv S v0) (hi : Inv S v) {more : List Job} (hd : v.done = v0.done ++ more) {j0 : Job} (hj0 : j0 ∈ v0.done)
    {r : Str} (hr : (compare r j0.commit.ts).isLE) {tl : Timeline} (hzone : timezoneOf tl.opts = .ok S.tz)
    (t1 : ∀ i ∈ tl.completed, ∃ c ∈ v0.history, ∃ d, parseDatetime S.ltz c.ts S.tz = .ok d ∧
      i = ⟨c.ts, c.action, .completed, d.epochMillis⟩)
    (t2 : ∀ c ∈ v0.history, ∃ d, parseDatetime S.ltz c.ts S.tz = .ok d ∧
      (⟨c.ts, c.action, .completed, d.epochMillis⟩ : Instant) ∈ tl.completed)
    {x : Str} {b : BaseFile} (hw : Wanted S.ltz S.o j0.commit.ts tl (lasting S v0).tree x b) :
    ∃ j f token, j ∈ v0.done ∧ ((x, f), Change.write token) ∈ j.commit.changes ∧
      b = ⟨f, token, j.commit.ts, c!"parquet", some (FileMeta.new (baseName f token j.commit.ts) 1)⟩ ∧
      ¬ Superseded v.done r (x, f) j.commit.ts := by
  have hi' := inv_lasting hi0
  obtain ⟨j, f, token, hj, hk, rfl⟩ := base_lasting hi0 (base_site hi' (partition_path hi' hw.part) hw.base) hw.base
  refine ⟨j, f, token, hj, hk, rfl, fun hs => ?_⟩
  obtain ⟨j', hj', hlt, hle, hch⟩ := superseded_known hi hd hj0 hr hs
  have hle' : (compare j'.commit.ts j0.commit.ts).isLE := Std.TransCmp.isLE_trans hle hr
  rcases hch with ⟨token', hch⟩ | hch
  · have h1 := hw.latest _ (base_there hi' hj' hch).2 rfl hle'
    change (compare j'.commit.ts j.commit.ts).isLE = true at h1
    rw [Std.OrientedCmp.eq_swap (cmp := (compare : Str → Str → Ordering)), hlt] at h1
    cases h1
  · obtain ⟨d1, hjob0⟩ := hi0.jobOf hj0
    obtain ⟨d, hpd⟩ := hjob0.parses
    refine hw.live S.tz d hzone hpd ?_
    have hmem : j'.commit ∈ v0.history := mem_commitsOf.2 ⟨j', hj', rfl⟩
    refine (replaced_of (E := E) (tz := S.tz) (h := v0.history) (ts := j0.commit.ts) hmono hi0.wf
      (by rw [hclock]; exact t1) (by rw [hclock]; exact t2) ?_ hjob0.time ⟨d, by rw [hclock]; exact hpd, rfl⟩ x f).2
      ⟨_, hmem, hle', (hi0.wf.of_mem hmem).2 hch⟩
    intro c hc _ hact
    obtain ⟨j2, hj2, rfl⟩ := mem_commitsOf.1 hc
    obtain ⟨d2, hjob2⟩ := hi0.jobOf hj2
    exact ⟨j2.doc, 1, hi'.fileAt (p := instantAt j2.commit) (by simp [instantAt]) (hi'.instants j2 hj2),
      (hjob2.document hact).2⟩

/-- At every later moment the storage is as writers and cleaners may leave it while the read is running. -/
theorem meanwhile_sweep {S : Setting} {E : Env} (hclock : E.ltz = S.ltz) (hmono : MonotoneTz E.ltz)
    (hsec : WholeSecondsTz E.ltz) {v0 v : Work}
    (hi0 : Inv S v0) (hs : Works S v0 v) {j0 : Job} (hj0 : j0 ∈ v0.done)
    {r : Str} (hr : (compare r j0.commit.ts).isLE) {gone : List (List Str)} (hg : Swept S r v gone)
    (hn : NamesCurrent v0) {tl : Timeline} (hzone : timezoneOf tl.opts = .ok S.tz)
    (t1 : ∀ i ∈ tl.completed, ∃ c ∈ v0.history, ∃ d, parseDatetime S.ltz c.ts S.tz = .ok d ∧
      i = ⟨c.ts, c.action, .completed, d.epochMillis⟩)
    (t2 : ∀ c ∈ v0.history, ∃ d, parseDatetime S.ltz c.ts S.tz = .ok d ∧
      (⟨c.ts, c.action, .completed, d.epochMillis⟩ : Instant) ∈ tl.completed)
    (t3 : tl.completed.Pairwise (fun a b => a.epochMillis ≤ b.epochMillis)) :
    Meanwhile S.C S.ltz S.tz S.o j0.commit.ts tl (lasting S v0).tree (heldIn (lasting S v0)) (sweep v gone).tree := by
  have hi := inv_works hi0 hs
  have hi' := inv_lasting hi0
  obtain ⟨more, hd⟩ := done_works hs
  have hM := meanwhile_works (hclock ▸ hmono) (hclock ▸ hsec) hi0 hs hj0 t1
  have hkept := fun {x b} => wanted_kept hclock hmono hi0 hi hd hj0 hr hzone t1 t2 (x := x) (b := b)
  have hbase : ∀ {k token ts}, KeyOk S k → NamePart token → WriterTimestamp ts → ¬ Superseded v.done r k ts →
      baseAt k token ts ∉ gone := fun hk ht hts h hm => h (old_base hi hk ht hts (hg.old hm)).1
  have hlog : ∀ {k ts l}, KeyOk S k → (NamePart l.1 ∧ NamePart l.2) → WriterTimestamp ts → ¬ Superseded v.done r k ts →
      logAt k ts l ∉ gone := fun hk hl hts h hm => h (old_log hi hk hl hts (hg.old hm))
  refine ⟨wf_treeOf (sweep_paths hi), ?_, ?_, ?_, ?_, ?_, ?_, ?_, ?_, ?_⟩
  · intro x hx l l' hl hl'
    exact hM.one x hx l l' (sweep_log hi hl) (sweep_log hi hl')
  · intro i him
    rw [← hM.docs i him]
    unfold docOf
    rw [sweep_fileAt hi]
    obtain ⟨c, hc, d, _, rfl⟩ := t1 i him
    exact fun hm => old_instant (c := c) hi (hg.old hm)
  · intro i md path sc hlast hdoc hfirst hcols
    obtain ⟨size, n, b, h⟩ := hM.columns i md path sc hlast hdoc hfirst hcols
    refine ⟨size, n, b, ?_⟩
    rw [sweep_fileAt hi]
    · exact h
    · rcases timeline_last (hclock ▸ hmono) hi0.wf t1 t2 t3 with ⟨_, h2⟩ | ⟨c0, d0, h1, h2, _⟩
      · rw [h2] at hlast; cases hlast
      · rw [h2] at hlast
        cases hlast
        unfold Work.history commitsOf at h1
        rw [List.getLast?_map] at h1
        obtain ⟨j, hjl, rfl⟩ := Option.map_eq_some_iff.1 h1
        have hj := List.mem_of_getLast? hjl
        have h3 : docOf (lasting S v0).tree ⟨j.commit.ts, j.commit.action, .completed, d0.epochMillis⟩ = some j.doc :=
          docOf_eq (size := 1) (hi'.fileAt (p := instantAt j.commit) (by simp [instantAt]) (hi'.instants j hj))
        rw [h3] at hdoc
        cases hdoc
        obtain ⟨k, w, hw, e⟩ := hn j hjl path hfirst
        rw [e]
        obtain ⟨j2, hj2, hk2, ht2⟩ := version_job hw
        obtain ⟨d2, hjob2⟩ := hi0.jobOf hj2
        rw [← ht2]
        refine hbase (job_key hjob2 hk2) (hjob2.tokens _ _ hk2) hjob2.time.1 (fun hsup => ?_)
        rw [ht2] at hsup
        exact current_kept hi0.jobs hw (superseded_known hi hd hj0 hr hsup)
  · intro x b hw
    obtain ⟨j, f, token, hj, hk, rfl, hno⟩ := hkept hw
    obtain ⟨d1, hjob⟩ := hi0.jobOf hj
    refine partition_of_place (sweep_place hi) (hjob.sites _ hk) (name := baseName f token j.commit.ts)
      (y := .file (.parquet 1 (j.base (x, f)))) ?_
    show (sweep v gone).store.get (baseAt (x, f) token j.commit.ts) = _
    rw [get_sweep (hbase (job_key hjob hk) (hjob.tokens _ _ hk) hjob.time.1 hno)]
    exact hi.bases j (by rw [hd]; simp [hj]) _ _ hk
  · intro x b hw
    obtain ⟨j, f, token, hj, hk, rfl, hno⟩ := hkept hw
    obtain ⟨d1, hjob⟩ := hi0.jobOf hj
    exact ⟨_, _, (sweep_files hi).2 ⟨(base_there hi (by rw [hd]; simp [hj]) hk).1,
      hbase (job_key hjob hk) (hjob.tokens _ _ hk) hjob.time.1 hno⟩, base_not_ignored (hjob.ids _ hk), parquetName_base,
      fromMeta_baseName (hjob.ids _ hk) (hjob.tokens _ _ hk) (digits_part hjob.time.1).2.1⟩
  · intro x b hw rows hrows
    obtain ⟨size, n, footer, h⟩ := hM.parquet x b hw rows hrows
    obtain ⟨j, f, token, hj, hk, rfl, hno⟩ := hkept hw
    obtain ⟨d1, hjob⟩ := hi0.jobOf hj
    refine ⟨size, n, footer, ?_⟩
    rw [sweep_fileAt hi]
    · exact h
    · rw [base_path (k := (x, f)) (job_key hjob hk) (hjob.tokens _ _ hk) hjob.time.1]
      exact hbase (job_key hjob hk) (hjob.tokens _ _ hk) hjob.time.1 hno
  · intro x b hw l hl ha
    have hpath := partition_path hi' hw.part
    obtain ⟨l', hl', e⟩ := hM.logs x b hw l hl ha
    obtain ⟨j, f, token, hj, hk, rfl, hno⟩ := hkept hw
    obtain ⟨j1, f1, token1, l1, ws1, hj1, hk1, hl1, hg1, rfl⟩ := log_in hi' (log_site hi' hpath hl) hl
    obtain ⟨d1, hjob1⟩ := hi0.jobOf hj1
    obtain ⟨rfl, e2⟩ : f1 = f ∧ j1.commit.ts = j.commit.ts := ha
    rw [← e2] at hno
    have hkey := job_key hjob1 hk1
    obtain ⟨j2, f2, token2, l2, ws2, hj2, hk2, hl2, hg2, rfl⟩ := log_in hi (log_site hi hpath hl') hl'
    obtain ⟨d2, hjob2⟩ := hi.jobOf hj2
    rw [log_file_name, log_file_name] at e
    refine ⟨_, ⟨_, _, (sweep_files hi).2 ⟨(mem_filesOf hi).2 ⟨rfl, _, hg2⟩, ?_⟩, log_not_ignored (hjob2.ids _ hk2) hjob2.time.1 hl2.1 hl2.2,
      parquetName_log hl2.1 hl2.2, fromMeta_logName (hjob2.ids _ hk2) (digits_part hjob2.time.1).2.2.1 (digits_part hjob2.time.1).1 hl2.1 hl2.2⟩,
      by rw [log_file_name, log_file_name]; exact e⟩
    rw [e]
    exact hlog hkey hl1 hjob1.time.1 hno
  · intro x b hx hb hle
    exact hM.newBases x b hx (sweep_base hi hb) hle
  · intro hro x b hw l hl ha
    obtain ⟨extra, ⟨size, c, h1, h2⟩, h3⟩ := hM.appended hro x b hw l (sweep_log hi hl) ha
    refine ⟨extra, ⟨size, c, ?_, h2⟩, h3⟩
    have hpath := partition_path hi' hw.part
    obtain ⟨j1, f1, token1, l1, ws1, hj1, hk1, hl1, hg1, hn1, rfl⟩ :=
      sweep_log_in hi (log_site hi hpath (sweep_log hi hl)) hl
    obtain ⟨d1, hjob1⟩ := hi.jobOf hj1
    rw [sweep_fileAt hi]
    · exact h1
    · rw [log_path (k := (x, f1)) (job_key hjob1 hk1) hjob1.time.1 hl1]
      exact hn1

end Hudi
