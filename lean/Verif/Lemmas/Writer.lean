import Verif.Lemmas.WriterPaths

/-! # Lemmas: what storage holds while writers work -/

namespace Hudi
open Spec

/-! ## What is stored -/

/-- The block is in a log file of the file group written against the base file of `base`. -/
def StoredIn (S : Setting) (st : Objects) (k : GroupKey) (base : Str) (w : WBlock) : Prop :=
  KeyOk S k ∧ WriterTimestamp base ∧ ∃ l : Str × Str, ∃ ws, (NamePart l.1 ∧ NamePart l.2) ∧
    st.get (logAt k base l) = some (.log ws) ∧ w ∈ ws

/-- Where a block in a log file of the file group, written against the base file of `base`, is from. -/
inductive Origin (S : Setting) (s : Work) (k : GroupKey) (base : Str) (w : WBlock) : Prop
  /-- A completed write. -/
  | done (d1 : List Job) (j : Job) (d2 : List Job) (ls : List (Str × Str)) (v : Version) (l : Str × Str)
    (hd : s.done = d1 ++ j :: d2) (hk : (k, Change.append ls) ∈ j.commit.changes)
    (hv : versionAfter (commitsOf d1) k = some v) (hb : v.base = base) (hl : l ∈ ls) (hw : w ∈ j.blocks k l)
    (ht : WrittenBy w j.commit.ts)
  /-- A write that has begun. -/
  | current (a : Attempt) (ls : List (Str × Str)) (v : Version) (l : Str × Str) (hc : a ∈ s.current)
    (hk : (k, Change.append ls) ∈ a.job.commit.changes) (hv : versionAfter s.history k = some v)
    (hb : v.base = base) (hl : l ∈ ls) (hw : w ∈ a.job.blocks k l) (ht : WrittenBy w a.job.commit.ts)
    (hr : Request.append (logAt k base l) (a.job.blocks k l) ∈ a.ran)
  /-- A write that failed and has been rolled back. -/
  | failed (i r : Str) (w' : WBlock) (ht : WrittenBy w i) (hn : ¬ IsRollback w) (hir : compare i r = .lt) (hw : StoredIn S s.store k base w') (hb : RollsBack w' i)
    (hr : WrittenBy w' r) (hu : i ∈ s.used ∧ r ∈ s.used)
    (hd : ∀ j ∈ s.done, compare j.commit.ts i = .lt ∨ compare r j.commit.ts = .lt)
    (hc : ∀ a ∈ s.current, compare a.job.commit.ts i = .lt ∨ compare r a.job.commit.ts = .lt)
  /-- A rollback. -/
  | rollback (i : Str) (hb : RollsBack w i) (hu : i ∈ s.used) (hd : ∀ j ∈ s.done, j.commit.ts ≠ i)
    (hc : ∀ a ∈ s.current, a.job.commit.ts = i → a.undo ≠ none)

/-- What a block in a log file of the file group is like. -/
structure BlockOk (S : Setting) (s : Work) (k : GroupKey) (base : Str) (w : WBlock) : Prop where
  good : GoodBlock S.C S.ltz S.tz w
  fit : BatchesFit S.C (columnsBy s.done base k) [w]
  origin : Origin S s k base w

/-- What an object is. -/
inductive Kind (S : Setting) (s : Work) : List Str → Stored → Prop
  | unread (p : List Str) (x : Stored) (h : Unread S p) : Kind S s p x
  | instant (j : Job) (hj : j ∈ s.done) : Kind S s (instantAt j.commit) (.file (.json (.obj j.doc)))
  | base (j : Job) (k : GroupKey) (token : Str) (hj : j ∈ s.done) (hk : (k, Change.write token) ∈ j.commit.changes) :
    Kind S s (baseAt k token j.commit.ts) (.file (.parquet 1 (j.base k)))
  | pending (a : Attempt) (k : GroupKey) (token : Str) (ha : a ∈ s.current)
    (hk : (k, Change.write token) ∈ a.job.commit.changes) :
    Kind S s (baseAt k token a.job.commit.ts) (.file (.parquet 1 (a.job.base k)))
  | log (j : Job) (k : GroupKey) (token : Str) (l : Str × Str) (ws : List WBlock) (hj : j ∈ s.done)
    (hk : (k, Change.write token) ∈ j.commit.changes) (hl : NamePart l.1 ∧ NamePart l.2)
    (hw : ∀ w ∈ ws, BlockOk S s k j.commit.ts w) : Kind S s (logAt k j.commit.ts l) (.log ws)

/-- The request has taken effect. -/
def Took (st : Objects) : Request → Prop
  | .put p c => st.get p = some (.file c)
  | .append p ws => ∃ ws', st.get p = some (.log ws') ∧ ∀ w ∈ ws, w ∈ ws'
  | .delete p => st.get p = none

/-- The other writes that are under way are earlier than this one, or later than its rollback at `r`. -/
def Aside (s : Work) (a : Attempt) (r : Str) : Prop :=
  ∀ b ∈ s.current, b.job.commit.ts = a.job.commit.ts ∨ compare b.job.commit.ts a.job.commit.ts = .lt ∨
    compare r b.job.commit.ts = .lt

/-- What holds at every moment. -/
structure Inv (S : Setting) (s : Work) : Prop where
  nodup : (s.store.map Prod.fst).Nodup
  jobs : ∀ d1 j d2, s.done = d1 ++ j :: d2 → JobOk S d1 j
  attempt : ∀ a ∈ s.current, JobOk S s.done a.job
  one : ∀ a ∈ s.current, ∀ b ∈ s.current, a.job.commit.ts = b.job.commit.ts → a = b
  apart : ∀ a ∈ s.current, ∀ b ∈ s.current, a.job.commit.ts ≠ b.job.commit.ts → Apart a.job b.job
  usedDone : ∀ j ∈ s.done, j.commit.ts ∈ s.used
  usedCurrent : ∀ a ∈ s.current, a.job.commit.ts ∈ s.used
  usedUndo : ∀ a ∈ s.current, ∀ r, a.undo = some r → r ∈ s.used ∧ compare a.job.commit.ts r = .lt
  undoAside : ∀ a ∈ s.current, ∀ r, a.undo = some r → ∀ k ls, (k, Change.append ls) ∈ a.job.commit.changes →
    Aside s a r
  times : ∀ u ∈ s.used, WriterTimestamp u ∧ u.length = S.width
  kinds : ∀ p x, s.store.get p = some x → Kind S s p x
  instants : ∀ j ∈ s.done, s.store.get (instantAt j.commit) = some (.file (.json (.obj j.doc)))
  bases : ∀ j ∈ s.done, ∀ k token, (k, Change.write token) ∈ j.commit.changes →
    s.store.get (baseAt k token j.commit.ts) = some (.file (.parquet 1 (j.base k)))
  blocks : ∀ d1 j d2 k ls v l w, s.done = d1 ++ j :: d2 → (k, Change.append ls) ∈ j.commit.changes →
    versionAfter (commitsOf d1) k = some v → l ∈ ls → w ∈ j.blocks k l → StoredIn S s.store k v.base w
  ran : ∀ a ∈ s.current, a.undo = none → ∀ q ∈ a.ran, q ∈ a.job.requests s.history ∧ Took s.store q
  undone : ∀ a ∈ s.current, ∀ k ∈ a.undone, (∃ ls, (k, Change.append ls) ∈ a.job.commit.changes) ∧
    ∀ v, versionAfter s.history k = some v →
      ∃ w r, StoredIn S s.store k v.base w ∧ RollsBack w a.job.commit.ts ∧ WrittenBy w r ∧ r ∈ s.used ∧
        compare a.job.commit.ts r = .lt ∧ Aside s a r

/-! ## Facts about jobs -/

theorem job_key {S : Setting} {before : List Job} {j : Job} (h : JobOk S before j) {k : GroupKey} {ch : Change}
    (hk : (k, ch) ∈ j.commit.changes) : KeyOk S k := ⟨h.sites _ hk, h.ids _ hk⟩

theorem Inv.jobOf {S : Setting} {s : Work} (h : Inv S s) {j : Job} (hj : j ∈ s.done) : ∃ d1, JobOk S d1 j := by
  obtain ⟨d1, d2, e⟩ := List.append_of_mem hj
  exact ⟨d1, h.jobs d1 j d2 e⟩

theorem commitsOf_append (a b : List Job) : commitsOf (a ++ b) = commitsOf a ++ commitsOf b := by simp [commitsOf]

theorem mem_commitsOf {js : List Job} {c : HCommit} : c ∈ commitsOf js ↔ ∃ j ∈ js, j.commit = c := by
  simp [commitsOf]

/-- The base file of a version is one that a completed write wrote. -/
theorem version_job {js : List Job} {k : GroupKey} {v : Version} (h : versionAfter (commitsOf js) k = some v) :
    ∃ j ∈ js, (k, Change.write v.token) ∈ j.commit.changes ∧ j.commit.ts = v.base := by
  obtain ⟨h1, c, h2, e1, e2, e3, _⟩ := versionAfter_some.1 h
  have : c ∈ commitsOf js := by rw [e1]; simp
  obtain ⟨j, hj, rfl⟩ := mem_commitsOf.1 this
  exact ⟨j, hj, changeOf_mem e2, e3⟩

theorem wf_commits {S : Setting} {js : List Job} (h : ∀ d1 j d2, js = d1 ++ j :: d2 → JobOk S d1 j) :
    (commitsOf js).WF S.width := by
  have hmem : ∀ c ∈ commitsOf js, ∃ d1 j, JobOk S d1 j ∧ j.commit = c := by
    intro c hc
    obtain ⟨j, hj, rfl⟩ := mem_commitsOf.1 hc
    obtain ⟨d1, d2, e⟩ := List.append_of_mem hj
    exact ⟨d1, j, h d1 j d2 e, rfl⟩
  have hpair : ∀ R : HCommit → HCommit → Prop, (∀ d1 j, JobOk S d1 j → ∀ j' ∈ d1, R j'.commit j.commit) →
      (commitsOf js).Pairwise R := by
    intro R hR
    clear hmem
    induction js using List.reverseRecOn with
    | nil => exact .nil
    | append_singleton js j ih =>
      rw [commitsOf_append, List.pairwise_append]
      refine ⟨ih (fun d1 j' d2 e => h d1 j' (d2 ++ [j]) (by rw [e]; simp)), List.pairwise_singleton _ _, ?_⟩
      intro c hc c' hc'
      obtain ⟨j', hj', rfl⟩ := mem_commitsOf.1 hc
      obtain ⟨j'', hj'', rfl⟩ := mem_commitsOf.1 hc'
      rw [List.mem_singleton.1 hj'']
      exact hR js j (h js j [] rfl) j' hj'
  refine ⟨hpair _ (fun d1 j hj => hj.later), ?_, ?_, ?_, hpair _ (fun d1 j hj => hj.gone), ?_, ?_, ?_⟩
  · intro c hc; obtain ⟨d1, j, hj, rfl⟩ := hmem c hc; exact hj.time
  · intro c hc; obtain ⟨d1, j, hj, rfl⟩ := hmem c hc; exact hj.once
  · intro c hc; obtain ⟨d1, j, hj, rfl⟩ := hmem c hc; exact hj.replaces
  · intro c hc; obtain ⟨d1, j, hj, rfl⟩ := hmem c hc; exact hj.ids
  · intro c hc; obtain ⟨d1, j, hj, rfl⟩ := hmem c hc; exact hj.tokens
  · intro c hc; obtain ⟨d1, j, hj, rfl⟩ := hmem c hc; exact hj.logs

theorem Inv.wf {S : Setting} {s : Work} (h : Inv S s) : s.history.WF S.width := wf_commits h.jobs

theorem cmp_irrefl {a : Str} : compare a a ≠ .lt := by
  rw [show compare a a = .eq from Std.ReflCmp.compare_self]; exact (fun e => (nomatch e))

theorem cmp_trans {a b c : Str} (h1 : compare a b = .lt) (h2 : compare b c = .lt) : compare a c = .lt :=
  Std.TransCmp.lt_trans h1 h2

/-- Completed writes of the same time are the same. -/
theorem Inv.unique {S : Setting} {s : Work} (h : Inv S s) {j j' : Job} (hj : j ∈ s.done) (hj' : j' ∈ s.done)
    (ht : j.commit.ts = j'.commit.ts) : j = j' := by
  obtain ⟨d1, d2, e⟩ := List.append_of_mem hj
  rw [e] at hj'
  rcases List.mem_append.1 hj' with hm | hm
  · exact absurd ((h.jobs d1 j d2 e).later j' hm) (by rw [ht]; exact cmp_irrefl)
  · rcases List.mem_cons.1 hm with rfl | hm
    · rfl
    · obtain ⟨a, b, rfl⟩ := List.append_of_mem hm
      have := (h.jobs (d1 ++ j :: a) j' b (by rw [e]; simp)).later j (by simp)
      exact absurd this (by rw [ht]; exact cmp_irrefl)

theorem jobAt_mem {js : List Job} (hu : ∀ j ∈ js, ∀ j' ∈ js, j.commit.ts = j'.commit.ts → j = j') {j : Job}
    (hj : j ∈ js) : jobAt js j.commit.ts = some j := by
  unfold jobAt
  cases hf : js.find? (fun j' => decide (j'.commit.ts = j.commit.ts)) with
  | none => exact absurd (by simp) (List.find?_eq_none.1 hf j hj)
  | some j' =>
    have h1 := List.find?_some hf
    simp only [decide_eq_true_eq] at h1
    rw [hu j' (List.mem_of_find?_eq_some hf) j hj h1]

theorem jobAt_append {js more : List Job} {ts : Str} (h : ∃ j ∈ js, j.commit.ts = ts) :
    jobAt (js ++ more) ts = jobAt js ts := by
  obtain ⟨j, hj, rfl⟩ := h
  unfold jobAt
  rw [List.find?_append]
  cases hf : js.find? (fun j' => decide (j'.commit.ts = j.commit.ts)) with
  | none => exact absurd (by simp) (List.find?_eq_none.1 hf j hj)
  | some j' => rfl

theorem columnsBy_append {js more : List Job} {ts : Str} {k : GroupKey} (h : ∃ j ∈ js, j.commit.ts = ts) :
    columnsBy (js ++ more) ts k = columnsBy js ts k := by
  unfold columnsBy; rw [jobAt_append h]

/-! ## Requests of jobs -/

theorem mem_requests {h : History} {j : Job} {q : Request} (hq : q ∈ j.requests h) :
    (∃ k token, (k, Change.write token) ∈ j.commit.changes ∧
      q = .put (baseAt k token j.commit.ts) (.parquet 1 (j.base k))) ∨
    ∃ k ls v l, (k, Change.append ls) ∈ j.commit.changes ∧ versionAfter h k = some v ∧ l ∈ ls ∧
      q = .append (logAt k v.base l) (j.blocks k l) := by
  obtain ⟨⟨k, ch⟩, he, hq⟩ := List.mem_flatMap.1 hq
  cases ch with
  | write token => exact .inl ⟨k, token, he, List.mem_singleton.1 hq⟩
  | replace => cases hq
  | append ls =>
    simp only at hq
    cases hv : versionAfter h k with
    | none => rw [hv] at hq; cases hq
    | some v =>
      rw [hv] at hq
      obtain ⟨l, hl, rfl⟩ := List.mem_map.1 hq
      exact .inr ⟨k, ls, v, l, he, hv, hl, rfl⟩

theorem put_requests {h : History} {j : Job} {k : GroupKey} {token : Str}
    (hk : (k, Change.write token) ∈ j.commit.changes) :
    Request.put (baseAt k token j.commit.ts) (.parquet 1 (j.base k)) ∈ j.requests h :=
  List.mem_flatMap.2 ⟨_, hk, List.mem_singleton_self _⟩

theorem append_requests {h : History} {j : Job} {k : GroupKey} {ls : List (Str × Str)} {v : Version} {l : Str × Str}
    (hk : (k, Change.append ls) ∈ j.commit.changes) (hv : versionAfter h k = some v) (hl : l ∈ ls) :
    Request.append (logAt k v.base l) (j.blocks k l) ∈ j.requests h := by
  refine List.mem_flatMap.2 ⟨_, hk, ?_⟩
  simp only [hv]
  exact List.mem_map.2 ⟨l, hl, rfl⟩

theorem requests_congr {h h' : History} {j : Job}
    (hv : ∀ e ∈ j.commit.changes, versionAfter h' e.1 = versionAfter h e.1) : j.requests h' = j.requests h := by
  unfold Job.requests
  simp only [List.flatMap_def]
  congr 1
  refine List.map_congr_left ?_
  intro e he
  rw [hv e he]

/-! ## Several writes -/

theorem mem_others {s : Work} {a b : Attempt} :
    b ∈ s.others a ↔ b ∈ s.current ∧ b.job.commit.ts ≠ a.job.commit.ts := by
  unfold Work.others
  rw [List.mem_filter, decide_eq_true_eq]

theorem version_other {js : List Job} {j : Job} {k : GroupKey} (h : ∀ e ∈ j.commit.changes, e.1 ≠ k) :
    versionAfter (commitsOf (js ++ [j])) k = versionAfter (commitsOf js) k := by
  rw [commitsOf_append, show commitsOf [j] = [j.commit] from rfl, versionAfter_snoc]
  cases hc : j.commit.changeOf k with
  | none => rfl
  | some ch => exact absurd rfl (h _ (changeOf_mem hc))

theorem Spec.HandleAt.overwrites {E : Env} {S : Setting} {s : Work} {tb : Table} (h : HandleAt E S s tb) :
    OverwritesWithLatest S.o := h.options ▸ h.merges.merges.strategy

/-- Requirements on a write stay met when an earlier write on other file groups completes. -/
theorem job_mono {S : Setting} {before : List Job} {c j : Job} (h : JobOk S before j)
    (hlt : compare c.commit.ts j.commit.ts = .lt) (ha : Apart c j) : JobOk S (before ++ [c]) j := by
  have hv : ∀ k ch, (k, ch) ∈ j.commit.changes →
      versionAfter (commitsOf (before ++ [c])) k = versionAfter (commitsOf before) k :=
    fun k ch hk => version_other (fun e he => ha e he (k, ch) hk)
  refine ⟨?_, h.time, h.parses, h.once, h.sites, h.replaces, ?_, ?_, h.ids, h.tokens, h.logs, h.batches, ?_, h.rows,
    h.document, ?_⟩
  · intro j' hj'
    rcases List.mem_append.1 hj' with hj' | hj'
    · exact h.later j' hj'
    · rw [List.mem_singleton.1 hj']; exact hlt
  · intro j' hj' k hk ch hm
    rcases List.mem_append.1 hj' with hj' | hj'
    · exact h.gone j' hj' k hk ch hm
    · rw [List.mem_singleton.1 hj'] at hk
      exact ha _ hk _ hm rfl
  · intro k ls hk
    rw [hv k _ hk]; exact h.live k ls hk
  · intro k ls v hk hvv l hl w hw
    rw [hv k _ hk] at hvv
    obtain ⟨j', hj', _, e⟩ := version_job hvv
    rw [columnsBy_append ⟨j', hj', e⟩]
    exact h.blocks k ls v hk hvv l hl w hw
  · obtain ⟨j', hj', r⟩ := h.firstFile
    refine ⟨j', ?_, r⟩
    rcases List.mem_append.1 hj' with hj' | hj'
    · exact List.mem_append_left _ (List.mem_append_left _ hj')
    · exact List.mem_append_right _ hj'

/-- The write goes on. -/
theorem fwd_cons {S : Setting} {s : Work} (h : Inv S s) {a a' : Attempt} (hc : a ∈ s.current) (hj : a'.job = a.job)
    (hr : ∀ q ∈ a.ran, q ∈ a'.ran) :
    ∀ b ∈ s.current, ∃ b' ∈ a' :: s.others a, b'.job = b.job ∧ ∀ q ∈ b.ran, q ∈ b'.ran := by
  intro b hb
  by_cases e : b.job.commit.ts = a.job.commit.ts
  · rw [h.one b hb a hc e]
    exact ⟨a', List.mem_cons_self .., hj, hr⟩
  · exact ⟨b, List.mem_cons_of_mem _ (mem_others.2 ⟨hb, e⟩), rfl, fun _ h => h⟩

theorem back_cons {s : Work} {a a' : Attempt} (hc : a ∈ s.current) (hj : a'.job = a.job) (hu : a'.undo = a.undo) :
    ∀ b' ∈ a' :: s.others a, ∃ b ∈ s.current, b'.job = b.job ∧ b'.undo = b.undo := by
  intro b' hb'
  rcases List.mem_cons.1 hb' with rfl | hb'
  · exact ⟨a, hc, hj, hu⟩
  · exact ⟨b', (mem_others.1 hb').1, rfl, rfl⟩

theorem one_cons {S : Setting} {s : Work} (h : Inv S s) {a a' : Attempt} (hj : a'.job = a.job) :
    ∀ b ∈ a' :: s.others a, ∀ b' ∈ a' :: s.others a, b.job.commit.ts = b'.job.commit.ts → b = b' := by
  intro b hb b' hb' e
  rcases List.mem_cons.1 hb with h1 | h1 <;> rcases List.mem_cons.1 hb' with h2 | h2
  · rw [h1, h2]
  · exact absurd (by rw [← e, h1, hj]) (mem_others.1 h2).2
  · exact absurd (by rw [e, h2, hj]) (mem_others.1 h1).2
  · exact h.one b (mem_others.1 h1).1 b' (mem_others.1 h2).1 e

/-! ## Growing log files -/

theorem stored_of_ne {S : Setting} {st : Objects} {q : Request}
    (hq : ∀ k base l, KeyOk S k → WriterTimestamp base → NamePart l.1 ∧ NamePart l.2 → logAt k base l ≠ q.path)
    {k : GroupKey} {base : Str} {w : WBlock} (h : StoredIn S st k base w) : StoredIn S (q.run st) k base w := by
  obtain ⟨h1, h2, l, ws, h3, h4, h5⟩ := h
  refine ⟨h1, h2, l, ws, h3, ?_, h5⟩
  rw [get_run, if_neg (hq k base l h1 h2 h3)]
  exact h4

theorem stored_append {S : Setting} {st : Objects} {p : List Str} {more : List WBlock} {k : GroupKey} {base : Str}
    {w : WBlock} (h : StoredIn S st k base w) : StoredIn S ((Request.append p more).run st) k base w := by
  obtain ⟨h1, h2, l, ws, h3, h4, h5⟩ := h
  by_cases hp : logAt k base l = p
  · refine ⟨h1, h2, l, ws ++ more, h3, ?_, List.mem_append_left _ h5⟩
    rw [get_run, if_pos (show _ = (Request.append p more).path from hp)]
    show some (Stored.log ((st.get p).elim [] Stored.blocks ++ more)) = _
    rw [← hp, h4]
    rfl
  · refine ⟨h1, h2, l, ws, h3, ?_, h5⟩
    rw [get_run, if_neg (show ¬ _ = (Request.append p more).path from hp)]
    exact h4

theorem took_of_ne {st : Objects} {q q' : Request} (hp : q'.path ≠ q.path) (h : Took st q') : Took (q.run st) q' := by
  cases q' with
  | put p c => exact (get_run q p).trans ((if_neg hp).trans h)
  | append p ws =>
    obtain ⟨ws', h1, h2⟩ := h
    exact ⟨ws', (get_run q p).trans ((if_neg hp).trans h1), h2⟩
  | delete p => exact (get_run q p).trans ((if_neg hp).trans h)

theorem took_append {st : Objects} {p p' : List Str} {ws ws' : List WBlock} (h : Took st (.append p ws)) :
    Took ((Request.append p' ws').run st) (.append p ws) := by
  obtain ⟨old, h1, h2⟩ := h
  by_cases hp : p = p'
  · subst hp
    refine ⟨old ++ ws', ?_, fun w hw => List.mem_append_left _ (h2 w hw)⟩
    rw [get_run, if_pos (show p = (Request.append p ws').path from rfl)]
    show some (Stored.log ((st.get p).elim [] Stored.blocks ++ ws')) = _
    rw [h1]
    rfl
  · exact took_of_ne hp ⟨old, h1, h2⟩

/-! ## Steps that neither begin nor end a write -/

/-- The second state follows the first, within a write. -/
structure Goes (S : Setting) (s s' : Work) : Prop where
  done : s'.done = s.done
  used : ∀ u ∈ s.used, u ∈ s'.used
  fwd : ∀ a ∈ s.current, ∃ a' ∈ s'.current, a'.job = a.job ∧
    ∀ p ws, Request.append p ws ∈ a.ran → Request.append p ws ∈ a'.ran
  back : ∀ a' ∈ s'.current, ∃ a ∈ s.current, a'.job = a.job ∧ (a.undo ≠ none → a'.undo ≠ none)
  stored : ∀ k base w, StoredIn S s.store k base w → StoredIn S s'.store k base w

theorem origin_goes {S : Setting} {s s' : Work} (hg : Goes S s s') {k : GroupKey} {base : Str} {w : WBlock}
    (h : Origin S s k base w) : Origin S s' k base w := by
  have hh : s'.history = s.history := by unfold Work.history; rw [hg.done]
  cases h with
  | done d1 j d2 ls v l hd hk hv hb hl hw ht => exact .done d1 j d2 ls v l (by rw [hg.done, hd]) hk hv hb hl hw ht
  | current a ls v l hc hk hv hb hl hw ht hr =>
    obtain ⟨a', h1, h2, h3⟩ := hg.fwd a hc
    exact .current a' ls v l h1 (by rw [h2]; exact hk) (by rw [hh]; exact hv) hb hl (by rw [h2]; exact hw)
      (by rw [h2]; exact ht) (by rw [h2]; exact h3 _ _ hr)
  | failed i r w' ht hn hir hw hb hr hu hd hc =>
    refine .failed i r w' ht hn hir (hg.stored _ _ _ hw) hb hr ⟨hg.used _ hu.1, hg.used _ hu.2⟩ (by rw [hg.done]; exact hd) ?_
    intro a' ha'
    obtain ⟨a, h1, h2, _⟩ := hg.back a' ha'
    rw [h2]; exact hc a h1
  | rollback i hb hu hd hc =>
    refine .rollback i hb (hg.used _ hu) (by rw [hg.done]; exact hd) ?_
    intro a' ha' hi
    obtain ⟨a, h1, h2, h3⟩ := hg.back a' ha'
    exact h3 (hc a h1 (by rw [← h2]; exact hi))

theorem block_goes {S : Setting} {s s' : Work} (hg : Goes S s s') {k : GroupKey} {base : Str} {w : WBlock}
    (h : BlockOk S s k base w) : BlockOk S s' k base w :=
  ⟨h.good, by rw [hg.done]; exact h.fit, origin_goes hg h.origin⟩

theorem kind_goes {S : Setting} {s s' : Work} (hg : Goes S s s') {p : List Str} {x : Stored} (h : Kind S s p x) :
    Kind S s' p x := by
  cases h with
  | unread p x h => exact .unread p x h
  | instant j hj => exact .instant j (by rw [hg.done]; exact hj)
  | base j k token hj hk => exact .base j k token (by rw [hg.done]; exact hj) hk
  | pending a k token ha hk =>
    obtain ⟨a', h1, h2, _⟩ := hg.fwd a ha
    rw [← h2] at hk ⊢
    exact .pending a' k token h1 hk
  | log j k token l ws hj hk hl hw =>
    exact .log j k token l ws (by rw [hg.done]; exact hj) hk hl (fun w h => block_goes hg (hw w h))

/-- What is under the path of a log file. -/
theorem kind_log {S : Setting} {s : Work} (hi : Inv S s) {k : GroupKey} {base : Str} {l : Str × Str} {x : Stored}
    (hk : KeyOk S k) (hb : WriterTimestamp base) (hl : NamePart l.1 ∧ NamePart l.2)
    (h : Kind S s (logAt k base l) x) : ∃ ws, x = .log ws ∧ ∀ w ∈ ws, BlockOk S s k base w := by
  generalize hp : logAt k base l = p at h
  cases h with
  | unread p x h => exact absurd (hp ▸ h) (log_read hk hb hl)
  | instant j hj => exact absurd hp (log_ne_instant hk)
  | base j k' token hj hk' =>
    obtain ⟨d1, hjob⟩ := hi.jobOf hj
    exact absurd hp.symm (base_ne_log (job_key hjob hk') hk hl)
  | pending a k' token ha hk' => exact absurd hp.symm (base_ne_log (job_key (hi.attempt a ha) hk') hk hl)
  | log j k' token l' ws hj hk' hl' hw =>
    obtain ⟨d1, hjob⟩ := hi.jobOf hj
    obtain ⟨rfl, rfl, rfl⟩ := logAt_inj hk (job_key hjob hk') hb hjob.time.1 hl hl' hp
    exact ⟨ws, rfl, hw⟩

theorem inv_run {S : Setting} {s : Work} (h : Inv S s) (q : Request) (cur : List Attempt)
    (fwd : ∀ a ∈ s.current, ∃ a' ∈ cur, a'.job = a.job ∧ ∀ q ∈ a.ran, q ∈ a'.ran)
    (back : ∀ a' ∈ cur, ∃ a ∈ s.current, a'.job = a.job ∧ a'.undo = a.undo)
    (one : ∀ b ∈ cur, ∀ b' ∈ cur, b.job.commit.ts = b'.job.commit.ts → b = b')
    (hlog : (∀ k base l, KeyOk S k → WriterTimestamp base → NamePart l.1 ∧ NamePart l.2 → logAt k base l ≠ q.path) ∨
      ∃ p ws, q = .append p ws)
    (hi : ∀ j ∈ s.done, instantAt j.commit ≠ q.path)
    (hb : ∀ j ∈ s.done, ∀ k token, (k, Change.write token) ∈ j.commit.changes → baseAt k token j.commit.ts ≠ q.path)
    (hk : Goes S s { s with store := q.run s.store, current := cur } → ∀ x,
      q.result (s.store.get q.path) = some x → Kind S { s with store := q.run s.store, current := cur } q.path x)
    (hran : ∀ a' ∈ cur, a'.undo = none → ∀ q' ∈ a'.ran, q' ∈ a'.job.requests s.history ∧ Took (q.run s.store) q')
    (hun : ∀ a' ∈ cur, ∀ k ∈ a'.undone, (∃ a ∈ s.current, a'.job = a.job ∧ k ∈ a.undone) ∨
      ((∃ ls, (k, Change.append ls) ∈ a'.job.commit.changes) ∧ ∀ v, versionAfter s.history k = some v →
        ∃ w r, StoredIn S (q.run s.store) k v.base w ∧ RollsBack w a'.job.commit.ts ∧ WrittenBy w r ∧ r ∈ s.used ∧
          compare a'.job.commit.ts r = .lt ∧ Aside s a' r)) :
    Inv S { s with store := q.run s.store, current := cur } := by
  have hg : Goes S s { s with store := q.run s.store, current := cur } := by
    refine ⟨rfl, fun u hu => hu, fun a ha => ?_, fun a' ha' => ?_, ?_⟩
    · obtain ⟨a', h1, h2, h3⟩ := fwd a ha
      exact ⟨a', h1, h2, fun p ws hr => h3 _ hr⟩
    · obtain ⟨a, h1, h2, h3⟩ := back a' ha'
      exact ⟨a, h1, h2, by rw [h3]; exact id⟩
    intro k base w hs
    rcases hlog with hlog | ⟨p, ws, rfl⟩
    · exact stored_of_ne hlog hs
    · exact stored_append hs
  have haside : ∀ {a a' : Attempt} {r : Str}, a'.job = a.job → Aside s a r →
      Aside { s with store := q.run s.store, current := cur } a' r := by
    intro a a' r e ha b' hb'
    obtain ⟨b, h1, h2, _⟩ := back b' hb'
    rw [h2, e]
    exact ha b h1
  refine ⟨run_nodup h.nodup q, h.jobs, ?_, one, ?_, h.usedDone, ?_, ?_, ?_, h.times, ?_, ?_, ?_, ?_, hran, ?_⟩
  · intro a' ha'
    obtain ⟨a, h1, h2, _⟩ := back a' ha'
    rw [h2]; exact h.attempt a h1
  · intro a' ha' b' hb' hne
    obtain ⟨a, h1, h2, _⟩ := back a' ha'
    obtain ⟨b, g1, g2, _⟩ := back b' hb'
    rw [h2, g2] at hne ⊢
    exact h.apart a h1 b g1 hne
  · intro a' ha'
    obtain ⟨a, h1, h2, _⟩ := back a' ha'
    rw [h2]; exact h.usedCurrent a h1
  · intro a' ha' r hr
    obtain ⟨a, h1, h2, h3⟩ := back a' ha'
    rw [h2]; exact h.usedUndo a h1 r (h3 ▸ hr)
  · intro a' ha' r hr k ls hk
    obtain ⟨a, h1, h2, h3⟩ := back a' ha'
    exact haside h2 (h.undoAside a h1 r (h3 ▸ hr) k ls (h2 ▸ hk))
  · intro p x hx
    change (q.run s.store).get p = some x at hx
    rw [get_run] at hx
    by_cases hp : p = q.path
    · rw [if_pos hp] at hx
      rw [hp]; exact hk hg x hx
    · rw [if_neg hp] at hx
      exact kind_goes hg (h.kinds p x hx)
  · intro j hj
    show (q.run s.store).get _ = _
    rw [get_run, if_neg (hi j hj)]
    exact h.instants j hj
  · intro j hj k token hk
    show (q.run s.store).get _ = _
    rw [get_run, if_neg (hb j hj k token hk)]
    exact h.bases j hj k token hk
  · intro d1 j d2 k ls v l w hd hk hv hl hw
    exact hg.stored _ _ _ (h.blocks d1 j d2 k ls v l w hd hk hv hl hw)
  · intro a' ha' k hk
    rcases hun a' ha' k hk with ⟨a, h1, h2, h3⟩ | ⟨h1, h2⟩
    · obtain ⟨g1, g2⟩ := h.undone a h1 k h3
      refine ⟨h2 ▸ g1, fun v hv => ?_⟩
      obtain ⟨w, r, e1, e2, e3, e4, e5, e6⟩ := g2 v hv
      exact ⟨w, r, hg.stored _ _ _ e1, h2 ▸ e2, e3, e4, h2 ▸ e5, haside h2 e6⟩
    · refine ⟨h1, fun v hv => ?_⟩
      obtain ⟨w, r, e1, e2, e3, e4, e5, e6⟩ := h2 v hv
      exact ⟨w, r, e1, e2, e3, e4, e5, haside rfl e6⟩

/-- An append to a log file of a file group of the table leaves a log file there. -/
theorem kind_append {S : Setting} {s s' : Work} (h : Inv S s) (hg : Goes S s s') {k : GroupKey} {v : Version}
    {l : Str × Str} {ws : List WBlock} (hv : versionAfter s.history k = some v) (hl : NamePart l.1 ∧ NamePart l.2)
    (hw : ∀ w ∈ ws, BlockOk S s' k v.base w) {x : Stored}
    (hx : (Request.append (logAt k v.base l) ws).result (s.store.get (logAt k v.base l)) = some x) :
    Kind S s' (logAt k v.base l) x := by
  obtain ⟨j, hj, hk, ht⟩ := version_job hv
  obtain ⟨d1, hjob⟩ := h.jobOf hj
  simp only [Request.result, Option.some.injEq] at hx
  subst hx
  rw [← ht]
  refine .log j k v.token l _ (by rw [hg.done]; exact hj) hk hl ?_
  intro w hm
  rcases List.mem_append.1 hm with hm | hm
  · cases hget : s.store.get (logAt k j.commit.ts l) with
    | none => rw [hget] at hm; cases hm
    | some y =>
      rw [hget] at hm
      obtain ⟨ws', rfl, hws⟩ := kind_log h (job_key hjob hk) hjob.time.1 hl (h.kinds _ _ hget)
      exact block_goes hg (hws w hm)
  · rw [ht]; exact hw w hm

theorem version_key {S : Setting} {s : Work} (h : Inv S s) {k : GroupKey} {v : Version}
    (hv : versionAfter s.history k = some v) : KeyOk S k ∧ WriterTimestamp v.base := by
  obtain ⟨j, hj, hk, ht⟩ := version_job hv
  obtain ⟨d1, hjob⟩ := h.jobOf hj
  exact ⟨job_key hjob hk, ht ▸ hjob.time.1⟩

/-- A request of another write, or its rollback, leaves what a write has done. -/
theorem took_other {S : Setting} {s : Work} (h : Inv S s) {b : Attempt} (hb : b ∈ s.current) (hu : b.undo = none)
    {q : Request}
    (hq : (∃ k token ts, KeyOk S k ∧ NamePart token ∧ WriterTimestamp ts ∧ ts ≠ b.job.commit.ts ∧
        q.path = baseAt k token ts) ∨
      ∃ k base l ws, KeyOk S k ∧ (NamePart l.1 ∧ NamePart l.2) ∧ q = .append (logAt k base l) ws) :
    ∀ q' ∈ b.ran, q' ∈ b.job.requests s.history ∧ Took (q.run s.store) q' := by
  intro q' hq'
  obtain ⟨h1, h2⟩ := h.ran b hb hu q' hq'
  refine ⟨h1, ?_⟩
  have hjob := h.attempt b hb
  rcases mem_requests h1 with ⟨k', token', hk', rfl⟩ | ⟨k', ls', v', l', hk', hv', hl', rfl⟩
  · refine took_of_ne ?_ h2
    rcases hq with ⟨k, token, ts, e1, e2, e3, e4, e5⟩ | ⟨k, base, l, ws, e1, e2, rfl⟩
    · intro e
      exact e4 (baseAt_inj (job_key hjob hk') e1 (hjob.tokens _ _ hk') e2 hjob.time.1 e3 (e.trans e5)).2.2.symm
    · exact base_ne_log (job_key hjob hk') e1 e2
  · rcases hq with ⟨k, token, ts, e1, e2, e3, e4, e5⟩ | ⟨k, base, l, ws, e1, e2, rfl⟩
    · refine took_of_ne ?_ h2
      intro e
      exact base_ne_log e1 (job_key hjob hk') (hjob.logs k' ls' hk' l' hl') (e.trans e5).symm
    · exact took_append h2

theorem inv_aside {S : Setting} {s : Work} (h : Inv S s) (q : Request) (hq : Unread S q.path) :
    Inv S { s with store := q.run s.store } := by
  refine inv_run h q s.current (fun a ha => ⟨a, ha, rfl, fun _ hq => hq⟩) (fun a ha => ⟨a, ha, rfl, rfl⟩) h.one
    (.inl fun k base l h1 h2 h3 e => log_read h1 h2 h3 (e ▸ hq)) ?_ ?_ (fun _ x _ => .unread _ x hq)
    ?_ (fun a ha k hk => .inl ⟨a, ha, rfl, hk⟩)
  · intro j hj e
    obtain ⟨d1, hjob⟩ := h.jobOf hj
    exact instant_read hjob.time.1 hjob.parses (e ▸ hq)
  · intro j hj k token hk e
    obtain ⟨d1, hjob⟩ := h.jobOf hj
    exact base_read (job_key hjob hk) (e ▸ hq)
  · intro a ha hu q' hq'
    obtain ⟨h1, h2⟩ := h.ran a ha hu q' hq'
    refine ⟨h1, took_of_ne ?_ h2⟩
    intro e
    have hjob := h.attempt a ha
    rcases mem_requests h1 with ⟨k, token, hk, rfl⟩ | ⟨k, ls, v, l, hk, hv, hl, rfl⟩
    · exact base_read (job_key hjob hk) (e ▸ hq)
    · exact log_read (job_key hjob hk) (version_key h hv).2 (hjob.logs k ls hk l hl)
        ((show logAt k v.base l = q.path from e) ▸ hq)

theorem inv_request {S : Setting} {s : Work} (h : Inv S s) (a : Attempt) (q : Request) (hc : a ∈ s.current)
    (hu : a.undo = none) (hq : q ∈ a.job.requests s.history) :
    Inv S { s with store := q.run s.store, current := { a with ran := q :: a.ran } :: s.others a } := by
  have hjob := h.attempt a hc
  have fwd := fwd_cons h (a' := { a with ran := q :: a.ran }) hc rfl (fun q' hq' => List.mem_cons_of_mem _ hq')
  have back := back_cons (a' := { a with ran := q :: a.ran }) hc rfl rfl
  have one := one_cons h (a := a) (a' := { a with ran := q :: a.ran }) rfl
  have hun : ∀ b' ∈ { a with ran := q :: a.ran } :: s.others a, ∀ k ∈ b'.undone,
      ∃ b ∈ s.current, b'.job = b.job ∧ k ∈ b.undone := by
    intro b' hb' k hk
    rcases List.mem_cons.1 hb' with rfl | hb'
    · exact ⟨a, hc, rfl, hk⟩
    · exact ⟨b', (mem_others.1 hb').1, rfl, hk⟩
  rcases mem_requests hq with ⟨k, token, hk, rfl⟩ | ⟨k, ls, v, l, hk, hv, hl, rfl⟩
  · refine inv_run h _ _ fwd back one (.inl fun k' base l h1 h2 h3 e => base_ne_log (job_key hjob hk) h1 h3 e.symm)
      (fun j hj e => base_ne_instant (job_key hjob hk) e.symm) ?_ ?_ ?_ (fun b hb k hk => .inl (hun b hb k hk))
    · intro j hj k' token' hk' e
      obtain ⟨d1, hjob'⟩ := h.jobOf hj
      obtain ⟨_, _, e⟩ := baseAt_inj (job_key hjob' hk') (job_key hjob hk) (hjob'.tokens _ _ hk') (hjob.tokens _ _ hk)
        hjob'.time.1 hjob.time.1 e
      have := hjob.later j hj
      rw [e] at this
      exact cmp_irrefl this
    · intro hg x hx
      cases hx
      exact .pending { a with ran := _ :: a.ran } k token (List.mem_cons_self ..) hk
    · intro a' ha' hu' q' hq'
      rcases List.mem_cons.1 ha' with rfl | ha'
      · have hself : Took ((Request.put (baseAt k token a.job.commit.ts) (.parquet 1 (a.job.base k))).run s.store)
            (.put (baseAt k token a.job.commit.ts) (.parquet 1 (a.job.base k))) :=
          (get_run _ _).trans (if_pos rfl)
        rcases List.mem_cons.1 hq' with rfl | hq'
        · exact ⟨hq, hself⟩
        · obtain ⟨h1, h2⟩ := h.ran a hc hu q' hq'
          refine ⟨h1, ?_⟩
          by_cases hp : q'.path = baseAt k token a.job.commit.ts
          · rcases mem_requests h1 with ⟨k', token', hk', rfl⟩ | ⟨k', ls, v, l, hk', hv, hl, rfl⟩
            · obtain ⟨rfl, rfl, _⟩ := baseAt_inj (job_key hjob hk') (job_key hjob hk) (hjob.tokens _ _ hk')
                (hjob.tokens _ _ hk) hjob.time.1 hjob.time.1 hp
              exact hself
            · exact absurd hp.symm (base_ne_log (job_key hjob hk) (job_key hjob hk') (hjob.logs k' ls hk' l hl))
          · exact took_of_ne hp h2
      · obtain ⟨g1, g2⟩ := mem_others.1 ha'
        exact took_other h g1 hu' (.inl ⟨k, token, _, job_key hjob hk, hjob.tokens _ _ hk, hjob.time.1, Ne.symm g2, rfl⟩)
          q' hq'
  · obtain ⟨hkey, hbt⟩ := version_key h hv
    have hln := hjob.logs k ls hk l hl
    refine inv_run h _ _ fwd back one (.inr ⟨_, _, rfl⟩) (fun j hj e => log_ne_instant hkey e.symm) ?_ ?_ ?_
      (fun b hb k hk => .inl (hun b hb k hk))
    · intro j hj k' token' hk' e
      obtain ⟨d1, hjob'⟩ := h.jobOf hj
      exact base_ne_log (job_key hjob' hk') hkey hln e
    · intro hg x hx
      refine kind_append h hg hv hln ?_ hx
      intro w hw
      obtain ⟨g1, g2, g3, g4⟩ := hjob.blocks k ls v hk hv l hl w hw
      exact ⟨g1, g4, .current { a with ran := _ :: a.ran } ls v l (List.mem_cons_self ..) hk hv rfl hl hw g2
        (List.mem_cons_self ..)⟩
    · intro a' ha' hu' q' hq'
      rcases List.mem_cons.1 ha' with rfl | ha'
      · rcases List.mem_cons.1 hq' with rfl | hq'
        · refine ⟨hq, _, (get_run _ _).trans (if_pos rfl), ?_⟩
          exact fun w hw => List.mem_append_right _ hw
        · obtain ⟨h1, h2⟩ := h.ran a hc hu q' hq'
          refine ⟨h1, ?_⟩
          rcases mem_requests h1 with ⟨k', token', hk', rfl⟩ | ⟨k', ls', v', l', hk', hv', hl', rfl⟩
          · exact took_of_ne (base_ne_log (job_key hjob hk') hkey hln) h2
          · exact took_append h2
      · exact took_other h (mem_others.1 ha').1 hu' (.inr ⟨k, _, l, _, hkey, hln, rfl⟩) q' hq'

theorem inv_rollback {S : Setting} {s : Work} (h : Inv S s) (a : Attempt) (r : Str) (hc : a ∈ s.current)
    (hf : Fresh s r) (ht : WriterTimestamp r ∧ r.length = S.width)
    (ho : ∀ k ls, (k, Change.append ls) ∈ a.job.commit.changes → ∀ b ∈ s.others a,
      compare b.job.commit.ts a.job.commit.ts = .lt) :
    Inv S { s with current := { a with undo := some r } :: s.others a, used := r :: s.used } := by
  have back : ∀ b' ∈ { a with undo := some r } :: s.others a, ∃ b ∈ s.current, b'.job = b.job ∧
      b'.ran = b.ran ∧ b'.undone = b.undone ∧ ((b = a ∧ b'.undo = some r) ∨ b'.undo = b.undo) := by
    intro b' hb'
    rcases List.mem_cons.1 hb' with rfl | hb'
    · exact ⟨a, hc, rfl, rfl, rfl, .inl ⟨rfl, rfl⟩⟩
    · exact ⟨b', (mem_others.1 hb').1, rfl, rfl, rfl, .inr rfl⟩
  have hg : Goes S s { s with current := { a with undo := some r } :: s.others a, used := r :: s.used } := by
    refine ⟨rfl, fun u hu => List.mem_cons_of_mem _ hu, ?_, ?_, fun _ _ _ h => h⟩
    · intro b hb
      obtain ⟨b', h1, h2, h3⟩ := fwd_cons h (a' := { a with undo := some r }) hc rfl (fun _ h => h) b hb
      exact ⟨b', h1, h2, fun _ _ h => h3 _ h⟩
    · intro b' hb'
      obtain ⟨b, h1, h2, _, _, h3⟩ := back b' hb'
      refine ⟨b, h1, h2, fun hn => ?_⟩
      rcases h3 with ⟨_, h3⟩ | h3
      · rw [h3]; exact fun e => (nomatch e)
      · rw [h3]; exact hn
  have haside : ∀ {b b' : Attempt} {t : Str}, b'.job = b.job → Aside s b t →
      Aside { s with current := { a with undo := some r } :: s.others a, used := r :: s.used } b' t := by
    intro b b' t e hb c hc'
    obtain ⟨d, h1, h2, _⟩ := back c hc'
    rw [h2, e]; exact hb d h1
  refine ⟨h.nodup, h.jobs, ?_, one_cons h rfl, ?_, fun j hj => List.mem_cons_of_mem _ (h.usedDone j hj), ?_, ?_, ?_, ?_,
    fun p x hx => kind_goes hg (h.kinds p x hx), h.instants, h.bases, h.blocks, ?_, ?_⟩
  · intro b' hb'
    obtain ⟨b, h1, h2, _⟩ := back b' hb'
    rw [h2]; exact h.attempt b h1
  · intro b' hb' c' hc' hne
    obtain ⟨b, h1, h2, _⟩ := back b' hb'
    obtain ⟨c, g1, g2, _⟩ := back c' hc'
    rw [h2, g2] at hne ⊢
    exact h.apart b h1 c g1 hne
  · intro b' hb'
    obtain ⟨b, h1, h2, _⟩ := back b' hb'
    rw [h2]; exact List.mem_cons_of_mem _ (h.usedCurrent b h1)
  · intro b' hb' t ht
    obtain ⟨b, h1, h2, _, _, h3⟩ := back b' hb'
    rw [h2]
    rcases h3 with ⟨rfl, h3⟩ | h3
    · rw [h3] at ht; cases ht
      exact ⟨List.mem_cons_self .., hf _ (h.usedCurrent b h1)⟩
    · obtain ⟨g1, g2⟩ := h.usedUndo b h1 t (h3 ▸ ht)
      exact ⟨List.mem_cons_of_mem _ g1, g2⟩
  · intro b' hb' t ht k ls hk
    obtain ⟨b, h1, h2, _, _, h3⟩ := back b' hb'
    rw [h2] at hk
    refine haside h2 ?_
    rcases h3 with ⟨rfl, h3⟩ | h3
    · intro c hcc
      by_cases e : c.job.commit.ts = b.job.commit.ts
      · exact .inl e
      · exact .inr (.inl (ho k ls hk c (mem_others.2 ⟨hcc, e⟩)))
    · exact h.undoAside b h1 t (h3 ▸ ht) k ls hk
  · intro u hu
    rcases List.mem_cons.1 hu with rfl | hu
    · exact ht
    · exact h.times u hu
  · intro b' hb' hu
    obtain ⟨b, h1, h2, h4, _, h3⟩ := back b' hb'
    rw [h2, h4]
    rcases h3 with ⟨_, h3⟩ | h3
    · rw [h3] at hu; cases hu
    · exact h.ran b h1 (h3 ▸ hu)
  · intro b' hb' k hk
    obtain ⟨b, h1, h2, _, h5, _⟩ := back b' hb'
    obtain ⟨g1, g2⟩ := h.undone b h1 k (h5 ▸ hk)
    refine ⟨h2 ▸ g1, fun v hv => ?_⟩
    obtain ⟨w, r', e1, e2, e3, e4, e5, e6⟩ := g2 v hv
    exact ⟨w, r', e1, h2 ▸ e2, e3, List.mem_cons_of_mem _ e4, h2 ▸ e5, haside h2 e6⟩

theorem inv_delete {S : Setting} {s : Work} (h : Inv S s) (a : Attempt) (r : Str) (k : GroupKey) (token : Str)
    (hc : a ∈ s.current) (hu : a.undo = some r) (hk : (k, Change.write token) ∈ a.job.commit.changes) :
    Inv S { s with store := (Request.delete (baseAt k token a.job.commit.ts)).run s.store } := by
  have hjob := h.attempt a hc
  refine inv_run h _ s.current (fun a ha => ⟨a, ha, rfl, fun _ hq => hq⟩) (fun a ha => ⟨a, ha, rfl, rfl⟩) h.one
    (.inl fun k' base l h1 h2 h3 e => base_ne_log (job_key hjob hk) h1 h3 e.symm)
    (fun j hj e => base_ne_instant (job_key hjob hk) e.symm) ?_ (fun _ x hx => (nomatch hx))
    ?_ (fun a ha k hk => .inl ⟨a, ha, rfl, hk⟩)
  · intro j hj k' token' hk' e
    obtain ⟨d1, hjob'⟩ := h.jobOf hj
    obtain ⟨_, _, e⟩ := baseAt_inj (job_key hjob' hk') (job_key hjob hk) (hjob'.tokens _ _ hk') (hjob.tokens _ _ hk)
      hjob'.time.1 hjob.time.1 e
    have := hjob.later j hj
    rw [e] at this
    exact cmp_irrefl this
  · intro a' ha' hu'
    refine took_other h ha' hu' (.inl ⟨k, token, _, job_key hjob hk, hjob.tokens _ _ hk, hjob.time.1, ?_, rfl⟩)
    intro e
    rw [← h.one a hc a' ha' e, hu] at hu'; cases hu'

theorem rollback_fit {C : Codec} {cols : Schema} {w : WBlock} (h : IsRollback w) : BatchesFit C cols [w] := by
  intro w' hw' bs hd
  rw [List.mem_singleton.1 hw'] at hd
  unfold Decodes at hd
  rw [h.1] at hd
  simp only at hd
  subst hd
  intro b hb
  cases hb

theorem inv_block {S : Setting} {s : Work} (h : Inv S s) (a : Attempt) (r : Str) (k : GroupKey)
    (ls : List (Str × Str)) (v : Version) (l : Str × Str) (w : WBlock) (hc : a ∈ s.current) (hu : a.undo = some r)
    (hk : (k, Change.append ls) ∈ a.job.commit.changes) (hv : versionAfter s.history k = some v)
    (hl : NamePart l.1 ∧ NamePart l.2) (hgood : GoodBlock S.C S.ltz S.tz w) (hw : WrittenBy w r)
    (hr : RollsBack w a.job.commit.ts) :
    Inv S { s with store := (Request.append (logAt k v.base l) [w]).run s.store,
                   current := { a with undone := k :: a.undone } :: s.others a } := by
  have hjob := h.attempt a hc
  obtain ⟨hkey, hbt⟩ := version_key h hv
  refine inv_run h _ _ (fwd_cons h (a' := { a with undone := k :: a.undone }) hc rfl (fun _ h => h))
    (back_cons (a' := { a with undone := k :: a.undone }) hc rfl rfl)
    (one_cons h (a' := { a with undone := k :: a.undone }) rfl) (.inr ⟨_, _, rfl⟩)
    (fun j hj e => log_ne_instant hkey e.symm) ?_ ?_ ?_ ?_
  · intro j hj k' token' hk' e
    obtain ⟨d1, hjob'⟩ := h.jobOf hj
    exact base_ne_log (job_key hjob' hk') hkey hl e
  · intro hg x hx
    refine kind_append h hg hv hl ?_ hx
    intro w' hw'
    rw [List.mem_singleton.1 hw']
    refine ⟨hgood, rollback_fit hr.1, .rollback _ hr (h.usedCurrent a hc) ?_ ?_⟩
    · intro j hj e
      have := hjob.later j hj
      rw [e] at this
      exact cmp_irrefl this
    · intro a' ha' e
      rcases List.mem_cons.1 ha' with rfl | ha'
      · rw [show a.undo = some r from hu]
        exact fun e => (nomatch e)
      · exact absurd e (mem_others.1 ha').2
  · intro a' ha' hu'
    rcases List.mem_cons.1 ha' with rfl | ha'
    · rw [show a.undo = some r from hu] at hu'; cases hu'
    · exact took_other h (mem_others.1 ha').1 hu' (.inr ⟨k, _, l, _, hkey, hl, rfl⟩)
  · intro a' ha' k' hk'
    rcases List.mem_cons.1 ha' with rfl | ha'
    · rcases List.mem_cons.1 hk' with rfl | hk'
      · refine .inr ⟨⟨ls, hk⟩, fun v' hv' => ?_⟩
        rw [hv] at hv'; cases hv'
        have hh := h.usedUndo a hc r hu
        exact ⟨w, r, ⟨hkey, hbt, l, _, hl, (get_run _ _).trans (if_pos rfl), List.mem_append_right _ (by simp)⟩, hr, hw,
          hh.1, hh.2, h.undoAside a hc r hu k' ls hk⟩
      · exact .inl ⟨a, hc, rfl, hk'⟩
    · exact .inl ⟨a', (mem_others.1 ha').1, rfl, hk'⟩

/-! ## Beginning and ending a write -/

theorem inv_begin {S : Setting} {s : Work} (h : Inv S s) (j : Job) (hc : ∀ b ∈ s.current, Apart b.job j)
    (hf : Fresh s j.commit.ts) (hj : JobOk S s.done j) :
    Inv S { s with current := ⟨j, [], none, []⟩ :: s.current, used := j.commit.ts :: s.used } := by
  have hnew : ∀ b ∈ s.current, compare b.job.commit.ts j.commit.ts = .lt := fun b hb => hf _ (h.usedCurrent b hb)
  have haside : ∀ {b : Attempt} {t : Str}, t ∈ s.used → Aside s b t →
      Aside { s with current := ⟨j, [], none, []⟩ :: s.current, used := j.commit.ts :: s.used } b t := by
    intro b t ht hb c hcc
    rcases List.mem_cons.1 hcc with rfl | hcc
    · exact .inr (.inr (hf t ht))
    · exact hb c hcc
  refine ⟨h.nodup, h.jobs, ?_, ?_, ?_, fun j hj => List.mem_cons_of_mem _ (h.usedDone j hj), ?_, ?_, ?_, ?_, ?_,
    h.instants, h.bases, h.blocks, ?_, ?_⟩
  · intro a' ha'
    rcases List.mem_cons.1 ha' with rfl | ha'
    · exact hj
    · exact h.attempt a' ha'
  · intro b hb b' hb' e
    rcases List.mem_cons.1 hb with rfl | hb <;> rcases List.mem_cons.1 hb' with rfl | hb'
    · rfl
    · exact absurd (hnew b' hb') (by rw [← e]; exact cmp_irrefl)
    · exact absurd (hnew b hb) (by rw [e]; exact cmp_irrefl)
    · exact h.one b hb b' hb' e
  · intro b hb b' hb' hne
    rcases List.mem_cons.1 hb with rfl | hb <;> rcases List.mem_cons.1 hb' with rfl | hb'
    · exact absurd rfl hne
    · exact fun e he e' he' heq => hc b' hb' e' he' e he heq.symm
    · exact hc b hb
    · exact h.apart b hb b' hb' hne
  · intro a' ha'
    rcases List.mem_cons.1 ha' with rfl | ha'
    · exact List.mem_cons_self ..
    · exact List.mem_cons_of_mem _ (h.usedCurrent a' ha')
  · intro a' ha' r hr
    rcases List.mem_cons.1 ha' with rfl | ha'
    · cases hr
    · obtain ⟨g1, g2⟩ := h.usedUndo a' ha' r hr
      exact ⟨List.mem_cons_of_mem _ g1, g2⟩
  · intro a' ha' r hr k ls hk
    rcases List.mem_cons.1 ha' with rfl | ha'
    · cases hr
    · exact haside (h.usedUndo a' ha' r hr).1 (h.undoAside a' ha' r hr k ls hk)
  · intro u hu
    rcases List.mem_cons.1 hu with rfl | hu
    · exact hj.time
    · exact h.times u hu
  · intro p x hx
    cases h.kinds p x hx with
    | unread p x h => exact .unread p x h
    | instant j hj => exact .instant j hj
    | base j k token hj hk => exact .base j k token hj hk
    | pending a k token ha hk => exact .pending a k token (List.mem_cons_of_mem _ ha) hk
    | log j' k token l ws hj' hk hl hw =>
      refine .log j' k token l ws hj' hk hl (fun w hm => ⟨(hw w hm).good, (hw w hm).fit, ?_⟩)
      cases (hw w hm).origin with
      | done d1 j d2 ls v l hd hk hv hb hl hw ht => exact .done d1 j d2 ls v l hd hk hv hb hl hw ht
      | current a ls v l hc' hk hv hb hl hw ht hr =>
        exact .current a ls v l (List.mem_cons_of_mem _ hc') hk hv hb hl hw ht hr
      | failed i r w' ht hn hir hw hb hr hu hd hcur =>
        refine .failed i r w' ht hn hir hw hb hr ⟨List.mem_cons_of_mem _ hu.1, List.mem_cons_of_mem _ hu.2⟩ hd ?_
        intro a' ha'
        rcases List.mem_cons.1 ha' with rfl | ha'
        · exact .inr (hf r hu.2)
        · exact hcur a' ha'
      | rollback i hb hu hd hcur =>
        refine .rollback i hb (List.mem_cons_of_mem _ hu) hd ?_
        intro a' ha' hi
        rcases List.mem_cons.1 ha' with rfl | ha'
        · have := hf i hu
          rw [← hi] at this
          exact absurd this cmp_irrefl
        · exact hcur a' ha' hi
  · intro a' ha' hu
    rcases List.mem_cons.1 ha' with rfl | ha'
    · exact fun q hq => (nomatch hq)
    · exact h.ran a' ha' hu
  · intro a' ha' k hk
    rcases List.mem_cons.1 ha' with rfl | ha'
    · cases hk
    · obtain ⟨g1, g2⟩ := h.undone a' ha' k hk
      refine ⟨g1, fun v hv => ?_⟩
      obtain ⟨w, r, e1, e2, e3, e4, e5, e6⟩ := g2 v hv
      exact ⟨w, r, e1, e2, e3, List.mem_cons_of_mem _ e4, e5, haside e4 e6⟩

theorem split_snoc {α : Type} {xs d1 d2 : List α} {x j : α} (h : xs ++ [x] = d1 ++ j :: d2) :
    (d1 = xs ∧ j = x ∧ d2 = []) ∨ ∃ d2', xs = d1 ++ j :: d2' ∧ d2 = d2' ++ [x] := by
  rcases List.eq_nil_or_concat d2 with rfl | ⟨d2', y, rfl⟩
  · obtain ⟨h1, h2⟩ := List.append_inj' h rfl
    cases h2
    exact .inl ⟨h1.symm, rfl, rfl⟩
  · rw [List.concat_eq_append] at h ⊢
    have h' : xs ++ [x] = (d1 ++ j :: d2') ++ [y] := by rw [h]; simp
    obtain ⟨h1, h2⟩ := List.append_inj' h' rfl
    cases h2
    exact .inr ⟨d2', h1, rfl⟩

theorem inv_complete {S : Setting} {s : Work} (h : Inv S s) (a : Attempt) (hc : a ∈ s.current)
    (hu : a.undo = none) (hq : ∀ q ∈ a.job.requests s.history, q ∈ a.ran)
    (ho : ∀ b ∈ s.others a, compare a.job.commit.ts b.job.commit.ts = .lt) :
    Inv S { s with store := a.job.completion.run s.store, done := s.done ++ [a.job], current := s.others a } := by
  have hjob := h.attempt a hc
  have hlog : ∀ k base w, StoredIn S s.store k base w → StoredIn S (a.job.completion.run s.store) k base w :=
    fun k base w hs => stored_of_ne (fun k base l h1 _ _ e => log_ne_instant h1 e) hs
  have hget : ∀ p, p ≠ instantAt a.job.commit → (a.job.completion.run s.store).get p = s.store.get p :=
    fun p hp => (get_run _ _).trans (if_neg hp)
  have hself : (a.job.completion.run s.store).get (instantAt a.job.commit) = some (.file (.json (.obj a.job.doc))) :=
    (get_run _ _).trans (if_pos rfl)
  have hmem : ∀ j, j ∈ s.done ++ [a.job] → j ∈ s.done ∨ j = a.job := by
    intro j hj
    rcases List.mem_append.1 hj with hj | hj
    · exact .inl hj
    · exact .inr (List.mem_singleton.1 hj)
  have hin : ∀ b ∈ s.others a, b ∈ s.current := fun b hb => (mem_others.1 hb).1
  have hap : ∀ b ∈ s.others a, Apart a.job b.job :=
    fun b hb => h.apart a hc b (mem_others.1 hb).1 (Ne.symm (mem_others.1 hb).2)
  have hver : ∀ b ∈ s.others a, ∀ e ∈ b.job.commit.changes,
      versionAfter (commitsOf (s.done ++ [a.job])) e.1 = versionAfter s.history e.1 :=
    fun b hb e he => version_other (fun e' he' => hap b hb e' he' e he)
  have hor : ∀ b ∈ s.current, b = a ∨ b ∈ s.others a := by
    intro b hb
    by_cases e : b.job.commit.ts = a.job.commit.ts
    · exact .inl (h.one b hb a hc e)
    · exact .inr (mem_others.2 ⟨hb, e⟩)
  have hblock : ∀ {k base w}, (∃ j ∈ s.done, j.commit.ts = base) → BlockOk S s k base w →
      BlockOk S { s with store := a.job.completion.run s.store, done := s.done ++ [a.job], current := s.others a }
        k base w := by
    intro k base w hbj hw
    refine ⟨hw.good, ?_, ?_⟩
    · show BatchesFit S.C (columnsBy (s.done ++ [a.job]) base k) [w]
      rw [columnsBy_append hbj]; exact hw.fit
    · cases hw.origin with
      | done d1 j d2 ls v l hd hk hv hb hl hw ht =>
        exact .done d1 j (d2 ++ [a.job]) ls v l (by show s.done ++ [a.job] = _; rw [hd]; simp) hk hv hb hl hw ht
      | current b ls v l hc' hk hv hb hl hw ht hr =>
        rcases hor b hc' with rfl | hc'
        · exact .done s.done b.job [] ls v l rfl hk hv hb hl hw ht
        · exact .current b ls v l hc' hk ((hver b hc' _ hk).trans hv) hb hl hw ht hr
      | failed i r w' ht hn hir hw hb hr hu hd hcur =>
        refine .failed i r w' ht hn hir (hlog _ _ _ hw) hb hr hu ?_ (fun a' ha' => hcur a' (hin a' ha'))
        intro j hj
        rcases hmem j hj with hj | rfl
        · exact hd j hj
        · exact hcur a hc
      | rollback i hb hu' hd hcur =>
        refine .rollback i hb hu' ?_ (fun a' ha' => hcur a' (hin a' ha'))
        intro j hj
        rcases hmem j hj with hj | rfl
        · exact hd j hj
        · intro e; exact hcur a hc e hu
  refine ⟨run_nodup h.nodup _, ?_, fun b hb => job_mono (h.attempt b (hin b hb)) (ho b hb) (hap b hb),
    fun b hb b' hb' => h.one b (hin b hb) b' (hin b' hb'), fun b hb b' hb' => h.apart b (hin b hb) b' (hin b' hb'), ?_,
    fun b hb => h.usedCurrent b (hin b hb), fun b hb => h.usedUndo b (hin b hb),
    fun b hb r hr k ls hk c hcc => h.undoAside b (hin b hb) r hr k ls hk c (hin c hcc), h.times, ?_, ?_,
    ?_, ?_, ?_, ?_⟩
  · intro d1 j d2 e
    rcases split_snoc e with ⟨rfl, rfl, rfl⟩ | ⟨d2', e', rfl⟩
    · exact hjob
    · exact h.jobs d1 j d2' e'
  · intro j hj
    rcases hmem j hj with hj | rfl
    · exact h.usedDone j hj
    · exact h.usedCurrent a hc
  · intro p x hx
    by_cases hp : p = instantAt a.job.commit
    · subst hp
      rw [show _ = _ from hself] at hx
      cases hx
      exact .instant a.job (by simp)
    · rw [show (a.job.completion.run s.store).get p = s.store.get p from hget p hp] at hx
      cases h.kinds p x hx with
      | unread p x h => exact .unread p x h
      | instant j hj => exact .instant j (by simp [hj])
      | base j k token hj hk => exact .base j k token (by simp [hj]) hk
      | pending b k token ha hk =>
        rcases hor b ha with rfl | ha
        · exact .base b.job k token (by simp) hk
        · exact .pending b k token ha hk
      | log j k token l ws hj hk hl hw =>
        exact .log j k token l ws (by simp [hj]) hk hl (fun w hm => hblock ⟨j, hj, rfl⟩ (hw w hm))
  · intro j hj
    show (a.job.completion.run s.store).get _ = _
    rcases hmem j hj with hj | rfl
    · rw [hget]
      · exact h.instants j hj
      · intro e
        obtain ⟨d1, hjob'⟩ := h.jobOf hj
        have := hjob.later j hj
        rw [(instantAt_inj hjob'.time.1 hjob.time.1 e).1] at this
        exact cmp_irrefl this
    · exact hself
  · intro j hj k token hk
    show (a.job.completion.run s.store).get _ = _
    rcases hmem j hj with hj | rfl
    · obtain ⟨d1, hjob'⟩ := h.jobOf hj
      rw [hget _ (base_ne_instant (job_key hjob' hk))]
      exact h.bases j hj k token hk
    · rw [hget _ (base_ne_instant (job_key hjob hk))]
      exact (h.ran a hc hu _ (hq _ (put_requests hk))).2
  · intro d1 j d2 k ls v l w hd hk hv hl hw
    refine hlog _ _ _ ?_
    rcases split_snoc hd with ⟨rfl, rfl, rfl⟩ | ⟨d2', e, rfl⟩
    · obtain ⟨ws, h1, h2⟩ := (h.ran a hc hu _ (hq _ (append_requests hk hv hl))).2
      exact ⟨job_key hjob hk, (version_key h hv).2, l, ws, hjob.logs k ls hk l hl, h1, h2 w hw⟩
    · exact h.blocks d1 j d2' k ls v l w e hk hv hl hw
  · intro b hb hub q hqb
    obtain ⟨h1, h2⟩ := h.ran b (hin b hb) hub q hqb
    have hjb := h.attempt b (hin b hb)
    refine ⟨?_, took_of_ne ?_ h2⟩
    · show q ∈ b.job.requests (commitsOf (s.done ++ [a.job]))
      rw [requests_congr (h := s.history) (hver b hb)]
      exact h1
    · rcases mem_requests h1 with ⟨k, token, hk, rfl⟩ | ⟨k, ls, v, l, hk, hv, hl, rfl⟩
      · exact base_ne_instant (job_key hjb hk)
      · exact log_ne_instant (job_key hjb hk)
  · intro b hb k hk
    obtain ⟨⟨ls, g1⟩, g2⟩ := h.undone b (hin b hb) k hk
    refine ⟨⟨ls, g1⟩, fun v hv => ?_⟩
    obtain ⟨w, r, e1, e2, e3, e4, e5, e6⟩ := g2 v ((hver b hb _ g1).symm.trans hv)
    exact ⟨w, r, hlog _ _ _ e1, e2, e3, e4, e5, fun c hcc => e6 c (hin c hcc)⟩

theorem inv_recovered {S : Setting} {s : Work} (h : Inv S s) (a : Attempt) (hc : a ∈ s.current)
    (hd : ∀ k token, (k, Change.write token) ∈ a.job.commit.changes →
      s.store.get (baseAt k token a.job.commit.ts) = none)
    (hb : ∀ k ls v l, (k, Change.append ls) ∈ a.job.commit.changes → versionAfter s.history k = some v → l ∈ ls →
      Request.append (logAt k v.base l) (a.job.blocks k l) ∈ a.ran → k ∈ a.undone) :
    Inv S { s with current := s.others a } := by
  have hjob := h.attempt a hc
  have hin : ∀ b ∈ s.others a, b ∈ s.current := fun b hb => (mem_others.1 hb).1
  have hor : ∀ b ∈ s.current, b = a ∨ b ∈ s.others a := by
    intro b hb
    by_cases e : b.job.commit.ts = a.job.commit.ts
    · exact .inl (h.one b hb a hc e)
    · exact .inr (mem_others.2 ⟨hb, e⟩)
  refine ⟨h.nodup, h.jobs, fun b hb => h.attempt b (hin b hb), fun b hb b' hb' => h.one b (hin b hb) b' (hin b' hb'),
    fun b hb b' hb' => h.apart b (hin b hb) b' (hin b' hb'), h.usedDone, fun b hb => h.usedCurrent b (hin b hb),
    fun b hb => h.usedUndo b (hin b hb),
    fun b hb r hr k ls hk c hcc => h.undoAside b (hin b hb) r hr k ls hk c (hin c hcc), h.times, ?_,
    h.instants, h.bases, h.blocks, fun b hb => h.ran b (hin b hb), ?_⟩
  · intro p x hx
    change s.store.get p = some x at hx
    cases h.kinds p x hx with
    | unread p x h => exact .unread p x h
    | instant j hj => exact .instant j hj
    | base j k token hj hk => exact .base j k token hj hk
    | pending b k token ha hk =>
      rcases hor b ha with rfl | ha
      · rw [hd k token hk] at hx; cases hx
      · exact .pending b k token ha hk
    | log j k token l ws hj hk hl hw =>
      refine .log j k token l ws hj hk hl (fun w hm => ⟨(hw w hm).good, (hw w hm).fit, ?_⟩)
      cases (hw w hm).origin with
      | done d1 j d2 ls v l hd hk hv hb hl hw ht => exact .done d1 j d2 ls v l hd hk hv hb hl hw ht
      | current b ls v l hc' hk' hv hb' hl hw ht hr =>
        rcases hor b hc' with rfl | hc'
        · have hun := hb k ls v l hk' hv hl (hb' ▸ hr)
          obtain ⟨w', r', h1, h2, h3, h4, h5, h6⟩ := (h.undone b hc k hun).2 v hv
          refine .failed _ r' w' ht (hjob.blocks k ls v hk' hv l hl w hw).2.2.1 h5 (hb' ▸ h1) h2 h3
            ⟨h.usedCurrent b hc, h4⟩ (fun j hj => .inl (hjob.later j hj)) ?_
          intro c hcc
          rcases h6 c (hin c hcc) with e | e
          · exact absurd e (mem_others.1 hcc).2
          · exact e
        · exact .current b ls v l hc' hk' hv hb' hl hw ht hr
      | failed i r w' ht hn hir hw hb hr hu hd hcur =>
        exact .failed i r w' ht hn hir hw hb hr hu hd (fun a' ha' => hcur a' (hin a' ha'))
      | rollback i hb hu hd hcur => exact .rollback i hb hu hd (fun a' ha' => hcur a' (hin a' ha'))
  · intro b hb k hk
    obtain ⟨g1, g2⟩ := h.undone b (hin b hb) k hk
    refine ⟨g1, fun v hv => ?_⟩
    obtain ⟨w, r, e1, e2, e3, e4, e5, e6⟩ := g2 v hv
    exact ⟨w, r, e1, e2, e3, e4, e5, fun c hcc => e6 c (hin c hcc)⟩

theorem inv_step {S : Setting} {s s' : Work} (h : Inv S s) (hs : WorkStep S s s') : Inv S s' := by
  cases hs with
  | aside q hq => exact inv_aside h q hq
  | begin j hc hf hj => exact inv_begin h j hc hf hj
  | request a q hc hu hq => exact inv_request h a q hc hu hq
  | complete a hc hu hq ho => exact inv_complete h a hc hu hq ho
  | rollback a r hc hf ht hp ho => exact inv_rollback h a r hc hf ht ho
  | delete a r k token hc hu hk => exact inv_delete h a r k token hc hu hk
  | block a r k ls v l w hc hu hk hv hl hg hw hr => exact inv_block h a r k ls v l w hc hu hk hv hl hg hw hr
  | recovered a r hc hu hd hb => exact inv_recovered h a hc hd hb

theorem inv_nothing (S : Setting) : Inv S nothingYet where
  nodup := .nil
  jobs := fun d1 j d2 e => by simp [nothingYet] at e
  attempt := fun _ e => (nomatch e)
  usedDone := fun _ e => (nomatch e)
  usedCurrent := fun _ e => (nomatch e)
  usedUndo := fun _ e => (nomatch e)
  one := fun _ e => (nomatch e)
  apart := fun _ e => (nomatch e)
  undoAside := fun _ e => (nomatch e)
  times := fun _ e => (nomatch e)
  kinds := fun _ _ e => (nomatch e)
  instants := fun _ e => (nomatch e)
  bases := fun _ e => (nomatch e)
  blocks := fun d1 j d2 _ _ _ _ _ e => by simp [nothingYet] at e
  ran := fun _ e => (nomatch e)
  undone := fun _ e => (nomatch e)

theorem inv_works {S : Setting} {s s' : Work} (h : Inv S s) (hs : Works S s s') : Inv S s' := by
  induction hs with
  | refl => exact h
  | step _ hstep ih => exact inv_step ih hstep

/-- Completed writes stay, in their order. -/
theorem done_works {S : Setting} {s s' : Work} (hs : Works S s s') : ∃ more, s'.done = s.done ++ more := by
  induction hs with
  | refl => exact ⟨[], by simp⟩
  | step _ hstep ih =>
    obtain ⟨more, ih⟩ := ih
    cases hstep with
    | complete a hc hu hq ho => exact ⟨more ++ [a.job], by show _ ++ _ = _; rw [ih]; simp⟩
    | _ => exact ⟨more, ih⟩

/-! ## A writer on its own -/

theorem others_alone {s : Work} {a : Attempt} (hc : s.current = [a]) : s.others a = [] := by
  unfold Work.others
  rw [hc]
  simp

section alone
variable {S : Setting} (s : Work)

theorem alone_begin (j : Job) (hc : s.current = []) (hf : Fresh s j.commit.ts) (hj : JobOk S s.done j) :
    WorkStep S s { s with current := [⟨j, [], none, []⟩], used := j.commit.ts :: s.used } := by
  have := WorkStep.begin s j (by rw [hc]; exact fun b hb => nomatch hb) hf hj
  rwa [hc] at this

theorem alone_request (a : Attempt) (q : Request) (hc : s.current = [a]) (hu : a.undo = none)
    (hq : q ∈ a.job.requests s.history) :
    WorkStep S s { s with store := q.run s.store, current := [{ a with ran := q :: a.ran }] } := by
  have := WorkStep.request (S := S) s a q (by rw [hc]; simp) hu hq
  rwa [others_alone hc] at this

theorem alone_complete (a : Attempt) (hc : s.current = [a]) (hu : a.undo = none)
    (hq : ∀ q ∈ a.job.requests s.history, q ∈ a.ran) :
    WorkStep S s { s with store := a.job.completion.run s.store, done := s.done ++ [a.job], current := [] } := by
  have := WorkStep.complete (S := S) s a (by rw [hc]; simp) hu hq
    (by rw [others_alone hc]; exact fun b hb => nomatch hb)
  rwa [others_alone hc] at this

theorem alone_rollback (a : Attempt) (r : Str) (hc : s.current = [a]) (hf : Fresh s r)
    (ht : WriterTimestamp r ∧ r.length = S.width) (hp : ∃ d, parseDatetime S.ltz r S.tz = .ok d) :
    WorkStep S s { s with current := [{ a with undo := some r }], used := r :: s.used } := by
  have := WorkStep.rollback (S := S) s a r (by rw [hc]; simp) hf ht hp
    (by rw [others_alone hc]; exact fun _ _ _ b hb => nomatch hb)
  rwa [others_alone hc] at this

theorem alone_delete (a : Attempt) (r : Str) (k : GroupKey) (token : Str) (hc : s.current = [a])
    (hu : a.undo = some r) (hk : (k, Change.write token) ∈ a.job.commit.changes) :
    WorkStep S s { s with store := (Request.delete (baseAt k token a.job.commit.ts)).run s.store } :=
  .delete s a r k token (by rw [hc]; simp) hu hk

theorem alone_block (a : Attempt) (r : Str) (k : GroupKey) (ls : List (Str × Str)) (v : Version) (l : Str × Str)
    (w : WBlock) (hc : s.current = [a]) (hu : a.undo = some r)
    (hk : (k, Change.append ls) ∈ a.job.commit.changes) (hv : versionAfter s.history k = some v)
    (hl : NamePart l.1 ∧ NamePart l.2) (hg : GoodBlock S.C S.ltz S.tz w) (hw : WrittenBy w r)
    (hr : RollsBack w a.job.commit.ts) :
    WorkStep S s { s with store := (Request.append (logAt k v.base l) [w]).run s.store,
                          current := [{ a with undone := k :: a.undone }] } := by
  have := WorkStep.block s a r k ls v l w (by rw [hc]; simp) hu hk hv hl hg hw hr
  rwa [others_alone hc] at this

theorem alone_recovered (a : Attempt) (r : Str) (hc : s.current = [a]) (hu : a.undo = some r)
    (hd : ∀ k token, (k, Change.write token) ∈ a.job.commit.changes →
      s.store.get (baseAt k token a.job.commit.ts) = none)
    (hb : ∀ k ls v l, (k, Change.append ls) ∈ a.job.commit.changes → versionAfter s.history k = some v → l ∈ ls →
      Request.append (logAt k v.base l) (a.job.blocks k l) ∈ a.ran → k ∈ a.undone) :
    WorkStep S s { s with current := [] } := by
  have := WorkStep.recovered (S := S) s a r (by rw [hc]; simp) hu hd hb
  rwa [others_alone hc] at this

end alone

end Hudi
