import Verif.Spec.WriterChanges
import Verif.Lemmas.RacingWriter
import Verif.Props.Changes
import Verif.Props.Writer

/-! # Lemmas: what writers leave for readers of changes -/

namespace Hudi
open Spec

/-! ## The log files of completed writes -/

/-- The blocks of completed writes are in the log files they are meant for. -/
def Placed (s : Work) : Prop :=
  ∀ d1 j d2 k ls v l, s.done = d1 ++ j :: d2 → (k, Change.append ls) ∈ j.commit.changes →
    versionAfter (commitsOf d1) k = some v → l ∈ ls → Took s.store (.append (logAt k v.base l) (j.blocks k l))

/-- The base file of a version that completed writes left. -/
theorem version_part {S : Setting} {s : Work} (hi : Inv S s) {d1 d2 : List Job} {j : Job} (hd : s.done = d1 ++ j :: d2)
    {k : GroupKey} {v : Version} (hv : versionAfter (commitsOf d1) k = some v) :
    KeyOk S k ∧ WriterTimestamp v.base ∧ ∃ j' ∈ s.done, (k, Change.write v.token) ∈ j'.commit.changes ∧ j'.commit.ts = v.base := by
  obtain ⟨j', hj', hk, ht⟩ := version_job hv
  have hj : j' ∈ s.done := by rw [hd]; simp [hj']
  obtain ⟨e, hjob⟩ := hi.jobOf hj
  exact ⟨job_key hjob hk, ht ▸ hjob.time.1, j', hj, hk, ht⟩

theorem took_grows {S : Setting} {done : List Job} {s' : Work} (hi' : Inv S s') {st : Objects} {k : GroupKey}
    {base : Str} {l : Str × Str} {ws : List WBlock} (hk : KeyOk S k) (hb : WriterTimestamp base)
    (hl : NamePart l.1 ∧ NamePart l.2) (hg : Grows S done st s'.store (logAt k base l))
    (h : Took st (.append (logAt k base l) ws)) : Took s'.store (.append (logAt k base l) ws) := by
  obtain ⟨old, h1, h2⟩ := h
  obtain ⟨⟨more, h3, _⟩, h4⟩ := hg
  obtain ⟨y, hy⟩ := Option.ne_none_iff_exists'.1 (h4 (by rw [h1]; exact (fun e => nomatch e)))
  obtain ⟨ws', rfl, _⟩ := kind_log hi' hk hb hl (hi'.kinds _ _ hy)
  refine ⟨ws', hy, fun w hw => ?_⟩
  have e : ws' = old ++ more := by
    unfold blocksAt at h3
    rw [hy, h1] at h3
    exact h3
  rw [e]
  exact List.mem_append_left _ (h2 w hw)

theorem placed_step {S : Setting} {s s' : Work} (hi : Inv S s) (hp : Placed s) (hs : WorkStep S s s') : Placed s' := by
  have hi' := inv_step hi hs
  have old : ∀ d1 j d2 k ls v l, s.done = d1 ++ j :: d2 → (k, Change.append ls) ∈ j.commit.changes →
      versionAfter (commitsOf d1) k = some v → l ∈ ls → Took s'.store (.append (logAt k v.base l) (j.blocks k l)) := by
    intro d1 j d2 k ls v l hd hk hv hl
    obtain ⟨g1, g2, _⟩ := version_part hi hd hv
    have hn := (hi.jobs d1 j d2 hd).logs k ls hk l hl
    exact took_grows hi' g1 g2 hn (grows_step hi hs g1 g2 hn) (hp d1 j d2 k ls v l hd hk hv hl)
  have same : s'.done = s.done → Placed s' := by
    intro e d1 j d2 k ls v l hd
    rw [e] at hd
    exact old d1 j d2 k ls v l hd
  have hs' := hs
  cases hs with
  | complete a hc hu hq ho =>
    intro d1 j d2 k ls v l hd hk hv hl
    rcases split_snoc hd with ⟨rfl, rfl, rfl⟩ | ⟨d2', e, rfl⟩
    · have hn := (hi.attempt a hc).logs k ls hk l hl
      obtain ⟨g1, g2⟩ := version_key hi hv
      exact took_grows hi' g1 g2 hn (grows_step hi hs' g1 g2 hn) (hi.ran a hc hu _ (hq _ (append_requests hk hv hl))).2
    · exact old d1 j d2' k ls v l e hk hv hl
  | aside q hq => exact same rfl
  | begin j hc hf hj => exact same rfl
  | request a q hc hu hq => exact same rfl
  | rollback a r hc hf ht hp ho => exact same rfl
  | delete a r k token hc hu hk => exact same rfl
  | block a r k ls v l w hc hu hk hv hl hg hw hr => exact same rfl
  | recovered a r hc hu hd hb => exact same rfl

theorem placed_works {S : Setting} {s : Work} (hs : Works S nothingYet s) : Placed s := by
  induction hs with
  | refl => intro d1 j d2 k ls v l hd; simp [nothingYet] at hd
  | step hw hstep ih => exact placed_step (inv_works (inv_nothing S) hw) ih hstep

/-! ## The times of rollbacks -/

/-- When rollback blocks were written: after the write that they roll back, and before later ones. -/
def RollbackTimes (S : Setting) (s : Work) : Prop :=
  ∀ k base w i r, StoredIn S s.store k base w → RollsBack w i → WrittenBy w r → r ∈ s.used ∧ compare i r = .lt ∧
    (∀ j ∈ s.done, compare j.commit.ts i = .lt ∨ compare r j.commit.ts = .lt) ∧
    ∀ a ∈ s.current, (a.job.commit.ts = i ∧ a.undo ≠ none) ∨ compare a.job.commit.ts i = .lt ∨
      compare r a.job.commit.ts = .lt

theorem stored_before {S : Setting} {st : Objects} {q : Request}
    (hq : ∀ k base l, KeyOk S k → WriterTimestamp base → NamePart l.1 ∧ NamePart l.2 → logAt k base l ≠ q.path)
    {k : GroupKey} {base : Str} {w : WBlock} (h : StoredIn S (q.run st) k base w) : StoredIn S st k base w := by
  obtain ⟨h1, h2, l, ws, h3, h4, h5⟩ := h
  rw [get_run, if_neg (hq k base l h1 h2 h3)] at h4
  exact ⟨h1, h2, l, ws, h3, h4, h5⟩

theorem stored_or {S : Setting} {st : Objects} {p : List Str} {more : List WBlock} {k : GroupKey} {base : Str}
    {w : WBlock} (h : StoredIn S ((Request.append p more).run st) k base w) : StoredIn S st k base w ∨ w ∈ more := by
  obtain ⟨h1, h2, l, ws, h3, h4, h5⟩ := h
  rw [get_run] at h4
  by_cases hp : logAt k base l = p
  · rw [if_pos (show _ = (Request.append p more).path from hp)] at h4
    change some (Stored.log ((st.get p).elim [] Stored.blocks ++ more)) = _ at h4
    cases h4
    rcases List.mem_append.1 h5 with h5 | h5
    · left
      cases hg : st.get p with
      | none => rw [hg] at h5; cases h5
      | some y =>
        rw [hg] at h5
        cases y with
        | file c => cases h5
        | log ws => exact ⟨h1, h2, l, ws, h3, by rw [hp]; exact hg, h5⟩
    · exact .inr h5
  · rw [if_neg (show ¬ _ = (Request.append p more).path from hp)] at h4
    exact .inl ⟨h1, h2, l, ws, h3, h4, h5⟩

theorem times_step {S : Setting} {s s' : Work} (hi : Inv S s) (ht : RollbackTimes S s) (hs : WorkStep S s s') :
    RollbackTimes S s' := by
  intro k base w i r hw hb hr
  cases hs with
  | aside q hq =>
    exact ht k base w i r (stored_before (fun k base l h1 h2 h3 e => log_read h1 h2 h3 (e ▸ hq)) hw) hb hr
  | begin j hc hf hj =>
    obtain ⟨h1, h2, h3, h4⟩ := ht k base w i r hw hb hr
    exact ⟨List.mem_cons_of_mem _ h1, h2, h3, fun a ha => by
      rcases List.mem_cons.1 ha with rfl | ha
      · exact .inr (.inr (hf r h1))
      · exact h4 a ha⟩
  | request a q hc hu hq =>
    have hjob := hi.attempt a hc
    have : StoredIn S s.store k base w := by
      rcases mem_requests hq with ⟨k', token, hk', rfl⟩ | ⟨k', ls, v, l', hk', hv, hl', rfl⟩
      · exact stored_before (q := .put (baseAt k' token a.job.commit.ts) (.parquet 1 (a.job.base k')))
          (fun k base l h1 h2 h3 e => base_ne_log (job_key hjob hk') h1 h3 e.symm) hw
      · rcases stored_or hw with hw | hw
        · exact hw
        · exact absurd hb.1 (hjob.blocks k' ls v hk' hv l' hl' w hw).2.2.1
    obtain ⟨h1, h2, h3, h4⟩ := ht k base w i r this hb hr
    refine ⟨h1, h2, h3, fun a' ha' => ?_⟩
    rcases List.mem_cons.1 ha' with rfl | ha'
    · exact h4 a hc
    · exact h4 a' (mem_others.1 ha').1
  | complete a hc hu hq ho =>
    obtain ⟨h1, h2, h3, h4⟩ := ht k base w i r (stored_before (fun k base l h1 _ _ e => log_ne_instant h1 e) hw) hb hr
    refine ⟨h1, h2, fun j hj => ?_, fun a' ha' => h4 a' (mem_others.1 ha').1⟩
    rcases List.mem_append.1 hj with hj | hj
    · exact h3 j hj
    · rw [List.mem_singleton.1 hj]
      exact (h4 a hc).resolve_left (fun h => h.2 hu)
  | rollback a r' hc hf ht' hp ho =>
    obtain ⟨h1, h2, h3, h4⟩ := ht k base w i r hw hb hr
    refine ⟨List.mem_cons_of_mem _ h1, h2, h3, fun a' ha' => ?_⟩
    rcases List.mem_cons.1 ha' with rfl | ha'
    · exact (h4 a hc).imp_left (fun h => ⟨h.1, fun e => (nomatch e)⟩)
    · exact h4 a' (mem_others.1 ha').1
  | delete a r' k' token hc hu hk' =>
    exact ht k base w i r (stored_before (q := .delete (baseAt k' token a.job.commit.ts)) (fun k base l h1 h2 h3 e =>
      base_ne_log (job_key (hi.attempt a hc) hk') h1 h3 e.symm) hw) hb hr
  | block a r' k' ls v l' w' hc hu hk' hv hl' hg hw' hr' =>
    rcases stored_or hw with hw | hw
    · obtain ⟨h1, h2, h3, h4⟩ := ht k base w i r hw hb hr
      refine ⟨h1, h2, h3, fun a' ha' => ?_⟩
      rcases List.mem_cons.1 ha' with rfl | ha'
      · exact h4 a hc
      · exact h4 a' (mem_others.1 ha').1
    · rw [List.mem_singleton.1 hw] at hb hr
      have e1 : i = a.job.commit.ts := by
        have h1 := hb.2
        rw [hr'.2] at h1
        exact (Option.some.inj h1).symm
      have e2 : r = r' := by
        unfold WrittenBy at hr hw'
        rw [hw'] at hr
        exact (Option.some.inj hr).symm
      subst e1 e2
      obtain ⟨g1, g2⟩ := hi.usedUndo a hc r hu
      refine ⟨g1, g2, fun j hj => .inl ((hi.attempt a hc).later j hj), fun a' ha' => ?_⟩
      rcases List.mem_cons.1 ha' with rfl | ha'
      on_goal 2 =>
        obtain ⟨e1, e2⟩ := mem_others.1 ha'
        exact .inr ((hi.undoAside a hc r hu k' ls hk' a' e1).resolve_left e2)
      exact .inl ⟨rfl, by show a.undo ≠ none; rw [hu]; exact (fun e => nomatch e)⟩
  | recovered a r' hc hu hd hb' =>
    obtain ⟨h1, h2, h3, h4⟩ := ht k base w i r hw hb hr
    exact ⟨h1, h2, h3, fun a' ha' => h4 a' (mem_others.1 ha').1⟩

theorem times_works {S : Setting} {s : Work} (hs : Works S nothingYet s) : RollbackTimes S s := by
  induction hs with
  | refl => rintro k base w i r ⟨_, _, l, ws, _, h, _⟩; cases h
  | step hw hstep ih => exact times_step (inv_works (inv_nothing S) hw) ih hstep

/-! ## The same without the objects that may go -/

theorem stored_lasting {S : Setting} {s : Work} (hi : Inv S s) {k : GroupKey} {base : Str} {w : WBlock}
    (h : StoredIn S (lasting S s).store k base w) : StoredIn S s.store k base w := by
  obtain ⟨h1, h2, l, ws, h3, h4, h5⟩ := h
  exact ⟨h1, h2, l, ws, h3, ((get_lasting hi).1 h4).1, h5⟩

theorem placed_lasting {S : Setting} {s : Work} (hi : Inv S s) (h : Placed s) : Placed (lasting S s) := by
  intro d1 j d2 k ls v l hd hk hv hl
  obtain ⟨ws, h1, h2⟩ := h d1 j d2 k ls v l hd hk hv hl
  obtain ⟨g1, g2, _⟩ := version_part hi hd hv
  exact ⟨ws, (get_lasting hi).2 ⟨h1, log_lasts hi g1 g2 ((hi.jobs d1 j d2 hd).logs k ls hk l hl)⟩, h2⟩

theorem times_lasting {S : Setting} {s : Work} (hi : Inv S s) (h : RollbackTimes S s) :
    RollbackTimes S (lasting S s) := by
  intro k base w i r hw hb hr
  obtain ⟨h1, h2, h3, h4⟩ := h k base w i r (stored_lasting hi hw) hb hr
  refine ⟨h1, h2, h3, fun a' ha' => ?_⟩
  obtain ⟨a, g1, g2, g3, _⟩ := current_lasting ha'
  rw [g2, g3]
  exact h4 a g1

theorem inPlace_lasting {S : Setting} {s : Work} (hi : Inv S s) (h : RollbacksInPlace s) :
    RollbacksInPlace (lasting S s) := by
  intro p ws w i hp hw hn ht
  rcases h p ws w i ((get_lasting hi).1 hp).1 hw hn ht with h | ⟨a, h1, h2⟩ | h
  · exact .inl h
  · obtain ⟨a', g1, g2, _⟩ := (goes_lasting hi).fwd a h1
    exact .inr (.inl ⟨a', g1, by rw [g2]; exact h2⟩)
  · exact .inr (.inr h)

/-! ## What the log files of the commits hold -/

theorem logPath_segs {S : Setting} {k : GroupKey} {base : Str} {l : Str × Str} (hk : KeyOk S k)
    (hb : WriterTimestamp base) (hl : NamePart l.1 ∧ NamePart l.2) :
    pathSegs (logPathOf k base l) = logAt k base l := by
  unfold logPathOf
  rw [pathSegs_pathPush (log_normal hk.2 (digits_part hb) hl.1 hl.2)]
  rfl

/-- What is known of a log file that a commit appended to. -/
structure CommitLog (S : Setting) (s : Work) (k : GroupKey) (base : Str) (l : Str × Str) (d1 : List Job) (j : Job)
    (d2 : List Job) (ls : List (Str × Str)) (v : Version) (ws : List WBlock) : Prop where
  split : s.done = d1 ++ j :: d2
  change : (k, Change.append ls) ∈ j.commit.changes
  mem : l ∈ ls
  version : versionAfter (commitsOf d1) k = some v
  against : v.base = base
  key : KeyOk S k
  time : WriterTimestamp base
  parts : NamePart l.1 ∧ NamePart l.2
  segs : pathSegs (logPathOf k base l) = logAt k base l
  file : s.store.get (logAt k base l) = some (.log ws)
  held : heldIn s (logPathOf k base l) = ws
  own : ∀ w ∈ j.blocks k l, w ∈ ws

theorem commit_log {S : Setting} {s : Work} (hi : Inv S s) (hp : Placed s) {k : GroupKey} {base : Str}
    {l : Str × Str} {c : HCommit} (h : AppendsTo s.history k base l c) :
    ∃ d1 j d2 ls v ws, CommitLog S s k base l d1 j d2 ls v ws ∧ j.commit = c := by
  obtain ⟨h1, h2, ls, v, e1, e2, e3, e4, rfl⟩ := h
  obtain ⟨d1, j, d2, hd, rfl, rfl, _⟩ := split_commits e1
  obtain ⟨g1, g2, _⟩ := version_part hi hd e4
  have hn := (hi.jobs d1 j d2 hd).logs k ls e2 l e3
  obtain ⟨ws, h3, h4⟩ := hp d1 j d2 k ls v l hd e2 e4 e3
  have hs := logPath_segs g1 g2 hn
  refine ⟨d1, j, d2, ls, v, ws, ⟨hd, e2, e3, e4, rfl, g1, g2, hn, hs, h3, ?_, h4⟩, rfl⟩
  unfold heldIn
  rw [hs, h3]
  rfl

theorem CommitLog.appends {S : Setting} {s : Work} {k : GroupKey} {base : Str} {l : Str × Str} {d1 : List Job} {j : Job}
    {d2 : List Job} {ls : List (Str × Str)} {v : Version} {ws : List WBlock}
    (h : CommitLog S s k base l d1 j d2 ls v ws) {l' : Str × Str} (hl : l' ∈ ls) :
    AppendsTo s.history k base l' j.commit :=
  ⟨commitsOf d1, commitsOf d2, ls, v, by unfold Work.history; rw [h.split, commitsOf_append]; rfl, h.change, hl,
    h.version, h.against⟩

theorem CommitLog.stored {S : Setting} {s : Work} {k : GroupKey} {base : Str} {l : Str × Str} {d1 : List Job} {j : Job}
    {d2 : List Job} {ls : List (Str × Str)} {v : Version} {ws : List WBlock}
    (h : CommitLog S s k base l d1 j d2 ls v ws) {w : WBlock} (hw : w ∈ ws) : StoredIn S s.store k base w :=
  ⟨h.key, h.time, l, ws, h.parts, h.file, hw⟩

theorem blockOf_stored {S : Setting} {s : Work} (hi : Inv S s) (hp : Placed s) {k : GroupKey} {base : Str}
    {w : WBlock} (h : BlockOf s.history (heldIn s) k base w) : StoredIn S s.store k base w := by
  obtain ⟨l, c, h1, h2⟩ := h
  obtain ⟨d1, j, d2, ls, v, ws, hc, _⟩ := commit_log hi hp h1
  rw [hc.held] at h2
  exact hc.stored h2

theorem written_unique {w : WBlock} {i i' : Str} (h : WrittenBy w i) (h' : WrittenBy w i') : i = i' := by
  unfold WrittenBy at h h'
  rw [h] at h'
  exact Option.some.inj h'

theorem rollsBack_unique {w : WBlock} {i i' : Str} (h : RollsBack w i) (h' : RollsBack w i') : i = i' := by
  have h1 := h.2
  rw [h'.2] at h1
  exact (Option.some.inj h1).symm

/-- A block dated by a completed write is one of its blocks, in the log file it is meant for. -/
theorem dated_block {S : Setting} {s : Work} (hi : Inv S s) (hp : Placed s) (hrt : RollbackTimes S s) {k : GroupKey} {base : Str}
    {w : WBlock} (h : StoredIn S s.store k base w) {j : Job} (hj : j ∈ s.done) (ht : WrittenBy w j.commit.ts) :
    ∃ l, AppendsTo s.history k base l j.commit ∧ w ∈ j.blocks k l ∧ w ∈ heldIn s (logPathOf k base l) := by
  cases (stored_ok hi h).origin with
  | done d1 j' d2 ls v l hd' hk' hv' hb' hl hw' ht' =>
    obtain rfl : j' = j := hi.unique (by rw [hd']; simp) hj (written_unique ht' ht)
    have hap : AppendsTo s.history k base l j'.commit :=
      ⟨commitsOf d1, commitsOf d2, ls, v, by unfold Work.history; rw [hd', commitsOf_append]; rfl, hk', hl, hv', hb'⟩
    obtain ⟨e1, j2, e2, ls', v', ws, hc, e⟩ := commit_log hi hp hap
    have : j2 = j' := hi.unique (by rw [hc.split]; simp) hj (by rw [e])
    subst this
    exact ⟨l, hap, hw', by rw [hc.held]; exact hc.own w hw'⟩
  | current a ls' v'' l hc hk' hv' hb' hl hw' ht' _ =>
    have := (hi.attempt a hc).later j hj
    rw [written_unique ht' ht] at this
    exact absurd this cmp_irrefl
  | failed i' r' w' ht' hn hir hw' hb' hr' hu hdn hc =>
    have e := written_unique ht' ht
    rcases hdn j hj with hlt | hlt
    · rw [e] at hlt
      exact absurd hlt cmp_irrefl
    · rw [e] at hir
      exact absurd (cmp_trans hir hlt) cmp_irrefl
  | rollback i' hb' hu hdn hc =>
    obtain ⟨_, h2, h3, _⟩ := hrt k base w i' _ h hb' ht
    rcases h3 j hj with h3 | h3
    · exact absurd (cmp_trans h2 h3) cmp_irrefl
    · exact absurd h3 cmp_irrefl

/-- The files of a state: the base files, the log files that completed writes appended to, and their blocks. -/
theorem stores_files {S : Setting} {s : Work} (hi : Inv S s) (hp : Placed s) :
    (∀ c ∈ s.history, ∀ k token, (k, Change.write token) ∈ c.changes →
      ParquetAt s.tree (basePathOf k token c.ts) ⟨columnsBy s.done c.ts k, (rowsOf s.done).base c.ts k⟩ ∧
      (⟨columnsBy s.done c.ts k, (rowsOf s.done).base c.ts k⟩ : Batch).WF) ∧
    (∀ k base l c, AppendsTo s.history k base l c →
      LogAt S.C s.tree (logPathOf k base l) (heldIn s (logPathOf k base l))) ∧
    (∀ k base w, BlockOf s.history (heldIn s) k base w →
      GoodBlock S.C S.ltz S.tz w ∧ BatchesFit S.C (columnsBy s.done base k) [w]) ∧
    ∀ k base w i, BlockOf s.history (heldIn s) k base w → RollsBack w i → ∀ c ∈ s.history, c.ts ≠ i := by
  have hat : ∀ j ∈ s.done, jobAt s.done j.commit.ts = some j :=
    fun j hj => jobAt_mem (fun j hj j' hj' => hi.unique hj hj') hj
  refine ⟨?_, ?_, ?_, ?_⟩
  · intro c hc k token hk
    obtain ⟨j, hj, rfl⟩ := mem_commitsOf.1 hc
    obtain ⟨d1, hjob⟩ := hi.jobOf hj
    have e : (⟨columnsBy s.done j.commit.ts k, (rowsOf s.done).base j.commit.ts k⟩ : Batch) = j.base k := by
      simp [columnsBy, rowsOf, hat j hj]
    obtain ⟨b1, _⟩ := hjob.batches k token hk
    rw [e]
    refine ⟨⟨1, 1, (j.base k).schema, ?_⟩, b1⟩
    have hp : pathSegs (basePathOf k token j.commit.ts) = baseAt k token j.commit.ts := by
      unfold basePathOf
      rw [pathSegs_pathPush (base_normal (hjob.ids _ hk) (hjob.tokens _ _ hk) (digits_part hjob.time.1))]
      rfl
    rw [hp]
    exact hi.fileAt (by simp [baseAt, inPartition]) (hi.bases j hj k token hk)
  · intro k base l c h
    obtain ⟨d1, j, d2, ls, v, ws, hc, _⟩ := commit_log hi hp h
    rw [hc.held]
    refine ⟨1, .bytes (logBytes ws), ?_, rfl⟩
    rw [hc.segs]
    exact hi.fileAt (by simp [logAt, inPartition]) hc.file
  · intro k base w h
    have hok := stored_ok hi (blockOf_stored hi hp h)
    exact ⟨hok.good, hok.fit⟩
  · intro k base w i h hr c hc e
    obtain ⟨j, hj, rfl⟩ := mem_commitsOf.1 hc
    cases (stored_ok hi (blockOf_stored hi hp h)).origin with
    | done d1 j' d2 ls v' l hd' hk' hv' hb' hl hw' ht =>
      exact ((hi.jobs d1 j' d2 hd').blocks k ls v' hk' hv' l hl w hw').2.2.1 hr.1
    | current a ls v' l hc hk' hv' hb' hl hw' ht _ =>
      exact ((hi.attempt a hc).blocks k ls v' hk' hv' l hl w hw').2.2.1 hr.1
    | failed i' r w' ht hn => exact hn hr.1
    | rollback i' hb' hu hdn hc => exact hdn j hj (by rw [e]; exact rollsBack_unique hr hb')

theorem stores_evolving {S : Setting} {s : Work} (hov : OverwritesWithLatest S.o) (hi : Inv S s) (hp : Placed s) (hrt : RollbackTimes S s) :
    StoresEvolving S.C S.ltz S.tz (columnsBy s.done) s.tree s.history (rowsOf s.done) (heldIn s) := by
  have hat : ∀ j ∈ s.done, jobAt s.done j.commit.ts = some j :=
    fun j hj => jobAt_mem (fun j hj j' hj' => hi.unique hj hj') hj
  obtain ⟨p1, p2, p3, p4⟩ := stores_files hi hp
  refine ⟨?_, p2, p3, p4, ?_, ?_⟩
  · intro c hc k token hk
    refine ⟨(p1 c hc k token hk).1, (p1 c hc k token hk).2, ?_⟩
    obtain ⟨j, hj, rfl⟩ := mem_commitsOf.1 hc
    obtain ⟨d1, hjob⟩ := hi.jobOf hj
    have e1 : columnsBy s.done j.commit.ts k = (j.base k).schema := by simp [columnsBy, hat j hj]
    have e2 : (rowsOf s.done).base j.commit.ts k = (j.base k).rows := by simp [rowsOf, hat j hj]
    rw [e1, e2]
    exact ((hjob.batches k token hk).2 hov).1
  · intro k base l c hap r
    obtain ⟨d1, j, d2, ls, v, ws, hc, rfl⟩ := commit_log hi hp hap
    have hj : j ∈ s.done := by rw [hc.split]; simp
    have hjob := hi.jobs d1 j d2 hc.split
    have e : (rowsOf s.done).appended j.commit.ts k = j.appended k := by simp [rowsOf, hat j hj]
    rw [e, hjob.rows k ls hc.change r]
    constructor
    · rintro ⟨l', hl', w, hw, bs, hdec, hrow⟩
      have hap' := hc.appends hl'
      have ht := (hjob.blocks k ls v hc.change hc.version l' hl' w hw).2.1
      obtain ⟨e1, j2, e2, ls', v', ws', hc', e⟩ := commit_log hi hp hap'
      have : j2 = j := hi.unique (by rw [hc'.split]; simp) hj (by rw [e])
      subst this
      exact ⟨w, bs, ⟨l', _, hap', by rw [hc'.held]; exact hc'.own w hw⟩, ht, hdec, hrow⟩
    · rintro ⟨w, bs, hw, ht, hdec, hrow⟩
      obtain ⟨l', h1, h2, _⟩ := dated_block hi hp hrt (blockOf_stored hi hp hw) hj ht
      obtain ⟨e1, j2, e2, ls', v', ws', hc', e⟩ := commit_log hi hp h1
      have : j2 = j := hi.unique (by rw [hc'.split]; simp) hj (by rw [e])
      subst this
      have h3 := (changeOf_iff hjob.once).2 hc.change
      rw [(changeOf_iff hjob.once).2 hc'.change] at h3
      cases h3
      exact ⟨l', hc'.mem, w, h2, bs, hdec, hrow⟩
  · intro c hc k hk
    obtain ⟨j, hj, rfl⟩ := mem_commitsOf.1 hc
    obtain ⟨d1, hjob⟩ := hi.jobOf hj
    have e : (rowsOf s.done).appended j.commit.ts k = j.appended k := by simp [rowsOf, hat j hj]
    rw [e, List.eq_nil_iff_forall_not_mem]
    intro r hr
    obtain ⟨l, hl, _⟩ := (hjob.rows k [] hk r).1 hr
    cases hl

theorem dated_evolving {S : Setting} {s : Work} (hi : Inv S s) (hp : Placed s) (hrt : RollbackTimes S s)
    (hdoc : AllDocumented s.done) : DatedEvolving (columnsBy s.done) s.history (rowsOf s.done) (heldIn s) := by
  have hat : ∀ j ∈ s.done, jobAt s.done j.commit.ts = some j :=
    fun j hj => jobAt_mem (fun j hj j' hj' => hi.unique hj hj') hj
  constructor
  · intro k base l c hap w hw ht
    obtain ⟨d1, j, d2, ls, v, ws, hc, rfl⟩ := commit_log hi hp hap
    have hj : j ∈ s.done := by rw [hc.split]; simp
    obtain ⟨l', h1, _, h3⟩ := dated_block hi hp hrt (blockOf_stored hi hp hw) hj ht
    exact ⟨l', h1, h3⟩
  · intro k base l c hap r hr
    obtain ⟨d1, j, d2, ls, v, ws, hc, rfl⟩ := commit_log hi hp hap
    have hj : j ∈ s.done := by rw [hc.split]; simp
    have e : (rowsOf s.done).appended j.commit.ts k = j.appended k := by simp [rowsOf, hat j hj]
    rw [e] at hr
    have h1 := (hdoc d1 j d2 hc.split).dated k ls v hc.change hc.version r hr
    obtain ⟨j', hj', _, ht⟩ := version_job hc.version
    rw [hc.split, ← hc.against, columnsBy_append ⟨j', hj', ht⟩]
    exact h1

/-- Pending changes depend on the log files that the commits appended to only. -/
theorem pendingChange_congr {C : Codec} {ltz : LocalTz} {tz start stop : Str} {h : History}
    {held held' : Str → List WBlock}
    (k : GroupKey) (he : ∀ v, tableAt h stop k = some v → ∀ l c, AppendsTo h k v.base l c →
      held (logPathOf k v.base l) = held' (logPathOf k v.base l)) (r : List Cell) :
    PendingChange C ltz tz start stop h held k r ↔ PendingChange C ltz tz start stop h held' k r := by
  have hs : ∀ v, tableAt h stop k = some v → ∀ w,
      SpanBlock h start stop held k v.base w ↔ SpanBlock h start stop held' k v.base w := by
    intro v hv w
    constructor
    · rintro ⟨l, c, h1, h2, h3⟩
      exact ⟨l, c, h1, h2, he v hv _ _ h1 ▸ h3⟩
    · rintro ⟨l, c, h1, h2, h3⟩
      exact ⟨l, c, h1, h2, (he v hv _ _ h1).symm ▸ h3⟩
  constructor
  · rintro ⟨v, w, bs, hv, ⟨h1, h2, h3, h4⟩, h⟩
    exact ⟨v, w, bs, hv, ⟨(hs v hv _).1 h1, h2, h3, fun w' i h => h4 w' i ((hs v hv _).2 h)⟩, h⟩
  · rintro ⟨v, w, bs, hv, ⟨h1, h2, h3, h4⟩, h⟩
    exact ⟨v, w, bs, hv, ⟨(hs v hv _).2 h1, h2, h3, fun w' i h => h4 w' i ((hs v hv _).1 h)⟩, h⟩

theorem blocksAt_lasting {S : Setting} {s : Work} (hi : Inv S s) (hp : Placed s) {k : GroupKey} {base : Str}
    {l : Str × Str} {c : HCommit} (h : AppendsTo s.history k base l c) :
    heldIn (lasting S s) (logPathOf k base l) = s.blocksAt (logPathOf k base l) := by
  obtain ⟨d1, j, d2, ls, v, ws, hc, _⟩ := commit_log hi hp h
  have h1 := (get_lasting hi).2 ⟨hc.file, log_lasts hi hc.key hc.time hc.parts⟩
  unfold heldIn Work.blocksAt
  rw [hc.segs, h1, hc.file]

/-- In the span that ends with a completed write no write is pending in the log files of a version, if rollbacks are
recorded there. -/
theorem no_pending_at {S : Setting} {s : Work} (hmono : MonotoneTz S.ltz) (hsec : WholeSecondsTz S.ltz) (hi : Inv S s)
    (hp : Placed s) (hrt : RollbackTimes S s) {k : GroupKey} {base : Str}
    (hin : ∀ l ws w i, (NamePart l.1 ∧ NamePart l.2) → s.store.get (logAt k base l) = some (.log ws) → w ∈ ws →
      ¬ IsRollback w → WrittenBy w i → (∃ j ∈ s.done, j.commit.ts = i) ∨ (∃ a ∈ s.current, a.job.commit.ts = i) ∨ ∃ w' ∈ ws, RollsBack w' i)
    {j0 : Job} (hj0 : j0 ∈ s.done) {start : Str}
    (hs : WriterTimestamp start ∧ start.length = S.width) (hps : ∃ d, parseDatetime S.ltz start S.tz = .ok d) :
    ∀ w i, SpanBlock s.history start j0.commit.ts (heldIn s) k base w → WrittenBy w i →
      WrittenIn S.ltz S.tz start j0.commit.ts w → IsRollback w ∨ (∃ l c, AppendsTo s.history k base l c ∧ c.ts = i) ∨
      ∃ w', SpanBlock s.history start j0.commit.ts (heldIn s) k base w' ∧ RollsBack w' i ∧
        WrittenIn S.ltz S.tz start j0.commit.ts w' := by
  obtain ⟨b0, hjob0⟩ := hi.jobOf hj0
  obtain ⟨de, hde⟩ := hjob0.parses
  obtain ⟨ds, hds⟩ := hps
  have span : ∀ w' u, GoodBlock S.C S.ltz S.tz w' → WrittenBy w' u → u ∈ s.used →
      (WrittenIn S.ltz S.tz start j0.commit.ts w' ↔
        compare start u = .lt ∧ (compare u j0.commit.ts).isLE = true) := by
    intro w' u hg hw' hu
    obtain ⟨g1, g2⟩ := hi.times u hu
    exact writtenIn_iff (c := ⟨u, .commit, []⟩) hmono hsec g1 hs.1 hjob0.time.1 (by show u.length = _; rw [g2, hs.2])
      (by show u.length = _; rw [g2, hjob0.time.2]) hds hde hg.time hw'
  intro w i ⟨l, c, hap, hc, hw⟩ ht hspan
  obtain ⟨d1, j, d2, ls, v, ws, hcl, rfl⟩ := commit_log hi hp hap
  rw [hcl.held] at hw
  have hst := hcl.stored hw
  have hok := stored_ok hi hst
  cases hok.origin with
  | done d1 j' d2 ls v l hd' hk' hv' hb' hl hw' ht' =>
    exact .inr (.inl ⟨l, j'.commit, ⟨commitsOf d1, commitsOf d2, ls, v,
      by unfold Work.history; rw [hd', commitsOf_append]; rfl, hk', hl, hv', hb'⟩, written_unique ht' ht⟩)
  | current a ls' v'' l hc hk' hv' hb' hl hw' ht' _ =>
    exfalso
    have h1 := ((span w _ hok.good ht' (hi.usedCurrent a hc)).1 hspan).2
    have h2 := (hi.attempt a hc).later j0 hj0
    exact cmp_irrefl (Std.TransCmp.lt_of_lt_of_isLE h2 h1)
  | failed i' r' w' ht' hn hir hw' hb' hr' hu hdn hc =>
    obtain rfl := written_unique ht' ht
    right; right
    have hsp := (span w _ hok.good ht' hu.1).1 hspan
    obtain ⟨w2, h1, h2⟩ : ∃ w' ∈ ws, RollsBack w' i' := by
      rcases hin _ ws w i' hcl.parts hcl.file hw hn ht' with ⟨j', hj', e⟩ | ⟨a, ha, e⟩ | h
      · exfalso
        rcases hdn j' hj' with h | h
        · rw [e] at h; exact cmp_irrefl h
        · rw [e] at h; exact cmp_irrefl (cmp_trans hir h)
      · exfalso
        have h := hc a ha
        rw [e] at h
        exact h.elim (fun h => cmp_irrefl h) (fun h => cmp_irrefl (cmp_trans hir h))
      · exact h
    have hst2 := hcl.stored h1
    have hg2 := (stored_ok hi hst2).good
    obtain ⟨r2, d2', ht2, _⟩ := hg2.time
    obtain ⟨g1, g2, g3, _⟩ := hrt k base w2 i' r2 hst2 h2 ht2
    refine ⟨w2, ⟨l, j.commit, hap, ‹_›, by rw [hcl.held]; exact h1⟩, h2, (span w2 r2 hg2 ht2 g1).2 ⟨cmp_trans hsp.1 g2, ?_⟩⟩
    rcases g3 j0 hj0 with h | h
    · exact absurd (Std.TransCmp.lt_of_lt_of_isLE h hsp.2) cmp_irrefl
    · rw [h]; rfl
  | rollback i' hb' hu hdn hc => exact .inl hb'.1

/-- In the span that ends with a completed write no write is pending. -/
theorem no_pending {S : Setting} {s : Work} (hmono : MonotoneTz S.ltz) (hsec : WholeSecondsTz S.ltz) (hi : Inv S s)
    (hp : Placed s) (hrt : RollbackTimes S s) (hin : RollbacksInPlace s) {j0 : Job} (hj0 : j0 ∈ s.done) {start : Str}
    (hs : WriterTimestamp start ∧ start.length = S.width) (hps : ∃ d, parseDatetime S.ltz start S.tz = .ok d) :
    NoPendingInSpan S.ltz S.tz start j0.commit.ts s.history (heldIn s) :=
  fun _ _ => no_pending_at hmono hsec hi hp hrt (fun _ _ _ _ _ => hin _ _ _ _) hj0 hs hps

theorem docs_stored {S : Setting} {s : Work} (hi : Inv S s) (hdoc : AllDocumented s.done) :
    StoresDocs s.tree s.history := by
  constructor
  · intro h1 c h2 e k ls hk
    obtain ⟨d1, j, d2, hd, rfl, rfl, _⟩ := split_commits e
    exact (hi.jobs d1 j d2 hd).live k ls hk
  · intro h1 c h2 e
    obtain ⟨d1, j, d2, hd, rfl, rfl, _⟩ := split_commits e
    obtain ⟨ws, g1, g2, g3⟩ := (hdoc d1 j d2 hd).document
    exact ⟨j.doc, 1, ws, hi.fileAt (p := instantAt j.commit) (by simp [instantAt]) (hi.instants j (by rw [hd]; simp)),
      g1, g2, fun ha => ((hi.jobs d1 j d2 hd).document ha).1, g3⟩

theorem knows_lasting {S : Setting} {s : Work} (hi : Inv S s) :
    Knows S.ltz S.tz s.tree (lasting S s).tree s.history := by
  have hi' := inv_lasting hi
  refine ⟨timelineNames_normal hi.treeWF, hi.timeline, ?_⟩
  intro c hc ha
  obtain ⟨j, hj, rfl⟩ := mem_commitsOf.1 hc
  obtain ⟨d1, hjob⟩ := hi.jobOf hj
  exact ⟨j.doc, 1, hi'.fileAt (p := instantAt j.commit) (by simp [instantAt]) (hi'.instants j hj),
    (hjob.document ha).2⟩

/-- Later the base files are as they were, and blocks appended to log files are later ones. -/
theorem files_after {S : Setting} {s0 s : Work} (hmono : MonotoneTz S.ltz) (hsec : WholeSecondsTz S.ltz)
    (hi0 : Inv S s0) (hs : Works S s0 s) {j0 : Job} (hj0 : j0 ∈ s0.done) :
    (∀ path b, ParquetAt (lasting S s0).tree path b → ParquetAt s.tree path b) ∧
    ∀ path ws, LogAt S.C (lasting S s0).tree path ws → ∃ more, LogAt S.C s.tree path (ws ++ more) ∧
      ∀ w ∈ more, GoodBlock S.C S.ltz S.tz w ∧ WrittenAfter S.ltz S.tz j0.commit.ts w := by
  have hi := inv_works hi0 hs
  have hi' := inv_lasting hi0
  obtain ⟨more, hd⟩ := done_works hs
  have hsub : ∀ j ∈ s0.done, j ∈ s.done := fun j hj => by rw [hd]; simp [hj]
  obtain ⟨d1, hjob0⟩ := hi0.jobOf hj0
  refine ⟨?_, ?_⟩
  · rintro path b ⟨size, n, footer, h⟩
    exact ⟨size, n, footer, lasting_parquet hi0 hi hd h⟩
  · rintro path ws ⟨size, c, h1, h2⟩
    have hp : pathSegs path ≠ [] := by intro e; rw [e] at h1; cases h1
    have h1' := h1
    change (treeOf _).fileAt _ = _ at h1'
    rw [fileAt_treeOf hi'.paths.nonempty hp] at h1'
    obtain ⟨x, hx, e⟩ := Option.map_eq_some_iff.1 h1'
    have same : ∀ y, s.store.get (pathSegs path) = some y → y = x →
        ∃ more, LogAt S.C s.tree path (ws ++ more) ∧
          ∀ w ∈ more, GoodBlock S.C S.ltz S.tz w ∧ WrittenAfter S.ltz S.tz j0.commit.ts w := by
      rintro y hy rfl
      refine ⟨[], ⟨size, c, ?_, by rw [List.append_nil]; exact h2⟩, by simp⟩
      rw [hi.fileAt hp hy, ← h1, hi'.fileAt hp hx]
    rcases lasting_kind hi0 hx with ⟨j, hj, e1, rfl⟩ | ⟨j, hj, k, token, hk, e1, rfl⟩ |
        ⟨j, hj, k, token, l, ws0, hk, hl, e1, rfl⟩
    · exact same _ (by rw [e1]; exact hi.instants j (hsub j hj)) rfl
    · exact same _ (by rw [e1]; exact hi.bases j (hsub j hj) k token hk) rfl
    · obtain ⟨b1, hjob⟩ := hi0.jobOf hj
      have hkey := job_key hjob hk
      obtain ⟨⟨new, g1, g2⟩, g3⟩ := grows_works hi0 hs hkey hjob.time.1 hl
      have hx0 := ((get_lasting hi0).1 hx).1
      rw [e1] at hx0
      obtain ⟨y, hy⟩ := Option.ne_none_iff_exists'.1 (g3 (by rw [hx0]; exact (fun e => nomatch e)))
      obtain ⟨ws', rfl, _⟩ := kind_log hi hkey hjob.time.1 hl (hi.kinds _ _ hy)
      have e3 : ws' = ws0 ++ new := by
        unfold blocksAt at g1
        rw [hy, hx0] at g1
        exact g1
      cases e
      have e4 : logBytes ws0 = logBytes ws := h2
      refine ⟨new, ⟨1, .bytes (logBytes ws'), ?_, ?_⟩, fun w hw => later_after hmono hsec hj0 hjob0 (g2 w hw)⟩
      · rw [e1]
        exact hi.fileAt (by simp [logAt, inPartition]) hy
      · show logBytes ws' = _
        rw [e3]
        simp only [logBytes, List.flatMap_append] at e4 ⊢
        rw [e4]

/-- At every later moment the storage is as writers may leave it while changes are read. -/
theorem meanwhileAfter_works {S : Setting} {s0 s : Work} (hmono : MonotoneTz S.ltz) (hsec : WholeSecondsTz S.ltz)
    (hi0 : Inv S s0) (hs : Works S s0 s) {j0 : Job} (hj0 : j0 ∈ s0.done) {tl : Timeline}
    (htl : ∀ i ∈ tl.completed, ∃ c ∈ s0.history, ∃ d, parseDatetime S.ltz c.ts S.tz = .ok d ∧
      i = ⟨c.ts, c.action, .completed, d.epochMillis⟩) {ss : List FileSlice} :
    MeanwhileAfter S.C S.ltz S.tz S.o j0.commit.ts tl (lasting S s0).tree ss s.tree := by
  obtain ⟨h1, h2⟩ := files_after hmono hsec hi0 hs hj0
  exact ⟨(meanwhile_works hmono hsec hi0 hs hj0 htl).docs, fun s _ b => h1 _ b, fun _ s _ l _ ws h _ => h2 _ ws h⟩

end Hudi
