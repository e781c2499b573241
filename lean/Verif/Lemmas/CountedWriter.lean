import Verif.Lemmas.Counted
import Verif.Lemmas.WriterChanges
import Verif.Props.RacingWriter

/-! # Writers that append once -/

namespace Hudi
open Spec

/-- The log files written against a base file hold, of the blocks of a completed write, each as often as it was to be
written. -/
def DoneOnce (s : Work) : Prop :=
  ∀ d1 j d2 k ls v l, s.done = d1 ++ j :: d2 → (k, Change.append ls) ∈ j.commit.changes →
    versionAfter (commitsOf d1) k = some v → NamePart l.1 ∧ NamePart l.2 →
    blocksBy j.commit.ts (blocksAt s.store (logAt k v.base l)) = if l ∈ ls then j.blocks k l else []

open Classical in
/-- The same of writes that have begun, as far as their requests have been made. -/
def CurrentOnce (s : Work) : Prop :=
  ∀ a ∈ s.current, ∀ k ls v l, (k, Change.append ls) ∈ a.job.commit.changes → versionAfter s.history k = some v →
    NamePart l.1 ∧ NamePart l.2 → blocksBy a.job.commit.ts (blocksAt s.store (logAt k v.base l)) =
      if l ∈ ls ∧ Request.append (logAt k v.base l) (a.job.blocks k l) ∈ a.ran then a.job.blocks k l else []

theorem blocksBy_append {ts : Str} {a b : List WBlock} : blocksBy ts (a ++ b) = blocksBy ts a ++ blocksBy ts b := by
  unfold blocksBy
  rw [List.filter_append]

open Classical in
theorem blocksBy_none {ts : Str} {ws : List WBlock} (h : ∀ w ∈ ws, ¬ WrittenBy w ts) : blocksBy ts ws = [] := by
  unfold blocksBy
  rw [List.filter_eq_nil_iff]
  intro w hw hx
  exact h w hw (of_decide_eq_true hx)

open Classical in
theorem blocksBy_all {ts : Str} {ws : List WBlock} (h : ∀ w ∈ ws, WrittenBy w ts) : blocksBy ts ws = ws := by
  unfold blocksBy
  rw [List.filter_eq_self]
  intro w hw
  exact decide_eq_true (h w hw)

theorem writtenBy_unique {w : WBlock} {i i' : Str} (h : WrittenBy w i) (h' : WrittenBy w i') : i = i' := by
  unfold WrittenBy at h h'
  rw [h] at h'
  exact Option.some.inj h'

theorem blocksAt_ne {st : Objects} {q : Request} {p : List Str} (h : p ≠ q.path) :
    blocksAt (q.run st) p = blocksAt st p := by
  unfold blocksAt
  rw [get_run, if_neg h]

theorem blocksAt_same {st : Objects} {p : List Str} {ws : List WBlock} :
    blocksAt ((Request.append p ws).run st) p = blocksAt st p ++ ws := by
  unfold blocksAt
  rw [get_run, if_pos (show p = (Request.append p ws).path from rfl)]
  rfl

/-- Blocks of others change nothing. -/
theorem blocksBy_others {st : Objects} {p p' : List Str} {ws : List WBlock} {ts : Str}
    (h : ∀ w ∈ ws, ¬ WrittenBy w ts) :
    blocksBy ts (blocksAt ((Request.append p' ws).run st) p) = blocksBy ts (blocksAt st p) := by
  by_cases hp : p = p'
  · subst hp
    rw [blocksAt_same, blocksBy_append, blocksBy_none h, List.append_nil]
  · rw [blocksAt_ne (q := .append p' ws) hp]

theorem grows_by {S : Setting} {done : List Job} {st st' : Objects} {p : List Str} (h : Grows S done st st' p) {j : Job}
    (hj : j ∈ done) : blocksBy j.commit.ts (blocksAt st' p) = blocksBy j.commit.ts (blocksAt st p) := by
  obtain ⟨⟨more, h1, h2⟩, _⟩ := h
  rw [h1, blocksBy_append, blocksBy_none (ws := more) ?_, List.append_nil]
  intro w hw hx
  obtain ⟨_, i, hi, _, hlt⟩ := h2 w hw
  have := hlt j hj
  rw [writtenBy_unique hi hx] at this
  exact cmp_irrefl this

/-- What completed writes have written stays as it is. -/
theorem doneOnce_old {S : Setting} {s s' : Work} (hi : Inv S s) (hg : Works S s s') (h : DoneOnce s) {d1 : List Job}
    {j : Job} {d2 : List Job} {k : GroupKey} {ls : List (Str × Str)} {v : Version} {l : Str × Str}
    (hd : s.done = d1 ++ j :: d2) (hk : (k, Change.append ls) ∈ j.commit.changes)
    (hv : versionAfter (commitsOf d1) k = some v) (hl : NamePart l.1 ∧ NamePart l.2) :
    blocksBy j.commit.ts (blocksAt s'.store (logAt k v.base l)) = if l ∈ ls then j.blocks k l else [] := by
  obtain ⟨g1, g2, _⟩ := version_part hi hd hv
  rw [grows_by (grows_works hi hg g1 g2 hl) (by rw [hd]; simp)]
  exact h d1 j d2 k ls v l hd hk hv hl

/-- Blocks have been written at times that have been used. -/
theorem stored_used {S : Setting} {s : Work} (hi : Inv S s) (ht : RollbackTimes S s) {k : GroupKey} {base : Str}
    {w : WBlock} (h : StoredIn S s.store k base w) {i : Str} (hw : WrittenBy w i) : i ∈ s.used := by
  cases (stored_ok hi h).origin with
  | done d1 j d2 ls v l hd hk hv hb hl hwb ht' =>
    rw [← writtenBy_unique ht' hw]
    exact hi.usedDone j (by rw [hd]; simp)
  | current a ls v l hc hk hv hb hl hwb ht' _ =>
    rw [← writtenBy_unique ht' hw]
    exact hi.usedCurrent a hc
  | failed i' r w' ht' hn hir hw' hb hr hu hd hc =>
    rw [← writtenBy_unique ht' hw]
    exact hu.1
  | rollback i' hb hu hd hc => exact (ht k base w i' i h hb hw).1

theorem mem_blocksAt {S : Setting} {s : Work} {k : GroupKey} {base : Str} {l : Str × Str} (hk : KeyOk S k)
    (hb : WriterTimestamp base) (hl : NamePart l.1 ∧ NamePart l.2) {w : WBlock}
    (h : w ∈ blocksAt s.store (logAt k base l)) : StoredIn S s.store k base w := by
  unfold blocksAt at h
  cases hg : s.store.get (logAt k base l) with
  | none => rw [hg] at h; cases h
  | some y =>
    rw [hg] at h
    cases y with
    | file c => cases h
    | log ws => exact ⟨hk, hb, l, ws, hl, hg, h⟩

theorem once_step {S : Setting} {s s' : Work} (hi : Inv S s) (ht : RollbackTimes S s) (hs : WorkStep S s s')
    (ho : ∀ a ∈ s'.current, (a.ran.filter Request.appends).Nodup) (h1 : DoneOnce s) (h2 : CurrentOnce s) :
    DoneOnce s' ∧ CurrentOnce s' := by
  classical
  have old := fun {d1 j d2 k ls v l} => doneOnce_old (d1 := d1) (j := j) (d2 := d2) (k := k) (ls := ls) (v := v) (l := l)
    hi (.step (.refl s) hs) h1
  have same : s'.done = s.done → DoneOnce s' := by
    intro e d1 j d2 k ls v l hd hk hv hl
    rw [e] at hd
    exact old hd hk hv hl
  -- a request for another object
  have ne : ∀ {q : Request} {k : GroupKey} {v : Version} {l : Str × Str} {ts : Str}, logAt k v.base l ≠ q.path →
      blocksBy ts (blocksAt (q.run s.store) (logAt k v.base l)) = blocksBy ts (blocksAt s.store (logAt k v.base l)) := by
    intro q k v l ts h
    rw [blocksAt_ne h]
  cases hs with
  | aside q hq =>
    refine ⟨same rfl, ?_⟩
    intro a ha k ls v l hk hv hl
    obtain ⟨g1, g2⟩ := version_key hi hv
    rw [ne (fun e => log_read g1 g2 hl (e ▸ hq))]
    exact h2 a ha k ls v l hk hv hl
  | begin j hc hf hj =>
    refine ⟨same rfl, ?_⟩
    intro a ha k ls v l hk hv hl
    rcases List.mem_cons.1 ha with rfl | ha
    · obtain ⟨g1, g2⟩ := version_key hi hv
      rw [if_neg (fun h : l ∈ ls ∧ _ ∈ ([] : List Request) => List.not_mem_nil h.2)]
      refine blocksBy_none (fun w hw hx => ?_)
      exact cmp_irrefl (hf _ (stored_used hi ht (mem_blocksAt g1 g2 hl hw) hx))
    · exact h2 a ha k ls v l hk hv hl
  | request a q hc hu hq =>
    refine ⟨same rfl, ?_⟩
    have hjob := hi.attempt a hc
    intro b hb k ls v l hk hv hl
    obtain ⟨g1, g2⟩ := version_key hi hv
    rcases List.mem_cons.1 hb with rfl | hb
    · change blocksBy a.job.commit.ts (blocksAt (q.run s.store) (logAt k v.base l)) =
        if l ∈ ls ∧ Request.append (logAt k v.base l) (a.job.blocks k l) ∈ q :: a.ran then a.job.blocks k l else []
      have hold := h2 a hc k ls v l hk hv hl
      have hnd := ho _ hb
      rcases mem_requests hq with ⟨k', token, hk', rfl⟩ | ⟨k', ls', v', l', hk', hv', hl', rfl⟩
      · rw [ne (q := .put (baseAt k' token a.job.commit.ts) (.parquet 1 (a.job.base k')))
          (fun e => base_ne_log (job_key hjob hk') g1 hl e.symm), hold]
        simp
      · by_cases hp : logAt k v.base l = logAt k' v'.base l'
        · obtain ⟨g1', g2'⟩ := version_key hi hv'
          obtain ⟨rfl, _, rfl⟩ := logAt_inj g1 g1' g2 g2' hl (hjob.logs k' ls' hk' l' hl') hp
          cases (show some v = some v' from (show versionAfter s.history k = some v from hv).symm.trans hv')
          have hls : ls = ls' := by
            have := (changeOf_iff hjob.once).2 hk
            rw [(changeOf_iff hjob.once).2 hk'] at this
            cases this
            rfl
          subst hls
          have hnot : Request.append (logAt k v.base l) (a.job.blocks k l) ∉ a.ran := by
            intro hmem
            have e : ((Request.append (logAt k v.base l) (a.job.blocks k l) :: a.ran).filter Request.appends) =
                Request.append (logAt k v.base l) (a.job.blocks k l) :: a.ran.filter Request.appends :=
              List.filter_cons_of_pos rfl
            change (List.filter Request.appends (_ :: a.ran)).Nodup at hnd
            rw [e] at hnd
            exact (List.nodup_cons.1 hnd).1 (List.mem_filter.2 ⟨hmem, rfl⟩)
          rw [if_neg (fun h => hnot h.2)] at hold
          rw [if_pos ⟨hl', by simp⟩, blocksAt_same, blocksBy_append, hold, List.nil_append]
          exact blocksBy_all (fun w hw => (hjob.blocks k ls v hk hv l hl' w hw).2.1)
        · rw [ne (q := .append (logAt k' v'.base l') (a.job.blocks k' l')) hp, hold]
          have : Request.append (logAt k v.base l) (a.job.blocks k l) ≠
              Request.append (logAt k' v'.base l') (a.job.blocks k' l') := fun e => hp (Request.append.inj e).1
          simp [this]
    · obtain ⟨hb, hne⟩ := mem_others.1 hb
      rw [← h2 b hb k ls v l hk hv hl]
      rcases mem_requests hq with ⟨k', token, hk', rfl⟩ | ⟨k', ls', v', l', hk', hv', hl', rfl⟩
      · exact ne (q := .put (baseAt k' token a.job.commit.ts) (.parquet 1 (a.job.base k')))
          (fun e => base_ne_log (job_key hjob hk') g1 hl e.symm)
      · exact blocksBy_others (fun w hw hx =>
          hne (writtenBy_unique hx (hjob.blocks k' ls' v' hk' hv' l' hl' w hw).2.1))
  | complete a hc hu hq hoth =>
    refine ⟨?_, ?_⟩
    · intro d1 j d2 k ls v l hd hk hv hl
      rcases split_snoc hd with ⟨rfl, rfl, rfl⟩ | ⟨d2', e, rfl⟩
      · obtain ⟨g1, g2⟩ := version_key hi hv
        change blocksBy a.job.commit.ts (blocksAt (a.job.completion.run s.store) (logAt k v.base l)) = _
        rw [ne (log_ne_instant g1), h2 a hc k ls v l hk hv hl]
        by_cases hm : l ∈ ls
        · rw [if_pos hm, if_pos ⟨hm, hq _ (append_requests hk hv hm)⟩]
        · rw [if_neg hm, if_neg (fun h => hm h.1)]
      · exact old e hk hv hl
    · intro b hb k ls v l hk hv hl
      obtain ⟨hb, hne⟩ := mem_others.1 hb
      have hap : Apart a.job b.job := hi.apart a hc b hb (fun e => hne e.symm)
      have e : versionAfter (commitsOf (s.done ++ [a.job])) k = versionAfter (commitsOf s.done) k :=
        version_other (fun e he => hap e he _ hk)
      have hv' : versionAfter s.history k = some v := e.symm.trans hv
      obtain ⟨g1, g2⟩ := version_key hi hv'
      change blocksBy b.job.commit.ts (blocksAt (a.job.completion.run s.store) (logAt k v.base l)) = _
      rw [ne (log_ne_instant g1)]
      exact h2 b hb k ls v l hk hv' hl
  | rollback a r hc hf ht hp hoth =>
    refine ⟨same rfl, ?_⟩
    intro b hb k ls v l hk hv hl
    rcases List.mem_cons.1 hb with rfl | hb
    · exact h2 a hc k ls v l hk hv hl
    · exact h2 b (mem_others.1 hb).1 k ls v l hk hv hl
  | delete a r k' token hc hu hk' =>
    refine ⟨same rfl, ?_⟩
    intro b hb k ls v l hk hv hl
    obtain ⟨g1, g2⟩ := version_key hi hv
    change blocksBy b.job.commit.ts (blocksAt ((Request.delete (baseAt k' token a.job.commit.ts)).run s.store) _) = _
    rw [ne (q := .delete (baseAt k' token a.job.commit.ts))
      (fun e => base_ne_log (job_key (hi.attempt a hc) hk') g1 hl e.symm)]
    exact h2 b hb k ls v l hk hv hl
  | block a r k' ls' v' l' w hc hu hk' hv' hl' hg hw hr =>
    refine ⟨same rfl, ?_⟩
    obtain ⟨u1, u2⟩ := hi.usedUndo a hc r hu
    have has := hi.undoAside a hc r hu k' ls' hk'
    have hother : ∀ b ∈ s.current, ∀ x ∈ [w], ¬ WrittenBy x b.job.commit.ts := by
      intro b hb x hx hwb
      rw [List.mem_singleton.1 hx] at hwb
      have e := writtenBy_unique hw hwb
      rcases has b hb with h | h | h
      · rw [e, h] at u2; exact cmp_irrefl u2
      · rw [e] at u2; exact cmp_irrefl (cmp_trans h u2)
      · rw [e] at h; exact cmp_irrefl h
    intro b hb k ls v l hk hv hl
    rcases List.mem_cons.1 hb with rfl | hb
    · change blocksBy a.job.commit.ts (blocksAt ((Request.append (logAt k' v'.base l') [w]).run s.store) _) = _
      rw [blocksBy_others (hother a hc)]
      exact h2 a hc k ls v l hk hv hl
    · have hb := (mem_others.1 hb).1
      change blocksBy b.job.commit.ts (blocksAt ((Request.append (logAt k' v'.base l') [w]).run s.store) _) = _
      rw [blocksBy_others (hother b hb)]
      exact h2 b hb k ls v l hk hv hl
  | recovered a r hc hu hd hb =>
    refine ⟨same rfl, ?_⟩
    intro b hb k ls v l hk hv hl
    exact h2 b (mem_others.1 hb).1 k ls v l hk hv hl

theorem works_of_once {S : Setting} {s s' : Work} (h : WorksOnce S s s') : Works S s s' := by
  induction h with
  | refl => exact .refl _
  | step _ hs _ ih => exact .step ih hs

theorem once_works {S : Setting} {s : Work} (h : WorksOnce S nothingYet s) : DoneOnce s ∧ CurrentOnce s := by
  induction h with
  | refl => exact ⟨by intro d1 j d2 k ls v l hd; simp [nothingYet] at hd, by intro a ha; cases ha⟩
  | step hw hs ho ih =>
    have hw' := works_of_once hw
    exact once_step (inv_works (inv_nothing S) hw') (times_works hw') hs ho ih.1 ih.2

theorem blocksAt_lasts {S : Setting} {s : Work} (hi : Inv S s) {k : GroupKey} {base : Str} {l : Str × Str}
    (hk : KeyOk S k) (hb : WriterTimestamp base) (hl : NamePart l.1 ∧ NamePart l.2) :
    blocksAt (lasting S s).store (logAt k base l) = blocksAt s.store (logAt k base l) := by
  unfold blocksAt
  congr 1
  cases hg : s.store.get (logAt k base l) with
  | some y => exact (get_lasting hi).2 ⟨hg, log_lasts hi hk hb hl⟩
  | none =>
    cases hg' : (lasting S s).store.get (logAt k base l) with
    | none => rfl
    | some y =>
      rw [((get_lasting hi).1 hg').1] at hg
      cases hg

theorem doneOnce_lasting {S : Setting} {s : Work} (hi : Inv S s) (h : DoneOnce s) : DoneOnce (lasting S s) := by
  intro d1 j d2 k ls v l hd hk hv hl
  obtain ⟨g1, g2, _⟩ := version_part hi hd hv
  rw [blocksAt_lasts hi g1 g2 hl]
  exact h d1 j d2 k ls v l hd hk hv hl

/-- The log file with the version and write token. -/
def namedLog (k : GroupKey) (base : Str) (l : Str × Str) : LogFile :=
  ⟨k.2, base, c!"log", l.1, l.2, some (FileMeta.new (logName k.2 base l.1 l.2) 1)⟩

/-- What is read up to a commit known to the handle, when every record counts. -/
theorem counted_works {S : Setting} {s0 s : Work} (hi0 : Inv S s0) (hi : Inv S s) (hp : Placed s)
    (ho : ∀ d1 j d2 k ls v l, s0.done = d1 ++ j :: d2 → (k, Change.append ls) ∈ j.commit.changes →
      versionAfter (commitsOf d1) k = some v → NamePart l.1 ∧ NamePart l.2 →
      blocksBy j.commit.ts (blocksAt s.store (logAt k v.base l)) = if l ∈ ls then j.blocks k l else [])
    {more : List Job} (hd : s.done = s0.done ++ more) (hc : ∀ j ∈ s0.done, Counts S j) {j0 : Job} (hj0 : j0 ∈ s0.done) :
    CountedUpTo S.C S.ltz S.tz (columnsBy s0.done) s.tree s0.history (rowsOf s0.done) (heldIn s) j0.commit.ts := by
  classical
  have hr := rows_upTo' hi0 hi hd hj0
  have hat : ∀ j ∈ s0.done, jobAt s0.done j.commit.ts = some j :=
    fun j hj => jobAt_mem (fun j hj j' hj' => hi0.unique hj hj') hj
  refine ⟨hr.1, hr.2.1, hr.2.2.1, hr.2.2.2, ?_⟩
  rintro k v c hv ⟨h1, h2, ls, v', e1, e2, e3, e4⟩ hle
  obtain ⟨d1, j, d2, hdone, rfl, rfl, _⟩ := split_commits e1
  have hj : j ∈ s0.done := by rw [hdone]; simp
  have hjob := hi0.jobs d1 j d2 hdone
  have hsplit : s.done = d1 ++ j :: (d2 ++ more) := by rw [hd, hdone]; simp
  have e : (rowsOf s0.done).appended j.commit.ts k = j.appended k := by simp [rowsOf, hat j hj]
  obtain ⟨c1, rows, c2, c3⟩ := hc j hj k ls e2
  obtain ⟨hk, hb, _⟩ := version_part hi hsplit e3
  rw [e4] at hb
  have hheld : ∀ l : Str × Str, NamePart l.1 ∧ NamePart l.2 →
      heldIn s (pathPush k.1 (namedLog k v.base l).fileName) = blocksAt s.store (logAt k v.base l) := by
    intro l hl
    unfold heldIn blocksAt namedLog
    rw [log_path hk hb hl]
  have hblocks : ∀ l : Str × Str, NamePart l.1 ∧ NamePart l.2 →
      blocksBy j.commit.ts (heldIn s (pathPush k.1 (namedLog k v.base l).fileName)) =
        if l ∈ ls then j.blocks k l else [] := by
    intro l hl
    rw [hheld l hl, ← e4]
    exact ho d1 j _ k ls v' l hdone e2 e3 hl
  refine ⟨ls.map (namedLog k v.base), ?_, ?_, ?_, rows, ?_, by rw [e]; exact c3⟩
  · refine c1.map (fun a b h => ?_)
    exact Prod.ext (congrArg LogFile.version h) (congrArg LogFile.writeToken h)
  · intro x hx
    obtain ⟨l, hl, rfl⟩ := List.mem_map.1 hx
    obtain ⟨ws, hg, _⟩ := hp d1 j _ k ls v' l hsplit e2 e3 hl
    rw [e4] at hg
    exact ⟨log_there hi hk hb (hjob.logs k ls e2 l hl) hg, rfl, rfl⟩
  · rintro x ⟨hx, hf, hbt⟩ w hw hwr
    obtain ⟨j', f, token, l, ws, hj', hk', hl, hg, rfl⟩ := log_in hi hk.1 hx
    obtain ⟨y, f'⟩ := k
    cases (show f = f' from hf)
    have hbt : j'.commit.ts = v.base := hbt
    have ex : (⟨f, j'.commit.ts, c!"log", l.1, l.2, some (FileMeta.new (logName f j'.commit.ts l.1 l.2) 1)⟩ : LogFile) =
        namedLog (y, f) v.base l := by
      unfold namedLog
      rw [hbt]
    rw [ex] at hw ⊢
    refine List.mem_map.2 ⟨l, ?_, rfl⟩
    by_contra hnot
    have := hblocks l hl
    rw [if_neg hnot] at this
    have hmem : w ∈ blocksBy j.commit.ts (heldIn s (pathPush y (namedLog (y, f) v.base l).fileName)) := by
      unfold blocksBy
      exact List.mem_filter.2 ⟨hw, decide_eq_true hwr⟩
    rw [this] at hmem
    cases hmem
  · rw [List.flatMap_map]
    have : ls.flatMap (fun l => blocksBy j.commit.ts (heldIn s (pathPush k.1 (namedLog k v.base l).fileName))) =
        ls.flatMap (j.blocks k) := by
      rw [List.flatMap_def, List.flatMap_def]
      congr 1
      refine List.map_congr_left (fun l hl => ?_)
      rw [hblocks l (hjob.logs k ls e2 l hl), if_pos hl]
    rw [this]
    exact c2

end Hudi
