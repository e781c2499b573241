import Verif.Props.Counted
import Verif.Props.AppendedDemo
import Verif.Props.RacingWriterDemo
import Verif.Props.WriterOpened
import Verif.Props.CleanerDemo
import Mathlib.Data.List.Perm.Basic

/-! # C101: writers that meet the hypotheses, and one that does not -/

namespace Hudi
open Spec
namespace Demo

/-- The setting of C82's example, keeping every record. -/
def cntSetting : Setting := { wkSetting with o := everyOpts }

theorem cnt_paths (x : Str) : PartitionPath wkSetting.o x ↔ PartitionPath everyOpts x := by
  have h1 : ¬ Partitioned wkSetting.o := by decide
  have h2 : ¬ Partitioned everyOpts := by decide
  simp [PartitionPath, h1, h2]

theorem cnt_step {a b : Work} (h : WorkStep wkSetting a b) : WorkStep cntSetting a b :=
  step_with cnt_paths ⟨rfl, by decide⟩ h

theorem cnt_works {a b : Work} (h : Works wkSetting a b) : Works cntSetting a b :=
  works_with cnt_paths ⟨rfl, by decide⟩ h

/-- A write that appends the same row twice. -/
def cntJob : Job := { jobC with blocks := fun _ _ => [wkBlock, wkBlock], appended := fun _ => wkBatch.rows ++ wkBatch.rows }

theorem cntJob_ok : JobOk wkSetting [jobA] cntJob where
  later := jobC_ok.later
  time := jobC_ok.time
  parses := jobC_ok.parses
  once := jobC_ok.once
  sites := jobC_ok.sites
  replaces := jobC_ok.replaces
  gone := jobC_ok.gone
  live := jobC_ok.live
  ids := jobC_ok.ids
  tokens := jobC_ok.tokens
  logs := jobC_ok.logs
  batches := jobC_ok.batches
  blocks := by
    intro k ls v hk hv l hl w hw
    have hw' : w = wkBlock := by simpa [cntJob] using hw
    obtain ⟨h1, h2, h3, h4⟩ := jobC_ok.blocks k ls v hk hv l hl w (by rw [hw']; exact List.mem_singleton_self _)
    refine ⟨h1, h2, h3, ?_⟩
    intro w' hw''
    have : w' = w := by simpa [cntJob] using hw''
    exact h4 w' (by rw [this]; simp)
  rows := by
    intro k ls hk r
    have := jobC_ok.rows k ls hk r
    have e : r ∈ cntJob.appended k ↔ r ∈ jobC.appended k := by simp [cntJob, jobC]
    rw [e, this]
    simp [cntJob, jobC]
  document := jobC_ok.document
  firstFile := ⟨jobA, by simp, f1, c!"0-0-0", morBase, by simp [jobA],
    ⟨_, _, _, _, _, rfl, rfl, .inr ⟨by
      rintro ⟨stem, h⟩
      have h' := congrArg (fun l : Str => l.getLast?) h
      simp [strayLog] at h', _, rfl, rfl⟩⟩, by decide, by decide⟩

def cntAppend : Request := .append (logAt f1 t0 (c!"1", c!"0-7-7")) [wkBlock, wkBlock]

/-- After the insert, and the write that was rolled back. -/
def cntDone : Work := ⟨cntJob.completion.run (cntAppend.run wkR.store), [jobA, cntJob], [], [wkTs, t3, t1, t0]⟩

theorem none_current {p : Attempt → Prop} : ∀ a ∈ ([] : List Attempt), p a := fun _ h => nomatch h

theorem one_current {p : Attempt → Prop} {b : Attempt} (h : p b) : ∀ a ∈ [b], p a :=
  fun a ha => by rw [List.mem_singleton.1 ha]; exact h

theorem cnt_B : WorksOnce cntSetting nothingYet wkB := by
  have h1 := WorksOnce.step .refl (cnt_step (alone_begin nothingYet jobA rfl (by intro u hu; cases hu) jobA_ok))
    (one_current .nil)
  have h2 := WorksOnce.step h1 (cnt_step (alone_request _ ⟨jobA, [], none, []⟩ putA rfl rfl
    (by simp [Job.requests, jobA, putA]))) (one_current .nil)
  have h3 : WorksOnce cntSetting nothingYet wkA :=
    WorksOnce.step h2 (cnt_step (alone_complete _ ⟨jobA, [putA], none, []⟩ rfl rfl (fun q hq => hq))) none_current
  have h4 := WorksOnce.step h3 (cnt_step (alone_begin wkA jobB rfl
    (by intro u hu; rw [List.mem_singleton.1 hu]; decide) jobB_ok)) (one_current .nil)
  have h5 := WorksOnce.step h4 (cnt_step (.aside _ inflightB inflight_unread)) (one_current .nil)
  have h6 := WorksOnce.step h5 (cnt_step (alone_request _ ⟨jobB, [], none, []⟩ appendB rfl rfl List.mem_cons_self))
    (one_current (List.nodup_singleton _))
  exact WorksOnce.step h6 (cnt_step (alone_request _ ⟨jobB, [appendB], none, []⟩ putB rfl rfl (.tail _ List.mem_cons_self)))
    (one_current (List.nodup_singleton _))

theorem cnt_R : WorksOnce cntSetting nothingYet wkR := by
  have hu : ∀ u ∈ wkB.used, compare u t3 = .lt := by decide
  have h8 := WorksOnce.step cnt_B (cnt_step (alone_rollback wkB ⟨jobB, [putB, appendB], none, []⟩ t3 rfl hu (by decide)
    ⟨_, rfl⟩)) (one_current (List.nodup_singleton _))
  have h9 := WorksOnce.step h8 (cnt_step (alone_delete _ ⟨jobB, [putB, appendB], some t3, []⟩ t3 f2 c!"0-4-1" rfl rfl
    (.tail _ List.mem_cons_self))) (one_current (List.nodup_singleton _))
  have h10 := WorksOnce.step h9 (cnt_step (alone_block _ ⟨jobB, [putB, appendB], some t3, []⟩ t3 f1
    [(c!"1", c!"0-7-7")] ⟨t0, c!"0-0-0", []⟩ (c!"1", c!"0-7-7") w3 rfl rfl List.mem_cons_self rfl (by decide)
    (good_w _ (by simp)) rfl ⟨⟨rfl, _, rfl, rfl⟩, rfl⟩)) (one_current (List.nodup_singleton _))
  refine WorksOnce.step h10 (cnt_step (alone_recovered _ ⟨jobB, [putB, appendB], some t3, [f1]⟩ t3 rfl rfl ?_ ?_))
    none_current
  · intro k token hk
    have hk' : k = f2 ∧ token = c!"0-4-1" := by simpa [jobB] using hk
    rw [hk'.1, hk'.2]
    rfl
  · intro k ls v l hk _ _ _
    have hk' : k = f1 ∧ ls = [(c!"1", c!"0-7-7")] := by simpa [jobB] using hk
    rw [hk'.1]
    exact List.mem_cons_self

theorem cnt_done : WorksOnce cntSetting nothingYet cntDone := by
  have hu : ∀ u ∈ wkR.used, compare u wkTs = .lt := by decide
  have h1 := WorksOnce.step cnt_R (cnt_step (alone_begin wkR cntJob rfl hu cntJob_ok)) (one_current .nil)
  have h2 := WorksOnce.step h1 (cnt_step (alone_request _ ⟨cntJob, [], none, []⟩ cntAppend rfl rfl List.mem_cons_self))
    (one_current (List.nodup_singleton _))
  exact WorksOnce.step h2 (cnt_step (alone_complete _ ⟨cntJob, [cntAppend], none, []⟩ rfl rfl (fun q hq => hq)))
    none_current

/-- Opened when the last write has completed. -/
def cntTable : Table := { wkTable' with opts := everyOpts }

theorem cnt_opened {s : Work} (h : ∃ o, Timeline.load env o s.tree = .ok cntTable.timeline) :
    AppendingAt env arrow cntSetting s cntTable [] [] false false where
  load := h
  clock := rfl
  zone := rfl
  options := rfl
  appends := ⟨⟨by simp [HmNodup, cntTable, wkTable'], by simp [cntTable, wkTable']⟩, by decide, by decide, rfl, rfl⟩
  names := ⟨by decide, by decide⟩
  parsed := rfl
  applicable := by simp
  style := ⟨rfl, rfl⟩
  parallelism := by intro v hv; cases hv

theorem jobA_counts : Counts cntSetting jobA := by intro k ls hk; simp [jobA] at hk

theorem jobC_counts : Counts cntSetting jobC := by
  intro k ls hk
  have e : k = f1 ∧ ls = [(c!"1", c!"0-7-7")] := by simpa [jobC] using hk
  rw [e.2]
  exact ⟨List.nodup_singleton _, _, ⟨[[wkBatch]], .cons wkBlock_decodes .nil, rfl⟩, .refl _⟩

theorem cntJob_counts : Counts cntSetting cntJob := by
  intro k ls hk
  have e : k = f1 ∧ ls = [(c!"1", c!"0-7-7")] := by simpa [cntJob, jobC] using hk
  rw [e.2]
  exact ⟨List.nodup_singleton _, _, ⟨[[wkBatch], [wkBatch]], .cons wkBlock_decodes (.cons wkBlock_decodes .nil), rfl⟩,
    .refl _⟩

/-- The last write makes its request twice. -/
def cntTwice : Work := ⟨jobC.completion.run (appendC.run (appendC.run wkR.store)), [jobA, jobC], [],
  [wkTs, t3, t1, t0]⟩

theorem cnt_twice : Works cntSetting nothingYet cntTwice := by
  have hu : ∀ u ∈ wkR.used, compare u wkTs = .lt := by decide
  have h1 := Works.step (works_of_once cnt_R) (cnt_step (alone_begin wkR jobC rfl hu jobC_ok))
  have h2 := Works.step h1 (cnt_step (alone_request _ ⟨jobC, [], none, []⟩ appendC rfl rfl List.mem_cons_self))
  have h3 := Works.step h2 (cnt_step (alone_request _ ⟨jobC, [appendC], none, []⟩ appendC rfl rfl List.mem_cons_self))
  exact Works.step h3 (cnt_step (alone_complete _ ⟨jobC, [appendC, appendC], none, []⟩ rfl rfl
    (fun q hq => List.mem_cons_of_mem _ hq)))

end Demo

open Demo in
/-- The hypotheses of C101 are met by an insert, a write that appends and is rolled back, and a write that appends the
same row twice: a handle opened at the end reads that row twice. -/
example : MonotoneTz env.ltz ∧ WholeSecondsTz env.ltz ∧ WorksOnce cntSetting nothingYet cntDone ∧
    (∀ j ∈ cntDone.done, Counts cntSetting j) ∧ AppendingAt env arrow cntSetting cntDone cntTable [] [] false false ∧
    (cntTable.readSnapshot env arrow codec (mergeEnv arrow) cntDone.tree [] []).2 =
      .ok [⟨mSchema, mor.rows ++ (wkBatch.rows ++ wkBatch.rows)⟩] :=
  ⟨by intro a b a' b' h1 h2 h; cases h1; cases h2; exact h, by intro n d h; cases h; rfl, cnt_done, by
      intro j hj
      rcases (show j = jobA ∨ j = cntJob by simpa [cntDone] using hj) with rfl | rfl
      · exact jobA_counts
      · exact cntJob_counts,
    cnt_opened ⟨[], rfl⟩, by decide +kernel⟩

namespace Demo

/-- The handle is opened before the last write begins; the files are read when it has completed. -/
def cntMoments : Moments := ⟨fun _ => wkR, cntDone, wkR, fun _ => cntDone, fun _ => wkR, fun _ => wkR, fun _ => cntDone⟩

theorem cnt_after : Works cntSetting wkR cntDone := by
  have hu : ∀ u ∈ wkR.used, compare u wkTs = .lt := by decide
  have h1 := Works.step (.refl _) (cnt_step (alone_begin wkR cntJob rfl hu cntJob_ok))
  have h2 := Works.step h1 (cnt_step (alone_request _ ⟨cntJob, [], none, []⟩ cntAppend rfl rfl List.mem_cons_self))
  exact Works.step h2 (cnt_step (alone_complete _ ⟨cntJob, [cntAppend], none, []⟩ rfl rfl (fun q hq => hq)))

theorem cnt_since : Since cntSetting wkR cntMoments :=
  ⟨fun _ => .refl _, cnt_after, .refl _, fun _ => cnt_after, fun _ => .refl _, fun _ => .refl _, fun _ _ => cnt_after⟩

end Demo

open Demo in
/-- The hypotheses of the theorems on reads that run while writers work are met as well; the handle does not read the
write that completes meanwhile. -/
example : WorksOnce cntSetting nothingYet wkR ∧ Since cntSetting wkR cntMoments ∧
    (∀ j ∈ wkR.done, Counts cntSetting j) ∧
    AppendingAt env arrow cntSetting wkR { wkTable with opts := everyOpts } [] [] false false ∧
    cntSetting.depth < 1 ∧ jobA.commit ∈ wkR.history ∧
    ({ wkTable with opts := everyOpts } : Table).readSnapshotR env arrow codec (mergeEnv arrow) 1 cntMoments.race [] =
      .ok [mor] :=
  ⟨cnt_R, cnt_since, by
      intro j hj
      rw [show j = jobA by simpa [wkR] using hj]
      exact jobA_counts,
    ⟨⟨[], rfl⟩, rfl, rfl, rfl,
      ⟨⟨by simp [HmNodup, wkTable], by simp [wkTable]⟩, by decide, by decide, rfl, rfl⟩,
      ⟨by decide, by decide⟩, rfl, by simp, ⟨rfl, rfl⟩, by intro v hv; cases hv⟩,
    by decide, List.mem_singleton.2 rfl, by decide +kernel⟩

namespace Demo

def cntBatch : Batch := ⟨mSchema, mor.rows ++ mor.rows⟩

/-- A write that gives the first file group a new base file, with rows that have the same keys. -/
def cntE : Job := { jobE with base := fun _ => cntBatch }

theorem cntE_ok : JobOk cntSetting [jobA, jobB] cntE where
  later := jobE_ok.later
  time := jobE_ok.time
  parses := jobE_ok.parses
  once := jobE_ok.once
  sites := by intro e he; rw [List.mem_singleton.1 he]; exact (site_with cnt_paths).1 root_site
  replaces := jobE_ok.replaces
  gone := jobE_ok.gone
  live := jobE_ok.live
  ids := jobE_ok.ids
  tokens := jobE_ok.tokens
  logs := jobE_ok.logs
  batches := fun _ _ _ => ⟨by show cntBatch.WF; unfold Batch.WF; decide, fun h => absurd h (by decide)⟩
  blocks := by intro k ls v hk; simp [cntE, jobE] at hk
  rows := by intro k ls hk; simp [cntE, jobE] at hk
  document := by intro h; cases h
  firstFile := ⟨cntE, by simp, f1, c!"0-9-9", clBase, by simp [cntE, jobE],
    ⟨_, _, _, _, _, rfl, rfl, .inl ⟨⟨c!"f1_0-9-9_20240106000000000", rfl⟩, rfl⟩⟩, by decide, by decide⟩

def cntPut : Request := .put (baseAt f1 c!"0-9-9" clTs) (.parquet 1 cntBatch)

def cntWE : Work := ⟨cntE.completion.run (cntPut.run clWD.store), [jobA, jobB, cntE], [], [clTs, t1, t0]⟩

/-- The cleaner has deleted the log file of the first version. -/
def cntL : Work := { cntWE with store := (Request.delete (logAt f1 t0 (c!"1", c!"0-7-7"))).run cntWE.store }

/-- It has deleted the base file as well. -/
def cntX : Work := { cntL with store := (Request.delete (baseAt f1 c!"0-0-0" t0)).run cntL.store }

theorem cleansOnce_of {S : Setting} {r : Str} {a b : Work} (h : WorksOnce S a b) : CleansOnce S r a b := by
  induction h with
  | refl => exact .refl
  | step _ hs ho ih => exact .step ih (.work _ _ hs) ho

theorem cnt_WE : WorksOnce cntSetting nothingYet cntWE := by
  have h0 : WorksOnce cntSetting nothingYet clWD := .step cnt_B
    (cnt_step (alone_complete wkB ⟨jobB, [putB, appendB], none, []⟩ rfl rfl (by
      intro q hq
      have hq' : q ∈ [appendB, putB] := hq
      simp only [List.mem_cons, List.not_mem_nil, or_false] at hq'
      rcases hq' with rfl | rfl <;> simp))) none_current
  have hu : ∀ u ∈ clWD.used, compare u clTs = .lt := by decide
  have h1 := WorksOnce.step h0 (alone_begin clWD cntE rfl hu cntE_ok) (one_current .nil)
  have h2 := WorksOnce.step h1 (alone_request _ ⟨cntE, [], none, []⟩ cntPut rfl rfl List.mem_cons_self)
    (one_current .nil)
  exact WorksOnce.step h2 (alone_complete _ ⟨cntE, [cntPut], none, []⟩ rfl rfl (fun q hq => hq)) none_current

theorem cnt_superseded : Superseded [jobA, jobB, cntE] clTs f1 t0 :=
  ⟨cntE, by simp, by decide, by decide, .inl ⟨c!"0-9-9", List.mem_cons_self⟩⟩

theorem cntL_logs (l : Str × Str) (hl : NamePart l.1 ∧ NamePart l.2) : cntL.store.get (logAt f1 t0 l) = none := by
  have hp : cntL.store.map Prod.fst = [baseAt f1 c!"0-0-0" t0, instantAt jobA.commit, inflightB.path,
      baseAt f2 c!"0-4-1" t1, instantAt jobB.commit, baseAt f1 c!"0-9-9" clTs, instantAt jobE.commit] := by decide
  have hk : KeyOk wkSetting f1 := ⟨root_site, by decide⟩
  cases h : cntL.store.get (logAt f1 t0 l) with
  | none => rfl
  | some x =>
    have hm : logAt f1 t0 l ∈ cntL.store.map Prod.fst := List.mem_map.2 ⟨_, get_some h, rfl⟩
    rw [hp] at hm
    simp only [List.mem_cons, List.not_mem_nil, or_false] at hm
    rcases hm with hm | hm | hm | hm | hm | hm | hm
    · exact absurd hm.symm (base_ne_log hk hk hl)
    · exact absurd hm (log_ne_instant hk)
    · exact absurd (congrArg List.length hm) (by simp [logAt, inPartition, f1, inflightB, Request.path]; decide)
    · exact absurd hm.symm (base_ne_log ⟨root_site, by decide⟩ hk hl)
    · exact absurd hm (log_ne_instant hk)
    · exact absurd hm.symm (base_ne_log hk hk hl)
    · exact absurd hm (log_ne_instant hk)

theorem cnt_cleans_L : Cleans cntSetting clTs cntWE cntL :=
  .step (.refl _) (.log cntWE jobA f1 c!"0-0-0" (c!"1", c!"0-7-7") List.mem_cons_self List.mem_cons_self cnt_superseded
    (by decide))

theorem cnt_cleans_X : Cleans cntSetting clTs cntL cntX :=
  .step (.refl _) (.base cntL jobA f1 c!"0-0-0" List.mem_cons_self List.mem_cons_self cnt_superseded cntL_logs)

/-- Directories are listed when the write has completed, files when the log file is gone; and the files are read
when the base file is gone, too. -/
def cntCleaned : Moments := ⟨fun _ => cntL, cntL, cntL, fun _ => cntWE, fun _ => cntL, fun _ => cntWE, fun _ => cntX⟩

theorem cnt_cleaned : SinceCleaned cntSetting clTs cntWE cntCleaned :=
  ⟨fun _ => cnt_cleans_L, cnt_cleans_L, cnt_cleans_L, fun _ => .refl _, fun _ => cnt_cleans_L, fun _ => .refl _,
    fun _ _ => cnt_cleans_X⟩

theorem cnt_current : NamesCurrent cntWE := by
  intro j hj path hp
  cases (Option.some.inj hj : cntE = j)
  refine ⟨f1, ⟨clTs, c!"0-9-9", []⟩, rfl, ?_⟩
  have : path = clBase := by
    obtain ⟨_, _, _, _, _, h1, h2, h3⟩ := hp
    simp [cntE, jobE, jGet] at h1
    obtain ⟨⟨_, rfl, _⟩, _⟩ := h1
    simp [jGet] at h2
    subst h2
    rcases h3 with ⟨_, h⟩ | ⟨h, _⟩
    · exact h
    · exact absurd ⟨c!"f1_0-9-9_20240106000000000", rfl⟩ h
  rw [this]
  decide

theorem cntE_counts : Counts cntSetting cntE := by intro k ls hk; simp [cntE, jobE] at hk

theorem jobB_counts : Counts cntSetting jobB := by
  intro k ls hk
  have e : k = f1 ∧ ls = [(c!"1", c!"0-7-7")] := by simpa [jobB] using hk
  rw [e.2]
  exact ⟨List.nodup_singleton _, _, ⟨[[w1Batch]], .cons w1_decodes .nil, rfl⟩, by simp [jobB]⟩

end Demo

open Demo in
/-- The hypotheses of the theorems on reads beside a cleaner are met by an insert, a write that appends, a write that
gives the file group a new base file in which keys are repeated, and a cleaner that deletes the files of the version
before while the read runs. -/
example : CleansOnce cntSetting clTs nothingYet cntWE ∧ NamesCurrent cntWE ∧
    SinceCleaned cntSetting clTs cntWE cntCleaned ∧ (∀ j ∈ cntWE.done, Counts cntSetting j) ∧
    AppendingAt env arrow cntSetting cntWE { clTable with opts := everyOpts } [] [] false false ∧
    cntSetting.depth < 1 ∧ cntE.commit ∈ cntWE.history ∧ (compare clTs cntE.commit.ts).isLE ∧
    (∀ c, cntWE.history.getLast? = some c → (compare clTs c.ts).isLE) ∧
    ({ clTable with opts := everyOpts } : Table).readSnapshotR env arrow codec (mergeEnv arrow) 1 cntCleaned.race [] =
      .ok [cntBatch, mor] :=
  ⟨cleansOnce_of cnt_WE, cnt_current, cnt_cleaned, by
      intro j hj
      rcases (show j = jobA ∨ j = jobB ∨ j = cntE by simpa [cntWE] using hj) with rfl | rfl | rfl
      · exact jobA_counts
      · exact jobB_counts
      · exact cntE_counts,
    ⟨⟨[], rfl⟩, rfl, rfl, rfl,
      ⟨⟨by simp [HmNodup, clTable], by simp [clTable]⟩, by decide, by decide, rfl, rfl⟩,
      ⟨by decide, by decide⟩, rfl, by simp, ⟨rfl, rfl⟩, by intro v hv; cases hv⟩,
    by decide, by simp [Work.history, commitsOf, cntWE], by decide, by intro c hc; cases hc; decide, by decide +kernel⟩

open Demo in
/-- **C101 is false.**  A writer on a table that keeps every record makes its request to append twice, as one does that
did not hear that the first had succeeded.  The write completes, and is read twice. -/
theorem C101_false : ∃ (E : Env) (A : Arrow) (S : Setting) (M : MergeEnv A) (s : Work) (tb : Table) (outs : List Batch),
    MonotoneTz E.ltz ∧ WholeSecondsTz E.ltz ∧ Works S nothingYet s ∧ (∀ j ∈ s.done, Counts S j) ∧
    AppendingAt E A S s tb [] [] false false ∧ (tb.readSnapshot E A S.C M s.tree [] []).2 = .ok outs ∧
    ¬ ReadsAll (columnsBy s.done) (versionAfter s.history) (Kept A S.pcols false false [])
      (recordsAfter (rowsOf s.done) s.history) outs := by
  refine ⟨env, arrow, cntSetting, mergeEnv arrow, cntTwice, cntTable,
    [⟨mSchema, mor.rows ++ (wkBatch.rows ++ wkBatch.rows)⟩],
    by intro a b a' b' h1 h2 h; cases h1; cases h2; exact h, by intro n d h; cases h; rfl, cnt_twice, ?_,
    cnt_opened ⟨[], rfl⟩, by decide +kernel, ?_⟩
  · intro j hj
    rcases (show j = jobA ∨ j = jobC by simpa [cntTwice] using hj) with rfl | rfl
    · exact jobA_counts
    · exact jobC_counts
  · rintro ⟨ks, -, hks, hf⟩
    cases hf with
    | @cons k _ _ _ h1 h2 =>
      obtain ⟨v, hv, _, hp⟩ := h1
      by_cases hk : k = f1
      · subst hk
        exact absurd hp.length_eq (by decide)
      · have : versionAfter cntTwice.history k = none := by
          simp [cntTwice, Work.history, commitsOf, versionAfter, HCommit.changeOf, jobA, jobC, Ne.symm hk]
        rw [this] at hv
        cases hv

end Hudi
