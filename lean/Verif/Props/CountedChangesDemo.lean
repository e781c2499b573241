import Verif.Props.CountedChanges
import Verif.Props.CountedDemo
import Verif.Props.CleanerChangesDemo

/-! # C101: changes of a table that keeps every record -/

namespace Hudi
open Spec
namespace Demo

/-- The setting of C84's example, keeping every record. -/
def dcSetting : Setting := { spSetting with o := everyOpts }

theorem dc_step {a b : Work} (h : WorkStep spSetting a b) : WorkStep dcSetting a b :=
  step_with (S := spSetting) cnt_paths ⟨rfl, by decide⟩ h

theorem dc_works {a b : Work} (h : Works spSetting a b) : Works dcSetting a b :=
  works_with (S := spSetting) cnt_paths ⟨rfl, by decide⟩ h

/-- A write that appends the same row twice. -/
def dcY : Job := { jobY with blocks := fun _ _ => [x1, x1], appended := fun _ => x1Batch.rows ++ x1Batch.rows }

theorem dcY_ok : JobOk spSetting [jobI] dcY where
  later := jobY_ok.later
  time := jobY_ok.time
  parses := jobY_ok.parses
  once := jobY_ok.once
  sites := jobY_ok.sites
  replaces := jobY_ok.replaces
  gone := jobY_ok.gone
  live := jobY_ok.live
  ids := jobY_ok.ids
  tokens := jobY_ok.tokens
  logs := jobY_ok.logs
  batches := jobY_ok.batches
  blocks := by
    intro k ls v hk hv l hl w hw
    have hw' : w = x1 := by simpa [dcY] using hw
    obtain ⟨h1, h2, h3, h4⟩ := jobY_ok.blocks k ls v hk hv l hl w (by rw [hw']; exact List.mem_singleton_self _)
    refine ⟨h1, h2, h3, ?_⟩
    intro w' hw''
    have : w' = w := by simpa [dcY] using hw''
    exact h4 w' (by rw [this]; simp)
  rows := by
    intro k ls hk r
    have := jobY_ok.rows k ls hk r
    have e : r ∈ dcY.appended k ↔ r ∈ jobY.appended k := by simp [dcY, jobY, spAppend]
    rw [e, this]
    simp [dcY, jobY, spAppend]
  document := jobY_ok.document
  firstFile := ⟨jobI, by simp, f1, c!"0-0-0", morBase, by simp [jobI],
    ⟨_, _, _, _, _, rfl, rfl, .inr ⟨by
      rintro ⟨stem, h⟩
      have h' := congrArg (fun l : Str => l.getLast?) h
      simp [morLog] at h', _, rfl, rfl⟩⟩, by decide, by decide⟩

def dcAppend : Request := .append (logAt f1 t0 (c!"1", c!"0-0-1")) [x1, x1]

/-- The insert has completed. -/
def dcI : Work := ⟨jobI.completion.run (putI.run []), [jobI], [], [t0]⟩

/-- The write that appends the same row twice has completed, too. -/
def dcDone : Work := ⟨dcY.completion.run (dcAppend.run dcI.store), [jobI, dcY], [], [t1, t0]⟩

/-- A third write has appended its block, and stops. -/
def dcX : Work := ⟨appendX.run dcDone.store, [jobI, dcY], [⟨jobX, [appendX], none, []⟩], [t2, t1, t0]⟩

/-- It has been rolled back. -/
def dcR : Work := ⟨(Request.append (logAt f1 t0 here) [undoX]).run dcX.store, [jobI, dcY], [], [t3, t2, t1, t0]⟩

theorem dc_I : WorksOnce dcSetting nothingYet dcI := by
  have h1 := WorksOnce.step .refl (dc_step (alone_begin nothingYet jobI rfl (by intro u hu; cases hu) jobI_ok))
    (one_current .nil)
  have h2 := WorksOnce.step h1 (dc_step (alone_request _ ⟨jobI, [], none, []⟩ putI rfl rfl
    (by simp [Job.requests, jobI, putI]))) (one_current .nil)
  exact WorksOnce.step h2 (dc_step (alone_complete _ ⟨jobI, [putI], none, []⟩ rfl rfl (fun q hq => hq))) none_current

theorem dc_done : WorksOnce dcSetting nothingYet dcDone := by
  have hu : ∀ u ∈ dcI.used, compare u t1 = .lt := by decide
  have h1 := WorksOnce.step dc_I (dc_step (alone_begin dcI dcY rfl hu dcY_ok)) (one_current .nil)
  have h2 := WorksOnce.step h1 (dc_step (alone_request _ ⟨dcY, [], none, []⟩ dcAppend rfl rfl List.mem_cons_self))
    (one_current (List.nodup_singleton _))
  exact WorksOnce.step h2 (dc_step (alone_complete _ ⟨dcY, [dcAppend], none, []⟩ rfl rfl (fun q hq => hq)))
    none_current

theorem dcX_ok : JobOk spSetting [jobI, dcY] jobX :=
  spAppend_ok (by simp) (by decide) (by decide) ⟨_, rfl⟩
    (by
      intro j h
      simp only [List.mem_cons, List.not_mem_nil, or_false] at h
      rcases h with rfl | rfl <;> simp [jobI, dcY, jobY, spAppend]) (by decide) (by decide) x2_good rfl
    (fun h => absurd h.1 (by decide)) (dated_fit _ (by simp)) rfl

theorem dc_X : WorksOnce dcSetting nothingYet dcX := by
  have hu : ∀ u ∈ dcDone.used, compare u t2 = .lt := by decide
  have h1 := WorksOnce.step dc_done (dc_step (alone_begin dcDone jobX rfl hu dcX_ok)) (one_current .nil)
  exact WorksOnce.step h1 (dc_step (alone_request _ ⟨jobX, [], none, []⟩ appendX rfl rfl List.mem_cons_self))
    (one_current (List.nodup_singleton _))

theorem dc_R : Works dcSetting dcX dcR := by
  have hu : ∀ u ∈ dcX.used, compare u t3 = .lt := by decide
  have h1 := Works.step (.refl _) (dc_step (alone_rollback dcX ⟨jobX, [appendX], none, []⟩ t3 rfl hu (by decide) ⟨_, rfl⟩))
  have h2 := Works.step h1 (dc_step (alone_block _ ⟨jobX, [appendX], some t3, []⟩ t3 f1 [(c!"1", c!"0-0-1")]
    ⟨t0, c!"0-0-0", [(c!"1", c!"0-0-1")]⟩ here undoX rfl rfl List.mem_cons_self rfl (by decide) undoX_good rfl
    ⟨⟨rfl, _, rfl, rfl⟩, rfl⟩))
  refine Works.step h2 (dc_step (alone_recovered _ ⟨jobX, [appendX], some t3, [f1]⟩ t3 rfl rfl ?_ ?_))
  · intro k token hk
    simp [jobX, spAppend] at hk
  · intro k ls v l hk _ _ _
    have hk' : k = f1 ∧ ls = [(c!"1", c!"0-0-1")] := by simpa [jobX, spAppend] using hk
    rw [hk'.1]
    exact List.mem_cons_self

theorem dc_documented : AllDocumented [jobI, dcY] := by
  intro d1 j d2 h
  match d1, h with
  | [], h => cases h; exact jobI_documented
  | [_], h =>
    cases h
    refine ⟨jobY_documented.document, jobY_documented.commitTime, ?_⟩
    intro k ls v hk hv r hr
    exact jobY_documented.dated k ls v hk hv r (by simpa [dcY, jobY, spAppend] using hr)
  | _ :: _ :: _, h => simp at h

theorem dcX_inPlace : RollbacksInPlace dcX := by
  refine inPlace_of (fun ws => ws = [x1, x1, x2]) ?_ ?_
  · intro e he ws hws
    have hs : dcX.store = [(baseAt f1 c!"0-0-0" t0, .file (.parquet 1 base1)),
        (instantAt jobI.commit, .file (.json (.obj chDoc0))), (instantAt jobY.commit, .file (.json (.obj chDoc2))),
        (logAt f1 t0 here, .log [x1, x1, x2])] := rfl
    rw [hs] at he
    simp only [List.mem_cons, List.not_mem_nil, or_false] at he
    rcases he with rfl | rfl | rfl | rfl
    · cases hws
    · cases hws
    · cases hws
    · cases hws; rfl
  · rintro ws rfl w hw i hr hb
    simp only [List.mem_cons, List.not_mem_nil, or_false] at hw
    rcases hw with rfl | rfl | rfl
    · cases (show some t1 = some i from hb)
      exact .inl ⟨dcY, by simp [dcX], rfl⟩
    · cases (show some t1 = some i from hb)
      exact .inl ⟨dcY, by simp [dcX], rfl⟩
    · cases (show some t2 = some i from hb)
      exact .inr (.inl ⟨_, List.mem_cons_self, rfl⟩)

theorem jobI_counts : Counts dcSetting jobI := by intro k ls hk; simp [jobI] at hk

theorem dcY_counts : Counts dcSetting dcY := by
  intro k ls hk
  have e : k = f1 ∧ ls = [(c!"1", c!"0-0-1")] := by simpa [dcY, jobY, spAppend] using hk
  rw [e.2]
  exact ⟨List.nodup_singleton _, _, ⟨[[x1Batch], [x1Batch]], .cons rfl (.cons rfl .nil), rfl⟩, .refl _⟩

theorem jobY_counts : Counts dcSetting jobY := by
  intro k ls hk
  have e : k = f1 ∧ ls = [(c!"1", c!"0-0-1")] := by simpa [jobY, spAppend] using hk
  rw [e.2]
  exact ⟨List.nodup_singleton _, _, ⟨[[x1Batch]], .cons rfl .nil, rfl⟩, by simp [jobY, spAppend]⟩

theorem jobK_counts : Counts dcSetting jobK := by intro k ls hk; simp [jobK] at hk

/-- The files are read when the third write has been rolled back. -/
def dcMoments : Moments := ⟨fun _ => dcX, dcR, dcX, fun _ => dcX, fun _ => dcX, fun _ => dcR, fun _ => dcR⟩

theorem dc_since : Since dcSetting dcX dcMoments :=
  ⟨fun _ => .refl _, dc_R, .refl _, fun _ => .refl _, fun _ => .refl _, fun _ => dc_R, fun _ _ => dc_R⟩

theorem dc_handle {s : Work} {tl : Timeline} (h : ∃ o, Timeline.load env o s.tree = .ok tl)
    (hz : timezoneOf tl.opts = .ok c!"utc") : AppendsAt env dcSetting s ⟨everyOpts, [], tl⟩ where
  load := h
  clock := rfl
  zone := hz
  options := rfl
  appends := ⟨⟨by simp [HmNodup], by simp⟩, show ¬ OverwritesWithLatest everyOpts by decide,
    show ¬ ReadOptimized everyOpts by decide, rfl, rfl⟩

/-- With the writes of C92's example. -/
theorem dc_K : WorksOnce dcSetting nothingYet ccK := by
  have hu : ∀ u ∈ dcI.used, compare u t1 = .lt := by decide
  have h1 := WorksOnce.step dc_I (dc_step (alone_begin dcI jobY rfl hu jobY_ok)) (one_current .nil)
  have h2 := WorksOnce.step h1 (dc_step (alone_request _ ⟨jobY, [], none, []⟩ appendY rfl rfl List.mem_cons_self))
    (one_current (List.nodup_singleton _))
  have h3 : WorksOnce dcSetting nothingYet spY := WorksOnce.step h2
    (dc_step (alone_complete _ ⟨jobY, [appendY], none, []⟩ rfl rfl (fun q hq => hq))) none_current
  have hu : ∀ u ∈ spY.used, compare u clTs = .lt := by decide
  have h4 := WorksOnce.step h3 (dc_step (alone_begin spY jobK rfl hu jobK_ok)) (one_current .nil)
  have h5 := WorksOnce.step h4 (dc_step (alone_request _ ⟨jobK, [], none, []⟩ putK rfl rfl List.mem_cons_self))
    (one_current .nil)
  exact WorksOnce.step h5 (dc_step (alone_complete _ ⟨jobK, [putK], none, []⟩ rfl rfl (fun q hq => hq))) none_current

theorem dc_L : CleansOnce dcSetting clTs nothingYet ccL :=
  .step (cleansOnce_of dc_K)
    (.log ccK jobI f1 c!"0-0-0" here List.mem_cons_self List.mem_cons_self cc_superseded (by decide)) none_current

theorem dc_toB : Cleans dcSetting clTs ccL ccB :=
  .step (.refl _) (.base ccL jobI f1 c!"0-0-0" List.mem_cons_self List.mem_cons_self cc_superseded ccL_logs)

theorem dc_cleaned : SinceCleaned dcSetting clTs ccL ccMoments :=
  ⟨fun _ => .refl _, dc_toB, .refl _, fun _ => .refl _, fun _ => .refl _, fun _ => dc_toB, fun _ _ => dc_toB⟩

end Demo

open Demo in
/-- The hypotheses of the theorems on changes are met by an insert, a write that appends the same row twice, and a third
one that appends to the same log file and stops, to be rolled back while the read runs.  The handle opened when it had
stopped reads the row twice. -/
example : MonotoneTz env.ltz ∧ WholeSecondsTz env.ltz ∧ WorksOnce dcSetting nothingYet dcX ∧ AllDocumented dcX.done ∧
    RollbacksInPlace dcX ∧ (∀ j ∈ dcX.done, Counts dcSetting j) ∧ Since dcSetting dcX dcMoments ∧
    AppendsAt env dcSetting dcX { spTable with opts := everyOpts } ∧ MetaFields dcSetting.o ∧
    (WriterTimestamp t0 ∧ t0.length = dcSetting.width) ∧ (∃ d, parseDatetime dcSetting.ltz t0 dcSetting.tz = .ok d) ∧
    dcY.commit ∈ dcX.history ∧
    ({ spTable with opts := everyOpts } : Table).readIncrementalR env arrow codecDated (mergeEnv arrow) dcMoments.race t0
      (some t1) = .ok [⟨incSchema, x1Batch.rows ++ x1Batch.rows⟩] ∧
    ({ spTable with opts := everyOpts } : Table).readIncrementalR env arrow codecDated (mergeEnv arrow) dcMoments.race t0
      none = .ok [⟨incSchema, x1Batch.rows ++ x1Batch.rows⟩] :=
  ⟨by intro a b a' b' h1 h2 h; cases h1; cases h2; exact h, by intro n d h; cases h; rfl, dc_X, dc_documented,
    dcX_inPlace, by
      intro j hj
      rcases (show j = jobI ∨ j = dcY by simpa [dcX] using hj) with rfl | rfl
      · exact jobI_counts
      · exact dcY_counts,
    dc_since, dc_handle ⟨[], rfl⟩ rfl, by decide, by decide, ⟨_, rfl⟩, by simp [dcX, Work.history, commitsOf],
    by decide +kernel, by decide +kernel⟩

open Demo in
/-- And beside a cleaner, by the writes of C92's example. -/
example : CleansOnce dcSetting clTs nothingYet ccL ∧ AllDocumented ccL.done ∧ RollbacksInPlace ccL ∧
    (∀ j ∈ ccL.done, Counts dcSetting j) ∧ SinceCleaned dcSetting clTs ccL ccMoments ∧
    AppendsAt env dcSetting ccL { ccTable with opts := everyOpts } ∧ jobK.commit ∈ ccL.history ∧
    (compare clTs jobK.commit.ts).isLE ∧
    ({ ccTable with opts := everyOpts } : Table).readIncrementalR env arrow codecDated (mergeEnv arrow) ccMoments.race t0
      (some clTs) = .ok [⟨incSchema, x1Batch.rows ++ [datedRow c!"5" c!"E" c!"eve" 2 clTs]⟩] :=
  ⟨dc_L, ccK_documented, ccL_inPlace, by
      intro j hj
      rcases (show j = jobI ∨ j = jobY ∨ j = jobK by simpa [ccL, ccK] using hj) with rfl | rfl | rfl
      · exact jobI_counts
      · exact jobY_counts
      · exact jobK_counts,
    dc_cleaned, dc_handle ⟨[], rfl⟩ rfl, by simp [ccL, ccK, Work.history, commitsOf], by decide, by decide +kernel⟩

end Hudi
