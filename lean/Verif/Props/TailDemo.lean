import Verif.Props.Tail
import Verif.Props.WriterChangesDemo

/-! # C88: a consumer that meets the hypotheses, and a counterexample -/

namespace Hudi
open Spec
namespace Demo

/-- One write has completed. -/
def spI : Work := ⟨jobI.completion.run (putI.run []), [jobI], [], [t0]⟩

theorem works_I : Works spSetting nothingYet spI := by
  have h1 := Works.step (.refl _) (alone_begin nothingYet jobI rfl (by intro u hu; cases hu) jobI_ok)
  have h2 := Works.step h1 (alone_request _ ⟨jobI, [], none, []⟩ putI rfl rfl (by simp [Job.requests, jobI, putI]))
  have h3 := Works.step h2 (alone_complete _ ⟨jobI, [putI], none, []⟩ rfl rfl (fun q hq => hq))
  exact h3

theorem works_IX : Works spSetting spI spX := by
  have h4 := Works.step (.refl _) (alone_begin spI jobY rfl (by intro u hu; rw [List.mem_singleton.1 hu]; decide) jobY_ok)
  have h5 := Works.step h4 (alone_request _ ⟨jobY, [], none, []⟩ appendY rfl rfl List.mem_cons_self)
  have h6 := Works.step h5 (alone_complete _ ⟨jobY, [appendY], none, []⟩ rfl rfl (fun q hq => hq))
  exact works_trans h6 works_X

/-- The storage does not change. -/
def spStill : Moments := ⟨fun _ => spZ here, spZ here, spZ here, fun _ => spZ here, fun _ => spZ here, fun _ => spZ here,
  fun _ => spZ here⟩

theorem still_since : Since spSetting (spZ here) spStill :=
  ⟨fun _ => .refl _, .refl _, .refl _, fun _ => .refl _, fun _ => .refl _, fun _ => .refl _, fun _ _ => .refl _⟩

/-- The visits: one while the third write has stopped, one after the fourth has completed. -/
def spPolls : List Poll := [⟨spX, t0, t1, [x1Batch]⟩, ⟨spZ here, t1, t4, [base2]⟩]

theorem sp_follows : Follows env arrow spSetting (mergeEnv arrow) t0 spPolls (spZ here) t4 := by
  have h0 : Follows env arrow spSetting (mergeEnv arrow) t0 [] spI jobI.commit.ts := .begins spI jobI.commit works_I rfl rfl
  have h1 := Follows.polls h0 spX works_IX spTable sp_handle spMoments sp_since t1 rfl [x1Batch] (by decide +kernel)
  exact Follows.polls h1 (spZ here) (works_trans (works_spR _ (by decide)) (works_Z _)) spTable' (sp_handle' _ (.inl rfl))
    spStill still_since t4 rfl [base2] (by decide +kernel)

/-- Two writers at work: one appends its block, the other one inserts and completes. -/
def raceStore : Objects := jobZ.completion.run (putZ.run (appendY.run spI.store))

/-- Opened then. -/
def raceTable : Table := ⟨morOpts, [], ⟨[], [⟨t0, .commit, .completed, 1703980800000⟩,
  ⟨t4, .commit, .completed, 1704326400000⟩]⟩⟩

theorem jobZ_ok_alone : JobOk spSetting [jobI] jobZ where
  later := by decide
  time := jobZ_ok.time
  parses := jobZ_ok.parses
  once := jobZ_ok.once
  sites := jobZ_ok.sites
  replaces := jobZ_ok.replaces
  gone := fun j h => jobZ_ok.gone j (by simp only [List.mem_singleton] at h; simp [h])
  live := by intro k ls hk; simp [jobZ] at hk
  ids := jobZ_ok.ids
  tokens := jobZ_ok.tokens
  logs := jobZ_ok.logs
  batches := jobZ_ok.batches
  blocks := by intro k ls v hk; simp [jobZ] at hk
  rows := jobZ_ok.rows
  document := jobZ_ok.document
  firstFile := ⟨jobZ, by simp, f2, c!"0-4-1", recBase, by simp [jobZ],
    ⟨_, _, _, _, _, rfl, rfl, .inl ⟨⟨c!"f2_0-4-1_20240104000000000", rfl⟩, rfl⟩⟩, by decide, by decide⟩

end Demo

open Demo in
/-- The hypotheses of C88 are met by a consumer that begins after an insert.  It visits the table when a write that
appends a block has completed and another one has stopped, and receives the record appended, while the latter is rolled
back and a fourth write inserts into another file group.  On its second visit it receives the record inserted. -/
example : MonotoneTz env.ltz ∧ WholeSecondsTz env.ltz ∧
    Follows env arrow spSetting (mergeEnv arrow) t0 spPolls (spZ here) t4 ∧ AllDocumented (spZ here).done ∧
    MetaFields spSetting.o ∧ (∀ p ∈ spPolls, RollbacksInPlace p.moment) ∧
    (∀ p ∈ spPolls, p.Received arrow spSetting (spZ here).done) ∧ ∀ p ∈ spPolls, p.outs ≠ [] := by
  have hmono : MonotoneTz env.ltz := by intro a b a' b' h1 h2 h; cases h1; cases h2; exact h
  have hsec : WholeSecondsTz env.ltz := by intro n d h; cases h; rfl
  have hmeta : MetaFields spSetting.o := by decide
  have hin : ∀ p ∈ spPolls, RollbacksInPlace p.moment := by
    intro p hp
    simp only [spPolls, List.mem_cons, List.not_mem_nil, or_false] at hp
    rcases hp with rfl | rfl
    · exact spX_inPlace
    · exact spZ_inPlace
  refine ⟨hmono, hsec, sp_follows, spZ_documented, hmeta, hin,
    (C88_nothing_missed_partial env arrow spSetting (mergeEnv arrow) hmono hsec t0 spPolls _ _ sp_follows _ (.refl _)
      spZ_documented hmeta hin).1, ?_⟩
  intro p hp
  simp only [spPolls, List.mem_cons, List.not_mem_nil, or_false] at hp
  rcases hp with rfl | rfl <;> simp

open Demo in
/-- **C88 as stated is false.**  Two writers work at the same time, on different file groups, and `j'`, with the later
timestamp, completes first.  A consumer that visits the table then receives what `j'` has written.  When it visits the
table again after `j` has completed, the latest commit is still that of `j'`, and it receives nothing: the record that
`j` has written, which is in the table, is in none of its answers.  A read of the same span from its beginning, now,
returns it. -/
theorem C88_false : ∃ (E : Env) (A : Arrow) (S : Setting) (M : MergeEnv A) (s : Work) (c : HCommit) (j j' : Job)
    (st st' : Objects) (tb tb' : Table) (outs outs' all : List Batch) (k : GroupKey) (r : List Cell),
    MonotoneTz E.ltz ∧ WholeSecondsTz E.ltz ∧ MetaFields S.o ∧
    Works S nothingYet s ∧ s.current = [] ∧ s.history.getLast? = some c ∧ Spec.Fresh s j.commit.ts ∧
    JobOk S s.done j ∧ JobOk S s.done j' ∧ JobOk S (s.done ++ [j]) j' ∧ AllDocumented (s.done ++ [j, j']) ∧
    st = j'.completion.run ((j.requests s.history ++ j'.requests s.history).foldl (fun o q => q.run o) s.store) ∧
    st' = j.completion.run st ∧
    HandleAt E S ⟨st, s.done ++ [j'], [], []⟩ tb ∧ HandleAt E S ⟨st', s.done ++ [j, j'], [], []⟩ tb' ∧
    tb.readIncremental E A S.C M (treeOf st) c.ts none = .ok outs ∧ tb.timeline.latestTimestampR = .ok j'.commit.ts ∧
    tb'.readIncremental E A S.C M (treeOf st') j'.commit.ts none = .ok outs' ∧
    tb'.timeline.latestTimestampR = .ok j'.commit.ts ∧
    r ∈ recordsAfter (rowsOf (s.done ++ [j, j'])) (commitsOf (s.done ++ [j, j'])) k ∧
    r ∉ recordsAfter (rowsOf s.done) s.history k ∧ r ∉ (outs ++ outs').flatMap Batch.rows ∧
    tb'.readIncremental E A S.C M (treeOf st') c.ts none = .ok all ∧ r ∈ all.flatMap Batch.rows := by
  refine ⟨env, arrow, spSetting, mergeEnv arrow, spI, jobI.commit, jobY, jobZ, raceStore, jobY.completion.run raceStore,
    raceTable, spTable', [base2], [], [x1Batch, base2], f1, x1Batch.rows.head!,
    by intro a b a' b' h1 h2 h; cases h1; cases h2; exact h, by intro n d h; cases h; rfl, by decide, works_I, rfl, rfl,
    by intro u hu; rw [List.mem_singleton.1 hu]; decide, jobY_ok, jobZ_ok_alone, jobZ_ok, spZ_documented, rfl, rfl,
    ⟨⟨[], rfl⟩, rfl, rfl, rfl, ⟨⟨by simp [HmNodup, raceTable], by simp [raceTable]⟩, ⟨by decide, rfl, by decide⟩, rfl, rfl⟩⟩,
    ⟨⟨[], rfl⟩, rfl, rfl, rfl, ⟨⟨by simp [HmNodup, spTable'], by simp [spTable']⟩, ⟨by decide, rfl, by decide⟩, rfl, rfl⟩⟩,
    by decide +kernel, rfl, by decide +kernel, rfl, by decide, by decide, by decide, by decide +kernel, by decide⟩

end Hudi
