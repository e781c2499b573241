import Verif.Props.CleanerTail
import Verif.Props.CleanerChangesDemo
import Verif.Props.MirrorDemo

/-! # C93: a consumer that meets the hypotheses, and a counterexample -/

namespace Hudi
open Spec
namespace Demo

theorem works_IY : Works spSetting spI spY := by
  have h4 := Works.step (.refl _) (alone_begin spI jobY rfl (by intro u hu; rw [List.mem_singleton.1 hu]; decide) jobY_ok)
  have h5 := Works.step h4 (alone_request _ ⟨jobY, [], none, []⟩ appendY rfl rfl List.mem_cons_self)
  have h6 := Works.step h5 (alone_complete _ ⟨jobY, [appendY], none, []⟩ rfl rfl (fun q hq => hq))
  exact h6

theorem allAt_cleaned {S : Setting} {r : Str} {s0 s : Work} (h : Cleans S r s0 s) : SinceCleaned S r s0 (allAt s) :=
  ⟨fun _ => h, h, h, fun _ => h, fun _ => h, fun _ => h, fun _ _ => .refl _⟩

theorem spY_inPlace : RollbacksInPlace spY := by
  refine inPlace_of (fun ws => ws = [x1]) ?_ ?_
  · intro e he ws hws
    have hs : spY.store = [(baseAt f1 c!"0-0-0" t0, .file (.parquet 1 base1)),
        (instantAt jobI.commit, .file (.json (.obj chDoc0))), (logAt f1 t0 here, .log [x1]),
        (instantAt jobY.commit, .file (.json (.obj chDoc2)))] := rfl
    rw [hs] at he
    simp only [List.mem_cons, List.not_mem_nil, or_false] at he
    rcases he with rfl | rfl | rfl | rfl
    · cases hws
    · cases hws
    · cases hws; rfl
    · cases hws
  · rintro ws rfl w hw i hr hb
    rw [List.mem_singleton] at hw
    subst hw
    cases (show some t1 = some i from hb)
    exact .inl ⟨jobY, by simp [spY], rfl⟩

/-- A row that the third write has added. -/
def rowE : List Cell := datedRow c!"5" c!"E" c!"eve" 2 clTs

/-- The visits: one after the second write, and one when the cleaner has deleted its log file. -/
def ccPolls : List Poll := [⟨spY, t0, t1, [x1Batch]⟩, ⟨ccL, t1, clTs, [⟨incSchema, [rowE]⟩]⟩]

theorem cc_begins : FollowsCleaned env arrow spSetting (mergeEnv arrow) t0 t0 [] spI t0 :=
  .begins t0 spI jobI.commit (cleans_of_works works_I) rfl rfl

theorem cc_follows : FollowsCleaned env arrow spSetting (mergeEnv arrow) t0 clTs ccPolls ccL clTs := by
  have h1 := FollowsCleaned.polls cc_begins t0 (by decide) spY (cleans_of_works works_IY)
    (by intro c hc; cases hc; decide) spTable cc_handle' (allAt spY) (allAt_cleaned (.refl _)) t1 rfl [x1Batch]
    (by decide +kernel)
  exact FollowsCleaned.polls h1 clTs (by decide) ccL (cleans_more (cleans_of_works works_K) cc_toL)
    (by intro c hc; cases hc; decide) ccTable cc_handle ccMoments cc_since clTs rfl [⟨incSchema, [rowE]⟩]
    (by decide +kernel)

/-- A consumer that stays away meanwhile. -/
theorem cc_follows' : FollowsCleaned env arrow spSetting (mergeEnv arrow) t0 clTs
    [⟨ccL, t0, clTs, [⟨incSchema, x1Batch.rows ++ [rowE]⟩]⟩] ccL clTs :=
  FollowsCleaned.polls cc_begins clTs (by decide) ccL
    (cleans_more (cleans_of_works (works_trans works_IY works_K)) cc_toL) (by intro c hc; cases hc; decide) ccTable
    cc_handle ccMoments cc_since clTs rfl _ (by decide +kernel)

end Demo

open Demo in
/-- The hypotheses of C93 are met by a consumer that begins after an insert.  It visits the table when a write that
appends a block has completed, and receives the record appended.  A third write gives the file group a new base file,
and the cleaner deletes the log file, and, during the second visit, the old base file.  The consumer receives the record
that the third write has added.  If it had stayed away after the insert, it would have received both on that visit
(`cc_follows'`). -/
example : MonotoneTz env.ltz ∧ WholeSecondsTz env.ltz ∧
    FollowsCleaned env arrow spSetting (mergeEnv arrow) t0 clTs ccPolls ccL clTs ∧ (compare clTs clTs).isLE = true ∧
    Cleans spSetting clTs ccL ccB ∧ AllDocumented ccB.done ∧ MetaFields spSetting.o ∧
    (∀ p ∈ ccPolls, RollbacksInPlace p.moment) ∧ (∀ p ∈ ccPolls, p.Received arrow spSetting ccB.done) ∧
    (∀ p ∈ ccPolls, p.outs.flatMap Batch.rows ≠ []) ∧ KeepsLatest clTs ccL ∧ HandleAt env spSetting ccL ccTable ∧
    SinceCleaned spSetting clTs ccL ccMoments := by
  have hmono : MonotoneTz env.ltz := by intro a b a' b' h1 h2 h; cases h1; cases h2; exact h
  have hsec : WholeSecondsTz env.ltz := by intro n d h; cases h; rfl
  have hmeta : MetaFields spSetting.o := by decide
  have hin : ∀ p ∈ ccPolls, RollbacksInPlace p.moment := by
    intro p hp
    simp only [ccPolls, List.mem_cons, List.not_mem_nil, or_false] at hp
    rcases hp with rfl | rfl
    · exact spY_inPlace
    · exact ccL_inPlace
  refine ⟨hmono, hsec, cc_follows, by decide, cc_toB, ccK_documented, hmeta, hin,
    (C93_nothing_missed_partial env arrow spSetting (mergeEnv arrow) hmono hsec t0 clTs ccPolls _ _ cc_follows clTs
      (by decide) _ cc_toB ccK_documented hmeta hin).1, ?_, by intro c hc; cases hc; decide, cc_handle, cc_since⟩
  intro p hp
  simp only [ccPolls, List.mem_cons, List.not_mem_nil, or_false] at hp
  rcases hp with rfl | rfl <;> decide

open Demo in
/-- **C93 is false when the cleaner, during a visit, goes beyond the latest commit at its beginning.**  The consumer
opens the table when it knows of two writes.  A third one completes, and the cleaner deletes what it has superseded,
before the consumer's requests for the changes are answered: the visit fails. -/
theorem C93_false : ∃ (E : Env) (A : Arrow) (S : Setting) (M : MergeEnv A) (pos0 r : Str) (ps : List Poll) (s : Work)
    (pos r' : Str) (s' : Work) (tb : Table) (m : Moments) (e : ErrKind),
    MonotoneTz E.ltz ∧ WholeSecondsTz E.ltz ∧ FollowsCleaned E A S M pos0 r ps s pos ∧ (compare r r').isLE = true ∧
    Cleans S r' s s' ∧ AllDocumented s'.done ∧ MetaFields S.o ∧ RollbacksInPlace s' ∧ HandleAt E S s' tb ∧
    SinceCleaned S r' s' m ∧ tb.readIncrementalR E A S.C M m.race pos none = .err e :=
  ⟨env, arrow, spSetting, mergeEnv arrow, t0, t0, [], spI, t0, clTs, spY, spTable, allAt ccB, .readFileSlice,
    by intro a b a' b' h1 h2 h; cases h1; cases h2; exact h, by intro n d h; cases h; rfl, cc_begins, by decide,
    cleans_of_works works_IY, spY_documented, by decide, spY_inPlace, cc_handle',
    allAt_cleaned (cleans_more (cleans_of_works works_K) cc_allB), by decide +kernel⟩

end Hudi
