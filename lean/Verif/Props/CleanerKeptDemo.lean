import Verif.Props.CleanerKept
import Verif.Props.CleanerDemo

/-! # C91: concrete cases -/

namespace Hudi
open Spec

namespace Demo

/-- The files are listed before the cleaner starts. -/
def clEarly : Moments := ⟨fun _ => clWE, clWE, clWE, fun _ => clWE, fun _ => clWE, fun _ => clWE, fun _ => clL⟩

/-- A call made then: the slices as of the first commit. -/
def clFirst : Nat × Cache × Res Answer :=
  (TableCall.slicesAsOf t0 []).race env arrow codec (mergeEnv arrow) clTable 1 clEarly.race noFaults []

/-- Another: a read of which a request fails. -/
def clSecond : Nat × Cache × Res Answer :=
  (TableCall.snapshot []).race env arrow codec (mergeEnv arrow) clTable 1 clMoments.race (fun n => n == 3) clFirst.2.1

theorem cl_kept : KeptCleaned env arrow wkSetting (mergeEnv arrow) clTs clWE clTable 1 clSecond.2.1 :=
  .call (S := wkSetting) clMoments _ _ cl_since (.call (S := wkSetting) clEarly _ _
    ⟨fun _ => .refl _, .refl _, .refl _, fun _ => .refl _, fun _ => .refl _, fun _ => .refl _, fun _ _ => cleans_L⟩ .opened)

/-- Nothing happens while the call runs. -/
def clQuiet : Moments := ⟨fun _ => clWD, clWD, clWD, fun _ => clWD, fun _ => clWD, fun _ => clWD, fun _ => clWD⟩

/-- A read through a handle opened before the new base file was written. -/
def clBefore : Nat × Cache × Res Answer :=
  (TableCall.snapshot []).race env arrow codec (mergeEnv arrow) clTable' 1 clQuiet.race noFaults []

theorem cl_kept' : KeptCleaned env arrow wkSetting (mergeEnv arrow) clTs clWD clTable' 1 clBefore.2.1 :=
  .call (S := wkSetting) clQuiet _ _
    ⟨fun _ => .refl _, .refl _, .refl _, fun _ => .refl _, fun _ => .refl _, fun _ => .refl _, fun _ _ => .refl _⟩ .opened

/-- The cleaner is done when the call runs. -/
def clDone : Moments := ⟨fun _ => clB, clB, clB, fun _ => clB, fun _ => clB, fun _ => clB, fun _ => clB⟩

theorem cl_toB : Cleans wkSetting clTs clWD clB :=
  .step (.step (cleans_of_works cl_works_E) (.log clWE jobA f1 c!"0-0-0" (c!"1", c!"0-7-7") List.mem_cons_self
    List.mem_cons_self cl_superseded (by decide)))
    (.base clL jobA f1 c!"0-0-0" List.mem_cons_self List.mem_cons_self cl_superseded clL_logs)

theorem cl_sinceDone : SinceCleaned wkSetting clTs clWD clDone :=
  ⟨fun _ => cl_toB, cl_toB, cl_toB, fun _ => cl_toB, fun _ => cl_toB, fun _ => cl_toB, fun _ _ => .refl _⟩

end Demo

open Demo in
/-- The hypotheses of C91 are met: the first call has cached the version that the cleaner then deletes, the second one
returned an error, and the read at the end returns the rows of the new base file and of the second file group, or an
error if a request fails. -/
example : MonotoneTz env.ltz ∧ WholeSecondsTz env.ltz ∧ Cleans wkSetting clTs nothingYet clWE ∧ NamesCurrent clWE ∧
    SinceCleaned wkSetting clTs clWE clMoments ∧ OpenedAt env arrow wkSetting clWE clTable [] [] false false ∧
    wkSetting.depth < 1 ∧ KeptCleaned env arrow wkSetting (mergeEnv arrow) clTs clWE clTable 1 clSecond.2.1 ∧
    jobE.commit ∈ clWE.history ∧ (compare clTs jobE.commit.ts).isLE ∧
    (∀ c, clWE.history.getLast? = some c → (compare clTs c.ts).isLE) ∧
    (∃ ss, clFirst.2.2 = .ok (.slices ss) ∧ ss.map (fun s => (s.baseFile.fileId, s.baseFile.commitTimestamp)) =
      [(c!"f1", t0)]) ∧
    (∃ e, clSecond.2.2 = .err e) ∧
    ¬ (TableCall.snapshotAsOf clTs []).SomeFails env arrow codec (mergeEnv arrow) clTable 1 clMoments.race
      (fun n => n == 19) clSecond.2.1 ∧
    (clTable.readSnapshotAsOfRF env arrow codec (mergeEnv arrow) 1 clMoments.race clTs [] (fun n => n == 19) 0
      clSecond.2.1).2.2 = .ok [clBatch, mor] ∧
    (TableCall.snapshotAsOf clTs []).SomeFails env arrow codec (mergeEnv arrow) clTable 1 clMoments.race
      (fun n => n == 3) clSecond.2.1 :=
  ⟨by intro a b a' b' h1 h2 h; cases h1; cases h2; exact h, by intro n d h; cases h; rfl, cleans_of_works cl_works_all,
    cl_current, cl_since, cl_opened _ rfl, by decide, cl_kept, by simp [Work.history, commitsOf, clWE], by decide,
    by intro c hc; cases hc; decide, ⟨_, rfl, by decide +kernel⟩, ⟨_, rfl⟩,
    by unfold TableCall.SomeFails; decide +kernel, by decide +kernel,
    by unfold TableCall.SomeFails; decide +kernel⟩

open Demo in
/-- **C91 is false of a handle that knows less than the cleaner.**

The handle is opened and read; the read returns the records of both file groups.  Then a write gives one of them a new
base file, and the cleaner deletes the version that the handle had read, which is superseded.  The same read through
the same handle now returns the records of the other file group only, although no request fails. -/
theorem C91_false : ∃ (E : Env) (A : Arrow) (M : MergeEnv A) (S : Setting) (r : Str) (s0 : Work) (m m' : Moments)
    (tb : Table) (cache : Cache) (outs outs' : List Batch),
    Works S nothingYet s0 ∧ NamesCurrent s0 ∧ OpenedAt E A S s0 tb [] [] false false ∧ SinceCleaned S r s0 m ∧
    SinceCleaned S r s0 m' ∧ cache = ((TableCall.snapshot []).race E A S.C M tb 1 m.race noFaults []).2.1 ∧
    (tb.readSnapshotRF E A S.C M 1 m.race [] noFaults 0 []).2.2 = .ok outs ∧
    (tb.readSnapshotRF E A S.C M 1 m'.race [] noFaults 0 cache).2.2 = .ok outs' ∧
    (outs.map Batch.rows).flatten.length = 5 ∧ (outs'.map Batch.rows).flatten.length = 2 :=
  ⟨env, arrow, mergeEnv arrow, wkSetting, clTs, clWD, clQuiet, clDone, clTable', clBefore.2.1,
    [mor, ⟨mSchema, [mRow c!"2" c!"A" c!"x" 9, mRow c!"1" c!"C" c!"bob" 7, mRow c!"3" c!"B" c!"y" 1]⟩], [mor], cl_works_toD,
    cl_current', cl_opened', ⟨fun _ => .refl _, .refl _, .refl _, fun _ => .refl _, fun _ => .refl _, fun _ => .refl _,
      fun _ _ => .refl _⟩, cl_sinceDone, rfl, by decide +kernel, by decide +kernel, by decide +kernel, by decide +kernel⟩

end Hudi
