import Verif.Props.ArchiverChanges
import Verif.Props.ArchiverDemo

/-! # C102: concrete cases of reads of changes -/

namespace Hudi
open Spec
namespace Demo

def acBatch : Batch := ⟨incSchema, [datedRow c!"6" c!"F" c!"fay" 2 arTs]⟩

/-- A write that makes a new file group. -/
def acJob : Job := { arJob with base := fun _ => acBatch }

def acPut : Request := .put (baseAt svF5 c!"0-2-2" arTs) (.parquet 1 acBatch)

/-- After an insert, a write that appends, a new base file, and that write. -/
def acZ : Work := ⟨acJob.completion.run (acPut.run ccK.store), [jobI, jobY, jobK, acJob], [], [arTs, clTs, t1, t0]⟩

theorem acJob_ok : JobOk spSetting [jobI, jobY, jobK] acJob where
  later := by decide
  time := by decide
  parses := ⟨_, rfl⟩
  once := by decide
  sites := by intro e he; rw [List.mem_singleton.1 he]; exact root_site
  replaces := by intro k hk; simp [acJob, arJob] at hk
  gone := by
    intro j h k hk
    simp only [List.mem_cons, List.not_mem_nil, or_false] at h
    rcases h with rfl | rfl | rfl <;> simp [jobI, jobY, spAppend, jobK] at hk
  live := by intro k ls hk; simp [acJob, arJob] at hk
  ids := by decide
  tokens := by intro k tk hk; simp only [acJob, arJob, List.mem_singleton, Prod.mk.injEq, Change.write.injEq] at hk
               rw [hk.2]; decide
  logs := by intro k ls hk; simp [acJob, arJob] at hk
  batches := fun _ _ _ => ⟨show acBatch.WF by unfold Batch.WF; decide,
    fun _ => ⟨show (acBatch.rows.map (keyOf acBatch.schema)).Nodup by decide,
    show MergeColumns acBatch.schema c!"ts" from ⟨by decide, by decide, _, rfl, rfl⟩⟩⟩
  blocks := by intro k ls v hk; simp [acJob, arJob] at hk
  rows := by intro k ls hk; simp [acJob, arJob] at hk
  document := by intro h; cases h
  firstFile := ⟨acJob, by simp, svF5, c!"0-2-2", arBase, by simp [acJob, arJob],
    ⟨_, _, _, _, _, rfl, rfl, .inl ⟨⟨c!"f5_0-2-2_20240108000000000", rfl⟩, rfl⟩⟩, by decide, by decide⟩

theorem ac_works_Z : Works spSetting ccK acZ := by
  have hu : ∀ u ∈ ccK.used, compare u arTs = .lt := by decide
  have h1 := Works.step (.refl _) (alone_begin ccK acJob rfl hu acJob_ok)
  have h2 := Works.step h1 (alone_request _ ⟨acJob, [], none, []⟩ acPut rfl rfl List.mem_cons_self)
  have h3 := Works.step h2 (alone_complete _ ⟨acJob, [acPut], none, []⟩ rfl rfl (fun q hq => hq))
  exact h3

theorem ac_works_all : Works spSetting nothingYet acZ := works_then works_Y (works_then works_K ac_works_Z)

theorem acJob_documented : Documented [jobI, jobY, jobK] acJob where
  document := by
    refine ⟨[⟨[], c!"f5", ⟨c!"f5", c!"0-2-2", arTs, c!"parquet", none⟩, []⟩],
      ⟨[([], [(⟨[], c!"f5", ⟨c!"f5", c!"0-2-2", arTs, c!"parquet", none⟩, []⟩, _)])], rfl, rfl, ?_⟩, by decide, ?_⟩
    · simp only [List.mem_singleton, forall_eq]
      exact ⟨trivial, _, rfl, rfl, .inr ⟨rfl, rfl, .inl rfl⟩⟩
    · intro w
      constructor
      · intro h
        rw [show w = _ from List.mem_singleton.1 h]
        exact ⟨svF5, .write c!"0-2-2", by simp [acJob, arJob], rfl⟩
      · rintro ⟨k, ch, h1, h2⟩
        simp only [acJob, arJob, List.mem_singleton, Prod.mk.injEq] at h1
        rw [h1.1, h1.2] at h2
        rw [← Option.some.inj h2]
        exact List.mem_cons_self
  commitTime := fun _ _ _ => ⟨_, rfl, rfl⟩
  dated := by intro k ls v hk; simp [acJob, arJob] at hk

theorem acZ_documented : AllDocumented [jobI, jobY, jobK, acJob] := by
  intro d1 j d2 h
  match d1, h with
  | [], h => cases h; exact jobI_documented
  | [_], h => cases h; exact jobY_documented
  | [_, _], h => cases h; exact jobK_documented
  | [_, _, _], h => cases h; exact acJob_documented
  | _ :: _ :: _ :: _ :: _, h => simp at h

/-- The archiver has deleted the timeline file of the first commit. -/
def acA : Work := { acZ with store := (Request.delete (instantAt jobI.commit)).run acZ.store }

/-- It has deleted that of the second. -/
def acB : Work := { acA with store := (Request.delete (instantAt jobY.commit)).run acA.store }

/-- The cleaner has deleted the log file of the first version of the first file group. -/
def acC : Work := { acB with store := (Request.delete (logAt f1 t0 here)).run acB.store }

/-- The archiver has deleted the timeline file of the third commit. -/
def acD : Work := { acB with store := (Request.delete (instantAt jobK.commit)).run acB.store }

theorem ac_toA {r q : Str} (h : compare t0 q = .lt) : Archives spSetting r q nothingYet acA :=
  .step (archives_of_works ac_works_all) (.archive acZ jobI (by simp [acZ]) h (by decide))

theorem ac_toB {r q : Str} (h : compare t1 q = .lt) : Archives spSetting r q acA acB :=
  .step (.refl _) (.archive acA jobY (by simp [acA, acZ]) h (by decide))

theorem ac_toC : Archives spSetting clTs clTs acB acC :=
  .step (.refl _) (.clean _ _ (.log acB jobI f1 c!"0-0-0" here List.mem_cons_self List.mem_cons_self
    ⟨jobK, by simp [acB, acA, acZ], by decide, by decide, .inl ⟨c!"0-9-9", List.mem_cons_self⟩⟩ (by decide)))

theorem ac_toD {r : Str} : Archives spSetting r arTs acB acD :=
  .step (.refl _) (.archive acB jobK (by simp [acB, acA, acZ]) (by decide) (by decide))

theorem ac_inPlace {s : Work} (hd : jobY ∈ s.done) (hs : ∀ e ∈ s.store, ∀ ws, e.2 = .log ws → ws = [x1]) :
    RollbacksInPlace s := by
  refine inPlace_of (fun ws => ws = [x1]) hs ?_
  rintro ws rfl w hw i hr hb
  rw [List.mem_singleton] at hw
  subst hw
  cases (show some t1 = some i from hb)
  exact .inl ⟨jobY, hd, rfl⟩

theorem acA_inPlace : RollbacksInPlace acA := by
  refine ac_inPlace (by simp [acA, acZ]) ?_
  intro e he ws hws
  have hs : acA.store = [(baseAt f1 c!"0-0-0" t0, .file (.parquet 1 base1)), (logAt f1 t0 here, .log [x1]),
      (instantAt jobY.commit, .file (.json (.obj chDoc2))),
      (baseAt f1 c!"0-9-9" clTs, .file (.parquet 1 ccBatch)), (instantAt jobK.commit, .file (.json (.obj jobK.doc))),
      (baseAt svF5 c!"0-2-2" arTs, .file (.parquet 1 acBatch)),
      (instantAt acJob.commit, .file (.json (.obj acJob.doc)))] := rfl
  rw [hs] at he
  simp only [List.mem_cons, List.not_mem_nil, or_false] at he
  rcases he with rfl | rfl | rfl | rfl | rfl | rfl | rfl
  · cases hws
  · cases hws; rfl
  all_goals cases hws

theorem acD_inPlace : RollbacksInPlace acD := by
  refine ac_inPlace (by simp [acD, acB, acA, acZ]) ?_
  intro e he ws hws
  have hs : acD.store = [(baseAt f1 c!"0-0-0" t0, .file (.parquet 1 base1)), (logAt f1 t0 here, .log [x1]),
      (baseAt f1 c!"0-9-9" clTs, .file (.parquet 1 ccBatch)),
      (baseAt svF5 c!"0-2-2" arTs, .file (.parquet 1 acBatch)),
      (instantAt acJob.commit, .file (.json (.obj acJob.doc)))] := rfl
  rw [hs] at he
  simp only [List.mem_cons, List.not_mem_nil, or_false] at he
  rcases he with rfl | rfl | rfl | rfl | rfl
  · cases hws
  · cases hws; rfl
  all_goals cases hws

/-- Opened when the first commit has been archived, ... -/
def acTable : Table := ⟨morOpts, [], ⟨[], [⟨t1, .deltaCommit, .completed, 1704067200000⟩,
  ⟨clTs, .commit, .completed, 1704499200000⟩, ⟨arTs, .commit, .completed, 1704672000000⟩]⟩⟩

/-- ... and when all but the last have. -/
def acTableD : Table := ⟨morOpts, [], ⟨[], [⟨arTs, .commit, .completed, 1704672000000⟩]⟩⟩

/-- Requests are answered while the archiver and the cleaner work. -/
def acMoments : Moments := ⟨fun _ => acB, acC, acB, fun _ => acA, fun _ => acB, fun _ => acC, fun _ => acC⟩

theorem ac_since : SinceArchived spSetting clTs clTs acA acMoments :=
  ⟨fun _ => ac_toB (by decide), archives_more (ac_toB (by decide)) ac_toC, ac_toB (by decide), fun _ => .refl _,
    fun _ => ac_toB (by decide), fun _ => archives_more (ac_toB (by decide)) ac_toC, fun _ _ => ac_toC⟩

end Demo

open Demo in
/-- The hypotheses of C102's theorems about changes are met by an insert, a write that appends, one that gives the file
group a new base file, and one that makes a further file group; the archiver deletes the timeline file of the first commit
before the handle is opened and that of the second while it reads, when the cleaner deletes a log file, too.  What has
changed since the third commit is read in full. -/
example : MonotoneTz env.ltz ∧ WholeSecondsTz env.ltz ∧ Archives spSetting clTs clTs nothingYet acA ∧
    AllDocumented acA.done ∧ RollbacksInPlace acA ∧ SinceArchived spSetting clTs clTs acA acMoments ∧
    HandleAt env spSetting acA acTable ∧ MetaFields spSetting.o ∧ (WriterTimestamp clTs ∧ clTs.length = spSetting.width) ∧
    (∃ d, parseDatetime spSetting.ltz clTs spSetting.tz = .ok d) ∧ (compare clTs clTs).isLE ∧
    acJob.commit ∈ acA.history ∧ (compare clTs acJob.commit.ts).isLE ∧
    (∀ c, acA.history.getLast? = some c → (compare clTs c.ts).isLE) ∧
    acTable.readIncrementalR env arrow codecDated (mergeEnv arrow) acMoments.race clTs (some arTs) = .ok [acBatch] ∧
    acTable.readIncrementalR env arrow codecDated (mergeEnv arrow) acMoments.race clTs none = .ok [acBatch] :=
  ⟨by intro a b a' b' h1 h2 h; cases h1; cases h2; exact h, by intro n d h; cases h; rfl, ac_toA (by decide),
    acZ_documented, acA_inPlace, ac_since, (ar_opened acA _ rfl (by rfl)).toHandleAt, by decide, by decide, ⟨_, rfl⟩,
    by decide, by simp [acA, acZ, Work.history, commitsOf], by decide, by intro c hc; cases hc; decide,
    by decide +kernel, by decide +kernel⟩

open Demo in
/-- **C102 is false of changes since a time before that up to which the archiver works.**  All writers behave as required,
and a handle is opened when the archiver has deleted the timeline files of all commits but the latest.  A read of the
changes since the first commit succeeds, but without the changes that the archived commits had made. -/
theorem C102_false_changes : ∃ (E : Env) (A : Arrow) (S : Setting) (M : MergeEnv A) (r q : Str) (s0 : Work) (tb : Table)
    (start : Str) (c : HCommit) (outs : List Batch), MonotoneTz E.ltz ∧ WholeSecondsTz E.ltz ∧
    Archives S r q nothingYet s0 ∧ AllDocumented s0.done ∧ RollbacksInPlace s0 ∧ HandleAt E S s0 tb ∧ MetaFields S.o ∧
    (WriterTimestamp start ∧ start.length = S.width) ∧ (∃ d, parseDatetime S.ltz start S.tz = .ok d) ∧
    c ∈ s0.history ∧ (compare r start).isLE ∧ (compare r c.ts).isLE ∧ (compare q c.ts).isLE ∧
    tb.readIncrementalR E A S.C M (Race.still s0.tree) start (some c.ts) = .ok outs ∧
    ¬ ReadsEvolvingChanges A (columnsBy s0.done) S.pre start c.ts s0.history (fun schema k r =>
      r ∈ recordsAt (rowsOf s0.done) s0.history c.ts k ∧ CommittedIn schema start (some c.ts) r) outs := by
  refine ⟨env, arrow, spSetting, mergeEnv arrow, t0, arTs, acD, acTableD, t0, acJob.commit, [acBatch],
    by intro a b a' b' h1 h2 h; cases h1; cases h2; exact h, by intro n d h; cases h; rfl,
    archives_more (archives_more (ac_toA (by decide)) (ac_toB (by decide))) ac_toD, acZ_documented, acD_inPlace,
    (ar_opened acD _ rfl (by rfl)).toHandleAt, by decide, by decide, ⟨_, rfl⟩,
    by simp [acD, acB, acA, acZ, Work.history, commitsOf], by decide, by decide, by decide, by decide +kernel, ?_⟩
  rintro ⟨ks, h1, h2, h3⟩
  have hf1 : f1 ∈ ks := (h2 f1).2 ⟨⟨jobK.commit, by simp [acD, acB, acA, acZ, Work.history, commitsOf], by decide, _,
    List.mem_cons_self⟩, by decide⟩
  have hf5 : svF5 ∈ ks := (h2 svF5).2 ⟨⟨acJob.commit, by simp [acD, acB, acA, acZ, Work.history, commitsOf], by decide, _,
    List.mem_cons_self⟩, by decide⟩
  obtain ⟨a, rfl⟩ := List.length_eq_one_iff.1 h3.length_eq
  rw [List.mem_singleton] at hf1 hf5
  rw [← hf1] at hf5
  exact absurd hf5 (by decide)

end Hudi
