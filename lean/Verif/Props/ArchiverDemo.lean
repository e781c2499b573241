import Verif.Props.Archiver
import Verif.Props.ServiceDemo

/-! # C102: concrete cases -/

namespace Hudi
open Spec
namespace Demo

def arTs : Str := c!"20240108000000000"

def arBase : Str := c!"f5_0-2-2_20240108000000000.parquet"

/-- A write that gives one of the new file groups a new base file. -/
def arJob : Job where
  commit := ⟨arTs, .commit, [(svF5, .write c!"0-2-2")]⟩
  doc := [(c!"partitionToWriteStats", .obj [([], .arr [.obj [(c!"fileId", .str c!"f5"), (c!"path", .str arBase)]])])]
  base := fun _ => svFirst
  blocks := fun _ _ => []
  appended := fun _ => []

def arPut : Request := .put (baseAt svF5 c!"0-2-2" arTs) (.parquet 1 svFirst)

/-- After an insert, a write that appends, a compaction, a clustering, and that write. -/
def arZ : Work := ⟨arJob.completion.run (arPut.run svW.store), [jobI, jobY, svCompact, svCluster, arJob], [],
  [arTs, svTs, clTs, t1, t0]⟩

theorem arJob_ok : JobOk spSetting [jobI, jobY, svCompact, svCluster] arJob where
  later := by decide
  time := by decide
  parses := ⟨_, rfl⟩
  once := by decide
  sites := by intro e he; rw [List.mem_singleton.1 he]; exact root_site
  replaces := by intro k hk; simp [arJob] at hk
  gone := by
    intro j h k hk
    simp only [List.mem_cons, List.not_mem_nil, or_false] at h
    rcases h with rfl | rfl | rfl | rfl
    · simp [jobI] at hk
    · simp [jobY, spAppend] at hk
    · simp [svCompact, jobK] at hk
    · rcases svCluster_changes hk with ⟨rfl, _⟩ | ⟨_, h⟩ | ⟨_, h⟩
      · intro ch h; simp [arJob, svF5, f1] at h
      · cases h
      · cases h
  live := by intro k ls hk; simp [arJob] at hk
  ids := by decide
  tokens := by intro k tk hk; simp only [arJob, List.mem_singleton, Prod.mk.injEq, Change.write.injEq] at hk
               rw [hk.2]; decide
  logs := by intro k ls hk; simp [arJob] at hk
  batches := fun _ _ _ => ⟨show svFirst.WF by unfold Batch.WF; decide,
    fun _ => ⟨show (svFirst.rows.map (keyOf svFirst.schema)).Nodup by decide,
    show MergeColumns svFirst.schema c!"ts" from ⟨by decide, by decide, _, rfl, rfl⟩⟩⟩
  blocks := by intro k ls v hk; simp [arJob] at hk
  rows := by intro k ls hk; simp [arJob] at hk
  document := by intro h; cases h
  firstFile := ⟨arJob, by simp, svF5, c!"0-2-2", arBase, by simp [arJob],
    ⟨_, _, _, _, _, rfl, rfl, .inl ⟨⟨c!"f5_0-2-2_20240108000000000", rfl⟩, rfl⟩⟩, by decide, by decide⟩

theorem ar_works_Z : Works spSetting svW arZ := by
  have hu : ∀ u ∈ svW.used, compare u arTs = .lt := by decide
  have h1 := Works.step (.refl _) (alone_begin svW arJob rfl hu arJob_ok)
  have h2 := Works.step h1 (alone_request _ ⟨arJob, [], none, []⟩ arPut rfl rfl List.mem_cons_self)
  have h3 := Works.step h2 (alone_complete _ ⟨arJob, [arPut], none, []⟩ rfl rfl (fun q hq => hq))
  exact h3

theorem ar_works_all : Works spSetting nothingYet arZ :=
  works_then works_Y (works_then sv_works_V (works_then sv_works_W ar_works_Z))

theorem archives_of_works {S : Setting} {r q : Str} {a b : Work} (h : Works S a b) : Archives S r q a b := by
  induction h with
  | refl => exact .refl _
  | step _ hs ih => exact .step ih (.clean _ _ (.work _ _ hs))

theorem archives_more {S : Setting} {r q : Str} {a b c : Work} (h1 : Archives S r q a b) (h2 : Archives S r q b c) :
    Archives S r q a c := by
  induction h2 with
  | refl => exact h1
  | step _ hs ih => exact .step ih hs

/-- The archiver has deleted the timeline file of the first commit. -/
def arA : Work := { arZ with store := (Request.delete (instantAt jobI.commit)).run arZ.store }

/-- It has deleted that of the second. -/
def arB : Work := { arA with store := (Request.delete (instantAt jobY.commit)).run arA.store }

/-- The cleaner has deleted the log file of the first version of the first file group. -/
def arC : Work := { arB with store := (Request.delete (logAt f1 t0 here)).run arB.store }

/-- The archiver has deleted the timeline file of the compaction. -/
def arD : Work := { arC with store := (Request.delete (instantAt svCompact.commit)).run arC.store }

theorem ar_toA : Archives spSetting clTs arTs nothingYet arA :=
  .step (archives_of_works ar_works_all) (.archive arZ jobI (by simp [arZ]) (by decide) (by decide))

theorem ar_toB : Archives spSetting clTs arTs arA arB :=
  .step (.refl _) (.archive arA jobY (by simp [arA, arZ]) (by decide) (by decide))

theorem ar_superseded : Superseded [jobI, jobY, svCompact, svCluster, arJob] clTs f1 t0 :=
  ⟨svCompact, by simp, by decide, by decide, .inl ⟨c!"0-9-9", List.mem_cons_self⟩⟩

theorem ar_toC : Archives spSetting clTs arTs arB arC :=
  .step (.refl _) (.clean _ _ (.log arB jobI f1 c!"0-0-0" here List.mem_cons_self List.mem_cons_self ar_superseded
    (by decide)))

theorem ar_toD : Archives spSetting clTs arTs arC arD :=
  .step (.refl _) (.archive arC svCompact (by simp [arC, arB, arA, arZ]) (by decide) (by decide))

/-- Opened when the first commit has been archived. -/
def arTable : Table := ⟨morOpts, [], ⟨[], [⟨t1, .deltaCommit, .completed, 1704067200000⟩,
  ⟨clTs, .commit, .completed, 1704499200000⟩, ⟨svTs, .replaceCommit, .completed, 1704585600000⟩,
  ⟨arTs, .commit, .completed, 1704672000000⟩]⟩⟩

theorem ar_opened (s : Work) (tl : Timeline) (ho : tl.opts = []) (h : Timeline.load env [] s.tree = .ok tl) :
    OpenedAt env arrow spSetting s ⟨morOpts, [], tl⟩ [] [] false false where
  load := ⟨[], h⟩
  clock := rfl
  zone := by show timezoneOf tl.opts = _; rw [ho]; rfl
  options := rfl
  merges := ⟨⟨by simp [HmNodup], by simp⟩, ⟨show OverwritesWithLatest morOpts by decide, rfl,
    show ¬ ReadOptimized morOpts by decide⟩, rfl, rfl⟩
  names := ⟨by decide, by decide⟩
  parsed := rfl
  applicable := by simp
  style := ⟨rfl, rfl⟩
  parallelism := by intro v hv; cases hv

theorem ar_current {s : Work} (hs : s.done = arZ.done) : NamesCurrent s := by
  intro j hj path hp
  rw [hs] at hj
  cases (Option.some.inj hj : arJob = j)
  unfold Work.history
  rw [hs]
  refine ⟨svF5, ⟨arTs, c!"0-2-2", []⟩, rfl, ?_⟩
  have : path = arBase := by
    obtain ⟨_, _, _, _, _, h1, h2, h3⟩ := hp
    simp [arJob, jGet] at h1
    obtain ⟨⟨_, rfl, _⟩, _⟩ := h1
    simp [jGet] at h2
    subst h2
    rcases h3 with ⟨_, h⟩ | ⟨h, _⟩
    · exact h
    · exact absurd ⟨c!"f5_0-2-2_20240108000000000", rfl⟩ h
  rw [this]
  decide

/-- Requests are answered while the archiver and the cleaner work. -/
def arMoments : Moments := ⟨fun _ => arD, arC, arB, fun _ => arA, fun _ => arB, fun _ => arC, fun _ => arD⟩

theorem ar_since : SinceArchived spSetting clTs arTs arA arMoments :=
  ⟨fun _ => archives_more (archives_more ar_toB ar_toC) ar_toD, archives_more ar_toB ar_toC, ar_toB, fun _ => .refl _,
    fun _ => ar_toB, fun _ => archives_more ar_toB ar_toC, fun _ _ => archives_more ar_toC ar_toD⟩

/-- An archiver has deleted the timeline file of the clustering. -/
def arX : Work := { arZ with store := (Request.delete (instantAt svCluster.commit)).run arZ.store }

/-- Opened when all timeline files were there, ... -/
def arTableZ : Table := ⟨morOpts, [], ⟨[], [⟨t0, .commit, .completed, 1703980800000⟩,
  ⟨t1, .deltaCommit, .completed, 1704067200000⟩,
  ⟨clTs, .commit, .completed, 1704499200000⟩, ⟨svTs, .replaceCommit, .completed, 1704585600000⟩,
  ⟨arTs, .commit, .completed, 1704672000000⟩]⟩⟩

/-- ... and when that of the clustering was gone. -/
def arTableX : Table := ⟨morOpts, [], ⟨[], [⟨t0, .commit, .completed, 1703980800000⟩,
  ⟨t1, .deltaCommit, .completed, 1704067200000⟩,
  ⟨clTs, .commit, .completed, 1704499200000⟩, ⟨arTs, .commit, .completed, 1704672000000⟩]⟩⟩

end Demo

open Demo in
/-- The hypotheses of C102 are met by an insert, a write that appends, a compaction, a clustering, and a further write;
the archiver deletes the timeline file of the first commit before the handle is opened, and those of the second commit
and of the compaction while it reads, when the cleaner deletes a log file, too.  The read returns the rows of the two
file groups that replaced the first one; and as of the compaction, which is archived by then, those of that one. -/
example : MonotoneTz env.ltz ∧ WholeSecondsTz env.ltz ∧ Archives spSetting clTs arTs nothingYet arA ∧ NamesCurrent arA ∧
    SinceArchived spSetting clTs arTs arA arMoments ∧ OpenedAt env arrow spSetting arA arTable [] [] false false ∧
    spSetting.depth < 1 ∧ arJob.commit ∈ arA.history ∧ (compare clTs arJob.commit.ts).isLE ∧
    svCompact.commit ∈ arA.history ∧ (compare clTs svCompact.commit.ts).isLE ∧
    (∀ c, arA.history.getLast? = some c → (compare clTs c.ts).isLE) ∧
    (∀ c, arA.history.getLast? = some c → (compare arTs c.ts).isLE) ∧
    arTable.readSnapshotR env arrow spSetting.C (mergeEnv arrow) 1 arMoments.race [] = .ok [svFirst, svSecond] ∧
    arTable.readSnapshotAsOfR env arrow spSetting.C (mergeEnv arrow) 1 arMoments.race arTs [] =
      .ok [svFirst, svSecond] ∧
    arTable.readSnapshotAsOfR env arrow spSetting.C (mergeEnv arrow) 1 arMoments.race clTs [] = .ok [svBatch] :=
  ⟨by intro a b a' b' h1 h2 h; cases h1; cases h2; exact h, by intro n d h; cases h; rfl, ar_toA, ar_current rfl,
    ar_since, ar_opened _ _ rfl (by rfl), by decide, by simp [Work.history, commitsOf, arA, arZ], by decide,
    by simp [Work.history, commitsOf, arA, arZ], by decide, by intro c hc; cases hc; decide,
    by intro c hc; cases hc; decide, by decide +kernel, by decide +kernel, by decide +kernel⟩

open Demo in
/-- **C102 is false of archivers that delete replacecommits.**  A replacecommit before the latest commit is archived.  A
handle that was opened before cannot read the latest snapshot any more, although nothing in it depends on what was
archived.  And a handle that is opened afterwards shows the file group that was replaced together with those that replaced
it, as long as its files are there: without an error, every record of it is returned twice. -/
theorem C102_false : ∃ (E : Env) (A : Arrow) (M : MergeEnv A) (S : Setting) (s0 s1 : Work) (j : Job) (c : HCommit)
    (tb tb' : Table) (outs outs' : List Batch),
    Works S nothingYet s0 ∧ NamesCurrent s0 ∧ j ∈ s0.done ∧ s0.history.getLast? = some c ∧
    compare j.commit.ts c.ts = .lt ∧ j.commit.action = .replaceCommit ∧
    s1 = { s0 with store := (Request.delete (instantAt j.commit)).run s0.store } ∧
    OpenedAt E A S s0 tb [] [] false false ∧ OpenedAt E A S s1 tb' [] [] false false ∧
    tb.readSnapshotR E A S.C M 1 (Race.still s0.tree) [] = .ok outs ∧
    (∃ e, tb.readSnapshotR E A S.C M 1 (Race.still s1.tree) [] = .err e) ∧
    tb'.readSnapshotR E A S.C M 1 (Race.still s1.tree) [] = .ok outs' ∧
    ¬ ReadsEvolving A (columnsBy s0.done) S.pre (versionAfter s0.history) (Kept A S.pcols false false [])
      (fun k r => r ∈ recordsAfter (rowsOf s0.done) s0.history k) outs' := by
  refine ⟨env, arrow, mergeEnv arrow, spSetting, arZ, arX, svCluster, arJob.commit, arTableZ, arTableX,
    [svFirst, svSecond], [svFirst, svSecond, svBatch], ar_works_all, ar_current rfl, by simp [arZ], rfl, by decide, rfl, rfl,
    ar_opened _ _ rfl (by rfl), ar_opened _ _ rfl (by rfl), by decide +kernel, ⟨.storage, by decide +kernel⟩, by decide +kernel,
    ?_⟩
  rintro ⟨ks, h1, h2, h3⟩
  have hsub : ks ⊆ [svF5, svF6] := by
    intro k hk
    have hv := ((h2 k).1 hk).2
    obtain ⟨w, hw⟩ := Option.ne_none_iff_exists'.1 hv
    obtain ⟨j, hj, hc, _⟩ := version_job hw
    have hj' : j ∈ [jobI, jobY, svCompact, svCluster, arJob] := hj
    simp only [List.mem_cons, List.not_mem_nil, or_false] at hj'
    have hf1 : k = f1 → False := by rintro rfl; exact hv (by decide)
    rcases hj' with rfl | rfl | rfl | rfl | rfl
    · simp [jobI] at hc; exact absurd hc.1 hf1
    · simp [jobY, spAppend] at hc
    · simp [svCompact, jobK] at hc; exact absurd hc.1 hf1
    · rcases svCluster_changes hc with ⟨rfl, _⟩ | ⟨rfl, _⟩ | ⟨rfl, _⟩
      · exact absurd rfl hf1
      · simp
      · simp
    · simp [arJob] at hc; simp [hc.1]
  obtain ⟨a, b, c, rfl⟩ := List.length_eq_three.1 h3.length_eq
  simp only [List.cons_subset, List.mem_cons, List.not_mem_nil, or_false] at hsub
  simp only [List.nodup_cons, List.mem_cons, List.not_mem_nil, or_false, not_or] at h1
  obtain ⟨h4 | h4, h5 | h5, h6 | h6, _⟩ := hsub <;> simp_all

end Hudi
