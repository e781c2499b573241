import Verif.Props.Service
import Verif.Props.CleanerChangesDemo

/-! # C99: concrete cases -/

namespace Hudi
open Spec
namespace Demo

/-- The merged rows of the first file group after the second write. -/
def svBatch : Batch := ⟨incSchema, base1.rows ++ x1Batch.rows⟩

/-- Compaction of the first file group. -/
def svCompact : Job := { jobK with base := fun _ => svBatch }

def svTs : Str := c!"20240107000000000"
def svF5 : GroupKey := ([], c!"f5")
def svF6 : GroupKey := ([], c!"f6")
def svFirst : Batch := ⟨incSchema, x1Batch.rows⟩
def svSecond : Batch := ⟨incSchema, base1.rows⟩

/-- Clustering: two new file groups replace the first one. -/
def svCluster : Job where
  commit := ⟨svTs, .replaceCommit, [(f1, .replace), (svF5, .write c!"0-1-1"), (svF6, .write c!"0-1-2")]⟩
  doc := [(c!"partitionToWriteStats", .obj [([], .arr [
      .obj [(c!"fileId", .str c!"f5"), (c!"path", .str c!"f5_0-1-1_20240107000000000.parquet")],
      .obj [(c!"fileId", .str c!"f6"), (c!"path", .str c!"f6_0-1-2_20240107000000000.parquet")]])]),
    (c!"partitionToReplaceFileIds", .obj [([], .arr [.str c!"f1"])])]
  base := fun k => if k = svF5 then svFirst else svSecond
  blocks := fun _ _ => []
  appended := fun _ => []

def svPut : Request := .put (baseAt f1 c!"0-9-9" clTs) (.parquet 1 svBatch)
def svPutAt (k : GroupKey) (token : Str) (b : Batch) : Request := .put (baseAt k token svTs) (.parquet 1 b)

/-- The first file group has been compacted. -/
def svV : Work := ⟨svCompact.completion.run (svPut.run spY.store), [jobI, jobY, svCompact], [], [clTs, t1, t0]⟩

/-- And the new file groups have replaced it. -/
def svW : Work := ⟨svCluster.completion.run ((svPutAt svF6 c!"0-1-2" svSecond).run ((svPutAt svF5 c!"0-1-1" svFirst).run svV.store)),
  [jobI, jobY, svCompact, svCluster], [], [svTs, clTs, t1, t0]⟩

theorem svCompact_ok : JobOk spSetting [jobI, jobY] svCompact where
  later := by decide
  time := by decide
  parses := ⟨_, rfl⟩
  once := by decide
  sites := by intro e he; rw [List.mem_singleton.1 he]; exact root_site
  replaces := by intro k hk; simp [svCompact, jobK] at hk
  gone := by
    intro j h k hk
    simp only [List.mem_cons, List.not_mem_nil, or_false] at h
    rcases h with rfl | rfl <;> simp [jobI, jobY, spAppend] at hk
  live := by intro k ls hk; simp [svCompact, jobK] at hk
  ids := by decide
  tokens := by intro k tk hk; simp only [svCompact, jobK, List.mem_singleton, Prod.mk.injEq, Change.write.injEq] at hk
               rw [hk.2]; decide
  logs := by intro k ls hk; simp [svCompact, jobK] at hk
  batches := fun _ _ _ => ⟨show svBatch.WF by unfold Batch.WF; decide,
    fun _ => ⟨show (svBatch.rows.map (keyOf svBatch.schema)).Nodup by decide,
    show MergeColumns svBatch.schema c!"ts" from ⟨by decide, by decide, _, rfl, rfl⟩⟩⟩
  blocks := by intro k ls v hk; simp [svCompact, jobK] at hk
  rows := by intro k ls hk; simp [svCompact, jobK] at hk
  document := by intro h; cases h
  firstFile := ⟨svCompact, by simp, f1, c!"0-9-9", clBase, by simp [svCompact, jobK],
    ⟨_, _, _, _, _, rfl, rfl, .inl ⟨⟨c!"f1_0-9-9_20240106000000000", rfl⟩, rfl⟩⟩, by decide, by decide⟩

theorem svCluster_changes {k : GroupKey} {ch : Change} (h : (k, ch) ∈ svCluster.commit.changes) :
    (k = f1 ∧ ch = .replace) ∨ (k = svF5 ∧ ch = .write c!"0-1-1") ∨ (k = svF6 ∧ ch = .write c!"0-1-2") := by
  simpa [svCluster] using h

theorem svCluster_ok : JobOk spSetting [jobI, jobY, svCompact] svCluster where
  later := by decide
  time := by decide
  parses := ⟨_, rfl⟩
  once := by decide
  sites := by
    intro e he
    have : ∀ e ∈ svCluster.commit.changes, e.1.1 = [] := by decide
    rw [this e he]; exact root_site
  replaces := fun _ _ => rfl
  gone := by
    intro j h k hk
    simp only [List.mem_cons, List.not_mem_nil, or_false] at h
    rcases h with rfl | rfl | rfl <;> simp [jobI, jobY, svCompact, jobK, spAppend] at hk
  live := by intro k ls hk; simp [svCluster] at hk
  ids := by decide
  tokens := by
    intro k tk hk
    rcases svCluster_changes hk with ⟨_, h⟩ | ⟨_, h⟩ | ⟨_, h⟩ <;> cases h <;> decide
  logs := by intro k ls hk; simp [svCluster] at hk
  batches := by
    intro k token hk
    have h1 : svFirst.WF ∧ (svFirst.rows.map (keyOf svFirst.schema)).Nodup ∧ MergeColumns svFirst.schema c!"ts" :=
      ⟨by unfold Batch.WF; decide, by decide, ⟨by decide, by decide, _, rfl, rfl⟩⟩
    have h2 : svSecond.WF ∧ (svSecond.rows.map (keyOf svSecond.schema)).Nodup ∧ MergeColumns svSecond.schema c!"ts" :=
      ⟨by unfold Batch.WF; decide, by decide, ⟨by decide, by decide, _, rfl, rfl⟩⟩
    show (if k = svF5 then svFirst else svSecond).WF ∧ _
    by_cases h : k = svF5
    · rw [show svCluster.base k = svFirst from if_pos h, if_pos h]; exact and_when h1
    · rw [show svCluster.base k = svSecond from if_neg h, if_neg h]; exact and_when h2
  blocks := by intro k ls v hk; simp [svCluster] at hk
  rows := by intro k ls hk; simp [svCluster] at hk
  document := by
    intro _
    refine ⟨⟨_, rfl, by simp⟩, ?_⟩
    intro x f
    constructor
    · rintro ⟨parts, ids, h1, h2, h3⟩
      cases h1
      simp only [List.mem_singleton, Prod.mk.injEq, Json.arr.injEq] at h2
      rw [h2.2] at h3
      simp only [List.mem_singleton, Json.str.injEq] at h3
      rw [h2.1, h3]
      exact List.mem_cons_self
    · intro h
      rcases svCluster_changes h with ⟨h, _⟩ | ⟨_, h⟩ | ⟨_, h⟩
      · cases h
        exact ⟨_, _, rfl, List.mem_cons_self, List.mem_cons_self⟩
      · cases h
      · cases h
  firstFile := ⟨svCluster, by simp, svF5, c!"0-1-1", c!"f5_0-1-1_20240107000000000.parquet", by simp [svCluster],
    ⟨_, _, _, _, _, rfl, rfl, .inl ⟨⟨c!"f5_0-1-1_20240107000000000", rfl⟩, rfl⟩⟩, by decide, by decide⟩

theorem sv_works_V : Works spSetting spY svV := by
  have hu : ∀ u ∈ spY.used, compare u clTs = .lt := by decide
  have h1 := Works.step (.refl _) (alone_begin spY svCompact rfl hu svCompact_ok)
  have h2 := Works.step h1 (alone_request _ ⟨svCompact, [], none, []⟩ svPut rfl rfl List.mem_cons_self)
  have h3 := Works.step h2 (alone_complete _ ⟨svCompact, [svPut], none, []⟩ rfl rfl (fun q hq => hq))
  exact h3

theorem sv_works_W : Works spSetting svV svW := by
  have hu : ∀ u ∈ svV.used, compare u svTs = .lt := by decide
  have h1 := Works.step (.refl _) (alone_begin svV svCluster rfl hu svCluster_ok)
  have h2 := Works.step h1 (alone_request _ ⟨svCluster, [], none, []⟩ (svPutAt svF5 c!"0-1-1" svFirst) rfl rfl List.mem_cons_self)
  have h3 := Works.step h2 (alone_request _ ⟨svCluster, [svPutAt svF5 c!"0-1-1" svFirst], none, []⟩ (svPutAt svF6 c!"0-1-2" svSecond) rfl rfl
    (.tail _ List.mem_cons_self))
  have h4 := Works.step h3 (alone_complete _ ⟨svCluster, [svPutAt svF6 c!"0-1-2" svSecond, svPutAt svF5 c!"0-1-1" svFirst], none, []⟩ rfl rfl (by
    intro q hq
    have hq' : q ∈ [svPutAt svF5 c!"0-1-1" svFirst, svPutAt svF6 c!"0-1-2" svSecond] := hq
    simp only [List.mem_cons, List.not_mem_nil, or_false] at hq'
    rcases hq' with rfl | rfl <;> simp))
  exact h4

theorem sv_rows : recordsNow [jobI, jobY] f1 = svBatch.rows := by decide
theorem sv_columns : columnsNow [jobI, jobY] f1 = incSchema := by decide
theorem sv_keys : (svBatch.rows.map (keyOf incSchema)).Nodup := by decide

theorem sv_none {k : GroupKey} (h : k ≠ f1) : recordsNow [jobI, jobY] k = [] := by
  have h' : ¬ f1 = k := fun e => h e.symm
  simp [recordsNow, recordsAfter, commitsOf, HCommit.changeOf, jobI, jobY, spAppend, h']

theorem sv_noTies : NoTies arrow c!"ts" [jobI, jobY] := by
  intro k r hr r' hr' hk _ _
  by_cases h : k = f1
  · subst h
    rw [sv_rows] at hr hr'
    rw [sv_columns] at hk
    exact List.inj_on_of_nodup_map sv_keys hr hr' hk
  · rw [sv_none h] at hr
    cases hr

theorem sv_committed : CommittedBy [jobI, jobY] t1 := by
  intro k r hr c hc
  by_cases h : k = f1
  · subst h
    rw [sv_rows] at hr
    rw [sv_columns] at hc
    have : ∀ r ∈ svBatch.rows, (commitTimeOf incSchema r).all (fun c => (compare c t1).isLE) := by decide
    have := this r hr
    rw [hc] at this
    exact this
  · rw [sv_none h] at hr
    cases hr

theorem sv_compacts : Rewrites arrow c!"ts" [jobI, jobY] svCompact where
  noAppends := by intro k ls hk; simp [svCompact, jobK] at hk
  rows := by
    refine ⟨[f1], [f1], fun _ => svBatch.rows, by simp, by simp, ?_, ?_, ?_, ?_⟩
    · intro k
      simp only [List.mem_singleton, svCompact, jobK, Prod.mk.injEq, exists_and_left, exists_eq, and_true]
      exact ⟨fun h => ⟨h, by rw [h]; decide⟩, fun h => h.1⟩
    · intro k
      simp [svCompact, jobK]
    · intro k hk
      rw [List.mem_singleton.1 hk, sv_rows, sv_columns]
      exact Hudi.latest_self sv_keys
    · exact .refl _

theorem sv_clusters : Rewrites arrow c!"ts" [jobI, jobY, svCompact] svCluster where
  noAppends := by intro k ls hk; simp [svCluster] at hk
  rows := by
    refine ⟨[f1], [svF5, svF6], fun _ => svBatch.rows, by decide, by decide, ?_, ?_, ?_, ?_⟩
    · intro k
      rw [List.mem_singleton]
      constructor
      · rintro rfl
        exact ⟨⟨_, List.mem_cons_self⟩, by decide⟩
      · rintro ⟨⟨ch, hch⟩, hv⟩
        rcases svCluster_changes hch with ⟨h, _⟩ | ⟨h, _⟩ | ⟨h, _⟩
        · exact h
        · rw [h] at hv; exact absurd (by decide) hv
        · rw [h] at hv; exact absurd (by decide) hv
    · intro k
      simp [svCluster, exists_or]
    · intro k hk
      rw [List.mem_singleton.1 hk, show recordsNow [jobI, jobY, svCompact] f1 = svBatch.rows by decide,
        show columnsNow [jobI, jobY, svCompact] f1 = incSchema by decide]
      exact Hudi.latest_self sv_keys
    · decide

theorem sv_rewrite : AllRewrite arrow c!"ts" [jobI, jobY] [svCompact, svCluster] := by
  intro d1 j d2 h
  match d1, h with
  | [], h => cases h; exact sv_compacts
  | [_], h => cases h; exact sv_clusters
  | _ :: _ :: _, h => simp at h

theorem svCompact_documented : Documented [jobI, jobY] svCompact :=
  ⟨jobK_documented.document, fun _ _ _ => ⟨_, rfl, rfl⟩, by intro k ls v hk; simp [svCompact, jobK] at hk⟩

theorem svCluster_documented : Documented [jobI, jobY, svCompact] svCluster where
  document := by
    refine ⟨[⟨[], c!"f5", ⟨c!"f5", c!"0-1-1", svTs, c!"parquet", none⟩, []⟩,
        ⟨[], c!"f6", ⟨c!"f6", c!"0-1-2", svTs, c!"parquet", none⟩, []⟩],
      ⟨[([], [(⟨[], c!"f5", ⟨c!"f5", c!"0-1-1", svTs, c!"parquet", none⟩, []⟩, _),
        (⟨[], c!"f6", ⟨c!"f6", c!"0-1-2", svTs, c!"parquet", none⟩, []⟩, _)])], rfl, rfl, ?_⟩, by decide, ?_⟩
    · simp only [List.mem_cons, List.not_mem_nil, or_false, forall_eq, forall_eq_or_imp]
      exact ⟨⟨trivial, _, rfl, rfl, .inr ⟨rfl, rfl, .inl rfl⟩⟩, ⟨trivial, _, rfl, rfl, .inr ⟨rfl, rfl, .inl rfl⟩⟩⟩
    · intro w
      constructor
      · intro h
        simp only [List.mem_cons, List.not_mem_nil, or_false] at h
        rcases h with rfl | rfl
        · exact ⟨svF5, .write c!"0-1-1", by simp [svCluster], rfl⟩
        · exact ⟨svF6, .write c!"0-1-2", by simp [svCluster], rfl⟩
      · rintro ⟨k, ch, h1, h2⟩
        rcases svCluster_changes h1 with ⟨rfl, rfl⟩ | ⟨rfl, rfl⟩ | ⟨rfl, rfl⟩
        · cases h2
        · rw [← Option.some.inj h2]; exact List.mem_cons_self
        · rw [← Option.some.inj h2]; exact .tail _ List.mem_cons_self
  commitTime := by
    intro k token hk
    have h1 : HasCommitTime svFirst.schema := ⟨_, rfl, rfl⟩
    have h2 : HasCommitTime svSecond.schema := ⟨_, rfl, rfl⟩
    by_cases h : k = svF5
    · rw [show svCluster.base k = svFirst from if_pos h]; exact h1
    · rw [show svCluster.base k = svSecond from if_neg h]; exact h2
  dated := by intro k ls v hk; simp [svCluster] at hk

theorem svW_documented : AllDocumented [jobI, jobY, svCompact, svCluster] := by
  intro d1 j d2 h
  match d1, h with
  | [], h => cases h; exact jobI_documented
  | [_], h => cases h; exact jobY_documented
  | [_, _], h => cases h; exact svCompact_documented
  | [_, _, _], h => cases h; exact svCluster_documented
  | _ :: _ :: _ :: _ :: _, h => simp at h

theorem svW_inPlace : RollbacksInPlace svW := by
  refine inPlace_of (fun ws => ws = [x1]) ?_ ?_
  · intro e he ws hws
    have hs : svW.store = [(baseAt f1 c!"0-0-0" t0, .file (.parquet 1 base1)),
        (instantAt jobI.commit, .file (.json (.obj chDoc0))), (logAt f1 t0 here, .log [x1]),
        (instantAt jobY.commit, .file (.json (.obj chDoc2))),
        (baseAt f1 c!"0-9-9" clTs, .file (.parquet 1 svBatch)), (instantAt svCompact.commit, .file (.json (.obj svCompact.doc))),
        (baseAt svF5 c!"0-1-1" svTs, .file (.parquet 1 svFirst)), (baseAt svF6 c!"0-1-2" svTs, .file (.parquet 1 svSecond)),
        (instantAt svCluster.commit, .file (.json (.obj svCluster.doc)))] := rfl
    rw [hs] at he
    simp only [List.mem_cons, List.not_mem_nil, or_false] at he
    rcases he with rfl | rfl | rfl | rfl | rfl | rfl | rfl | rfl | rfl <;> cases hws
    rfl
  · rintro ws rfl w hw i _ hb
    rw [List.mem_singleton.1 hw] at hb
    cases (show some t1 = some i from hb)
    exact .inl ⟨jobY, by simp [svW], rfl⟩

/-- Opened when the services have worked. -/
def svTable : Table := ⟨morOpts, [], ⟨[], [⟨t0, .commit, .completed, 1703980800000⟩,
  ⟨t1, .deltaCommit, .completed, 1704067200000⟩, ⟨clTs, .commit, .completed, 1704499200000⟩,
  ⟨svTs, .replaceCommit, .completed, 1704585600000⟩]⟩⟩

theorem sv_opened : OpenedAt env arrow spSetting svW svTable [] [] false false where
  load := ⟨[], rfl⟩
  clock := rfl
  zone := rfl
  options := rfl
  merges := ⟨⟨by simp [HmNodup, svTable], by simp [svTable]⟩, ⟨by decide, rfl, by decide⟩, rfl, rfl⟩
  names := ⟨by decide, by decide⟩
  parsed := rfl
  applicable := by simp
  style := ⟨rfl, rfl⟩
  parallelism := by intro v hv; cases hv

/-- Opened before that. -/
theorem sv_opened' : OpenedAt env arrow spSetting spY spTable [] [] false false where
  toHandleAt := cc_handle'
  names := ⟨by decide, by decide⟩
  parsed := rfl
  applicable := by simp
  style := ⟨rfl, rfl⟩
  parallelism := by intro v hv; cases hv

/-- Requests are answered before, between and after the services' writes. -/
def svMoments : Moments := ⟨fun _ => spY, spY, svV, fun _ => svV, fun _ => svV, fun _ => spY, fun _ => svW⟩

theorem sv_since : Since spSetting spY svMoments :=
  ⟨fun _ => .refl _, .refl _, sv_works_V, fun _ => sv_works_V, fun _ => sv_works_V, fun _ => .refl _,
    fun _ _ => sv_works_W⟩

def svMoments' : Moments := ⟨fun _ => svW, svW, svW, fun _ => svW, fun _ => svW, fun _ => svW, fun _ => svW⟩

theorem sv_since' : Since spSetting svW svMoments' :=
  ⟨fun _ => .refl _, .refl _, .refl _, fun _ => .refl _, fun _ => .refl _, fun _ => .refl _, fun _ _ => .refl _⟩

/-- A cleaner has deleted the log file of the first version. -/
def svC : Work := { svW with store := (Request.delete (logAt f1 t0 here)).run svW.store }

theorem sv_superseded : Superseded [jobI, jobY, svCompact, svCluster] clTs f1 t0 :=
  ⟨svCompact, by simp, by decide, by decide, .inl ⟨c!"0-9-9", List.mem_cons_self⟩⟩

theorem sv_cleans : Cleans spSetting clTs svW svC :=
  .step (.refl _) (.log svW jobI f1 c!"0-0-0" here List.mem_cons_self List.mem_cons_self sv_superseded (by decide))

theorem sv_current : NamesCurrent svW := by
  intro j hj path hp
  cases (Option.some.inj hj : svCluster = j)
  refine ⟨svF5, ⟨svTs, c!"0-1-1", []⟩, rfl, ?_⟩
  have : path = c!"f5_0-1-1_20240107000000000.parquet" := by
    obtain ⟨_, _, _, _, _, h1, h2, h3⟩ := hp
    simp [svCluster, jGet] at h1
    obtain ⟨⟨_, rfl, _⟩, _⟩ := h1
    simp [jGet] at h2
    subst h2
    rcases h3 with ⟨_, h⟩ | ⟨h, _⟩
    · exact h
    · exact absurd ⟨c!"f5_0-1-1_20240107000000000", rfl⟩ h
  rw [this]
  decide

theorem sv_current' : NamesCurrent spY := by
  intro j hj path hp
  cases (Option.some.inj hj : jobY = j)
  refine ⟨f1, ⟨t0, c!"0-0-0", [here]⟩, rfl, ?_⟩
  have : path = morBase := by
    obtain ⟨_, _, _, _, _, h1, h2, h3⟩ := hp
    simp [jobY, spAppend, chDoc2, jGet] at h1
    obtain ⟨⟨hp, rfl, _⟩, _⟩ := h1
    simp [jGet] at h2
    subst h2
    rcases h3 with ⟨h, _⟩ | ⟨_, b, h4, h5⟩
    · obtain ⟨stem, h⟩ := h
      have h' := congrArg (fun l : Str => l.getLast?) h
      simp [morLog] at h'
    · simp [jGet] at h4
      rw [h5, ← h4, hp]
      rfl
  rw [this]
  decide

/-- The files are read when the log file is gone. -/
def svMomentsC : Moments := ⟨fun _ => svW, svC, svW, fun _ => svW, fun _ => svW, fun _ => svC, fun _ => svC⟩

theorem sv_sinceC : SinceCleaned spSetting clTs svW svMomentsC :=
  ⟨fun _ => .refl _, sv_cleans, .refl _, fun _ => .refl _, fun _ => .refl _, fun _ => sv_cleans, fun _ _ => sv_cleans⟩

theorem sv_sinceC' : SinceCleaned spSetting t0 spY svMoments :=
  ⟨fun _ => .refl _, .refl _, cleans_of_works sv_works_V, fun _ => cleans_of_works sv_works_V,
    fun _ => cleans_of_works sv_works_V, fun _ => .refl _, fun _ _ => cleans_of_works sv_works_W⟩

end Demo

open Demo in
/-- The hypotheses of C99 with a cleaner are met by the same writes, and a cleaner that deletes the log file of the first
version while the second handle reads. -/
example : Cleans spSetting t0 nothingYet spY ∧ Cleans spSetting clTs nothingYet svW ∧ NamesCurrent spY ∧
    NamesCurrent svW ∧ SinceCleaned spSetting t0 spY svMoments ∧ SinceCleaned spSetting clTs svW svMomentsC ∧
    (∀ c, spY.history.getLast? = some c → (compare t0 c.ts).isLE) ∧
    (∀ c, svW.history.getLast? = some c → (compare clTs c.ts).isLE) ∧
    svTable.readSnapshotR env arrow codecDated (mergeEnv arrow) 1 svMomentsC.race [] = .ok [svSecond, svFirst] ∧
    svTable.readIncrementalR env arrow codecDated (mergeEnv arrow) svMomentsC.race t1 none =
      .ok [⟨incSchema, []⟩, ⟨incSchema, []⟩] :=
  ⟨cleans_of_works works_Y, cleans_of_works (works_then works_Y (works_then sv_works_V sv_works_W)), sv_current',
    sv_current, sv_sinceC', sv_sinceC, by intro c hc; cases hc; decide, by intro c hc; cases hc; decide,
    by decide +kernel, by decide +kernel⟩

open Demo in
/-- The hypotheses of C99 are met by an insert, a write that appends, the compaction of the file group, and its
clustering into two others.  A handle opened before the services worked, whose requests are answered while they work,
and one opened afterwards read the same three rows; there are no changes since the second write. -/
example : MonotoneTz env.ltz ∧ WholeSecondsTz env.ltz ∧ Works spSetting nothingYet spY ∧ Works spSetting spY svW ∧
    svW.done = spY.done ++ [svCompact, svCluster] ∧ AllRewrite arrow spSetting.pre spY.done [svCompact, svCluster] ∧
    NoTies arrow spSetting.pre spY.done ∧ Since spSetting spY svMoments ∧ Since spSetting svW svMoments' ∧
    OpenedAt env arrow spSetting spY spTable [] [] false false ∧
    OpenedAt env arrow spSetting svW svTable [] [] false false ∧ spSetting.depth < 1 ∧
    AllDocumented svW.done ∧ RollbacksInPlace svW ∧ MetaFields spSetting.o ∧
    (WriterTimestamp t1 ∧ t1.length = spSetting.width) ∧
    (∃ d, parseDatetime spSetting.ltz t1 spSetting.tz = .ok d) ∧ CommittedBy spY.done t1 ∧
    spTable.readSnapshotR env arrow codecDated (mergeEnv arrow) 1 svMoments.race [] =
      .ok [⟨incSchema, [datedRow c!"1" c!"C" c!"bob" 7 t0, datedRow c!"1" c!"A" c!"ann" 5 t0,
        datedRow c!"3" c!"B" c!"y" 1 t1]⟩] ∧
    svTable.readSnapshotR env arrow codecDated (mergeEnv arrow) 1 svMoments'.race [] = .ok [svSecond, svFirst] ∧
    svTable.readIncrementalR env arrow codecDated (mergeEnv arrow) svMoments'.race t1 none =
      .ok [⟨incSchema, []⟩, ⟨incSchema, []⟩] :=
  ⟨by intro a b a' b' h1 h2 h; cases h1; cases h2; exact h, by intro n d h; cases h; rfl, works_Y,
    works_then sv_works_V sv_works_W, rfl, sv_rewrite, sv_noTies, sv_since, sv_since', sv_opened', sv_opened, by decide,
    svW_documented, svW_inPlace, by decide, by decide, ⟨_, rfl⟩, sv_committed, by decide +kernel, by decide +kernel,
    by decide +kernel⟩

open Demo in
/-- **C99 is false of compaction that is scheduled before it is done.**  While a compaction is pending, writers append
to log files named after its instant, for the base file that is yet to come.  From the first such file until the
compaction has written its base file no snapshot of the table can be read, not even one that predates all this,
through a handle that has been reading it.  -/
theorem C99_false : ∃ (E : Env) (A : Arrow) (M : MergeEnv A) (S : Setting) (s0 : Work) (tb : Table) (k : GroupKey)
    (pending token : Str) (l : Str × Str) (w : WBlock) (b : Batch) (outs : List Batch),
    Works S nothingYet s0 ∧ OpenedAt E A S s0 tb [] [] false false ∧ versionAfter s0.history k ≠ none ∧
    (∀ j ∈ s0.done, compare j.commit.ts pending = .lt) ∧ WriterTimestamp pending ∧ NamePart token ∧ NamePart l.1 ∧
    NamePart l.2 ∧ GoodBlock S.C S.ltz S.tz w ∧
    tb.readSnapshotR E A S.C M 1 (Race.still s0.tree) [] = .ok outs ∧
    (∀ s1, s1 = (Request.append (logAt k pending l) [w]).run s0.store →
      tb.readSnapshotR E A S.C M 1 (Race.still (treeOf s1)) [] = .err .fileGroup ∧
      (∀ j ∈ s0.done, tb.readSnapshotAsOfR E A S.C M 1 (Race.still (treeOf s1)) j.commit.ts [] = .err .fileGroup) ∧
      tb.readSnapshotR E A S.C M 1
        (Race.still (treeOf ((Request.put (baseAt k token pending) (.parquet 1 b)).run s1))) [] = .ok outs) :=
  ⟨env, arrow, mergeEnv arrow, spSetting, spY, spTable, f1, clTs, c!"0-9-9", here, x2, svBatch, _, works_Y, sv_opened',
    by decide, by decide, by decide, by decide, by decide, by decide, x2_good,
    (by decide +kernel : spTable.readSnapshotR env arrow codecDated (mergeEnv arrow) 1 (Race.still spY.tree) [] =
      .ok [⟨incSchema, [datedRow c!"1" c!"C" c!"bob" 7 t0, datedRow c!"1" c!"A" c!"ann" 5 t0,
        datedRow c!"3" c!"B" c!"y" 1 t1]⟩]),
    by rintro s1 rfl; exact ⟨by decide +kernel, by decide +kernel, by decide +kernel⟩⟩

end Hudi
