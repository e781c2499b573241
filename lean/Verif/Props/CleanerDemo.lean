import Verif.Props.Cleaner
import Verif.Props.WriterDemo

/-! # C90: concrete cases -/

namespace Hudi
open Spec

namespace Demo

def clTs : Str := c!"20240106000000000"

def clBase : Str := c!"f1_0-9-9_20240106000000000.parquet"

def clBatch : Batch := ⟨mSchema, mor.rows ++ wkBatch.rows⟩

theorem clBatch_ok : clBatch.WF ∧ (clBatch.rows.map (keyOf clBatch.schema)).Nodup ∧ MergeColumns clBatch.schema c!"ts" :=
  ⟨by unfold Batch.WF; decide, by decide, mor_columns⟩

/-- A write that gives the first file group a new base file, of the merged rows. -/
def jobE : Job where
  commit := ⟨clTs, .commit, [(f1, .write c!"0-9-9")]⟩
  doc := [(c!"partitionToWriteStats", .obj [([], .arr [.obj [(c!"fileId", .str c!"f1"),
    (c!"path", .str clBase)]])])]
  base := fun _ => clBatch
  blocks := fun _ _ => []
  appended := fun _ => []

def putE : Request := .put (baseAt f1 c!"0-9-9" clTs) (.parquet 1 clBatch)

/-- The second write has completed. -/
def clWD : Work := ⟨jobB.completion.run wkB.store, [jobA, jobB], [], [t1, t0]⟩

/-- So has the one that gives the first file group a new base file. -/
def clWE : Work := ⟨jobE.completion.run (putE.run clWD.store), [jobA, jobB, jobE], [], [clTs, t1, t0]⟩

/-- The cleaner has deleted the log file of the first version. -/
def clL : Work := { clWE with store := (Request.delete (logAt f1 t0 (c!"1", c!"0-7-7"))).run clWE.store }

/-- It has deleted the base file as well. -/
def clB : Work := { clL with store := (Request.delete (baseAt f1 c!"0-0-0" t0)).run clL.store }

/-- A cleaner has deleted only the base file. -/
def clX : Work := { clWE with store := (Request.delete (baseAt f1 c!"0-0-0" t0)).run clWE.store }

theorem jobE_ok : JobOk wkSetting [jobA, jobB] jobE where
  later := by decide
  time := by decide
  parses := ⟨_, rfl⟩
  once := by decide
  sites := by intro e he; rw [List.mem_singleton.1 he]; exact root_site
  replaces := by intro k hk; simp [jobE] at hk
  gone := by
    intro j h k hk
    simp only [List.mem_cons, List.not_mem_nil, or_false] at h
    rcases h with rfl | rfl <;> simp [jobA, jobB] at hk
  live := by intro k ls hk; simp [jobE] at hk
  ids := by decide
  tokens := by intro k tk hk; simp only [jobE, List.mem_singleton, Prod.mk.injEq, Change.write.injEq] at hk
               rw [hk.2]; decide
  logs := by intro k ls hk; simp [jobE] at hk
  batches := fun _ _ _ => and_when clBatch_ok
  blocks := by intro k ls v hk; simp [jobE] at hk
  rows := by intro k ls hk; simp [jobE] at hk
  document := by intro h; cases h
  firstFile := ⟨jobE, by simp, f1, c!"0-9-9", clBase, by simp [jobE],
    ⟨_, _, _, _, _, rfl, rfl, .inl ⟨⟨c!"f1_0-9-9_20240106000000000", rfl⟩, rfl⟩⟩, by decide, by decide⟩

theorem cl_works_D : Works wkSetting wkB clWD :=
  .step (.refl _) (alone_complete wkB ⟨jobB, [putB, appendB], none, []⟩ rfl rfl (by
    intro q hq
    have hq' : q ∈ [appendB, putB] := hq
    simp only [List.mem_cons, List.not_mem_nil, or_false] at hq'
    rcases hq' with rfl | rfl <;> simp))

theorem cl_works_E : Works wkSetting clWD clWE := by
  have hu : ∀ u ∈ clWD.used, compare u clTs = .lt := by decide
  have h1 := Works.step (.refl _) (alone_begin clWD jobE rfl hu jobE_ok)
  have h2 := Works.step h1 (alone_request _ ⟨jobE, [], none, []⟩ putE rfl rfl List.mem_cons_self)
  have h3 := Works.step h2 (alone_complete _ ⟨jobE, [putE], none, []⟩ rfl rfl (fun q hq => hq))
  exact h3

theorem cl_works_toD : Works wkSetting nothingYet clWD := works_trans works_A (works_trans works_B cl_works_D)

theorem cl_works_all : Works wkSetting nothingYet clWE := works_trans cl_works_toD cl_works_E

theorem cleans_of_works {S : Setting} {r : Str} {a b : Work} (h : Works S a b) : Cleans S r a b := by
  induction h with
  | refl => exact .refl _
  | step _ hs ih => exact .step ih (.work _ _ hs)

theorem cl_superseded : Superseded [jobA, jobB, jobE] clTs f1 t0 :=
  ⟨jobE, by simp, by decide, by decide, .inl ⟨c!"0-9-9", List.mem_cons_self⟩⟩

theorem cleans_L : Cleans wkSetting clTs clWE clL :=
  .step (.refl _) (.log clWE jobA f1 c!"0-0-0" (c!"1", c!"0-7-7") List.mem_cons_self List.mem_cons_self cl_superseded (by decide))

theorem clL_logs (l : Str × Str) (hl : NamePart l.1 ∧ NamePart l.2) : clL.store.get (logAt f1 t0 l) = none := by
  have hp : clL.store.map Prod.fst = [baseAt f1 c!"0-0-0" t0, instantAt jobA.commit, inflightB.path,
      baseAt f2 c!"0-4-1" t1, instantAt jobB.commit, baseAt f1 c!"0-9-9" clTs, instantAt jobE.commit] := by decide
  have hk : KeyOk wkSetting f1 := ⟨root_site, by decide⟩
  cases h : clL.store.get (logAt f1 t0 l) with
  | none => rfl
  | some x =>
    have hm : logAt f1 t0 l ∈ clL.store.map Prod.fst := List.mem_map.2 ⟨_, get_some h, rfl⟩
    rw [hp] at hm
    simp only [List.mem_cons, List.not_mem_nil, or_false] at hm
    rcases hm with hm | hm | hm | hm | hm | hm | hm
    · exact absurd hm.symm (base_ne_log hk hk hl)
    · exact absurd hm (log_ne_instant hk)
    · exact absurd (congrArg List.length hm) (by simp [logAt, inPartition, f1, inflightB, Request.path]; decide)
    · exact absurd hm.symm (base_ne_log ⟨root_site, by decide⟩ hk hl)
    · exact absurd hm (log_ne_instant hk)
    · exact absurd hm.symm (base_ne_log hk hk hl)
    · exact absurd hm (log_ne_instant hk)

theorem cleans_B : Cleans wkSetting clTs clL clB :=
  .step (.refl _) (.base clL jobA f1 c!"0-0-0" List.mem_cons_self List.mem_cons_self cl_superseded clL_logs)

/-- Opened when the new base file has been written. -/
def clTable : Table := ⟨morOpts, [], ⟨[], [⟨t0, .commit, .completed, 1703980800000⟩,
  ⟨t1, .deltaCommit, .completed, 1704067200000⟩, ⟨clTs, .commit, .completed, 1704499200000⟩]⟩⟩

theorem cl_opened (s : Work) (h : Timeline.load env [] s.tree = .ok clTable.timeline) :
    OpenedAt env arrow wkSetting s clTable [] [] false false where
  load := ⟨[], h⟩
  clock := rfl
  zone := rfl
  options := rfl
  merges := ⟨⟨by simp [HmNodup, clTable], by simp [clTable]⟩, ⟨by decide, rfl, by decide⟩, rfl, rfl⟩
  names := ⟨by decide, by decide⟩
  parsed := rfl
  applicable := by simp
  style := ⟨rfl, rfl⟩
  parallelism := by intro v hv; cases hv

theorem cl_current : NamesCurrent clWE := by
  intro j hj path hp
  cases (Option.some.inj hj : jobE = j)
  refine ⟨f1, ⟨clTs, c!"0-9-9", []⟩, rfl, ?_⟩
  have : path = clBase := by
    obtain ⟨_, _, _, _, _, h1, h2, h3⟩ := hp
    simp [jobE, jGet] at h1
    obtain ⟨⟨_, rfl, _⟩, _⟩ := h1
    simp [jGet] at h2
    subst h2
    rcases h3 with ⟨_, h⟩ | ⟨h, _⟩
    · exact h
    · exact absurd ⟨c!"f1_0-9-9_20240106000000000", rfl⟩ h
  rw [this]
  decide

/-- Opened before that. -/
def clTable' : Table := ⟨morOpts, [], ⟨[], [⟨t0, .commit, .completed, 1703980800000⟩,
  ⟨t1, .deltaCommit, .completed, 1704067200000⟩]⟩⟩

theorem cl_opened' : OpenedAt env arrow wkSetting clWD clTable' [] [] false false where
  load := ⟨[], rfl⟩
  clock := rfl
  zone := rfl
  options := rfl
  merges := ⟨⟨by simp [HmNodup, clTable'], by simp [clTable']⟩, ⟨by decide, rfl, by decide⟩, rfl, rfl⟩
  names := ⟨by decide, by decide⟩
  parsed := rfl
  applicable := by simp
  style := ⟨rfl, rfl⟩
  parallelism := by intro v hv; cases hv

theorem cl_current' : NamesCurrent clWD := by
  intro j hj path hp
  cases (Option.some.inj hj : jobB = j)
  refine ⟨f2, ⟨t1, c!"0-4-1", []⟩, rfl, ?_⟩
  have : path = otherBase := by
    obtain ⟨_, _, _, _, _, h1, h2, h3⟩ := hp
    simp [jobB, jGet] at h1
    obtain ⟨⟨_, rfl, _⟩, _⟩ := h1
    simp [jGet] at h2
    subst h2
    rcases h3 with ⟨_, h⟩ | ⟨h, _⟩
    · exact h
    · exact absurd ⟨c!"f2_0-4-1_20240101000000000", rfl⟩ h
  rw [this]
  decide

/-- Directories are listed when the write has completed, files when the log file is gone; and the files are read
when the base file is gone, too. -/
def clMoments : Moments := ⟨fun _ => clB, clB, clL, fun _ => clWE, fun _ => clL, fun _ => clWE, fun _ => clB⟩

theorem cl_since : SinceCleaned wkSetting clTs clWE clMoments :=
  ⟨fun _ => .step cleans_L (.base clL jobA f1 c!"0-0-0" List.mem_cons_self List.mem_cons_self cl_superseded clL_logs),
    .step cleans_L (.base clL jobA f1 c!"0-0-0" List.mem_cons_self List.mem_cons_self cl_superseded clL_logs),
    cleans_L, fun _ => .refl _, fun _ => cleans_L, fun _ => .refl _, fun _ _ => cleans_B⟩

end Demo

open Demo in
/-- The hypotheses of C90 are met by an insert, a write to a second file group, a write that gives the file group a new base file, and a
cleaner that deletes the log file and the base file of the version before while a read runs; the read returns the rows
of the new base file, and those of the second file group. -/
example : MonotoneTz env.ltz ∧ WholeSecondsTz env.ltz ∧ Cleans wkSetting clTs nothingYet clWE ∧ NamesCurrent clWE ∧
    SinceCleaned wkSetting clTs clWE clMoments ∧ OpenedAt env arrow wkSetting clWE clTable [] [] false false ∧
    wkSetting.depth < 1 ∧ jobE.commit ∈ clWE.history ∧ (compare clTs jobE.commit.ts).isLE ∧
    (∀ c, clWE.history.getLast? = some c → (compare clTs c.ts).isLE) ∧
    clTable.readSnapshotR env arrow codec (mergeEnv arrow) 1 clMoments.race [] =
      .ok [clBatch, mor] ∧
    clTable.readSnapshotAsOfR env arrow codec (mergeEnv arrow) 1 clMoments.race clTs [] =
      .ok [clBatch, mor] :=
  ⟨by intro a b a' b' h1 h2 h; cases h1; cases h2; exact h, by intro n d h; cases h; rfl, cleans_of_works cl_works_all,
    cl_current, cl_since, cl_opened _ rfl, by decide, by simp [Work.history, commitsOf, clWE], by decide,
    by intro c hc; cases hc; decide, by decide +kernel, by decide +kernel⟩

open Demo in
/-- **C90 is false of cleaners that delete in another order, and of handles that know less than the cleaner.**

Both handles below were opened at states that writers bring about, and what is deleted is a file of a superseded
version.  If the base file is deleted while a log file written against it is still there, no snapshot of the table can
be read any more, although none of those asked for needs either file.  And a handle opened before the new base file
was written reads nothing from the file group once the cleaner is done: the rows are missing from its latest snapshot,
without an error. -/
theorem C90_false :
    (∃ (E : Env) (A : Arrow) (M : MergeEnv A) (S : Setting) (s0 : Work) (tb : Table) (j : Job) (k : GroupKey)
      (token : Str), Works S nothingYet s0 ∧ NamesCurrent s0 ∧ OpenedAt E A S s0 tb [] [] false false ∧
      j ∈ s0.done ∧ (k, Change.write token) ∈ j.commit.changes ∧
      (∃ c, s0.history.getLast? = some c ∧ Superseded s0.done c.ts k j.commit.ts) ∧
      tb.readSnapshotR E A S.C M 1
        (Race.still (treeOf ((Request.delete (baseAt k token j.commit.ts)).run s0.store))) [] = .err .fileGroup) ∧
    (∃ (E : Env) (A : Arrow) (M : MergeEnv A) (S : Setting) (r : Str) (s0 s1 : Work) (tb : Table) (outs : List Batch),
      Works S nothingYet s0 ∧ NamesCurrent s0 ∧ OpenedAt E A S s0 tb [] [] false false ∧ Cleans S r s0 s1 ∧
      tb.readSnapshotR E A S.C M 1 (Race.still s1.tree) [] = .ok outs ∧
      ¬ ReadsEvolving A (columnsBy s0.done) S.pre (versionAfter s0.history) (Kept A S.pcols false false [])
        (fun k r => r ∈ recordsAfter (rowsOf s0.done) s0.history k) outs) := by
  refine ⟨⟨env, arrow, mergeEnv arrow, wkSetting, clWE, clTable, jobA, f1, c!"0-0-0", cl_works_all, cl_current,
    cl_opened _ rfl, List.mem_cons_self, List.mem_cons_self, ⟨_, rfl, cl_superseded⟩, by decide +kernel⟩,
    env, arrow, mergeEnv arrow, wkSetting, clTs, clWD, clB, clTable', [mor], cl_works_toD, cl_current',
    cl_opened', ?_, by decide +kernel, ?_⟩
  rotate_left
  · rintro ⟨ks, h1, h2, h3⟩
    have hkept : ∀ x, Kept arrow wkSetting.pcols false false [] x := by
      rintro x ⟨_, _, f, hf, _⟩
      cases hf
    have hf1 := (h2 f1).2 ⟨hkept _, by decide⟩
    have hf2 := (h2 f2).2 ⟨hkept _, by decide⟩
    obtain ⟨k, hk⟩ := List.length_eq_one_iff.1 h3.length_eq
    rw [hk, List.mem_singleton] at hf1 hf2
    exact absurd (hf1.trans hf2.symm) (by decide)
  exact .step (.step (cleans_of_works cl_works_E) (.log clWE jobA f1 c!"0-0-0" (c!"1", c!"0-7-7") List.mem_cons_self
    List.mem_cons_self cl_superseded (by decide)))
    (.base clL jobA f1 c!"0-0-0" List.mem_cons_self List.mem_cons_self cl_superseded clL_logs)

end Hudi
