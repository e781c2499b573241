import Verif.Props.Serial
import Verif.Props.ServiceDemo
import Verif.Props.TailDemo
import Verif.Props.CleanerMirrorDemo

/-! # C100: concrete cases -/

namespace Hudi
open Spec
namespace Demo

theorem jobZ_ok' : JobOk spSetting [jobI] jobZ where
  later := by intro j h; rw [List.mem_singleton.1 h]; decide
  time := by decide
  parses := ⟨_, rfl⟩
  once := by decide
  sites := by intro e he; rw [List.mem_singleton.1 he]; exact root_site
  replaces := by intro k hk; simp [jobZ] at hk
  gone := by intro j h k hk; rw [List.mem_singleton.1 h] at hk; simp [jobI] at hk
  live := by intro k ls hk; simp [jobZ] at hk
  ids := by decide
  tokens := by intro k tk hk; simp only [jobZ, List.mem_singleton, Prod.mk.injEq, Change.write.injEq] at hk
               rw [hk.2]; decide
  logs := by intro k ls hk; simp [jobZ] at hk
  batches := fun _ _ _ => and_when (dated_batch _ (by simp [jobZ]))
  blocks := by intro k ls v hk; simp [jobZ] at hk
  rows := by intro k ls hk; simp [jobZ] at hk
  document := by intro h; cases h
  firstFile := ⟨jobZ, by simp, f2, c!"0-4-1", recBase, by simp [jobZ],
    ⟨_, _, _, _, _, rfl, rfl, .inl ⟨⟨c!"f2_0-4-1_20240104000000000", rfl⟩, rfl⟩⟩, by decide, by decide⟩

def srY : Attempt := ⟨jobY, [appendY], none, []⟩
def srZ : Attempt := ⟨jobZ, [putZ], none, []⟩

/-- Two writes are under way; both have made their requests. -/
def srS : Work := ⟨appendY.run (putZ.run spI.store), [jobI], [srY, srZ], [t4, t1, t0]⟩

/-- The earlier one has completed. -/
def srT : Work := ⟨jobY.completion.run srS.store, [jobI, jobY], [srZ], [t4, t1, t0]⟩

/-- And the later one. -/
def srU : Work := ⟨jobZ.completion.run srT.store, [jobI, jobY, jobZ], [], [t4, t1, t0]⟩

theorem sr_works_S : Works spSetting spI srS := by
  have h1 := Works.step (.refl _) (alone_begin spI jobY rfl (by intro u hu; rw [List.mem_singleton.1 hu]; decide) jobY_ok)
  have h2 := Works.step h1 (.begin _ jobZ
    (by intro b hb; rw [List.mem_singleton.1 hb]; unfold Apart; decide)
    (show ∀ u ∈ [t1, t0], compare u t4 = .lt by decide) jobZ_ok')
  have h3 := Works.step h2 (.request _ ⟨jobZ, [], none, []⟩ putZ List.mem_cons_self rfl List.mem_cons_self)
  have h4 := Works.step h3 (.request _ ⟨jobY, [], none, []⟩ appendY (.tail _ List.mem_cons_self) rfl List.mem_cons_self)
  exact h4

theorem sr_works_T : Works spSetting srS srT :=
  .step (.refl _) (.complete _ srY List.mem_cons_self rfl (fun _ hq => hq)
    (show ∀ b ∈ [srZ], compare t1 b.job.commit.ts = .lt by
      intro b hb; rw [List.mem_singleton.1 hb]; decide))

theorem sr_works_U : Works spSetting srT srU :=
  .step (.refl _) (alone_complete srT srZ rfl rfl (fun q hq => hq))

theorem sr_works : Works spSetting nothingYet srT := works_trans works_I (works_trans sr_works_S sr_works_T)

theorem sr_one : oneByOne srT.done = spY := rfl

theorem sr_handle : HandleAt env spSetting srT spTable where
  load := ⟨[], rfl⟩
  clock := rfl
  zone := rfl
  options := rfl
  merges := ⟨⟨by simp [HmNodup, spTable], by simp [spTable]⟩, ⟨by decide, rfl, by decide⟩, rfl, rfl⟩

theorem sr_opened_of {s : Work} {tb : Table} (h : HandleAt env spSetting s tb) :
    OpenedAt env arrow spSetting s tb [] [] false false where
  toHandleAt := h
  names := ⟨by decide, by decide⟩
  parsed := rfl
  applicable := by simp
  style := ⟨rfl, rfl⟩
  parallelism := by intro v hv; cases hv

/-- The files are listed when the earlier write has completed, and read when the later one has. -/
def srMoments : Moments := ⟨fun _ => srT, srT, srU, fun _ => srU, fun _ => srT, fun _ => srU, fun _ => srU⟩

theorem sr_since : Since spSetting srT srMoments :=
  ⟨fun _ => .refl _, .refl _, sr_works_U, fun _ => sr_works_U, fun _ => .refl _, fun _ => sr_works_U,
    fun _ _ => sr_works_U⟩

theorem sr_noTies : NoTiesAt arrow c!"ts" [jobI, jobY] t1 := by
  intro k v hv r hr r' hr'
  have hv' : versionAfter (commitsOf [jobI, jobY]) k = some v := hv
  have hcol : columnsNow [jobI, jobY] k = columnsBy [jobI, jobY] v.base k := by
    unfold columnsNow
    rw [hv']
    rfl
  have h := sv_noTies k r hr r' hr'
  rw [hcol] at h
  exact h

theorem sr_inPlace : RollbacksInPlace srT := by
  refine inPlace_of (fun ws => ws = [x1]) ?_ ?_
  · intro e he ws hws
    have hs : srT.store = [(baseAt f1 c!"0-0-0" t0, .file (.parquet 1 base1)),
        (instantAt jobI.commit, .file (.json (.obj chDoc0))), (baseAt f2 c!"0-4-1" t4, .file (.parquet 1 base2)),
        (logAt f1 t0 here, .log [x1]), (instantAt jobY.commit, .file (.json (.obj chDoc2)))] := rfl
    rw [hs] at he
    simp only [List.mem_cons, List.not_mem_nil, or_false] at he
    rcases he with rfl | rfl | rfl | rfl | rfl <;> cases hws
    rfl
  · rintro ws rfl w hw i hr hb
    rw [List.mem_singleton] at hw
    subst hw
    cases (show some t1 = some i from hb)
    exact .inl ⟨jobY, by simp [srT], rfl⟩

/-- The later write completes first. -/
def srEarly : Work := { srS with store := jobZ.completion.run srS.store, done := [jobI, jobZ], current := [srY] }

/-- The rollback of the earlier write, when the later one has begun. -/
def srUndo : WBlock := ⟨.v1, [(.instantTime, wkTs), (.targetInstantTime, t1), (.commandBlockType, c!"0")], .command, [], 0, 0⟩

theorem srUndo_good : GoodBlock codecDated some c!"utc" srUndo where
  wf := ⟨by decide, by unfold MetaFits; decide, by intro _; unfold MetaFits; decide, by decide,
    (by intro rs h; cases h), (by intro t b h; cases h)⟩
  decodes := ⟨[], rfl⟩
  time := ⟨wkTs, _, rfl, rfl⟩
  target := fun h => ⟨t1, h, rfl⟩

/-- The rollback of the earlier write has begun. -/
def srR : Work := { srS with current := [{ srY with undo := some wkTs }, srZ], used := [wkTs, t4, t1, t0] }

/-- It has ended, and the later write has completed. -/
def srLate : Work := ⟨jobZ.completion.run ((Request.append (logAt f1 t0 here) [srUndo]).run srS.store), [jobI, jobZ], [],
  [wkTs, t4, t1, t0]⟩

theorem sr_works_Late : Works spSetting srR srLate := by
  have h1 := Works.step (S := spSetting) (.refl srR) (.block srR { srY with undo := some wkTs } wkTs f1 [here]
    ⟨t0, c!"0-0-0", []⟩ here srUndo List.mem_cons_self rfl List.mem_cons_self rfl (by decide) srUndo_good rfl
    ⟨⟨rfl, _, rfl, rfl⟩, rfl⟩)
  have h2 := Works.step h1 (.recovered _ ⟨jobY, [appendY], some wkTs, [f1]⟩ wkTs List.mem_cons_self rfl
    (by intro k token hk; simp [jobY, spAppend] at hk)
    (by
      intro k ls v l hk _ _ _
      have hk' : k = f1 ∧ ls = [(c!"1", c!"0-0-1")] := by simpa [jobY, spAppend] using hk
      rw [hk'.1]
      exact List.mem_cons_self))
  have h3 := Works.step h2 (alone_complete _ srZ rfl rfl (fun q hq => hq))
  exact h3

/-- Opened when the insert and the later write have completed. -/
def srTable : Table := ⟨morOpts, [], ⟨[], [⟨t0, .commit, .completed, 1703980800000⟩,
  ⟨t4, .commit, .completed, 1704326400000⟩]⟩⟩

theorem sr_handleE {s : Work} (h : Timeline.load env [] s.tree = .ok srTable.timeline) : HandleAt env spSetting s srTable where
  load := ⟨[], h⟩
  clock := rfl
  zone := rfl
  options := rfl
  merges := ⟨⟨by simp [HmNodup, srTable], by simp [srTable]⟩, ⟨by decide, rfl, by decide⟩, rfl, rfl⟩

theorem sr_noTies' : NoTies arrow c!"ts" [jobI, jobZ] := by
  intro k r hr r' hr' hk _ _
  by_cases h1 : k = f1
  · subst h1
    exact List.inj_on_of_nodup_map (f := keyOf incSchema) (l := base1.rows) (by decide) hr hr' hk
  · by_cases h2 : k = f2
    · subst h2
      exact List.inj_on_of_nodup_map (f := keyOf incSchema) (l := base2.rows) (by decide) hr hr' hk
    · have h1' : ¬ f1 = k := fun e => h1 e.symm
      have h2' : ¬ f2 = k := fun e => h2 e.symm
      have e : recordsNow [jobI, jobZ] k = [] := by
        simp [recordsNow, recordsAfter, commitsOf, HCommit.changeOf, jobI, jobZ, h1', h2']
      rw [e] at hr
      cases hr

theorem sr_noTiesK : NoTies arrow c!"ts" [jobI, jobY, jobK] := by
  intro k r hr r' hr' hk _ _
  by_cases h1 : k = f1
  · subst h1
    exact List.inj_on_of_nodup_map (f := keyOf incSchema) (l := ccBatch.rows) (by decide) hr hr' hk
  · have h1' : ¬ f1 = k := fun e => h1 e.symm
    have e : recordsNow [jobI, jobY, jobK] k = [] := by
      simp [recordsNow, recordsAfter, commitsOf, HCommit.changeOf, jobI, jobY, jobK, spAppend, h1']
    rw [e] at hr
    cases hr

theorem sr_noTiesAtK : NoTiesAt arrow c!"ts" [jobI, jobY, jobK] clTs := by
  intro k v hv r hr r' hr'
  have hv' : versionAfter (commitsOf [jobI, jobY, jobK]) k = some v := hv
  have hcol : columnsNow [jobI, jobY, jobK] k = columnsBy [jobI, jobY, jobK] v.base k := by
    unfold columnsNow
    rw [hv']
    rfl
  have h := sr_noTiesK k r hr r' hr'
  rw [hcol] at h
  exact h

theorem sr_oneK : oneByOne ccL.done = ccK := rfl

theorem sr_handleK : HandleAt env spSetting ccK ccTable where
  load := ⟨[], rfl⟩
  clock := rfl
  zone := rfl
  options := rfl
  merges := ⟨⟨by simp [HmNodup, ccTable], by simp [ccTable]⟩, ⟨by decide, rfl, by decide⟩, rfl, rfl⟩

end Demo

open Demo in
/-- The hypotheses of C100 are met by an insert, a write that appends to the log file of its file group and a write to
another file group, which are under way at the same time.  When the first of these has completed, a handle is opened
whose requests are answered while the other one completes; it reads the rows, and the changes, that a handle on the
table of one writer reads. -/
example : MonotoneTz env.ltz ∧ WholeSecondsTz env.ltz ∧ Works spSetting nothingYet srS ∧ srS.current = [srY, srZ] ∧
    Works spSetting srS srT ∧ Works spSetting nothingYet srT ∧ srT.current = [srZ] ∧ oneByOne srT.done = spY ∧
    Since spSetting srT srMoments ∧ Since spSetting (oneByOne srT.done) svMoments ∧
    OpenedAt env arrow spSetting srT spTable [] [] false false ∧
    OpenedAt env arrow spSetting (oneByOne srT.done) spTable [] [] false false ∧ spSetting.depth < 1 ∧
    NoTies arrow spSetting.pre srT.done ∧ jobY.commit ∈ srT.history ∧ NoTiesAt arrow spSetting.pre srT.done jobY.commit.ts ∧
    AllDocumented srT.done ∧ RollbacksInPlace srT ∧ MetaFields spSetting.o ∧
    (WriterTimestamp t0 ∧ t0.length = spSetting.width) ∧
    (∃ d, parseDatetime spSetting.ltz t0 spSetting.tz = .ok d) ∧
    spTable.readSnapshotR env arrow codecDated (mergeEnv arrow) 1 srMoments.race [] =
      .ok [⟨incSchema, [datedRow c!"1" c!"C" c!"bob" 7 t0, datedRow c!"1" c!"A" c!"ann" 5 t0,
        datedRow c!"3" c!"B" c!"y" 1 t1]⟩] ∧
    spTable.readSnapshotR env arrow codecDated (mergeEnv arrow) 1 svMoments.race [] =
      .ok [⟨incSchema, [datedRow c!"1" c!"C" c!"bob" 7 t0, datedRow c!"1" c!"A" c!"ann" 5 t0,
        datedRow c!"3" c!"B" c!"y" 1 t1]⟩] ∧
    spTable.readIncrementalR env arrow codecDated (mergeEnv arrow) srMoments.race t0 (some t1) = .ok [x1Batch] :=
  ⟨by intro a b a' b' h1 h2 h; cases h1; cases h2; exact h, by intro n d h; cases h; rfl,
    works_trans works_I sr_works_S, rfl, sr_works_T, sr_works, rfl, sr_one, sr_since, sr_one ▸ sv_since,
    sr_opened_of sr_handle, sr_one ▸ sv_opened', by decide, sv_noTies, by simp [srT, Work.history, commitsOf], sr_noTies,
    spY_documented, sr_inPlace, by decide, by decide, ⟨_, rfl⟩, by decide +kernel, by decide +kernel, by decide +kernel⟩

open Demo in
/-- The hypotheses of C100 with a cleaner are met by an insert, a write that appends a block, a write that gives the file
group a new base file, and a cleaner that deletes the log file of the version before, and its base file while the read
runs.  The table of one writer still has both files; the reads are the same. -/
example : Cleans spSetting clTs nothingYet ccL ∧ NamesCurrent ccL ∧ oneByOne ccL.done = ccK ∧
    ccK.store.get (logAt f1 t0 here) ≠ none ∧ ccL.store.get (logAt f1 t0 here) = none ∧
    SinceCleaned spSetting clTs ccL ccMoments ∧ Since spSetting (oneByOne ccL.done) (allAt ccK) ∧
    OpenedAt env arrow spSetting ccL ccTable [] [] false false ∧
    OpenedAt env arrow spSetting (oneByOne ccL.done) ccTable [] [] false false ∧
    jobK.commit ∈ ccL.history ∧ (compare clTs jobK.commit.ts).isLE ∧
    NoTiesAt arrow spSetting.pre ccL.done jobK.commit.ts ∧
    (∀ c, ccL.history.getLast? = some c → (compare clTs c.ts).isLE) ∧ NoTies arrow spSetting.pre ccL.done ∧
    AllDocumented ccL.done ∧ RollbacksInPlace ccL ∧
    ccTable.readSnapshotR env arrow spSetting.C (mergeEnv arrow) 1 ccMoments.race [] =
      .ok [⟨incSchema, [rowA, oldC, rowB, rowE]⟩] ∧
    ccTable.readSnapshotR env arrow spSetting.C (mergeEnv arrow) 1 (allAt ccK).race [] =
      .ok [⟨incSchema, [rowA, oldC, rowB, rowE]⟩] :=
  ⟨cleans_more (cleans_of_works (works_trans works_Y works_K)) cc_toL, ccL_current, sr_oneK, by decide, by decide,
    cc_since, sr_oneK ▸ allAt_since ccK, cc_opened, sr_oneK ▸ sr_opened_of sr_handleK,
    by simp [ccL, ccK, Work.history, commitsOf], by decide, sr_noTiesAtK, by intro c hc; cases hc; decide, sr_noTiesK,
    ccK_documented, ccL_inPlace, by decide +kernel, by decide +kernel⟩

open Demo in
/-- **C100 is false of writes that complete in another order than that of their timestamps, and of writes that are
rolled back while later ones are under way.**  Two writes are under way, on different file groups, and the earlier one
has appended its block.  If the later one completes first (`early`), a reader gets the block of the earlier one, which
has not completed.  If the earlier one fails and its rollback begins while the later one is under way, and the rollback
ends before the later one completes (`late`), readers get that block for good: the rollback is later than the commits
they know.  In both cases a table on which one writer has made the completed writes reads differently. -/
theorem C100_false : ∃ (E : Env) (A : Arrow) (M : MergeEnv A) (S : Setting) (s early late : Work) (a b : Attempt)
    (r : Str) (tb : Table) (outs outs' : List Batch),
    Works S nothingYet s ∧ a ∈ s.current ∧ b ∈ s.current ∧ compare a.job.commit.ts b.job.commit.ts = .lt ∧
    a.undo = none ∧ b.undo = none ∧ (∀ q ∈ b.job.requests s.history, q ∈ b.ran) ∧
    early = { s with store := b.job.completion.run s.store, done := s.done ++ [b.job], current := s.others b } ∧
    Spec.Fresh s r ∧ (WriterTimestamp r ∧ r.length = S.width) ∧ (∃ d, parseDatetime S.ltz r S.tz = .ok d) ∧
    Works S { s with current := { a with undo := some r } :: s.others a, used := r :: s.used } late ∧
    late.current = [] ∧ late.done = s.done ++ [b.job] ∧
    NoTies A S.pre (s.done ++ [b.job]) ∧ Works S nothingYet (oneByOne (s.done ++ [b.job])) ∧
    OpenedAt E A S early tb [] [] false false ∧ OpenedAt E A S late tb [] [] false false ∧
    OpenedAt E A S (oneByOne (s.done ++ [b.job])) tb [] [] false false ∧
    tb.readSnapshotR E A S.C M 1 (Race.still early.tree) [] = .ok outs ∧
    tb.readSnapshotR E A S.C M 1 (Race.still late.tree) [] = .ok outs ∧
    tb.readSnapshotR E A S.C M 1 (Race.still (oneByOne (s.done ++ [b.job])).tree) [] = .ok outs' ∧
    ¬ (rowsWithColumns outs).Perm (rowsWithColumns outs') ∧
    ∃ k, ∃ x ∈ a.job.appended k, x ∈ outs.flatMap Batch.rows ∧ x ∉ outs'.flatMap Batch.rows :=
  ⟨env, arrow, mergeEnv arrow, spSetting, srS, srEarly, srLate, srY, srZ, wkTs, srTable,
    [base2, ⟨incSchema, [datedRow c!"1" c!"C" c!"bob" 7 t0, datedRow c!"1" c!"A" c!"ann" 5 t0,
      datedRow c!"3" c!"B" c!"y" 1 t1]⟩],
    [base2, base1],
    works_trans works_I sr_works_S, List.mem_cons_self, .tail _ List.mem_cons_self, by decide, rfl, rfl,
    fun q hq => hq, rfl, (show ∀ u ∈ [t4, t1, t0], compare u wkTs = .lt by decide), by decide, ⟨_, rfl⟩, sr_works_Late,
    rfl, rfl, sr_noTies',
    (oneByOne_works [jobI, jobZ] (by
      intro d1 j d2 h
      match d1, h with
      | [], h => cases h; exact jobI_ok
      | [_], h => cases h; exact jobZ_ok'
      | _ :: _ :: _, h => simp at h)).1,
    sr_opened_of (sr_handleE rfl), sr_opened_of (sr_handleE rfl), sr_opened_of (sr_handleE rfl),
    by decide +kernel, by decide +kernel, by decide +kernel,
    fun h => absurd h.length_eq (by decide),
    f1, datedRow c!"3" c!"B" c!"y" 1 t1, by decide, by decide, by decide⟩

end Hudi
