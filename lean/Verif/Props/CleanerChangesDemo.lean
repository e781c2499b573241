import Verif.Props.CleanerChanges
import Verif.Props.CleanerDemo
import Verif.Props.WriterChangesDemo

/-! # C92: concrete cases -/

namespace Hudi
open Spec
namespace Demo

/-- The rows of the first file group after the second write, and a new one. -/
def ccBatch : Batch := ⟨incSchema, base1.rows ++ x1Batch.rows ++ [datedRow c!"5" c!"E" c!"eve" 2 clTs]⟩

/-- A write that gives the first file group a new base file. -/
def jobK : Job where
  commit := ⟨clTs, .commit, [(f1, .write c!"0-9-9")]⟩
  doc := [(c!"partitionToWriteStats", .obj [([], .arr [.obj [(c!"fileId", .str c!"f1"), (c!"path", .str clBase)]])])]
  base := fun _ => ccBatch
  blocks := fun _ _ => []
  appended := fun _ => []

def putK : Request := .put (baseAt f1 c!"0-9-9" clTs) (.parquet 1 ccBatch)

/-- It has completed. -/
def ccK : Work := ⟨jobK.completion.run (putK.run spY.store), [jobI, jobY, jobK], [], [clTs, t1, t0]⟩

/-- The cleaner has deleted the log file of the first version. -/
def ccL : Work := { ccK with store := (Request.delete (logAt f1 t0 here)).run ccK.store }

/-- It has deleted the base file as well. -/
def ccB : Work := { ccL with store := (Request.delete (baseAt f1 c!"0-0-0" t0)).run ccL.store }

theorem jobK_ok : JobOk spSetting [jobI, jobY] jobK where
  later := by decide
  time := by decide
  parses := ⟨_, rfl⟩
  once := by decide
  sites := by intro e he; rw [List.mem_singleton.1 he]; exact root_site
  replaces := by intro k hk; simp [jobK] at hk
  gone := by
    intro j h k hk
    simp only [List.mem_cons, List.not_mem_nil, or_false] at h
    rcases h with rfl | rfl <;> simp [jobI, jobY, spAppend] at hk
  live := by intro k ls hk; simp [jobK] at hk
  ids := by decide
  tokens := by intro k tk hk; simp only [jobK, List.mem_singleton, Prod.mk.injEq, Change.write.injEq] at hk
               rw [hk.2]; decide
  logs := by intro k ls hk; simp [jobK] at hk
  batches := fun _ _ _ => ⟨show ccBatch.WF by unfold Batch.WF; decide,
    fun _ => ⟨show (ccBatch.rows.map (keyOf ccBatch.schema)).Nodup by decide,
    show MergeColumns ccBatch.schema c!"ts" from ⟨by decide, by decide, _, rfl, rfl⟩⟩⟩
  blocks := by intro k ls v hk; simp [jobK] at hk
  rows := by intro k ls hk; simp [jobK] at hk
  document := by intro h; cases h
  firstFile := ⟨jobK, by simp, f1, c!"0-9-9", clBase, by simp [jobK],
    ⟨_, _, _, _, _, rfl, rfl, .inl ⟨⟨c!"f1_0-9-9_20240106000000000", rfl⟩, rfl⟩⟩, by decide, by decide⟩

theorem works_K : Works spSetting spY ccK := by
  have hu : ∀ u ∈ spY.used, compare u clTs = .lt := by decide
  have h1 := Works.step (.refl _) (alone_begin spY jobK rfl hu jobK_ok)
  have h2 := Works.step h1 (alone_request _ ⟨jobK, [], none, []⟩ putK rfl rfl List.mem_cons_self)
  have h3 := Works.step h2 (alone_complete _ ⟨jobK, [putK], none, []⟩ rfl rfl (fun q hq => hq))
  exact h3

theorem cc_superseded : Superseded [jobI, jobY, jobK] clTs f1 t0 :=
  ⟨jobK, by simp, by decide, by decide, .inl ⟨c!"0-9-9", List.mem_cons_self⟩⟩

theorem cc_toL : Cleans spSetting clTs ccK ccL :=
  .step (.refl _) (.log ccK jobI f1 c!"0-0-0" here List.mem_cons_self List.mem_cons_self cc_superseded (by decide))

theorem ccL_logs (l : Str × Str) (hl : NamePart l.1 ∧ NamePart l.2) : ccL.store.get (logAt f1 t0 l) = none := by
  have hp : ccL.store.map Prod.fst = [baseAt f1 c!"0-0-0" t0, instantAt jobI.commit, instantAt jobY.commit,
      baseAt f1 c!"0-9-9" clTs, instantAt jobK.commit] := by decide
  have hk : KeyOk spSetting f1 := ⟨root_site, by decide⟩
  cases h : ccL.store.get (logAt f1 t0 l) with
  | none => rfl
  | some x =>
    have hm : logAt f1 t0 l ∈ ccL.store.map Prod.fst := List.mem_map.2 ⟨_, get_some h, rfl⟩
    rw [hp] at hm
    simp only [List.mem_cons, List.not_mem_nil, or_false] at hm
    rcases hm with hm | hm | hm | hm | hm
    · exact absurd hm.symm (base_ne_log hk hk hl)
    · exact absurd hm (log_ne_instant hk)
    · exact absurd hm (log_ne_instant hk)
    · exact absurd hm.symm (base_ne_log hk hk hl)
    · exact absurd hm (log_ne_instant hk)

theorem cc_toB : Cleans spSetting clTs ccL ccB :=
  .step (.refl _) (.base ccL jobI f1 c!"0-0-0" List.mem_cons_self List.mem_cons_self cc_superseded ccL_logs)

theorem cc_allB : Cleans spSetting clTs ccK ccB :=
  .step cc_toL (.base ccL jobI f1 c!"0-0-0" List.mem_cons_self List.mem_cons_self cc_superseded ccL_logs)

theorem jobK_documented : Documented [jobI, jobY] jobK where
  document := by
    refine ⟨[⟨[], c!"f1", ⟨c!"f1", c!"0-9-9", clTs, c!"parquet", none⟩, []⟩],
      ⟨[([], [(⟨[], c!"f1", ⟨c!"f1", c!"0-9-9", clTs, c!"parquet", none⟩, []⟩, _)])], rfl, rfl, ?_⟩, by decide, ?_⟩
    · simp only [List.mem_singleton, forall_eq]
      exact ⟨trivial, _, rfl, rfl, .inr ⟨rfl, rfl, .inl rfl⟩⟩
    · intro w
      constructor
      · intro h
        rw [show w = _ from List.mem_singleton.1 h]
        exact ⟨f1, .write c!"0-9-9", by simp [jobK], rfl⟩
      · rintro ⟨k, ch, h1, h2⟩
        simp only [jobK, List.mem_singleton, Prod.mk.injEq] at h1
        rw [h1.1, h1.2] at h2
        rw [← Option.some.inj h2]
        exact List.mem_cons_self
  commitTime := fun _ _ _ => ⟨_, rfl, rfl⟩
  dated := by intro k ls v hk; simp [jobK] at hk

theorem ccK_documented : AllDocumented [jobI, jobY, jobK] := by
  intro d1 j d2 h
  match d1, h with
  | [], h => cases h; exact jobI_documented
  | [_], h => cases h; exact jobY_documented
  | [_, _], h => cases h; exact jobK_documented
  | _ :: _ :: _ :: _, h => simp at h

theorem ccL_inPlace : RollbacksInPlace ccL := by
  refine inPlace_of (fun _ => False) ?_ (fun ws h => h.elim)
  intro e he ws hws
  have hs : ccL.store = [(baseAt f1 c!"0-0-0" t0, .file (.parquet 1 base1)),
      (instantAt jobI.commit, .file (.json (.obj chDoc0))), (instantAt jobY.commit, .file (.json (.obj chDoc2))),
      (baseAt f1 c!"0-9-9" clTs, .file (.parquet 1 ccBatch)), (instantAt jobK.commit, .file (.json (.obj jobK.doc)))] := rfl
  rw [hs] at he
  simp only [List.mem_cons, List.not_mem_nil, or_false] at he
  rcases he with rfl | rfl | rfl | rfl | rfl <;> cases hws

/-- Opened when the cleaner has deleted the log file. -/
def ccTable : Table := ⟨morOpts, [], ⟨[], [⟨t0, .commit, .completed, 1703980800000⟩,
  ⟨t1, .deltaCommit, .completed, 1704067200000⟩, ⟨clTs, .commit, .completed, 1704499200000⟩]⟩⟩

theorem cc_handle : HandleAt env spSetting ccL ccTable where
  load := ⟨[], rfl⟩
  clock := rfl
  zone := rfl
  options := rfl
  merges := ⟨⟨by simp [HmNodup, ccTable], by simp [ccTable]⟩, ⟨by decide, rfl, by decide⟩, rfl, rfl⟩

/-- The files are read when the base file is gone, too. -/
def ccMoments : Moments := ⟨fun _ => ccL, ccB, ccL, fun _ => ccL, fun _ => ccL, fun _ => ccB, fun _ => ccB⟩

theorem cc_since : SinceCleaned spSetting clTs ccL ccMoments :=
  ⟨fun _ => .refl _, cc_toB, .refl _, fun _ => .refl _, fun _ => .refl _, fun _ => cc_toB, fun _ _ => cc_toB⟩

/-- Opened before the new base file was written. -/
theorem cc_handle' : HandleAt env spSetting spY spTable where
  load := ⟨[], rfl⟩
  clock := rfl
  zone := rfl
  options := rfl
  merges := ⟨⟨by simp [HmNodup, spTable], by simp [spTable]⟩, ⟨by decide, rfl, by decide⟩, rfl, rfl⟩

theorem cleans_more {S : Setting} {r : Str} {a b c : Work} (h1 : Cleans S r a b) (h2 : Cleans S r b c) : Cleans S r a c := by
  induction h2 with
  | refl => exact h1
  | step _ hs ih => exact .step ih hs

end Demo

open Demo in
/-- The hypotheses of C92 are met by an insert, a write that appends a block, a write that gives the file group a new
base file, and a cleaner that deletes the log file of the version before, and its base file while the read runs.  What
has changed since the insert, before the time up to which the cleaner works, is read in full: the row that the deleted
log file had held, which is in the new base file, and the new one. -/
example : MonotoneTz env.ltz ∧ WholeSecondsTz env.ltz ∧ Cleans spSetting clTs nothingYet ccL ∧
    AllDocumented ccL.done ∧ RollbacksInPlace ccL ∧ SinceCleaned spSetting clTs ccL ccMoments ∧
    HandleAt env spSetting ccL ccTable ∧ MetaFields spSetting.o ∧ (WriterTimestamp t0 ∧ t0.length = spSetting.width) ∧
    (∃ d, parseDatetime spSetting.ltz t0 spSetting.tz = .ok d) ∧ jobK.commit ∈ ccL.history ∧
    (compare clTs jobK.commit.ts).isLE ∧ (∀ c, ccL.history.getLast? = some c → (compare clTs c.ts).isLE) ∧
    ccTable.readIncrementalR env arrow codecDated (mergeEnv arrow) ccMoments.race t0 (some clTs) =
      .ok [⟨incSchema, x1Batch.rows ++ [datedRow c!"5" c!"E" c!"eve" 2 clTs]⟩] ∧
    ccTable.readIncrementalR env arrow codecDated (mergeEnv arrow) ccMoments.race t0 none =
      .ok [⟨incSchema, x1Batch.rows ++ [datedRow c!"5" c!"E" c!"eve" 2 clTs]⟩] :=
  ⟨by intro a b a' b' h1 h2 h; cases h1; cases h2; exact h, by intro n d h; cases h; rfl,
    cleans_more (cleans_of_works (works_trans works_Y works_K)) cc_toL, ccK_documented, ccL_inPlace, cc_since, cc_handle,
    by decide, by decide, ⟨_, rfl⟩, by simp [ccL, ccK, Work.history, commitsOf], by decide,
    by intro c hc; cases hc; decide, by decide +kernel, by decide +kernel⟩

open Demo in
/-- **C92 is false of spans that end before the time up to which the cleaner works, and of handles that know less than
the cleaner.**  Both handles were opened at states that writers and the cleaner bring about, and all writers behave as
required.  Once the cleaner is done, a handle that knows all commits cannot read the changes between the first two of
them any more: the read returns an error.  And a handle opened before the new base file was written cannot read the
changes up to now, as it knows it. -/
theorem C92_false :
    (∃ (E : Env) (A : Arrow) (S : Setting) (M : MergeEnv A) (r : Str) (s0 s1 : Work) (tb : Table) (start : Str)
      (c : HCommit) (e : ErrKind), MonotoneTz E.ltz ∧ WholeSecondsTz E.ltz ∧ Cleans S r nothingYet s0 ∧
      Cleans S r s0 s1 ∧ AllDocumented s0.done ∧ RollbacksInPlace s0 ∧ HandleAt E S s0 tb ∧ MetaFields S.o ∧
      (WriterTimestamp start ∧ start.length = S.width) ∧ (∃ d, parseDatetime S.ltz start S.tz = .ok d) ∧
      c ∈ s0.history ∧ (∀ c', s0.history.getLast? = some c' → (compare r c'.ts).isLE) ∧
      tb.readIncremental E A S.C M s1.tree start (some c.ts) = .err e) ∧
    (∃ (E : Env) (A : Arrow) (S : Setting) (M : MergeEnv A) (r : Str) (s0 s1 : Work) (tb : Table) (start : Str)
      (e : ErrKind), MonotoneTz E.ltz ∧ WholeSecondsTz E.ltz ∧ Works S nothingYet s0 ∧
      Cleans S r s0 s1 ∧ AllDocumented s0.done ∧ RollbacksInPlace s0 ∧ HandleAt E S s0 tb ∧ MetaFields S.o ∧
      (WriterTimestamp start ∧ start.length = S.width) ∧ (∃ d, parseDatetime S.ltz start S.tz = .ok d) ∧
      tb.readIncremental E A S.C M s1.tree start none = .err e) := by
  have hY : RollbacksInPlace spY := by
    refine inPlace_of (fun ws => ws = [x1]) ?_ ?_
    · intro e he ws hws
      have hs : spY.store = [(baseAt f1 c!"0-0-0" t0, .file (.parquet 1 base1)),
          (instantAt jobI.commit, .file (.json (.obj chDoc0))), (logAt f1 t0 here, .log [x1]),
          (instantAt jobY.commit, .file (.json (.obj chDoc2)))] := rfl
      rw [hs] at he
      simp only [List.mem_cons, List.not_mem_nil, or_false] at he
      rcases he with rfl | rfl | rfl | rfl
      · cases hws
      · cases hws
      · cases hws; rfl
      · cases hws
    · rintro ws rfl w hw i hr hb
      rw [List.mem_singleton] at hw
      subst hw
      cases (show some t1 = some i from hb)
      exact .inl ⟨jobY, by simp [spY], rfl⟩
  exact ⟨⟨env, arrow, spSetting, mergeEnv arrow, clTs, ccL, ccB, ccTable, t0, jobY.commit, .readFileSlice,
    by intro a b a' b' h1 h2 h; cases h1; cases h2; exact h, by intro n d h; cases h; rfl,
    cleans_more (cleans_of_works (works_trans works_Y works_K)) cc_toL, cc_toB, ccK_documented, ccL_inPlace, cc_handle,
    by decide, by decide, ⟨_, rfl⟩, by simp [ccL, ccK, Work.history, commitsOf], by intro c hc; cases hc; decide,
    by decide +kernel⟩,
    ⟨env, arrow, spSetting, mergeEnv arrow, clTs, spY, ccB, spTable, t0, .readFileSlice,
    by intro a b a' b' h1 h2 h; cases h1; cases h2; exact h, by intro n d h; cases h; rfl,
    works_Y, cleans_more (cleans_of_works works_K) cc_allB, spY_documented, hY, cc_handle', by decide, by decide,
    ⟨_, rfl⟩, by decide +kernel⟩⟩

end Hudi
