import Verif.Props.CleanerMirror
import Verif.Props.CleanerTailDemo

/-! # C94: a consumer that meets the hypotheses, and a counterexample -/

namespace Hudi
open Spec
namespace Demo

/-- A write whose document names one base file names it first. -/
theorem one_named {file name path : Str} (h : FirstFile [(c!"partitionToWriteStats", .obj [([], .arr [.obj
    [(c!"fileId", .str file), (c!"path", .str (name ++ c!".parquet"))]])])] path) : path = name ++ c!".parquet" := by
  obtain ⟨_, _, _, _, _, h1, h2, h3⟩ := h
  simp [jGet] at h1
  obtain ⟨⟨_, rfl, _⟩, _⟩ := h1
  simp [jGet] at h2
  subst h2
  rcases h3 with ⟨_, h⟩ | ⟨h, _⟩
  · exact h
  · exact absurd ⟨name, rfl⟩ h

theorem spI_current : NamesCurrent spI := by
  intro j hj path hp
  cases (Option.some.inj hj : jobI = j)
  rw [one_named (name := c!"f1_0-0-0_20231231000000000") hp]
  exact ⟨f1, ⟨t0, c!"0-0-0", []⟩, rfl, by decide⟩

theorem ccL_current : NamesCurrent ccL := by
  intro j hj path hp
  cases (Option.some.inj hj : jobK = j)
  rw [one_named (name := c!"f1_0-9-9_20240106000000000") hp]
  exact ⟨f1, ⟨clTs, c!"0-9-9", []⟩, rfl, by decide⟩

theorem cc_opened : OpenedAt env arrow spSetting ccL ccTable [] [] false false where
  toHandleAt := cc_handle
  names := ⟨by decide, by decide⟩
  parsed := rfl
  applicable := by simp
  style := ⟨rfl, rfl⟩
  parallelism := by intro v hv; cases hv

theorem ccm_begins : MirrorsCleaned env arrow spSetting (mergeEnv arrow) incSchema t0 [] [rowA, oldC] spI t0 :=
  .begins t0 spI jobI.commit (cleans_of_works works_I) (by intro c hc; cases hc; decide) spI_current rfl mirTable false
    false mir_opened (allAt spI) (allAt_cleaned (.refl _)) 1 (by decide) [⟨incSchema, [rowA, oldC]⟩] (by decide +kernel) _
    (latest_self (by decide))

theorem ccm_mirrors : MirrorsCleaned env arrow spSetting (mergeEnv arrow) incSchema clTs [ccL] [rowA, oldC, rowB, rowE] ccL
    clTs :=
  MirrorsCleaned.polls ccm_begins clTs (by decide) ccL
    (cleans_more (cleans_of_works (works_trans works_IY works_K)) cc_toL) (by intro c hc; cases hc; decide) ccTable
    cc_handle ccMoments cc_since clTs rfl [⟨incSchema, [rowB, rowE]⟩] (by decide +kernel) _ (latest_self (by decide))

theorem table_K {r : List Cell} : InTable [jobI, jobY, jobK] r ↔ r ∈ [rowA, oldC, rowB, rowE] :=
  inTable_f1 (by simp [jobI, jobY, jobK, spAppend])

theorem ccm_upserts : AllUpserts arrow incSchema c!"ts" [jobI, jobY, jobK] := by
  intro d1 j d2 h
  match d1, h with
  | [], h => cases h; exact mir_upserts [] jobI [jobY, jobX] rfl
  | [_], h => cases h; exact mir_upserts [jobI] jobY [jobX] rfl
  | [_, _], h =>
    cases h
    refine ⟨fun _ _ _ => rfl, fun r hr => ⟨r, ?_, rfl, versionLE_refl _ _ _ _⟩, fun r hr => ?_⟩
    · revert r
      simp only [List.cons_append, List.nil_append, table_2, table_K]
      decide
    · revert r
      simp only [List.cons_append, List.nil_append, table_2, table_K]
      decide
  | _ :: _ :: _ :: _, h => simp at h

theorem ccm_prefix {d : List Job} (h : d <+: [jobI, jobY, jobK]) {r : List Cell} (hr : InTable d r) :
    r ∈ [rowA, oldC, rowB, rowE] := by
  obtain ⟨d', h⟩ := h
  match d, h with
  | [], h => cases table_0.1 hr
  | [_], h =>
    cases h
    exact (show ∀ r ∈ [rowA, oldC], r ∈ [rowA, oldC, rowB, rowE] by decide) r (table_1.1 hr)
  | [_, _], h =>
    cases h
    exact (show ∀ r ∈ [rowA, oldC, rowB], r ∈ [rowA, oldC, rowB, rowE] by decide) r (table_2.1 hr)
  | [_, _, _], h =>
    cases h
    exact table_K.1 hr
  | _ :: _ :: _ :: _ :: _, h => simp at h

theorem ccm_untied : Untied arrow incSchema c!"ts" [jobI, jobY, jobK] := by
  intro d1 d2 r r' h1 h2 hr hr' hk hle hge
  have h3 := ccm_prefix h1 hr
  have h4 := ccm_prefix h2 hr'
  simp only [List.mem_cons, List.not_mem_nil, or_false] at h3 h4
  rcases h3 with rfl | rfl | rfl | rfl <;> rcases h4 with rfl | rfl | rfl | rfl <;> first
    | rfl
    | exact absurd hk (by decide)

/-- The cleaner has deleted the base file from before the record was deleted. -/
def spDC : Work := { spD with store := (Request.delete (baseAt f1 c!"0-0-0" t0)).run spD.store }

theorem spD_logs (l : Str × Str) (hl : NamePart l.1 ∧ NamePart l.2) : spD.store.get (logAt f1 t0 l) = none := by
  have hp : spD.store.map Prod.fst = [baseAt f1 c!"0-0-0" t0, instantAt jobI.commit, baseAt f1 c!"0-9-9" t1,
      instantAt jobD.commit] := by decide
  have hk : KeyOk spSetting f1 := ⟨root_site, by decide⟩
  cases h : spD.store.get (logAt f1 t0 l) with
  | none => rfl
  | some x =>
    have hm : logAt f1 t0 l ∈ spD.store.map Prod.fst := List.mem_map.2 ⟨_, get_some h, rfl⟩
    rw [hp] at hm
    simp only [List.mem_cons, List.not_mem_nil, or_false] at hm
    rcases hm with hm | hm | hm | hm
    · exact absurd hm.symm (base_ne_log hk hk hl)
    · exact absurd hm (log_ne_instant hk)
    · exact absurd hm.symm (base_ne_log hk hk hl)
    · exact absurd hm (log_ne_instant hk)

theorem dc_cleans : Cleans spSetting t1 spI spDC :=
  .step (cleans_of_works works_D) (.base spD jobI f1 c!"0-0-0" List.mem_cons_self List.mem_cons_self
    ⟨jobD, by simp [spD], by decide, by decide, .inl ⟨c!"0-9-9", List.mem_cons_self⟩⟩ spD_logs)

theorem dc_current : NamesCurrent spDC := by
  intro j hj path hp
  cases (Option.some.inj hj : jobD = j)
  rw [one_named (name := c!"f1_0-9-9_20240101000000000") hp]
  exact ⟨f1, ⟨t1, c!"0-9-9", []⟩, rfl, by decide⟩

theorem dc_opened : OpenedAt env arrow spSetting spDC delTable [] [] false false where
  load := ⟨[], rfl⟩
  clock := rfl
  zone := rfl
  options := rfl
  merges := ⟨⟨by simp [HmNodup, delTable], by simp [delTable]⟩, ⟨by decide, rfl, by decide⟩, rfl, rfl⟩
  names := ⟨by decide, by decide⟩
  parsed := rfl
  applicable := by simp
  style := ⟨rfl, rfl⟩
  parallelism := by intro v hv; cases hv

theorem dc_inPlace : RollbacksInPlace spDC := by
  refine inPlace_of (fun _ => False) ?_ nofun
  intro e he ws hws
  have hs : spDC.store = [(instantAt jobI.commit, .file (.json (.obj chDoc0))),
      (baseAt f1 c!"0-9-9" t1, .file (.parquet 1 ⟨incSchema, [rowA]⟩)),
      (instantAt jobD.commit, .file (.json (.obj jobD.doc)))] := rfl
  rw [hs] at he
  simp only [List.mem_cons, List.not_mem_nil, or_false] at he
  rcases he with rfl | rfl | rfl <;> cases hws

theorem dc_mirrors : MirrorsCleaned env arrow spSetting (mergeEnv arrow) incSchema t1 [spDC] [rowA, oldC] spDC t1 :=
  MirrorsCleaned.polls ccm_begins t1 (by decide) spDC dc_cleans (by intro c hc; cases hc; decide) delTable
    dc_opened.toHandleAt (allAt spDC) (allAt_cleaned (.refl _)) t1 rfl [⟨incSchema, []⟩] (by decide +kernel) _
    (latest_self (by decide))

end Demo

open Demo in
/-- The hypotheses of C94 are met by a consumer that reads the table after an insert, and again what has changed when a
write has appended a record, another one has given the file group a new base file with one more record, and the cleaner
has deleted the log file of the version before; it deletes its base file during the visit.  The copy has all rows of the
table. -/
example : MonotoneTz env.ltz ∧ WholeSecondsTz env.ltz ∧
    MirrorsCleaned env arrow spSetting (mergeEnv arrow) incSchema clTs [ccL] [rowA, oldC, rowB, rowE] ccL clTs ∧
    AllDocumented ccL.done ∧ MetaFields spSetting.o ∧ (∀ v ∈ [ccL], RollbacksInPlace v) ∧
    AllUpserts arrow incSchema spSetting.pre ccL.done ∧ Untied arrow incSchema spSetting.pre ccL.done ∧
    (∀ k k' r r', r ∈ recordsAfter (rowsOf ccL.done) ccL.history k → r' ∈ recordsAfter (rowsOf ccL.done) ccL.history k' →
      keyOf incSchema r = keyOf incSchema r' → k = k') ∧ KeepsLatest clTs ccL ∧ NamesCurrent ccL ∧
    OpenedAt env arrow spSetting ccL ccTable [] [] false false ∧ SinceCleaned spSetting clTs ccL ccMoments ∧
    spSetting.depth < 1 ∧
    ccTable.readSnapshotR env arrow spSetting.C (mergeEnv arrow) 1 ccMoments.race [] =
      .ok [⟨incSchema, [rowA, oldC, rowB, rowE]⟩] := by
  refine ⟨by intro a b a' b' h1 h2 h; cases h1; cases h2; exact h, by intro n d h; cases h; rfl, ccm_mirrors,
    ccK_documented, by decide, ?_, ccm_upserts, ccm_untied, ?_, by intro c hc; cases hc; decide, ccL_current, cc_opened,
    cc_since, by decide, by decide +kernel⟩
  · intro v hv
    rw [List.mem_singleton.1 hv]
    exact ccL_inPlace
  · have : ∀ k r, r ∈ recordsAfter (rowsOf ccL.done) ccL.history k → k = f1 := by
      intro k r hr
      by_contra e
      have := recordsAfter_unchanged (W := rowsOf ccL.done) (h := []) (more := ccL.history) (k := k)
        (fun c hc ch hch => by
          obtain ⟨j, hj, rfl⟩ := mem_commitsOf.1 hc
          simp only [ccL, ccK, List.mem_cons, List.not_mem_nil, or_false] at hj
          rcases hj with rfl | rfl | rfl <;> simp [jobI, jobY, jobK, spAppend] at hch <;> exact e hch.1)
      rw [List.nil_append] at this
      rw [this] at hr
      cases hr
    intro k k' r r' h1 h2 _
    rw [this k r h1, this k' r' h2]

open Demo in
/-- **C94 as stated is false.**  A write deletes a record, by rewriting its file without it, and the cleaner deletes the
file that had it.  The consumer's next visit tells it nothing about it: the record stays in its copy, and is neither in
the table nor in any file of it any more. -/
theorem C94_false : ∃ (E : Env) (A : Arrow) (S : Setting) (M : MergeEnv A) (schema : Schema) (r : Str)
    (visited : List Work) (copy : List (List Cell)) (s : Work) (pos : Str) (tb : Table) (hive url : Bool) (m : Moments)
    (depth : Nat) (outs : List Batch),
    MonotoneTz E.ltz ∧ WholeSecondsTz E.ltz ∧ MirrorsCleaned E A S M schema r visited copy s pos ∧ AllDocumented s.done ∧
    MetaFields S.o ∧ (∀ v ∈ visited, RollbacksInPlace v) ∧ visited ≠ [] ∧
    (∀ j ∈ s.done, ∀ k, (j.base k).schema = schema) ∧ KeepsLatest r s ∧ NamesCurrent s ∧
    OpenedAt E A S s tb [] [] hive url ∧ SinceCleaned S r s m ∧ S.depth < depth ∧
    tb.readSnapshotR E A S.C M depth m.race [] = .ok outs ∧
    ∃ x ∈ copy, (∀ x' ∈ outs.flatMap Batch.rows, keyOf schema x' ≠ keyOf schema x) ∧
      ∀ p size b, (p, Stored.file (.parquet size b)) ∈ s.store → x ∉ b.rows := by
  refine ⟨env, arrow, spSetting, mergeEnv arrow, incSchema, t1, [spDC], [rowA, oldC], spDC, t1, delTable, false, false,
    allAt spDC, 1, [⟨incSchema, [rowA]⟩], by intro a b a' b' h1 h2 h; cases h1; cases h2; exact h,
    by intro n d h; cases h; rfl, dc_mirrors, spD_documented, by decide, ?_, by simp, ?_, by intro c hc; cases hc; decide,
    dc_current, dc_opened, allAt_cleaned (.refl _), by decide, by decide +kernel, oldC, by simp, by decide, ?_⟩
  · intro v hv
    rw [List.mem_singleton.1 hv]
    exact dc_inPlace
  · intro j hj k
    simp only [spDC, spD, List.mem_cons, List.not_mem_nil, or_false] at hj
    rcases hj with rfl | rfl <;> rfl
  · intro p size b hb
    have hs : spDC.store = [(instantAt jobI.commit, .file (.json (.obj chDoc0))),
        (baseAt f1 c!"0-9-9" t1, .file (.parquet 1 ⟨incSchema, [rowA]⟩)),
        (instantAt jobD.commit, .file (.json (.obj jobD.doc)))] := rfl
    rw [hs] at hb
    simp only [List.mem_cons, List.not_mem_nil, or_false, Prod.mk.injEq, Stored.file.injEq, reduceCtorEq, and_false,
      false_or, Content.parquet.injEq] at hb
    rw [hb.2.2.1]
    decide

end Hudi
