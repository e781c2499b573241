import Verif.Props.Mirror
import Verif.Props.TailDemo

/-! # C89: a consumer that meets the hypotheses, and a counterexample -/

namespace Hudi
open Spec
namespace Demo

/-- A record is updated: the third write completes. -/
def spV : Work := ⟨jobX.completion.run spX.store, [jobI, jobY, jobX], [], [t2, t1, t0]⟩

theorem works_V : Works spSetting spX spV :=
  Works.step (.refl _) (alone_complete spX ⟨jobX, [appendX], none, []⟩ rfl rfl (fun q hq => hq))

theorem jobX_documented : Documented [jobI, jobY] jobX where
  document := by
    refine ⟨_, chDocs_record t2 (by simp), by decide, ?_⟩
    intro w
    constructor
    · intro h
      rw [show w = _ from List.mem_singleton.1 h]
      exact ⟨f1, .append [(c!"1", c!"0-0-1")], by simp [jobX, spAppend], rfl⟩
    · rintro ⟨k, ch, h1, h2⟩
      simp only [jobX, spAppend, List.mem_singleton, Prod.mk.injEq] at h1
      rw [h1.1, h1.2] at h2
      rw [← Option.some.inj h2]
      exact List.mem_cons_self
  commitTime := fun _ _ h => by simp [jobX, spAppend] at h
  dated := by
    intro k ls v hk hv r hr
    simp only [jobX, spAppend, List.mem_singleton, Prod.mk.injEq] at hk
    rw [hk.1] at hv ⊢
    have hv' : (versionAfter (commitsOf [jobI, jobY]) f1).map Version.base = some t0 := by decide
    rw [hv] at hv'
    rw [Option.some.inj hv', show r = _ from List.mem_singleton.1 hr]
    decide

theorem spV_documented : AllDocumented [jobI, jobY, jobX] := by
  intro d1 j d2 h
  match d1, h with
  | [], h => cases h; exact jobI_documented
  | [_], h => cases h; exact jobY_documented
  | [_, _], h => cases h; exact jobX_documented
  | _ :: _ :: _ :: _, h => simp at h

theorem spV_inPlace : RollbacksInPlace spV := by
  refine inPlace_of (fun ws => ws = [x1, x2]) ?_ ?_
  · intro e he ws hws
    have hs : spV.store = [(baseAt f1 c!"0-0-0" t0, .file (.parquet 1 base1)),
        (instantAt jobI.commit, .file (.json (.obj chDoc0))), (instantAt jobY.commit, .file (.json (.obj chDoc2))),
        (logAt f1 t0 here, .log [x1, x2]), (instantAt jobX.commit, .file (.json (.obj chDoc2)))] := rfl
    rw [hs] at he
    simp only [List.mem_cons, List.not_mem_nil, or_false] at he
    rcases he with rfl | rfl | rfl | rfl | rfl <;> cases hws
    rfl
  · rintro ws rfl w hw i hr hb
    simp only [List.mem_cons, List.not_mem_nil, or_false] at hw
    rcases hw with rfl | rfl
    · cases (show some t1 = some i from hb)
      exact .inl ⟨jobY, by simp [spV], rfl⟩
    · cases (show some t2 = some i from hb)
      exact .inl ⟨jobX, by simp [spV], rfl⟩

/-- Opened after the first write, and after the third. -/
def mirTable : Table := ⟨morOpts, [], ⟨[], [⟨t0, .commit, .completed, 1703980800000⟩]⟩⟩
def mirTable' : Table := ⟨morOpts, [], ⟨[], [⟨t0, .commit, .completed, 1703980800000⟩,
  ⟨t1, .deltaCommit, .completed, 1704067200000⟩, ⟨t2, .deltaCommit, .completed, 1704153600000⟩]⟩⟩

theorem mir_opened : OpenedAt env arrow spSetting spI mirTable [] [] false false where
  load := ⟨[], rfl⟩
  clock := rfl
  zone := rfl
  options := rfl
  merges := ⟨⟨by simp [HmNodup, mirTable], by simp [mirTable]⟩, ⟨by decide, rfl, by decide⟩, rfl, rfl⟩
  names := ⟨by decide, by decide⟩
  parsed := rfl
  applicable := by simp
  style := ⟨rfl, rfl⟩
  parallelism := by intro v hv; cases hv

theorem mir_opened' : OpenedAt env arrow spSetting spV mirTable' [] [] false false where
  load := ⟨[], rfl⟩
  clock := rfl
  zone := rfl
  options := rfl
  merges := ⟨⟨by simp [HmNodup, mirTable'], by simp [mirTable']⟩, ⟨by decide, rfl, by decide⟩, rfl, rfl⟩
  names := ⟨by decide, by decide⟩
  parsed := rfl
  applicable := by simp
  style := ⟨rfl, rfl⟩
  parallelism := by intro v hv; cases hv

/-- Requests that are all answered at one moment. -/
def allAt (s : Work) : Moments := ⟨fun _ => s, s, s, fun _ => s, fun _ => s, fun _ => s, fun _ => s⟩

theorem allAt_since {S : Setting} (s : Work) : Since S s (allAt s) :=
  ⟨fun _ => .refl _, .refl _, .refl _, fun _ => .refl _, fun _ => .refl _, fun _ => .refl _, fun _ _ => .refl _⟩

theorem latest_self {A : Arrow} {schema : Schema} {pre : Str} {rows : List (List Cell)}
    (h : (rows.map (keyOf schema)).Nodup) : LatestVersions A schema pre rows rows :=
  ⟨fun _ hr => hr, h, fun r hr => ⟨r, hr, rfl⟩, fun r hr r' hr' hk => by
    rw [List.inj_on_of_nodup_map h hr' hr hk]
    exact versionLE_refl A schema pre r⟩

/-- The record before and after the update. -/
def oldC : List Cell := datedRow c!"1" c!"C" c!"bob" 7 t0
def newC : List Cell := datedRow c!"4" c!"C" c!"z" 9 t2
def rowA : List Cell := datedRow c!"1" c!"A" c!"ann" 5 t0
def rowB : List Cell := datedRow c!"3" c!"B" c!"y" 1 t1

theorem c_le : VersionLE arrow incSchema c!"ts" oldC newC :=
  ⟨.inr ⟨.int 7, .int 9, rfl, rfl, .int _ _ (rel_le.2 (by decide))⟩,
    fun _ => .inr ⟨.str c!"1", .str c!"4", rfl, rfl, .str _ _ (rel_le.2 (by decide))⟩⟩

theorem c_not_le : ¬ VersionLE arrow incSchema c!"ts" newC oldC := by
  rintro ⟨h | ⟨v, w, h1, h2, h3⟩, _⟩
  · cases h
  · cases h1
    cases h2
    cases h3 with
    | int _ _ h => exact absurd (rel_le.1 h) (by decide)

theorem mir_copy : LatestVersions arrow incSchema c!"ts" ([rowA, oldC] ++ [newC, rowB]) [rowA, rowB, newC] := by
  refine ⟨by decide, by decide, by decide, ?_⟩
  intro r hr r' hr' hk
  simp only [List.mem_cons, List.not_mem_nil, or_false, List.cons_append, List.nil_append] at hr hr'
  rcases hr with rfl | rfl | rfl <;> rcases hr' with rfl | rfl | rfl | rfl <;> first
    | exact versionLE_refl _ _ _ _
    | exact c_le
    | exact absurd hk (by decide)

theorem mir_mirrors : Mirrors env arrow spSetting (mergeEnv arrow) incSchema [spV] [rowA, rowB, newC] spV t2 := by
  have h0 : Mirrors env arrow spSetting (mergeEnv arrow) incSchema [] [rowA, oldC] spI jobI.commit.ts :=
    .begins spI jobI.commit works_I rfl mirTable false false mir_opened (allAt spI) (allAt_since _) 1 (by decide)
      [⟨incSchema, [rowA, oldC]⟩] (by decide +kernel) _ (latest_self (by decide))
  exact Mirrors.polls h0 spV (works_trans works_IX works_V) mirTable' mir_opened'.toHandleAt (allAt spV) (allAt_since _) t2
    rfl [⟨incSchema, [newC, rowB]⟩] (by decide +kernel) _ mir_copy

theorem inTable_f1 {js : List Job} (h : ∀ j ∈ js, ∀ e ∈ j.commit.changes, e.1 = f1) {r : List Cell} :
    InTable js r ↔ r ∈ recordsAfter (rowsOf js) (commitsOf js) f1 := by
  constructor
  · rintro ⟨k, hk⟩
    by_cases e : k = f1
    · exact e ▸ hk
    · have := recordsAfter_unchanged (W := rowsOf js) (h := []) (more := commitsOf js) (k := k) (fun c hc ch hch => by
        obtain ⟨j, hj, rfl⟩ := mem_commitsOf.1 hc
        exact e (h j hj _ hch))
      rw [List.nil_append] at this
      rw [this] at hk
      cases hk
  · exact fun hk => ⟨f1, hk⟩

theorem table_0 {r : List Cell} : InTable [] r ↔ r ∈ ([] : List (List Cell)) := inTable_f1 (by simp)
theorem table_1 {r : List Cell} : InTable [jobI] r ↔ r ∈ [rowA, oldC] := inTable_f1 (by simp [jobI])
theorem table_2 {r : List Cell} : InTable [jobI, jobY] r ↔ r ∈ [rowA, oldC, rowB] :=
  inTable_f1 (by simp [jobI, jobY, spAppend])
theorem table_3 {r : List Cell} : InTable [jobI, jobY, jobX] r ↔ r ∈ [rowA, oldC, rowB, newC] :=
  inTable_f1 (by simp [jobI, jobY, jobX, spAppend])

theorem mir_upserts : AllUpserts arrow incSchema c!"ts" [jobI, jobY, jobX] := by
  intro d1 j d2 h
  match d1, h with
  | [], h =>
    cases h
    refine ⟨fun _ _ _ => rfl, fun r hr => ?_, fun r hr => .inr ?_⟩
    · cases table_0.1 hr
    · revert r
      simp only [List.nil_append, table_1]
      decide
  | [_], h =>
    cases h
    refine ⟨fun k token hk => by simp [jobY, spAppend] at hk, fun r hr => ⟨r, ?_, rfl, versionLE_refl _ _ _ _⟩, fun r hr => ?_⟩
    · revert r
      simp only [List.cons_append, List.nil_append, table_1, table_2]
      decide
    · revert r
      simp only [List.cons_append, List.nil_append, table_1, table_2]
      decide
  | [_, _], h =>
    cases h
    refine ⟨fun k token hk => by simp [jobX, spAppend] at hk, fun r hr => ⟨r, ?_, rfl, versionLE_refl _ _ _ _⟩, fun r hr => ?_⟩
    · revert r
      simp only [List.cons_append, List.nil_append, table_2, table_3]
      decide
    · revert r
      simp only [List.cons_append, List.nil_append, table_2, table_3]
      decide
  | _ :: _ :: _ :: _, h => simp at h

theorem mir_prefix {d : List Job} (h : d <+: [jobI, jobY, jobX]) {r : List Cell} (hr : InTable d r) :
    r ∈ [rowA, oldC, rowB, newC] := by
  obtain ⟨d', h⟩ := h
  match d, h with
  | [], h => cases table_0.1 hr
  | [_], h =>
    cases h
    exact (show ∀ r ∈ [rowA, oldC], r ∈ [rowA, oldC, rowB, newC] by decide) r (table_1.1 hr)
  | [_, _], h =>
    cases h
    exact (show ∀ r ∈ [rowA, oldC, rowB], r ∈ [rowA, oldC, rowB, newC] by decide) r (table_2.1 hr)
  | [_, _, _], h =>
    cases h
    exact table_3.1 hr
  | _ :: _ :: _ :: _ :: _, h => simp at h

theorem mir_untied : Untied arrow incSchema c!"ts" [jobI, jobY, jobX] := by
  intro d1 d2 r r' h1 h2 hr hr' hk hle hge
  have h3 := mir_prefix h1 hr
  have h4 := mir_prefix h2 hr'
  simp only [List.mem_cons, List.not_mem_nil, or_false] at h3 h4
  rcases h3 with rfl | rfl | rfl | rfl <;> rcases h4 with rfl | rfl | rfl | rfl <;> first
    | rfl
    | exact absurd hk (by decide)
    | exact absurd hle c_not_le
    | exact absurd hge c_not_le

/-- A write that deletes a record: it rewrites the file without it. -/
def jobD : Job where
  commit := ⟨t1, .commit, [(f1, .write c!"0-9-9")]⟩
  doc := [(c!"partitionToWriteStats", .obj [([], .arr [.obj [(c!"fileId", .str c!"f1"),
    (c!"path", .str c!"f1_0-9-9_20240101000000000.parquet")]])])]
  base := fun _ => ⟨incSchema, [rowA]⟩
  blocks := fun _ _ => []
  appended := fun _ => []

theorem dropped_batch : (⟨incSchema, [rowA]⟩ : Batch).WF ∧ ([rowA].map (keyOf incSchema)).Nodup ∧
    MergeColumns incSchema c!"ts" := ⟨by unfold Batch.WF; decide, by decide, by decide, by decide, _, rfl, rfl⟩

theorem jobD_ok : JobOk spSetting [jobI] jobD where
  later := by decide
  time := by decide
  parses := ⟨_, rfl⟩
  once := by decide
  sites := by intro e he; rw [List.mem_singleton.1 he]; exact root_site
  replaces := by intro k hk; simp [jobD] at hk
  gone := by intro j h k hk; rw [List.mem_singleton.1 h] at hk; simp [jobI] at hk
  live := by intro k ls hk; simp [jobD] at hk
  ids := by decide
  tokens := by intro k tk hk; simp only [jobD, List.mem_singleton, Prod.mk.injEq, Change.write.injEq] at hk
               rw [hk.2]; decide
  logs := by intro k ls hk; simp [jobD] at hk
  batches := fun _ _ _ => and_when dropped_batch
  blocks := by intro k ls v hk; simp [jobD] at hk
  rows := by intro k ls hk; simp [jobD] at hk
  document := by intro h; cases h
  firstFile := ⟨jobD, by simp, f1, c!"0-9-9", c!"f1_0-9-9_20240101000000000.parquet", by simp [jobD],
    ⟨_, _, _, _, _, rfl, rfl, .inl ⟨⟨c!"f1_0-9-9_20240101000000000", rfl⟩, rfl⟩⟩, by decide, by decide⟩

def putD : Request := .put (baseAt f1 c!"0-9-9" t1) (.parquet 1 ⟨incSchema, [rowA]⟩)

/-- The record has been deleted. -/
def spD : Work := ⟨jobD.completion.run (putD.run spI.store), [jobI, jobD], [], [t1, t0]⟩

theorem works_D : Works spSetting spI spD := by
  have h1 := Works.step (.refl _) (alone_begin spI jobD rfl (by intro u hu; rw [List.mem_singleton.1 hu]; decide) jobD_ok)
  have h2 := Works.step h1 (alone_request _ ⟨jobD, [], none, []⟩ putD rfl rfl List.mem_cons_self)
  have h3 := Works.step h2 (alone_complete _ ⟨jobD, [putD], none, []⟩ rfl rfl (fun q hq => hq))
  exact h3

theorem jobD_documented : Documented [jobI] jobD where
  document := by
    refine ⟨[⟨[], c!"f1", ⟨c!"f1", c!"0-9-9", t1, c!"parquet", none⟩, []⟩], ?_, by decide, ?_⟩
    · refine ⟨[([], [(⟨[], c!"f1", ⟨c!"f1", c!"0-9-9", t1, c!"parquet", none⟩, []⟩, _)])], rfl, rfl, ?_⟩
      simp only [List.mem_singleton, forall_eq]
      exact ⟨trivial, _, rfl, rfl, .inr ⟨rfl, rfl, .inl rfl⟩⟩
    · intro w
      constructor
      · intro h
        rw [List.mem_singleton.1 h]
        exact ⟨f1, .write c!"0-9-9", by simp [jobD], rfl⟩
      · rintro ⟨k, ch, h1, h2⟩
        simp only [jobD, List.mem_singleton, Prod.mk.injEq] at h1
        rw [h1.1, h1.2] at h2
        rw [← Option.some.inj h2]
        exact List.mem_cons_self
  commitTime := fun _ _ _ => ⟨_, rfl, rfl⟩
  dated := by intro k ls v hk; simp [jobD] at hk

theorem spD_documented : AllDocumented [jobI, jobD] := by
  intro d1 j d2 h
  match d1, h with
  | [], h => cases h; exact jobI_documented
  | [_], h => cases h; exact jobD_documented
  | _ :: _ :: _, h => simp at h

theorem spD_inPlace : RollbacksInPlace spD := by
  refine inPlace_of (fun _ => False) ?_ nofun
  intro e he ws hws
  have hs : spD.store = [(baseAt f1 c!"0-0-0" t0, .file (.parquet 1 base1)),
      (instantAt jobI.commit, .file (.json (.obj chDoc0))), (baseAt f1 c!"0-9-9" t1, .file (.parquet 1 ⟨incSchema, [rowA]⟩)),
      (instantAt jobD.commit, .file (.json (.obj jobD.doc)))] := rfl
  rw [hs] at he
  simp only [List.mem_cons, List.not_mem_nil, or_false] at he
  rcases he with rfl | rfl | rfl | rfl <;> cases hws

/-- Opened then. -/
def delTable : Table := ⟨morOpts, [], ⟨[], [⟨t0, .commit, .completed, 1703980800000⟩,
  ⟨t1, .commit, .completed, 1704067200000⟩]⟩⟩

theorem del_opened : OpenedAt env arrow spSetting spD delTable [] [] false false where
  load := ⟨[], rfl⟩
  clock := rfl
  zone := rfl
  options := rfl
  merges := ⟨⟨by simp [HmNodup, delTable], by simp [delTable]⟩, ⟨by decide, rfl, by decide⟩, rfl, rfl⟩
  names := ⟨by decide, by decide⟩
  parsed := rfl
  applicable := by simp
  style := ⟨rfl, rfl⟩
  parallelism := by intro v hv; cases hv

theorem mir_begins : Mirrors env arrow spSetting (mergeEnv arrow) incSchema [] [rowA, oldC] spI jobI.commit.ts :=
  .begins spI jobI.commit works_I rfl mirTable false false mir_opened (allAt spI) (allAt_since _) 1 (by decide)
    [⟨incSchema, [rowA, oldC]⟩] (by decide +kernel) _ (latest_self (by decide))

theorem del_mirrors : Mirrors env arrow spSetting (mergeEnv arrow) incSchema [spD] [rowA, oldC] spD t1 :=
  Mirrors.polls mir_begins spD works_D delTable del_opened.toHandleAt (allAt spD) (allAt_since _) t1
    rfl [⟨incSchema, []⟩] (by decide +kernel) _ (latest_self (by decide))

end Demo

open Demo in
/-- The hypotheses of C89 are met by a consumer that reads the table after an insert, and again what has changed when a
write has inserted a record and another one has updated one: its copy has the inserted record and the updated one, as a
read of the whole table has. -/
example : MonotoneTz env.ltz ∧ WholeSecondsTz env.ltz ∧
    Mirrors env arrow spSetting (mergeEnv arrow) incSchema [spV] [rowA, rowB, newC] spV t2 ∧ AllDocumented spV.done ∧
    MetaFields spSetting.o ∧ (∀ v ∈ [spV], RollbacksInPlace v) ∧ AllUpserts arrow incSchema spSetting.pre spV.done ∧
    Untied arrow incSchema spSetting.pre spV.done ∧
    (∀ k k' r r', r ∈ recordsAfter (rowsOf spV.done) spV.history k → r' ∈ recordsAfter (rowsOf spV.done) spV.history k' →
      keyOf incSchema r = keyOf incSchema r' → k = k') ∧
    OpenedAt env arrow spSetting spV mirTable' [] [] false false ∧ Since spSetting spV (allAt spV) ∧ spSetting.depth < 1 ∧
    mirTable'.readSnapshotR env arrow spSetting.C (mergeEnv arrow) 1 (allAt spV).race [] =
      .ok [⟨incSchema, [newC, rowA, rowB]⟩] := by
  refine ⟨by intro a b a' b' h1 h2 h; cases h1; cases h2; exact h, by intro n d h; cases h; rfl, mir_mirrors,
    spV_documented, by decide, ?_, mir_upserts, mir_untied, ?_, mir_opened', allAt_since _, by decide, by decide +kernel⟩
  · intro v hv
    rw [List.mem_singleton.1 hv]
    exact spV_inPlace
  · have : ∀ k r, r ∈ recordsAfter (rowsOf spV.done) spV.history k → k = f1 := by
      intro k r hr
      by_contra e
      have := recordsAfter_unchanged (W := rowsOf spV.done) (h := []) (more := spV.history) (k := k)
        (fun c hc ch hch => by
          obtain ⟨j, hj, rfl⟩ := mem_commitsOf.1 hc
          simp only [spV, List.mem_cons, List.not_mem_nil, or_false] at hj
          rcases hj with rfl | rfl | rfl <;> simp [jobI, jobY, jobX, spAppend] at hch <;> exact e hch.1)
      rw [List.nil_append] at this
      rw [this] at hr
      cases hr
    intro k k' r r' h1 h2 _
    rw [this k r h1, this k' r' h2]

open Demo in
/-- **C89 as stated is false.**  A write deletes a record, by rewriting its file without it.  The consumer's next visit
tells it nothing about it: the record stays in its copy, and is not in the table. -/
theorem C89_false : ∃ (E : Env) (A : Arrow) (S : Setting) (M : MergeEnv A) (schema : Schema) (visited : List Work)
    (copy : List (List Cell)) (s : Work) (pos : Str) (tb : Table) (hive url : Bool) (m : Moments) (depth : Nat)
    (outs : List Batch),
    MonotoneTz E.ltz ∧ WholeSecondsTz E.ltz ∧ Mirrors E A S M schema visited copy s pos ∧ AllDocumented s.done ∧
    MetaFields S.o ∧ (∀ v ∈ visited, RollbacksInPlace v) ∧ visited ≠ [] ∧
    (∀ j ∈ s.done, ∀ k, (j.base k).schema = schema) ∧ OpenedAt E A S s tb [] [] hive url ∧ Since S s m ∧ S.depth < depth ∧
    tb.readSnapshotR E A S.C M depth m.race [] = .ok outs ∧
    ∃ r ∈ copy, ∀ r' ∈ outs.flatMap Batch.rows, keyOf schema r' ≠ keyOf schema r := by
  refine ⟨env, arrow, spSetting, mergeEnv arrow, incSchema, [spD], [rowA, oldC], spD, t1, delTable, false, false, allAt spD,
    1, [⟨incSchema, [rowA]⟩], by intro a b a' b' h1 h2 h; cases h1; cases h2; exact h, by intro n d h; cases h; rfl,
    del_mirrors, spD_documented, by decide, ?_, by simp, ?_, del_opened, allAt_since _, by decide, by decide +kernel, oldC,
    by simp, by decide⟩
  · intro v hv
    rw [List.mem_singleton.1 hv]
    exact spD_inPlace
  · intro j hj k
    simp only [spD, List.mem_cons, List.not_mem_nil, or_false] at hj
    rcases hj with rfl | rfl <;> rfl

end Hudi
