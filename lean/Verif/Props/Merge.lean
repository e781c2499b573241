import Verif.Lemmas.Merge
import Verif.Props.Filters

/-! # C38, C39: merging versions of records -/

namespace Hudi
open Spec

theorem mergeStrategyOf_eq (o : Opts) : mergeStrategyOf o =
    .ok (if OverwritesWithLatest o then .overwriteWithLatest else .appendOnly) := by
  have hmeta : metaFieldsPopulated o = false ↔
      hmGet c!"hoodie.populate.meta.fields" o = some c!"false" := by
    unfold metaFieldsPopulated Cfg.get
    rw [show Cfg.populatesMetaFields.key = c!"hoodie.populate.meta.fields" from rfl]
    cases hmGet c!"hoodie.populate.meta.fields" o with
    | none => simp
    | some v =>
      simp only [Cfg.parseRaw, parseBool, Option.some.injEq]
      by_cases h1 : v = c!"true"
      · subst h1; decide
      · by_cases h2 : v = c!"false"
        · subst h2; decide
        · simp [h1, h2]
  have hpre : hmContains Cfg.precombineField.key o = false ↔
      hmGet c!"hoodie.table.precombine.field" o = none := by
    unfold hmContains
    rw [show Cfg.precombineField.key = c!"hoodie.table.precombine.field" from rfl]
    simp
  have hdef : ∀ r, Cfg.recordMergeStrategy.get o = .error r →
      mergeStrategyOf o = .ok (if hmGet c!"hoodie.populate.meta.fields" o ≠ some c!"false" ∧
        hmGet c!"hoodie.table.precombine.field" o ≠ none then .overwriteWithLatest
        else .appendOnly) := by
    intro r hr
    unfold mergeStrategyOf Cfg.getOrDefault
    rw [hr]
    simp only
    by_cases h1 : metaFieldsPopulated o = false
    · rw [if_pos h1, if_neg (fun h => h.1 (hmeta.1 h1))]; rfl
    · rw [if_neg h1]
      by_cases h2 : hmContains Cfg.precombineField.key o = false
      · rw [if_pos h2, if_neg (fun h => h.2 (hpre.1 h2))]; rfl
      · rw [if_neg h2, if_pos ⟨fun h => h1 (hmeta.2 h), fun h => h2 (hpre.2 h)⟩]; rfl
  cases hg : hmGet c!"hoodie.table.record.merge.strategy" o with
  | none =>
    have : Cfg.recordMergeStrategy.get o = .error .notFound := by
      unfold Cfg.get
      rw [show Cfg.recordMergeStrategy.key = c!"hoodie.table.record.merge.strategy" from rfl, hg]
    rw [hdef _ this]
    congr 2
    unfold OverwritesWithLatest
    rw [hg]
  | some v =>
    by_cases h1 : lower v = c!"append_only"
    · have hget : Cfg.recordMergeStrategy.get o = .ok (.string c!"append_only") := by
        unfold Cfg.get
        rw [show Cfg.recordMergeStrategy.key = c!"hoodie.table.record.merge.strategy" from rfl, hg]
        simp only [Cfg.parseRaw, MergeStrategy.fromStr, h1, if_true]; rfl
      rw [if_neg (by unfold OverwritesWithLatest; rw [hg]; simp only [h1]; rintro (h | h); exacts [absurd h (by decide), h.1 rfl])]
      unfold mergeStrategyOf Cfg.getOrDefault
      rw [hget]; rfl
    · by_cases h2 : lower v = c!"overwrite_with_latest"
      · have hget : Cfg.recordMergeStrategy.get o = .ok (.string c!"overwrite_with_latest") := by
          unfold Cfg.get
          rw [show Cfg.recordMergeStrategy.key = c!"hoodie.table.record.merge.strategy" from rfl, hg]
          simp only [Cfg.parseRaw, MergeStrategy.fromStr, h2]; rfl
        rw [if_pos (by unfold OverwritesWithLatest; rw [hg]; exact .inl h2)]
        unfold mergeStrategyOf Cfg.getOrDefault
        rw [hget]; rfl
      · have hget : Cfg.recordMergeStrategy.get o = .error .invalidValue := by
          unfold Cfg.get
          rw [show Cfg.recordMergeStrategy.key = c!"hoodie.table.record.merge.strategy" from rfl, hg]
          simp only [Cfg.parseRaw, MergeStrategy.fromStr, h1, h2, if_false]; rfl
        rw [hdef _ hget]
        congr 2
        unfold OverwritesWithLatest
        rw [hg]
        simp [h1, h2]

theorem Res.mapL_isOk {α β : Type} {f : α → Res β} {l : List α} :
    (∃ ys, Res.mapL f l = .ok ys) ↔ ∀ x ∈ l, ∃ y, f x = .ok y := by
  induction l with
  | nil => simp
  | cons x xs ih =>
    simp only [Res.mapL_cons_ok, List.forall_mem_cons, ← ih]
    constructor
    · rintro ⟨_, y, ys, h1, h2, rfl⟩; exact ⟨⟨y, h1⟩, ys, h2⟩
    · rintro ⟨⟨y, h1⟩, ys, h2⟩; exact ⟨_, y, ys, h1, h2, rfl⟩

theorem concatColumn_ok {bs : List Batch} {i : Nat} : concatColumn bs i = .ok () ↔
    (∀ b ∈ bs, i < b.schema.length) ∧
      ∀ b ∈ bs, (b.schema[i]?).map (·.dtype) = (bs.head?.bind (·.schema[i]?)).map (·.dtype) := by
  unfold concatColumn
  split
  · rename_i h
    refine ⟨fun h => (nomatch h), fun h' => ?_⟩
    obtain ⟨b, hb, hl⟩ := List.any_eq_true.1 h
    have := h'.1 b hb
    have := of_decide_eq_true hl
    omega
  · rename_i h
    split
    · rename_i h2
      refine ⟨fun _ => ⟨fun b hb => ?_, fun b hb => ?_⟩, fun _ => rfl⟩
      · rw [Bool.not_eq_true, List.any_eq_false] at h
        simpa using h b hb
      · rw [List.all_eq_true] at h2
        exact of_decide_eq_true (h2 b hb)
    · rename_i h2
      refine ⟨fun h => (nomatch h), fun h' => absurd ?_ h2⟩
      rw [List.all_eq_true]
      exact fun b hb => decide_eq_true (h'.2 b hb)

theorem mem_zip_iff {α β : Type} {l : List α} {m : List β} {p : α × β} :
    p ∈ l.zip m ↔ ∃ i : Nat, l[i]? = some p.1 ∧ m[i]? = some p.2 := by
  rw [List.mem_iff_getElem?]
  refine exists_congr (fun i => ?_)
  rw [List.getElem?_zip_eq_some]

/-- Concatenation succeeds exactly when every batch fits by position. -/
theorem concat_exact {schema : Schema} {bs : List Batch} :
    ((∀ b ∈ bs, FitsByPosition schema b) → concatBatches schema bs = .ok ⟨schema, bs.flatMap (placed schema)⟩) ∧
    ((∃ c, concatBatches schema bs = .ok c) → ∀ b ∈ bs, FitsByPosition schema b) := by
  constructor
  · intro h
    unfold concatBatches
    have h1 : ∃ us, Res.mapL (concatColumn bs) (List.range schema.length) = .ok us := by
      rw [Res.mapL_isOk]
      intro i hi
      have hi := List.mem_range.1 hi
      refine ⟨(), concatColumn_ok.2 ⟨fun b hb => ?_, fun b hb => ?_⟩⟩
      · obtain ⟨g, hg, _⟩ := (h b hb).columns i _ (List.getElem?_eq_getElem hi)
        exact (List.getElem?_eq_some_iff.1 hg).1
      · cases bs with
        | nil => cases hb
        | cons b0 bs =>
          obtain ⟨g, hg, hd⟩ := (h b hb).columns i _ (List.getElem?_eq_getElem hi)
          obtain ⟨g0, hg0, hd0⟩ := (h b0 (by simp)).columns i _ (List.getElem?_eq_getElem hi)
          simp [hg, hg0, hd, hd0]
    obtain ⟨us, h1⟩ := h1
    rw [h1, Res.ok_bind]
    rw [if_neg]
    · show (if _ then _ else _) = _
      rw [if_neg]
      · rfl
      · rw [Bool.not_eq_false, List.all_eq_true]
        intro r hr
        rw [List.all_eq_true]
        rintro ⟨f, c⟩ hp
        obtain ⟨i, e1, e2⟩ := mem_zip_iff.1 hp
        obtain ⟨b, hb, hr⟩ := List.mem_flatMap.1 hr
        obtain ⟨r0, hr0, rfl⟩ := List.mem_map.1 hr
        have hi : i < schema.length := (List.getElem?_eq_some_iff.1 e1).1
        rw [List.getElem?_take_of_lt hi] at e2
        cases hn : f.nullable with
        | true => simp [hn]
        | false =>
          have := (h b hb).nulls i f e1 hn r0 hr0
          cases c with
          | none => exact absurd e2 this
          | some v => simp
    · rw [Bool.not_eq_false, List.all_eq_true]
      intro b hb
      rw [List.all_eq_true]
      rintro ⟨f, g⟩ hp
      obtain ⟨i, e1, e2⟩ := mem_zip_iff.1 hp
      obtain ⟨g', e3, e4⟩ := (h b hb).columns i f e1
      rw [e2] at e3
      cases e3
      exact decide_eq_true e4.symm
  · rintro ⟨c, h⟩ b hb
    unfold concatBatches at h
    obtain ⟨us, h1, h⟩ := Res.bind_eq_ok.1 h
    split at h
    · cases h
    · rename_i h2
      rw [Bool.not_eq_false, List.all_eq_true] at h2
      simp only at h
      split at h
      · cases h
      · rename_i h3
        rw [Bool.not_eq_false, List.all_eq_true] at h3
        have hcol := Res.mapL_isOk.1 ⟨us, h1⟩
        constructor
        · intro i f hf
          have hi : i < schema.length := (List.getElem?_eq_some_iff.1 hf).1
          obtain ⟨_, hc⟩ := hcol i (List.mem_range.2 hi)
          have hl := (concatColumn_ok.1 hc).1 b hb
          refine ⟨_, List.getElem?_eq_getElem hl, ?_⟩
          have := List.all_eq_true.1 (h2 b hb) (f, b.schema[i]) (mem_zip_iff.2 ⟨i, hf, List.getElem?_eq_getElem hl⟩)
          exact (of_decide_eq_true this).symm
        · intro i f hf hn r hr hnone
          have hi : i < schema.length := (List.getElem?_eq_some_iff.1 hf).1
          have := h3 (r.take schema.length) (List.mem_flatMap.2 ⟨b, hb, List.mem_map.2 ⟨r, hr, rfl⟩⟩)
          rw [List.all_eq_true] at this
          have := this (f, none) (mem_zip_iff.2 ⟨i, hf, by rw [List.getElem?_take_of_lt hi]; exact hnone⟩)
          simp [hn] at this

theorem fits_same {schema : Schema} {b : Batch} (hw : b.WF) (hs : b.schema = schema) : FitsByPosition schema b := by
  subst hs
  refine ⟨fun i f h => ⟨f, h, rfl⟩, fun i f h hn r hr hnone => ?_⟩
  have := ((hw r hr).2 (f, none) (mem_zip_iff.2 ⟨i, h, hnone⟩)).1 rfl
  simp only at this
  rw [hn] at this
  cases this

theorem placed_same {schema : Schema} {b : Batch} (hw : b.WF) (hs : b.schema = schema) : placed schema b = b.rows := by
  unfold placed
  conv => rhs; rw [← List.map_id b.rows]
  refine List.map_congr_left (fun r hr => ?_)
  rw [← hs, ← (hw r hr).1]; simp

theorem concat_same {schema : Schema} {bs : List Batch}
    (h : ∀ b ∈ bs, b.WF ∧ b.schema = schema) :
    concatBatches schema bs = .ok ⟨schema, bs.flatMap Batch.rows⟩ := by
  rw [concat_exact.1 (fun b hb => fits_same (h b hb).1 (h b hb).2)]
  congr 2
  induction bs with
  | nil => rfl
  | cons b bs ih =>
    rw [List.flatMap_cons, List.flatMap_cons, ih (fun b hb => h b (by simp [hb])),
      placed_same (h b (by simp)).1 (h b (by simp)).2]

/-- Rows that are placed by position have the schema. -/
theorem placed_wf {schema : Schema} {b : Batch} (hw : b.WF) (hf : FitsByPosition schema b) :
    Batch.WF ⟨schema, placed schema b⟩ := by
  intro r hr
  obtain ⟨r0, hr0, rfl⟩ := List.mem_map.1 hr
  have hlen := (hw r0 hr0).1
  refine ⟨?_, ?_⟩
  · rw [List.length_take, hlen]
    refine Nat.min_eq_left ?_
    by_contra hlt
    have hlt : b.schema.length < schema.length := by omega
    obtain ⟨g, hg, _⟩ := hf.columns _ _ (List.getElem?_eq_getElem hlt)
    have := (List.getElem?_eq_some_iff.1 hg).1
    omega
  · rintro ⟨f, c⟩ hp
    obtain ⟨i, e1, e2⟩ := mem_zip_iff.1 hp
    have hi : i < schema.length := (List.getElem?_eq_some_iff.1 e1).1
    rw [List.getElem?_take_of_lt hi] at e2
    simp only at e1 e2 ⊢
    constructor
    · rintro rfl
      by_contra hn
      exact hf.nulls i f e1 (by simpa using hn) r0 hr0 e2
    · rintro v rfl
      obtain ⟨g, hg, hd⟩ := hf.columns i f e1
      have := ((hw r0 hr0).2 (g, some v) (mem_zip_iff.2 ⟨i, hg, e2⟩)).2 v rfl
      simpa [hd] using this

theorem concat_wf {schema : Schema} {bs : List Batch}
    (h : ∀ b ∈ bs, b.WF ∧ b.schema = schema) : Batch.WF ⟨schema, bs.flatMap Batch.rows⟩ := by
  intro r hr
  obtain ⟨b, hb, hr⟩ := List.mem_flatMap.1 hr
  obtain ⟨hw, hs⟩ := h b hb
  have := hw r hr
  rw [hs] at this
  exact this

theorem cellOf_type {b : Batch} (h : b.WF) {name : Str} {i : Nat} (hi : b.schema.indexOf name = some i) :
    ∃ d, ∀ r ∈ b.rows, ∀ v, cellOf b.schema name r = some v → v.hasType d = true := by
  obtain ⟨f, hf⟩ : ∃ f, b.schema[i]? = some f := by
    rw [indexOf_find hi]
    obtain ⟨f, hf, he⟩ := indexOf_isSome.1 ⟨i, hi⟩
    cases hx : b.schema.find? (fun f => decide (f.name = name)) with
    | some g => exact ⟨g, rfl⟩
    | none =>
      rw [List.find?_eq_none] at hx
      exact absurd he (by simpa using hx f hf)
  refine ⟨f.dtype, fun r hr v hv => ?_⟩
  obtain ⟨hl, ht⟩ := h r hr
  rw [indexOf_zip hi hl] at hv
  cases hc : r[i]? with
  | none => rw [hc] at hv; cases hv
  | some c =>
    rw [hc] at hv
    have hmem : (f, c) ∈ b.schema.zip r := by
      rw [List.mem_iff_getElem?]
      refine ⟨i, ?_⟩
      rw [List.getElem?_zip_eq_some]
      exact ⟨hf, hc⟩
    exact (ht _ hmem).2 v hv

theorem mergeLatest_spec {A : Arrow} (M : MergeEnv A) {o : Opts} {b : Batch} (hwf : b.WF) {pre : Str}
    (hpre : hmGet c!"hoodie.table.precombine.field" o = some pre) (hcol : MergeColumns b.schema pre) :
    ∃ rows, mergeLatest A M o b = .ok ⟨b.schema, rows⟩ ∧
      LatestVersions A b.schema pre b.rows rows := by
  obtain ⟨hc1, hc2, f, hf, hft⟩ := hcol
  unfold mergeLatest
  by_cases he : b.rows = []
  · rw [if_pos (by rw [he]; rfl)]
    refine ⟨b.rows, rfl, ?_⟩
    rw [he]
    exact ⟨by simp, by simp, by simp, by simp⟩
  rw [if_neg (by simpa using he)]
  obtain ⟨ip, hip⟩ := indexOf_isSome.2 hc1
  obtain ⟨iq, hiq⟩ := indexOf_isSome.2 hc2
  obtain ⟨ik, hik⟩ := indexOf_isSome.2 (⟨f, List.mem_of_find?_eq_some hf, by
    simpa using List.find?_some hf⟩ : ∃ f ∈ b.schema, f.name = c!"_hoodie_record_key")
  have hp : precombineFieldOf o = .ok pre := by
    unfold precombineFieldOf Cfg.get
    rw [show Cfg.precombineField.key = c!"hoodie.table.precombine.field" from rfl, hpre]; rfl
  have hg1 : b.getArray pre = .ok (b.column ip) := by unfold Batch.getArray; rw [hip]; rfl
  have hg2 : b.getArray commitSeqnoField = .ok (b.column iq) := by
    unfold Batch.getArray commitSeqnoField; rw [hiq]; rfl
  have hg3 : b.getStringArray recordKeyField = .ok ((b.column ik).map Cell.strValue) := by
    unfold Batch.getStringArray recordKeyField
    rw [hik]
    simp only [Res.ofOption, Res.ok_bind, indexOf_find hik, hf]
    obtain ⟨n, d, nl⟩ := f
    simp only at hft
    subst hft
    rfl
  simp only [hp, hg1, hg2, hg3, Res.ok_bind, Res.pure_eq]
  refine ⟨_, rfl, ?_⟩
  generalize hidx : lexsortDesc A M (b.column ip) (b.column iq) = idx
  have hlen : ((b.column ip).zip (b.column iq)).length = b.rows.length := by
    simp [Batch.column]
  have hperm : idx.Perm (List.range b.rows.length) := by
    rw [← hidx, ← hlen]; exact lexsortDesc_perm A M _ _
  have hsort := lexsortDesc_sorted A M (b.column ip) (b.column iq)
  rw [hidx] at hsort
  -- rows by index
  have hkey : ∀ (i : Nat) r, b.rows[i]? = some r →
      ((((b.column ik).map Cell.strValue)[i]?).getD []) = keyOf b.schema r := by
    intro i r hr
    have hw := (hwf r (List.mem_of_getElem? hr)).1
    unfold keyOf
    rw [indexOf_zip hik hw]
    simp only [Batch.column, List.map_map, List.getElem?_map, hr, Option.map_some, Option.getD_some,
      Function.comp]
    cases r[ik]?.getD none with
    | none => rfl
    | some v => cases v <;> rfl
  have hver : ∀ (i : Nat) r, b.rows[i]? = some r → ((b.column ip).zip (b.column iq))[i]? =
      some (cellOf b.schema pre r, cellOf b.schema c!"_hoodie_commit_seqno" r) := by
    intro i r hr
    have hw := (hwf r (List.mem_of_getElem? hr)).1
    rw [List.getElem?_zip_eq_some, indexOf_zip hip hw, indexOf_zip hiq hw]
    simp [Batch.column, hr]
  obtain ⟨d1, hd1⟩ := cellOf_type hwf hip
  obtain ⟨d2, hd2⟩ := cellOf_type hwf hiq
  have hle : ∀ r ∈ b.rows, ∀ r' ∈ b.rows,
      (SortRow.cmp A (cellOf b.schema pre r, cellOf b.schema c!"_hoodie_commit_seqno" r)
        (cellOf b.schema pre r', cellOf b.schema c!"_hoodie_commit_seqno" r')).isLE = true →
      VersionLE A b.schema pre r r' := by
    intro r hr r' hr' h
    rw [sortRow_le] at h
    unfold VersionLE
    rw [cellLE_iff A d1 _ _ (hd1 r hr) (hd1 r' hr'), cellLE_iff A d1 _ _ (hd1 r' hr') (hd1 r hr),
      cellLE_iff A d2 _ _ (hd2 r hr) (hd2 r' hr')]
    exact h
  -- the chosen indices
  generalize hkeys : (b.column ik).map Cell.strValue = keys at hkey
  have hnd := latestIndices_nodup keys idx
  have hentry : ∀ e ∈ M.order (latestIndices keys idx), ∃ r, b.rows[e.2]? = some r ∧
      keyOf b.schema r = e.1 ∧
      ∀ r' ∈ b.rows, keyOf b.schema r' = e.1 → VersionLE A b.schema pre r' r := by
    intro e he
    rw [(M.order_perm _).mem_iff] at he
    obtain ⟨k, i⟩ := e
    have hfind := mem_latestIndices.1 he
    obtain ⟨hki, as, bs', hsplit, has⟩ := List.find?_eq_some_iff_append.1 hfind
    have hi : i ∈ idx := by rw [hsplit]; simp
    have hlt : i < b.rows.length := by
      have := hperm.mem_iff.1 hi
      simpa using this
    have hri : b.rows[i]? = some b.rows[i] := List.getElem?_eq_getElem hlt
    refine ⟨b.rows[i], hri, ?_, ?_⟩
    · rw [← hkey i _ hri]; simpa using hki
    · intro r' hr' hk'
      obtain ⟨j, hj, hrj⟩ := List.mem_iff_getElem.1 hr'
      have hrj' : b.rows[j]? = some r' := by rw [List.getElem?_eq_getElem hj, hrj]
      have hji : j ∈ idx := hperm.mem_iff.2 (by simpa using hj)
      have hkj : (keys[j]?).getD [] = k := by rw [hkey j r' hrj', hk']
      refine hle r' hr' _ (List.mem_of_getElem? hri) ?_
      rw [hsplit] at hji
      rcases List.mem_append.1 hji with hja | hjb
      · have := has j hja
        simp [hkj] at this
      · rcases List.mem_cons.1 hjb with rfl | hjb
        · rw [hri] at hrj'; cases hrj'
          exact sortRow_refl A _
        · rw [hsplit, List.pairwise_append] at hsort
          exact (List.pairwise_cons.1 hsort.2.1).1 j hjb _ _ (hver i _ hri) (hver j _ hrj')
  have hrows : ∀ l : List (Str × Nat), (∀ e ∈ l, ∃ r, b.rows[e.2]? = some r ∧ keyOf b.schema r = e.1) →
      ((l.map Prod.snd).filterMap (fun i => b.rows[i]?)).map (keyOf b.schema) = l.map Prod.fst := by
    intro l hl
    induction l with
    | nil => rfl
    | cons e l ih =>
      obtain ⟨r, h1, h2⟩ := hl e (by simp)
      simp only [List.map_cons, List.filterMap_cons, h1, h2]
      rw [ih (fun e he => hl e (by simp [he]))]
  have hmem : ∀ r, r ∈ ((M.order (latestIndices keys idx)).map Prod.snd).filterMap
      (fun i => b.rows[i]?) ↔ ∃ e ∈ M.order (latestIndices keys idx), b.rows[e.2]? = some r := by
    intro r
    simp only [List.mem_filterMap, List.mem_map]
    constructor
    · rintro ⟨i, ⟨e, he, rfl⟩, h⟩; exact ⟨e, he, h⟩
    · rintro ⟨e, he, h⟩; exact ⟨e.2, ⟨e, he, rfl⟩, h⟩
  refine ⟨?_, ?_, ?_, ?_⟩
  · intro r hr
    obtain ⟨e, _, h⟩ := (hmem r).1 hr
    exact List.mem_of_getElem? h
  · show (List.map _ (List.filterMap _ _)).Nodup
    rw [hrows _ (fun e he => by
      obtain ⟨r, h1, h2, _⟩ := hentry e he
      exact ⟨r, h1, h2⟩)]
    exact ((M.order_perm _).map Prod.fst).nodup_iff.2 hnd
  · intro r hr
    obtain ⟨j, hj, hrj⟩ := List.mem_iff_getElem.1 hr
    have hrj' : b.rows[j]? = some r := by rw [List.getElem?_eq_getElem hj, hrj]
    have hji : j ∈ idx := hperm.mem_iff.2 (by simpa using hj)
    cases hfind : idx.find? (fun i => decide ((keys[i]?).getD [] = keyOf b.schema r)) with
    | none =>
      rw [List.find?_eq_none] at hfind
      have := hfind j hji
      rw [hkey j r hrj'] at this
      simp at this
    | some i =>
      have he := (M.order_perm _).mem_iff.2 (mem_latestIndices.2 hfind)
      obtain ⟨r', h1, h2, _⟩ := hentry _ he
      exact ⟨r', (hmem r').2 ⟨_, he, h1⟩, h2⟩
  · intro r hr r' hr' hk
    obtain ⟨e, he, h⟩ := (hmem r).1 hr
    obtain ⟨r0, h1, h2, h3⟩ := hentry e he
    rw [h] at h1; cases h1
    exact h3 r' hr' (by rw [hk, h2])

/-- **C38.**  Under the overwrite-with-latest strategy, merging batches that have the schema asked for
yields, for every choice of the unspecified library orders, exactly one row for each record key of the
inputs: one with the greatest precombine value and, among those, commit sequence number.  Missing: batches whose
columns are in another order (`C38_false`). -/
theorem C38_latest_version_of_every_record_partial (A : Arrow) (M : MergeEnv A) (o : Opts) (schema : Schema)
    (bs : List Batch) (hsame : ∀ b ∈ bs, b.WF ∧ b.schema = schema)
    (hs : OverwritesWithLatest o) (pre : Str)
    (hpre : hmGet c!"hoodie.table.precombine.field" o = some pre) (hcol : MergeColumns schema pre) :
    ∃ rows, mergeRecordBatches A M o schema bs = .ok ⟨schema, rows⟩ ∧
      LatestVersions A schema pre (bs.flatMap Batch.rows) rows := by
  unfold mergeRecordBatches
  by_cases he : bs = []
  · subst he
    refine ⟨[], rfl, ⟨by simp, by simp, by simp, by simp⟩⟩
  rw [if_neg (by simpa using he), mergeStrategyOf_eq, if_pos hs]
  simp only [Res.ok_bind, concat_same hsame]
  exact mergeLatest_spec M (concat_wf hsame) hpre hcol

/-- **C38, append-only.**  Under the append-only strategy the result is the concatenation. -/
theorem C38_append_only (A : Arrow) (M : MergeEnv A) (o : Opts) (schema : Schema)
    (bs : List Batch) (hsame : ∀ b ∈ bs, b.WF ∧ b.schema = schema)
    (hs : ¬ OverwritesWithLatest o) :
    mergeRecordBatches A M o schema bs = .ok ⟨schema, bs.flatMap Batch.rows⟩ := by
  unfold mergeRecordBatches
  by_cases he : bs = []
  · subst he; rfl
  rw [if_neg (by simpa using he), mergeStrategyOf_eq, if_neg hs]
  simp only [Res.ok_bind, concat_same hsame]

/-- **C38, any batches.**  Batches of other columns are merged by position: if each of them has a column of the
right type for every one asked for, the result is that of the rows put into the columns asked for, in order.  Which
is what the property says only if the columns have the same names. -/
theorem C38_by_position (A : Arrow) (M : MergeEnv A) (o : Opts) (schema : Schema) (bs : List Batch)
    (hfit : ∀ b ∈ bs, b.WF ∧ FitsByPosition schema b) :
    (OverwritesWithLatest o → ∀ pre, hmGet c!"hoodie.table.precombine.field" o = some pre → MergeColumns schema pre →
      ∃ rows, mergeRecordBatches A M o schema bs = .ok ⟨schema, rows⟩ ∧
        LatestVersions A schema pre (bs.flatMap (placed schema)) rows) ∧
    (¬ OverwritesWithLatest o → mergeRecordBatches A M o schema bs = .ok ⟨schema, bs.flatMap (placed schema)⟩) := by
  have hwf : Batch.WF ⟨schema, bs.flatMap (placed schema)⟩ := by
    intro r hr
    obtain ⟨b, hb, hr⟩ := List.mem_flatMap.1 hr
    exact placed_wf (hfit b hb).1 (hfit b hb).2 r hr
  have hc := concat_exact.1 (fun b hb => (hfit b hb).2)
  unfold mergeRecordBatches
  refine ⟨fun hs pre hpre hcol => ?_, fun hs => ?_⟩
  · by_cases he : bs = []
    · subst he
      exact ⟨[], rfl, ⟨by simp, by simp, by simp, by simp⟩⟩
    rw [if_neg (by simpa using he), mergeStrategyOf_eq, if_pos hs]
    simp only [Res.ok_bind, hc]
    exact mergeLatest_spec M hwf hpre hcol
  · by_cases he : bs = []
    · subst he; rfl
    rw [if_neg (by simpa using he), mergeStrategyOf_eq, if_neg hs]
    simp only [Res.ok_bind, hc]

/-- **C38, batches that do not fit.**  If some batch lacks a column of the right type, or has a null where there
must be none, nothing is returned. -/
theorem C38_misfits_are_refused (A : Arrow) (M : MergeEnv A) (o : Opts) (schema : Schema) (bs : List Batch)
    (b : Batch) (hb : b ∈ bs) (hfit : ¬ FitsByPosition schema b) (out : Batch) :
    mergeRecordBatches A M o schema bs ≠ .ok out := by
  intro h
  unfold mergeRecordBatches at h
  rw [if_neg (by rw [List.isEmpty_iff]; rintro rfl; cases hb)] at h
  obtain ⟨st, _, h⟩ := Res.bind_eq_ok.1 h
  cases st with
  | appendOnly => exact hfit (concat_exact.2 ⟨_, h⟩ b hb)
  | overwriteWithLatest =>
    obtain ⟨c, h, _⟩ := Res.bind_eq_ok.1 h
    exact hfit (concat_exact.2 ⟨_, h⟩ b hb)

/-- **C39.**  When no two different versions of one key tie on precombine value and commit sequence
number, the merged rows are the same, up to their order, for every order of the batches and every
choice of the unspecified library orders. -/
theorem C39_merge_order_irrelevant (A : Arrow) (M M' : MergeEnv A) (o : Opts) (schema : Schema)
    (bs bs' : List Batch) (hperm : bs.Perm bs') (hsame : ∀ b ∈ bs, b.WF ∧ b.schema = schema)
    (hs : OverwritesWithLatest o) (pre : Str)
    (hpre : hmGet c!"hoodie.table.precombine.field" o = some pre) (hcol : MergeColumns schema pre)
    (hties : ∀ r ∈ bs.flatMap Batch.rows, ∀ r' ∈ bs.flatMap Batch.rows,
      keyOf schema r = keyOf schema r' → VersionLE A schema pre r r' → VersionLE A schema pre r' r →
      r = r') :
    ∃ rows rows', mergeRecordBatches A M o schema bs = .ok ⟨schema, rows⟩ ∧
      mergeRecordBatches A M' o schema bs' = .ok ⟨schema, rows'⟩ ∧ rows.Perm rows' := by
  obtain ⟨rows, h1, h2⟩ := C38_latest_version_of_every_record_partial A M o schema bs hsame hs pre hpre hcol
  obtain ⟨rows', h1', h2'⟩ := C38_latest_version_of_every_record_partial A M' o schema bs'
    (fun b hb => hsame b (hperm.mem_iff.2 hb)) hs pre hpre hcol
  have hp : ∀ r, r ∈ bs.flatMap Batch.rows ↔ r ∈ bs'.flatMap Batch.rows :=
    fun r => (hperm.flatMap_right _).mem_iff
  refine ⟨rows, rows', h1, h1', ?_⟩
  refine (List.perm_ext_iff_of_nodup (List.Nodup.of_map _ h2.one) (List.Nodup.of_map _ h2'.one)).2 ?_
  have key : ∀ {l l' : List (List Cell)} {R R' : List (List Cell)},
      (∀ r, r ∈ l ↔ r ∈ l') → (∀ r ∈ l, ∀ r' ∈ l, keyOf schema r = keyOf schema r' →
        VersionLE A schema pre r r' → VersionLE A schema pre r' r → r = r') →
      LatestVersions A schema pre l R → LatestVersions A schema pre l' R' → ∀ r ∈ R, r ∈ R' := by
    intro l l' R R' hl ht hR hR' r hr
    have hrl := hR.sound r hr
    obtain ⟨r', hr', hk⟩ := hR'.all r ((hl r).1 hrl)
    have hrl' := (hl r').2 (hR'.sound r' hr')
    have e := ht r hrl r' hrl' hk.symm (hR'.latest r' hr' r ((hl r).1 hrl) hk.symm)
      (hR.latest r hr r' hrl' hk)
    rw [e]; exact hr'
  intro r
  constructor
  · exact key hp hties h2 h2' r
  · refine key (fun r => (hp r).symm) ?_ h2' h2 r
    intro r hr r' hr'
    exact hties r ((hp r).2 hr) r' ((hp r').2 hr')

/-! ## Concrete cases -/

namespace Demo

/-- Insertion into a list in descending order of versions. -/
def insertD (A : Arrow) (i : Nat × SortRow) : List (Nat × SortRow) → List (Nat × SortRow)
  | [] => [i]
  | j :: js => if (SortRow.cmp A j.2 i.2).isLE then i :: j :: js else j :: insertD A i js

theorem insertD_perm (A : Arrow) (i : Nat × SortRow) (l : List (Nat × SortRow)) :
    (insertD A i l).Perm (i :: l) := by
  induction l with
  | nil => exact .refl _
  | cons j js ih =>
    unfold insertD
    split
    · exact .refl _
    · exact (ih.cons j).trans (.swap ..)

theorem insertD_sorted (A : Arrow) (i : Nat × SortRow) (l : List (Nat × SortRow))
    (h : l.Pairwise (fun a b => (SortRow.cmp A b.2 a.2).isLE = true)) :
    (insertD A i l).Pairwise (fun a b => (SortRow.cmp A b.2 a.2).isLE = true) := by
  have htr := sortRow_trans A
  induction l with
  | nil => simp [insertD]
  | cons j js ih =>
    rw [List.pairwise_cons] at h
    unfold insertD
    split
    · rename_i hij
      refine List.pairwise_cons.2 ⟨?_, List.pairwise_cons.2 h⟩
      intro k hk
      rcases List.mem_cons.1 hk with rfl | hk
      · exact hij
      · exact Std.TransCmp.isLE_trans (h.1 k hk) hij
    · rename_i hij
      refine List.pairwise_cons.2 ⟨?_, ih h.2⟩
      intro k hk
      rcases List.mem_cons.1 ((insertD_perm A i js).mem_iff.1 hk) with rfl | hk
      · rw [Bool.not_eq_true, Ordering.isLE_eq_false] at hij
        rw [Std.OrientedCmp.gt_iff_lt] at hij
        rw [hij]; rfl
      · exact h.1 k hk

/-- Libraries that sort by insertion and iterate over maps in insertion order. -/
def mergeEnv (A : Arrow) : MergeEnv A where
  sort := List.foldr (insertD A) []
  sort_perm l := by
    induction l with
    | nil => exact .refl _
    | cons i is ih => exact (insertD_perm A i _).trans (ih.cons i)
  sort_sorted l := by
    induction l with
    | nil => exact .nil
    | cons i is ih => exact insertD_sorted A i _ ih
  order l := l
  order_perm _ := .refl _

/-- Libraries that sort by insertion and iterate over maps in reverse. -/
def mergeEnvRev (A : Arrow) : MergeEnv A :=
  { mergeEnv A with order := List.reverse, order_perm := List.reverse_perm }

def mSchema : Schema :=
  [⟨c!"_hoodie_commit_seqno", .utf8, true⟩, ⟨c!"_hoodie_record_key", .utf8, true⟩,
   ⟨c!"name", .utf8, true⟩, ⟨c!"ts", .int true 64, true⟩]

/-- The same columns in another order. -/
def mSchema' : Schema :=
  [⟨c!"_hoodie_commit_seqno", .utf8, true⟩, ⟨c!"name", .utf8, true⟩,
   ⟨c!"_hoodie_record_key", .utf8, true⟩, ⟨c!"ts", .int true 64, true⟩]

def mRow (seq key name : Str) (ts : Int) : List Cell :=
  [some (.str seq), some (.str key), some (.str name), some (.int ts)]

def mBase : Batch := ⟨mSchema, [mRow c!"1_0" c!"k1" c!"ann" 5, mRow c!"1_1" c!"k2" c!"bob" 7]⟩
def mLog : Batch := ⟨mSchema, [mRow c!"2_0" c!"k2" c!"rob" 7, mRow c!"2_1" c!"k1" c!"eve" 4,
  mRow c!"2_2" c!"k3" c!"dan" 1]⟩
def mLog' : Batch := ⟨mSchema', [mRow c!"2_0" c!"rob" c!"k2" 7]⟩

def mOpts : Opts := [(c!"hoodie.table.precombine.field", c!"ts")]

end Demo

open Demo in
/-- A base file and a log with an update, a late update and an insert. -/
example : OverwritesWithLatest mOpts ∧
    (∀ b ∈ [mBase, mLog], b.WF ∧ b.schema = mSchema) ∧ MergeColumns mSchema c!"ts" ∧
    mergeRecordBatches Demo.arrow (mergeEnv Demo.arrow) mOpts mSchema [mBase, mLog] =
      .ok ⟨mSchema, [mRow c!"2_0" c!"k2" c!"rob" 7, mRow c!"1_0" c!"k1" c!"ann" 5,
        mRow c!"2_2" c!"k3" c!"dan" 1]⟩ ∧
    mergeRecordBatches Demo.arrow (mergeEnvRev Demo.arrow) mOpts mSchema [mLog, mBase] =
      .ok ⟨mSchema, [mRow c!"2_2" c!"k3" c!"dan" 1, mRow c!"1_0" c!"k1" c!"ann" 5,
        mRow c!"2_0" c!"k2" c!"rob" 7]⟩ ∧
    ¬ OverwritesWithLatest [] := by
  refine ⟨by decide, ?_, ?_, by decide, by decide, by decide⟩
  · unfold Batch.WF; decide
  · unfold MergeColumns; refine ⟨by decide, by decide, _, rfl, rfl⟩

open Demo in
/-- Batches that fit by position without having the schema, and one that does not fit. -/
example : FitsByPosition mSchema mLog' ∧ mLog'.schema ≠ mSchema ∧
    ¬ FitsByPosition mSchema ⟨mSchema.take 3, []⟩ := by
  refine ⟨⟨fun i f h => ?_, fun i f h hn r hr => ?_⟩, by decide, fun h => ?_⟩
  · match i with
    | 0 => cases h; exact ⟨_, rfl, rfl⟩
    | 1 => cases h; exact ⟨_, rfl, rfl⟩
    | 2 => cases h; exact ⟨_, rfl, rfl⟩
    | 3 => cases h; exact ⟨_, rfl, rfl⟩
    | n + 4 => cases h
  · match i with
    | 0 => cases h; cases hn
    | 1 => cases h; cases hn
    | 2 => cases h; cases hn
    | 3 => cases h; cases hn
    | n + 4 => cases h
  · obtain ⟨g, hg, _⟩ := h.columns 3 _ rfl
    cases hg

open Demo in
/-- The versions of the two batches do not tie. -/
example : ∀ r ∈ [mBase, mLog].flatMap Batch.rows, ∀ r' ∈ [mBase, mLog].flatMap Batch.rows,
    keyOf mSchema r = keyOf mSchema r' → VersionLE Demo.arrow mSchema c!"ts" r r' →
    VersionLE Demo.arrow mSchema c!"ts" r' r → r = r' := by
  intro r hr r' hr' hk h1 h2
  have hw : Batch.WF ⟨mSchema, [mBase, mLog].flatMap Batch.rows⟩ := by unfold Batch.WF; decide
  unfold VersionLE at h1 h2
  obtain ⟨d1, hd1⟩ := cellOf_type hw (name := c!"ts") (i := 3) rfl
  obtain ⟨d2, hd2⟩ := cellOf_type hw (name := c!"_hoodie_commit_seqno") (i := 0) rfl
  simp only at hd1 hd2
  rw [cellLE_iff _ d1 _ _ (hd1 r hr) (hd1 r' hr'), cellLE_iff _ d1 _ _ (hd1 r' hr') (hd1 r hr)] at h1
  rw [cellLE_iff _ d1 _ _ (hd1 r hr) (hd1 r' hr'), cellLE_iff _ d1 _ _ (hd1 r' hr') (hd1 r hr)] at h2
  rw [cellLE_iff _ d2 _ _ (hd2 r hr) (hd2 r' hr')] at h1
  rw [cellLE_iff _ d2 _ _ (hd2 r' hr') (hd2 r hr)] at h2
  revert r r'
  decide

open Demo in
/-- **C38 as stated is false.**  Batches are concatenated by column position, not by name: an update
whose batch has the same columns in another order is filed under another record key. -/
theorem C38_false : ∃ (A : Arrow) (M : MergeEnv A) (o : Opts) (schema : Schema) (bs : List Batch)
    (rows : List (List Cell)),
    (∀ b ∈ bs, b.WF ∧ b.schema.Perm schema) ∧ OverwritesWithLatest o ∧
    mergeRecordBatches A M o schema bs = .ok ⟨schema, rows⟩ ∧
    ∃ b ∈ bs, ∃ r ∈ b.rows, ∃ r' ∈ rows, keyOf b.schema r = c!"k2" ∧
      cellOf b.schema c!"name" r = some (.str c!"rob") ∧
      keyOf schema r' = c!"rob" ∧ cellOf schema c!"name" r' = some (.str c!"k2") := by
  refine ⟨Demo.arrow, mergeEnv Demo.arrow, mOpts, mSchema, [mBase, mLog'],
    [mRow c!"2_0" c!"rob" c!"k2" 7, mRow c!"1_1" c!"k2" c!"bob" 7, mRow c!"1_0" c!"k1" c!"ann" 5],
    ?_, by decide, by decide, mLog', by decide, mRow c!"2_0" c!"rob" c!"k2" 7, by decide,
    mRow c!"2_0" c!"rob" c!"k2" 7, by decide, by decide, by decide, by decide, by decide⟩
  unfold Batch.WF; decide

end Hudi
