import Verif.Props.Answers

/-! # C69: the filters of a read select partitions -/

namespace Hudi
open Spec

theorem include_all {A : Arrow} {p : Pruner} (h : p.filters = []) (x : Str) :
    p.shouldInclude A x = true := by
  unfold Pruner.shouldInclude
  rw [h]
  cases p.parseSegments A x <;> rfl

theorem relevantPartitions_filter {A : Arrow} {o : Opts} {t : Tree} {p p0 : Pruner}
    (h0 : p0.filters = []) (hp : Partitioned o) {paths : List Str}
    (h : relevantPartitions A o t p0 = .ok paths) :
    relevantPartitions A o t p = .ok (paths.filter (p.shouldInclude A)) := by
  unfold relevantPartitions at h ⊢
  rw [isTablePartitioned_eq] at h ⊢
  simp only [Res.ok_bind, hp, decide_true, Bool.true_eq_false, if_false] at h ⊢
  obtain ⟨ls, h1, h⟩ := Res.bind_eq_ok.1 h
  rw [h1]
  simp only [Res.ok_bind]
  have hpaths : ls.flatten = paths := by
    rw [show p0.isEmpty = true by unfold Pruner.isEmpty; rw [h0]; rfl] at h
    simp only [Bool.or_true, if_true] at h
    exact Res.ok.inj h
  rw [hpaths]
  split
  · rename_i hc
    rw [Bool.or_eq_true] at hc
    rcases hc with hc | hc
    · rw [List.isEmpty_iff.1 hc]; rfl
    · rw [List.filter_eq_self.2 (fun x _ => include_all (List.isEmpty_iff.1 hc) x)]
  · rfl

theorem listWithPath_filter {o : Opts} {t : Tree} (q : Str → Bool) {paths : List Str}
    {es : List (Str × List FileGroup)} (h : Res.mapL (listWithPath o t) paths = .ok es) :
    Res.mapL (listWithPath o t) (paths.filter q) = .ok (es.filter (fun e => q e.1)) := by
  induction paths generalizing es with
  | nil => cases h; rfl
  | cons x l ih =>
    obtain ⟨e, es', h1, h2, rfl⟩ := Res.mapL_cons_ok.1 h
    obtain ⟨gs, _, rfl⟩ := listWithPath_ok.1 h1
    by_cases hq : q x = true
    · rw [List.filter_cons_of_pos (by exact hq), List.filter_cons_of_pos (by exact hq)]
      exact Res.mapL_cons_ok.2 ⟨_, _, h1, ih h2, rfl⟩
    · rw [List.filter_cons_of_neg (by exact hq), List.filter_cons_of_neg (by exact hq)]
      exact ih h2

/-- What is listed with filters is what is listed without them in the partitions kept. -/
theorem listRelevant_filter {A : Arrow} {o : Opts} {t : Tree} {p p0 : Pruner} {m : Cache} (hwf : TreeWF t)
    (h0 : p0.filters = []) (h : listRelevant A o t p0 = .ok m) :
    ∃ m', listRelevant A o t p = .ok m' ∧ HmNodup m' ∧
      m'.filter (fun e => p.shouldInclude A e.1) = m.filter (fun e => p.shouldInclude A e.1) := by
  suffices hs : ∃ m', listRelevant A o t p = .ok m' ∧
      m'.filter (fun e => p.shouldInclude A e.1) = m.filter (fun e => p.shouldInclude A e.1) by
    obtain ⟨m', h1, h2⟩ := hs
    exact ⟨m', h1, (listRelevant_ok hwf h1).1, h2⟩
  unfold listRelevant at h ⊢
  rw [isTablePartitioned_eq] at h ⊢
  simp only [Res.ok_bind] at h ⊢
  by_cases hp : Partitioned o
  · simp only [hp, decide_true, Bool.true_eq_false, if_false] at h ⊢
    obtain ⟨paths, h1, h⟩ := Res.bind_eq_ok.1 h
    rw [relevantPartitions_filter h0 hp h1]
    obtain ⟨par, h2, h⟩ := Res.bind_eq_ok.1 h
    simp only [Res.ok_bind, h2]
    split at h
    · cases h
    · rename_i hpar
      rw [if_neg hpar]
      obtain ⟨es, h3, h⟩ := Res.bind_eq_ok.1 h
      rw [listWithPath_filter _ h3]
      cases h
      refine ⟨_, rfl, ?_⟩
      obtain ⟨paths', g1, hnd, _⟩ := relevantPartitions_spec A o t p0 hwf
      rw [h1] at g1; cases g1
      have hn : HmNodup es := by unfold HmNodup; rw [listWithPath_keys h3]; exact hnd
      have hn' : HmNodup (es.filter (fun e => p.shouldInclude A e.1)) :=
        List.Nodup.sublist (List.Sublist.map _ List.filter_sublist) hn
      rw [hmOfList_eq hn, hmOfList_eq hn', List.filter_filter]
      simp
  · simp only [hp, decide_false, if_true] at h ⊢
    exact ⟨m, h, rfl⟩

theorem mapL_flatten_filter {α β κ : Type} {f : α → Res (List β)} {key : α → κ} {key' : β → κ}
    (q : κ → Bool) {l : List α} {r : List (List β)} (h : Res.mapL f l = .ok r)
    (hk : ∀ a ∈ l, ∀ bs, f a = .ok bs → ∀ b ∈ bs, key' b = key a) :
    ∃ r', Res.mapL f (l.filter (fun a => q (key a))) = .ok r' ∧
      r'.flatten = r.flatten.filter (fun b => q (key' b)) := by
  induction l generalizing r with
  | nil => cases h; exact ⟨[], rfl, rfl⟩
  | cons a l ih =>
    obtain ⟨bs, r', h1, h2, rfl⟩ := Res.mapL_cons_ok.1 h
    obtain ⟨r'', h3, h4⟩ := ih h2 (fun a ha => hk a (by simp [ha]))
    have hb := hk a (by simp) bs h1
    by_cases hq : q (key a) = true
    · rw [List.filter_cons_of_pos (by exact hq)]
      refine ⟨bs :: r'', Res.mapL_cons_ok.2 ⟨_, _, h1, h3, rfl⟩, ?_⟩
      rw [List.flatten_cons, List.flatten_cons, List.filter_append, h4,
        (List.filter_eq_self (l := bs)).2 (fun b hbm => by rw [hb b hbm]; exact hq)]
    · rw [List.filter_cons_of_neg (by exact hq)]
      refine ⟨r'', h3, ?_⟩
      rw [List.flatten_cons, List.filter_append, h4,
        (List.filter_eq_nil_iff (l := bs)).2 (fun b hbm => by rw [hb b hbm]; exact hq)]
      rfl

/-- The slices found with filters are those found without them, in the partitions kept. -/
theorem view_filter {A : Arrow} {o : Opts} {t : Tree} {ts : Str} {p p0 : Pruner}
    {excl : List FileGroup} {ss : List FileSlice} (hwf : TreeWF t) (h0 : p0.filters = [])
    (h : (viewSlicesAsOf A o t ts p0 excl []).2 = .ok ss) :
    (viewSlicesAsOf A o t ts p excl []).2 =
      .ok (ss.filter (fun s => p.shouldInclude A s.partitionPath)) := by
  obtain ⟨m, r, hm, hr, rfl⟩ := viewSlicesAsOf_ok.1 h
  obtain ⟨m', hm', hn', he⟩ := listRelevant_filter (p := p) hwf h0 hm
  have hn := (listRelevant_ok hwf hm).1
  have hext : ∀ {c : Cache}, HmNodup c → hmExtend [] c = c := fun hc => hmOfList_eq hc
  rw [hext hn] at hr
  have hall : included A p0 m = m.flatMap Prod.snd := by
    unfold included
    rw [List.filter_eq_self.2 (fun e _ => include_all h0 e.1)]
  have hpart : ∀ e ∈ m, ∀ g ∈ e.2, g.partitionPath = e.1 := by
    rintro ⟨x, gs⟩ hx g hg
    obtain ⟨_, _, a3⟩ := ((listRelevant_ok hwf hm).2.1 x gs).1 ((hmGet_eq_some hn).2 hx)
    exact ((listFileGroups_spec (hwf.at (pathSegs x)).files_nodup a3).2.1 g hg).1
  have hincl : included A p m' = (m.flatMap Prod.snd).filter (fun g => p.shouldInclude A g.partitionPath) := by
    unfold included
    rw [he, List.filter_flatMap]
    clear hr hall hm he hn h
    induction m with
    | nil => rfl
    | cons e m ih =>
      have ih := ih (fun e he => hpart e (by simp [he]))
      have hg := hpart e (by simp)
      by_cases hq : p.shouldInclude A e.1 = true
      · rw [List.filter_cons_of_pos (by exact hq), List.flatMap_cons, List.flatMap_cons, ih,
          List.filter_eq_self.2 (fun g hgm => by rw [hg g hgm]; exact hq)]
      · rw [List.filter_cons_of_neg (by exact hq), List.flatMap_cons, ih,
          List.filter_eq_nil_iff.2 (fun g hgm => by rw [hg g hgm]; exact hq)]
        rfl
  rw [hall] at hr
  obtain ⟨r', h1, h2⟩ := mapL_flatten_filter (key := FileGroup.partitionPath)
    (key' := FileSlice.partitionPath) (p.shouldInclude A) hr (by
      intro g hg l hl s hs
      obtain ⟨_, k, s0, hk, hload⟩ := (mem_pickGroup hl s).1 hs
      obtain ⟨⟨x, gs⟩, hx, hgm⟩ := List.mem_flatMap.1 hg
      obtain ⟨_, _, a3⟩ := ((listRelevant_ok hwf hm).2.1 x gs).1 ((hmGet_eq_some hn).2 hx)
      have hw := listFileGroups_wf (hwf.at (pathSegs x)).files_nodup a3 g hgm
      obtain ⟨e1, _⟩ := (mapLastLe_eq_some hw.sorted).1 hk
      rw [(loadMetadata_ok hload).1]
      exact (hw.slice _ _ ((mapGet_eq_some hw.sorted).2 e1)).1.2)
  refine viewSlicesAsOf_ok.2 ⟨m', r', hm', ?_, h2.symm⟩
  rw [hext hn', hincl]
  exact h1

theorem pruner_applicable {A : Arrow} {fs : List Filter} {schema : Schema} {o : Opts} {p0 : Pruner}
    (h : Pruner.new A [] schema o = .ok p0) :
    (∃ p, Pruner.new A fs schema o = .ok p) ↔ ∀ f ∈ fs, Applicable A schema f := by
  have hone : ∀ f, (∃ sf, SFilter.ofFilter A f schema = .ok sf) ↔ Applicable A schema f := by
    intro f
    unfold SFilter.ofFilter Applicable Schema.fieldWithName castValue
    cases schema.find? (fun g => decide (g.name = f.field)) with
    | none => simp [Res.ofOption]
    | some field =>
      simp only [Res.ofOption, Res.ok_bind, Option.some.injEq]
      simp only [← textReads_iff]
      cases hc : castStr A field.dtype f.value with
      | none => simp [hc]
      | some v => simp [hc]
  constructor
  · rintro ⟨p, hp⟩ f hf
    obtain ⟨_, h1, _⟩ := pruner_new_ok hp
    obtain ⟨sf, hsf, _⟩ := Res.mapL_ok_mem h1 f hf
    exact (hone f).1 ⟨sf, hsf⟩
  · intro happ
    obtain ⟨sfs, h1, _⟩ := mapL_forall₂ (f := fun f => SFilter.ofFilter A f schema) (R := fun _ _ => True)
      (xs := fs) (fun f hf => by
        obtain ⟨sf, hsf⟩ := (hone f).2 (happ f hf)
        exact ⟨sf, hsf, trivial⟩)
    unfold Pruner.new at h ⊢
    rw [h1]
    simp only [Res.mapL, Res.ok_bind] at h ⊢
    obtain ⟨hv, h2, h⟩ := Res.bind_eq_ok.1 h
    obtain ⟨hive, h3, h⟩ := Res.bind_eq_ok.1 h
    obtain ⟨uv, h4, h⟩ := Res.bind_eq_ok.1 h
    obtain ⟨url, h5, h⟩ := Res.bind_eq_ok.1 h
    rw [h2]; simp only [Res.ok_bind]; rw [h3]; simp only [Res.ok_bind]; rw [h4]; simp only [Res.ok_bind]
    rw [h5]
    exact ⟨_, rfl⟩

/-- The slices found with filters. -/
theorem slices_filter {E : Env} {A : Arrow} {tb : Table} {t : Tree} (hwf : TreeWF t) {ts : Str}
    {fs : List Filter} {schema : Schema} (hschema : tb.partitionSchema t = .ok schema)
    (hnames : FieldNames schema) {hive url : Bool} (hstyle : PathStyle tb.opts hive url)
    {ss : List FileSlice} (h : (tb.fileSlicesInternal E A t ts [] []).2 = .ok ss) :
    ((∀ f ∈ fs, Applicable A schema f) → ∃ keep : Str → Bool,
      (∀ x, keep x = true ↔ Kept A schema hive url fs x) ∧
      (tb.fileSlicesInternal E A t ts fs []).2 = .ok (ss.filter (fun s => keep s.partitionPath))) ∧
    ((∃ ss', (tb.fileSlicesInternal E A t ts fs []).2 = .ok ss') → ∀ f ∈ fs, Applicable A schema f) := by
  obtain ⟨excl, schema', p0, h1, h2, h3, h4⟩ := fileSlicesInternal_ok.1 h
  rw [hschema] at h2; cases h2
  constructor
  · intro happ
    obtain ⟨p, hp⟩ := (pruner_applicable h3).2 happ
    refine ⟨p.shouldInclude A, kept_iff hp hstyle hnames, ?_⟩
    refine fileSlicesInternal_ok.2 ⟨excl, schema, p, h1, hschema, hp, ?_⟩
    have h0 : p0.filters = [] := by
      obtain ⟨_, e, _⟩ := pruner_new_ok h3
      exact (Res.ok.inj e).symm
    exact view_filter hwf h0 h4
  · rintro ⟨ss', h'⟩
    obtain ⟨_, schema', p, _, g2, g3, _⟩ := fileSlicesInternal_ok.1 h'
    rw [hschema] at g2; cases g2
    exact (pruner_applicable h3).1 ⟨p, g3⟩

theorem mapL_zip_filter {α β : Type} {f : α → Res β} (q : α → Bool) {l : List α} {r : List β}
    (h : Res.mapL f l = .ok r) : l.length = r.length ∧
    Res.mapL f (l.filter q) = .ok (((l.zip r).filter (fun e => q e.1)).map Prod.snd) := by
  induction l generalizing r with
  | nil => cases h; exact ⟨rfl, rfl⟩
  | cons a l ih =>
    obtain ⟨b, r', h1, h2, rfl⟩ := Res.mapL_cons_ok.1 h
    obtain ⟨i1, i2⟩ := ih h2
    refine ⟨by simp [i1], ?_⟩
    by_cases hq : q a = true
    · rw [List.filter_cons_of_pos hq, List.zip_cons_cons, List.filter_cons_of_pos (by exact hq)]
      exact Res.mapL_cons_ok.2 ⟨_, _, h1, i2, rfl⟩
    · rw [List.filter_cons_of_neg hq, List.zip_cons_cons, List.filter_cons_of_neg (by exact hq)]
      exact i2

theorem read_filter {E : Env} {A : Arrow} {C : Codec} {M : MergeEnv A} {tb : Table} {t : Tree}
    (hwf : TreeWF t) {ts : Str} {fs : List Filter} {schema : Schema}
    (hschema : tb.partitionSchema t = .ok schema) (hnames : FieldNames schema) {hive url : Bool}
    (hstyle : PathStyle tb.opts hive url) {outs : List Batch}
    (h : (tb.readSnapshotInternal E A C M t ts [] []).2 = .ok outs) :
    ((∀ f ∈ fs, Applicable A schema f) → ∃ (keep : Str → Bool) (ss : List FileSlice),
      (∀ x, keep x = true ↔ Kept A schema hive url fs x) ∧
      (tb.fileSlicesInternal E A t ts [] []).2 = .ok ss ∧ ss.length = outs.length ∧
      (tb.readSnapshotInternal E A C M t ts fs []).2 =
        .ok (((ss.zip outs).filter (fun e => keep e.1.partitionPath)).map Prod.snd)) ∧
    ((∃ outs', (tb.readSnapshotInternal E A C M t ts fs []).2 = .ok outs') →
      ∀ f ∈ fs, Applicable A schema f) := by
  unfold Table.readSnapshotInternal at h ⊢
  obtain ⟨ss, h1, h2⟩ := Query.bind_snd.1 h
  have h2 : Res.mapL _ ss = _ := h2
  obtain ⟨f1, f2⟩ := slices_filter (fs := fs) hwf hschema hnames hstyle h1
  constructor
  · intro happ
    obtain ⟨keep, hk, hs⟩ := f1 happ
    obtain ⟨hl, hr⟩ := mapL_zip_filter (fun s : FileSlice => keep s.partitionPath) h2
    exact ⟨keep, ss, hk, h1, hl, Query.bind_snd.2 ⟨_, hs, hr⟩⟩
  · rintro ⟨outs', h'⟩
    obtain ⟨ss', h3, _⟩ := Query.bind_snd.1 h'
    exact f2 ⟨ss', h3⟩

/-- **C69.**  Reading a table as of a time with filters on its partition columns returns exactly the
batches that the read without filters returns for the file slices in partitions whose values do not
fail a filter; each is returned unchanged. -/
theorem C69_filters_select_partitions (E : Env) (A : Arrow) (C : Codec) (M : MergeEnv A) (tb : Table)
    (t : Tree) (hwf : TreeWF t) (ts : Str) (filters : List (Str × Str × Str)) (fs : List Filter)
    (hfs : fromStrTuples filters = .ok fs) (schema : Schema) (hschema : tb.partitionSchema t = .ok schema)
    (hnames : FieldNames schema) (hive url : Bool) (hstyle : PathStyle tb.opts hive url)
    (happ : ∀ f ∈ fs, Applicable A schema f) (outs : List Batch)
    (h : (tb.readSnapshotAsOf E A C M t ts [] []).2 = .ok outs) :
    ∃ (outs' : List Batch) (ss : List FileSlice) (keep : Str → Bool),
      (tb.readSnapshotAsOf E A C M t ts filters []).2 = .ok outs' ∧
      (tb.fileSlicesAsOf E A t ts [] []).2 = .ok ss ∧ ss.length = outs.length ∧
      (∀ x, keep x = true ↔ Kept A schema hive url fs x) ∧
      outs'.Perm (((ss.zip outs).filter (fun e => keep e.1.partitionPath)).map Prod.snd) := by
  unfold Table.readSnapshotAsOf at h ⊢
  obtain ⟨_, e, h⟩ := Query.bind_lift_snd.1 h
  cases e
  obtain ⟨keep, ss, h1, h2, h3, h4⟩ := (read_filter hwf hschema hnames hstyle h).1 happ
  exact ⟨_, ss, keep, Query.bind_lift_snd.2 ⟨fs, hfs, h4⟩,
    Query.bind_lift_snd.2 ⟨[], rfl, h2⟩, h3, h1, .refl _⟩

/-- **C69, the latest snapshot.** -/
theorem C69_latest (E : Env) (A : Arrow) (C : Codec) (M : MergeEnv A) (tb : Table)
    (t : Tree) (hwf : TreeWF t) (filters : List (Str × Str × Str)) (fs : List Filter)
    (hfs : fromStrTuples filters = .ok fs) (schema : Schema) (hschema : tb.partitionSchema t = .ok schema)
    (hnames : FieldNames schema) (hive url : Bool) (hstyle : PathStyle tb.opts hive url)
    (happ : ∀ f ∈ fs, Applicable A schema f) (outs : List Batch)
    (h : (tb.readSnapshot E A C M t [] []).2 = .ok outs) :
    ∃ (outs' : List Batch) (ss : List FileSlice) (keep : Str → Bool),
      (tb.readSnapshot E A C M t filters []).2 = .ok outs' ∧
      (tb.fileSlices E A t [] []).2 = .ok ss ∧ ss.length = outs.length ∧
      (∀ x, keep x = true ↔ Kept A schema hive url fs x) ∧
      outs'.Perm (((ss.zip outs).filter (fun e => keep e.1.partitionPath)).map Prod.snd) := by
  unfold Table.readSnapshot Table.fileSlices at *
  cases hl : tb.timeline.latestTimestamp with
  | none =>
    rw [hl] at h
    cases h
    open Classical in
    exact ⟨[], [], fun x => decide (Kept A schema hive url fs x), rfl, rfl, rfl, by simp, .refl _⟩
  | some ts =>
    rw [hl] at h
    obtain ⟨_, e, h⟩ := Query.bind_lift_snd.1 h
    cases e
    obtain ⟨keep, ss, h1, h2, h3, h4⟩ := (read_filter hwf hschema hnames hstyle h).1 happ
    exact ⟨_, ss, keep, Query.bind_lift_snd.2 ⟨fs, hfs, h4⟩,
      Query.bind_lift_snd.2 ⟨[], rfl, h2⟩, h3, h1, .refl _⟩

/-- **C69, other filters.**  A filter on a column that is no partition column, or with a value that is
not of the column's type, is refused; nothing is returned. -/
theorem C69_other_filters_are_refused (E : Env) (A : Arrow) (C : Codec) (M : MergeEnv A) (tb : Table)
    (t : Tree) (ts : Str) (filters : List (Str × Str × Str)) (fs : List Filter)
    (hfs : fromStrTuples filters = .ok fs) (schema : Schema) (hschema : tb.partitionSchema t = .ok schema)
    (f : Filter) (hf : f ∈ fs) (hno : ¬ Applicable A schema f) (outs : List Batch) :
    (tb.readSnapshotAsOf E A C M t ts filters []).2 ≠ .ok outs ∧
    (tb.timeline.completed ≠ [] → (tb.readSnapshot E A C M t filters []).2 ≠ .ok outs) := by
  have key : ∀ ts, (tb.readSnapshotInternal E A C M t ts fs []).2 ≠ .ok outs := by
    intro ts h
    unfold Table.readSnapshotInternal at h
    obtain ⟨ss, h1, _⟩ := Query.bind_snd.1 h
    obtain ⟨_, schema', p, _, g2, g3, _⟩ := fileSlicesInternal_ok.1 h1
    rw [hschema] at g2; cases g2
    obtain ⟨_, _, e1, e2⟩ := pruner_new_ok g3
    have h0 : ∃ p0, Pruner.new A [] schema tb.opts = .ok p0 := by
      unfold Pruner.new
      rw [e1, e2]
      exact ⟨_, rfl⟩
    obtain ⟨p0, h0⟩ := h0
    exact hno ((pruner_applicable h0).1 ⟨p, g3⟩ f hf)
  constructor
  · intro h
    unfold Table.readSnapshotAsOf at h
    obtain ⟨_, e, h⟩ := Query.bind_lift_snd.1 h
    rw [hfs] at e; cases e
    exact key ts h
  · intro hne h
    unfold Table.readSnapshot at h
    cases hl : tb.timeline.latestTimestamp with
    | none =>
      unfold Timeline.latestTimestamp at hl
      rw [Option.map_eq_none_iff, List.getLast?_eq_none_iff] at hl
      exact hne hl
    | some ts =>
      rw [hl] at h
      obtain ⟨_, e, h⟩ := Query.bind_lift_snd.1 h
      rw [hfs] at e; cases e
      exact key ts h

end Hudi
